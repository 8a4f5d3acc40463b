import Verif.Lemmas.Progress

/-!
# No exceptions: sampling and initialization of spaces
-/

namespace BB.Lemmas

open BB BB.Spec

/-- The space and those nested in it are as asked. -/
def Safe (sp : Space) : Prop := ∀ sp', SubSpace sp sp' → SpaceOk sp' ∧ SpaceSafe sp'

theorem Safe.sub {sp sp1 : Space} {k : String} (h : Safe sp) (hk : (k, Param.space sp1) ∈ sp.params.toList) : Safe sp1 :=
  fun sp' hs => h sp' (.step hk hs)

theorem Safe.ok {sp : Space} (h : Safe sp) : SpaceOk sp := (h sp .refl).1

theorem Safe.safe {sp : Space} (h : Safe sp) : SpaceSafe sp := (h sp .refl).2

/-- What is asked of the parameters of a space of the given kind. -/
structure SafeL (k : Kind) (ps : ParamList) : Prop where
  priors : ∀ key q, (key, Param.prior q) ∈ ps.toList → PriorSafe k q
  spaces : ∀ key sp1, (key, Param.space sp1) ∈ ps.toList → Safe sp1

theorem Safe.params {sp : Space} (h : Safe sp) : SafeL sp.info.kind sp.params :=
  ⟨h.safe.priors, fun _ _ hk => h.sub hk⟩

theorem SafeL.tail {k : Kind} {name : String} {p : Param} {rest : ParamList} (h : SafeL k (.cons name p rest)) :
    SafeL k rest :=
  ⟨fun key q hk => h.priors key q (List.mem_cons_of_mem _ hk), fun key q hk => h.spaces key q (List.mem_cons_of_mem _ hk)⟩

/-- What is asked of one parameter. -/
def SafeP (k : Kind) : Param → Prop
  | .prior q => PriorSafe k q
  | .space sp => Safe sp

theorem SafeL.head {k : Kind} {name : String} {p : Param} {rest : ParamList} (h : SafeL k (.cons name p rest)) :
    SafeP k p := by
  cases p with
  | prior q => exact h.priors name q (List.mem_cons_self ..)
  | space sp => exact h.spaces name sp (List.mem_cons_self ..)

theorem initDim_runs {sp : Space} (h : Safe sp) : Runs sp.info.initDim (fun n => 1 ≤ n) := by
  have hlo := h.safe.dims
  refine (Runs.of ?_ (initDim_post h.ok)).mono fun n hn => hlo.trans hn.1
  unfold Info.initDim
  cases hd : sp.info.nDim with
  | some n => exact (Runs.pure' trivial).noRaise (P := fun _ => True)
  | none =>
    obtain ⟨h2, h3, h4⟩ := h.ok.dims hd
    have hle : (sp.info.nMin : ℤ) ≤ sp.info.initMax := by
      unfold Info.initMax pyInt
      have h5 : (sp.info.nMin : ℝ) ≤ sp.info.nMax := by exact_mod_cast h2
      have h6 : (0 : ℝ) ≤ sp.info.nMin := by positivity
      rw [if_pos (by nlinarith), Int.le_floor]
      push_cast
      nlinarith
    rw [if_neg (by omega)]
    exact (Runs.randint' (by omega)).noRaise

theorem sampleDim_runs {sp : Space} (h : Safe sp) : Runs sp.info.sampleDim (fun n => 1 ≤ n) := by
  have hlo := h.safe.dims
  refine (Runs.of ?_ (sampleDim_post sp.info)).mono fun n hn => hlo.trans hn.1
  unfold Info.sampleDim
  cases hd : sp.info.nDim with
  | some n => exact (Runs.pure' trivial).noRaise (P := fun _ => True)
  | none => exact (Runs.randint' (h.ok.dims hd).1).noRaise

theorem sampleBox_runs (v : Vor2) : Runs v.sampleBox (fun _ => True) :=
  Runs.uniform'.bind' fun _ _ => Runs.uniform'.bind' fun _ _ => Runs.pure' trivial

theorem sampleSite2_runs (v : Vor2) (h : v.vmin.1 ≤ v.vmax.1 ∧ v.vmin.2 ≤ v.vmax.2) : Runs v.sampleSite (InDomain v) := by
  refine Runs.of ?_ (sampleSite2_post h)
  unfold Vor2.sampleSite
  split
  · exact (sampleBox_runs v).noRaise
  · exact (Runs.until' (P := fun _ => True) ((sampleBox_runs v).bind' fun _ _ => Runs.pure' fun _ _ => trivial)).noRaise

/-- The positions that a header stands for are in the domain. -/
theorem Hdr.posOf {k : Kind} {n : ℕ} {kd : Option (List (ℝ × ℝ))} {hdr : List (String × PVal)}
    {poss : List Pos} (h : Hdr k n kd hdr poss) : ∀ p ∈ poss, PosOf k p := by
  intro p hp
  cases k with
  | plain => trivial
  | vor1 v =>
    obtain ⟨xs, _, _, rfl, _, h1⟩ := h
    obtain ⟨x, hx, rfl⟩ := List.mem_map.1 hp
    exact ⟨x, rfl, h1 x hx⟩
  | vor2 v =>
    obtain ⟨a, _, rfl, _, h1⟩ := h
    rcases h1 with rfl | ⟨ps, rfl, h1⟩
    · simp [Arr.positions] at hp
    · obtain ⟨x, hx, rfl⟩ := List.mem_map.1 hp
      exact ⟨x, rfl, h1 x hx⟩

theorem sampleSites_runs {sp : Space} (h : Safe sp) (n : ℕ) :
    Runs (sp.info.kind.sampleSites n) (fun o => match o with
      | none => sp.info.kind.isDisc = false ∧ Hdr sp.info.kind n none [] (List.replicate n .none)
      | some a => sp.info.kind.isDisc = true ∧ a.positions.length = n ∧
          Hdr sp.info.kind n none [("discretization", .arr a)] a.positions) := by
  refine Runs.of ?_ (sampleSites_post h.ok n)
  have hp := h.ok.plane
  unfold Kind.sampleSites
  generalize sp.info.kind = k at *
  cases k with
  | plain => exact (Runs.pure' (P := fun _ => True) trivial).noRaise
  | vor1 v =>
    exact ((Runs.times' (P := fun _ => True) Runs.uniform' n).bind' fun _ _ => Runs.pure' (P := fun _ => True) trivial).noRaise
  | vor2 v =>
    exact ((Runs.times' (sampleSite2_runs v (hp v rfl)) n).bind' fun _ _ => Runs.pure' (P := fun _ => True) trivial).noRaise

/-- A list or an array with the given number of entries, at least one. -/
def Full (n : ℕ) (v : PVal) : Prop := v.len = n ∧ v ≠ .states []

theorem full_states {n : ℕ} {l : List PSState} (hn : 1 ≤ n) (h : l.length = n) : Full n (.states l) := by
  refine ⟨h, fun e => ?_⟩
  injection e with e
  subst e
  simp at h
  omega

theorem mkPS_runs {n : ℕ} {vals : List (String × PVal)} (h : ∀ kv ∈ vals, Full n kv.2) :
    mkPS n vals = .ok (.mk n vals none) := mkPS_ok.2 ⟨h, rfl⟩

theorem arr_len {a : Arr} {n : ℕ} (h : a.positions.length = n) : Full n (.arr a) := by
  refine ⟨?_, by simp⟩
  cases a <;> simpa [PVal.len, Arr.len, Arr.positions] using h

theorem garbage_runs (n : ℕ) : Runs (garbage n) (fun g => g.length = n) :=
  (Runs.times' (P := fun _ => True) (Runs.draw'.bind' fun _ _ => Runs.pure' trivial) n).mono fun _ h => h.1

theorem nonempty_of_length {α : Type} {l : List α} {n : ℕ} (h : l.length = n) (hn : 1 ≤ n) : l ≠ [] := by
  rintro rfl
  simp at h
  omega

mutual
theorem sample_runs_S : ∀ (sp : Space), Safe sp → Runs sp.sample (fun _ => True)
  | .mk info ps, h => by
    have hl := h.params
    rw [Space.sample]
    refine (sampleDim_runs h).bind' fun n hn => (sampleSites_runs h n).bind' fun o ho => ?_
    simp only [Space.info, Space.params] at *
    cases o with
    | none =>
      refine (samplePlain_runs ps n hn info.kind hl ho.1).bind' fun vals hv => Runs.lift' ⟨_, mkPS_runs hv, trivial⟩
    | some sites =>
      refine (Runs.lift' (P := fun _ => True) ⟨_, mkPS_runs (n := n) ?_, trivial⟩).bind' fun s _ => ?_
      · intro kv hkv
        rw [List.mem_singleton] at hkv
        subst hkv
        exact arr_len ho.2.1
      · exact sampleAt_runs ps sites.positions s (nonempty_of_length ho.2.1 hn) info.kind hl ho.2.2.posOf
theorem samplePlain_runs : ∀ (ps : ParamList) (n : ℕ), 1 ≤ n → ∀ k, SafeL k ps → k.isDisc = false →
    Runs (ps.samplePlain n) (fun vals => ∀ kv ∈ vals, Full n kv.2)
  | .nil, n, _, _, _, _ => by
    rw [ParamList.samplePlain]
    exact Runs.pure' (by simp)
  | .cons name p rest, n, hn, k, h, hk => by
    rw [ParamList.samplePlain]
    refine (sampleMany_runs p true (List.replicate n .none) (nonempty_of_length List.length_replicate hn) k h.head
      ?_).bind' fun v hv => (samplePlain_runs rest n hn k h.tail hk).bind' fun vals hvals => Runs.pure' ?_
    · intro q _
      cases k with
      | plain => trivial
      | vor1 v => cases hk
      | vor2 v => cases hk
    · intro kv hkv
      rw [List.length_replicate] at hv
      rcases List.mem_cons.1 hkv with rfl | hkv
      · exact hv
      · exact hvals kv hkv
theorem sampleAt_runs : ∀ (ps : ParamList) (sites : List Pos) (s : PSState), sites ≠ [] → ∀ k, SafeL k ps →
    (∀ q ∈ sites, PosOf k q) → Runs (ps.sampleAt sites s) (fun _ => True)
  | .nil, _, _, _, _, _, _ => by
    rw [ParamList.sampleAt]
    exact Runs.pure' trivial
  | .cons name p rest, sites, s, hne, k, h, hs => by
    rw [ParamList.sampleAt]
    refine (sampleMany_runs p false sites hne k h.head hs).bind' fun v hv =>
      (Runs.lift' (P := fun _ => True) ⟨_, setVal_ok.2 ⟨hv.2, rfl⟩, trivial⟩).bind' fun s' _ =>
      sampleAt_runs rest sites s' hne k h.tail hs
theorem sampleMany_runs : ∀ (p : Param) (plain : Bool) (sites : List Pos), sites ≠ [] → ∀ k, SafeP k p →
    (∀ q ∈ sites, PosOf k q) → Runs (p.sampleMany plain sites) (Full sites.length)
  | .prior p, plain, sites, _, k, h, hs => by
    rw [Param.sampleMany]
    refine (Runs.forEach' (P := fun _ _ => True) fun q hq => sample_runs h (hs q hq)).bind' fun xs hxs => Runs.pure' ?_
    exact ⟨hxs.length_eq.symm, by simp⟩
  | .space sp, plain, sites, hne, k, h, hs => by
    rw [Param.sampleMany]
    refine (Runs.forEach' (P := fun _ _ => True) fun q _ => sample_runs_S sp h).bind' fun l hl => Runs.pure' ?_
    unfold nestedVal
    split
    · exact ⟨hl.length_eq.symm, by simp⟩
    · exact full_states (List.length_pos_iff.2 hne) hl.length_eq.symm
end

mutual
theorem init_runs_S : ∀ (sp : Space), Safe sp → Runs sp.initialize (fun _ => True)
  | .mk info ps, h => by
    have hl := h.params
    have hok := h.ok
    rw [Space.initialize]
    refine (initDim_runs h).bind' fun n hn => (sampleSites_runs h n).bind' fun o ho => ?_
    have hd := hok.disc
    have hnd := hok.nodup
    simp only [Space.info, Space.params] at *
    cases o with
    | none =>
      exact (initPlain_runs ps n hn info.kind hl ho.1).bind' fun vals hv => Runs.lift' ⟨_, mkPS_runs hv, trivial⟩
    | some sites =>
      have hf : ∀ kv ∈ [("discretization", PVal.arr sites)], Full n kv.2 := by
        intro kv hkv
        rw [List.mem_singleton] at hkv
        subst hkv
        exact arr_len ho.2.1
      refine (initAt_runs ps sites.positions [("discretization", .arr sites)] n (by simp [dkeys]) hf ho.2.1 hn info.kind hl
        ho.2.2.posOf).bind' fun vals hv => ?_
      refine (Runs.lift' (P := fun s => s.get "discretization" = some (.arr sites)) ⟨_, mkPS_runs hv.1, ?_⟩).bind'
        fun s hs => Runs.lift' ?_
      · exact (hv.2 _ hd).trans rfl
      · unfold Kind.withKd
        split
        · rename_i v hk
          have hh := ho.2.2
          rw [hk] at hh
          obtain ⟨a, e1, _, _, e2⟩ := hh
          simp only [List.cons.injEq, Prod.mk.injEq, PVal.arr.injEq, true_and, and_true] at e1
          subst e1
          split
          · unfold addKd
            rcases e2 with rfl | ⟨qs, rfl, _⟩
            · have := ho.2.1
              simp [Arr.positions] at this
              omega
            · rw [hs]
              exact ⟨_, rfl, trivial⟩
          · exact ⟨_, rfl, trivial⟩
        · exact ⟨_, rfl, trivial⟩
theorem initPlain_runs : ∀ (ps : ParamList) (n : ℕ), 1 ≤ n → ∀ k, SafeL k ps → k.isDisc = false →
    Runs (ps.initPlain n) (fun vals => ∀ kv ∈ vals, Full n kv.2)
  | .nil, n, _, _, _, _ => by
    rw [ParamList.initPlain]
    exact Runs.pure' (by simp)
  | .cons name p rest, n, hn, k, h, hk => by
    rw [ParamList.initPlain]
    refine (garbage_runs n).bind' fun g hg => (init_runs_P p g (nonempty_of_length hg hn) k h.head ?_).bind' fun v hv =>
      (initPlain_runs rest n hn k h.tail hk).bind' fun vals hvals => Runs.pure' ?_
    · intro q _
      cases k with
      | plain => trivial
      | vor1 v => cases hk
      | vor2 v => cases hk
    · intro kv hkv
      rw [hg] at hv
      rcases List.mem_cons.1 hkv with rfl | hkv
      · exact hv
      · exact hvals kv hkv
theorem initAt_runs : ∀ (ps : ParamList) (sites : List Pos) (vals : List (String × PVal)) (n : ℕ), (dkeys vals).Nodup →
    (∀ kv ∈ vals, Full n kv.2) → sites.length = n → 1 ≤ n → ∀ k, SafeL k ps → (∀ q ∈ sites, PosOf k q) →
    Runs (ps.initAt sites vals) (fun out => (∀ kv ∈ out, Full n kv.2) ∧
      ∀ key, key ∉ ps.toList.map (·.1) → dget out key = dget vals key)
  | .nil, _, _, _, _, hf, _, _, _, _, _ => by
    rw [ParamList.initAt]
    exact Runs.pure' ⟨hf, fun _ _ => rfl⟩
  | .cons name p rest, sites, vals, n, hnd, hf, hlen, hn, k, h, hs => by
    rw [ParamList.initAt]
    refine (init_runs_P p sites (nonempty_of_length hlen hn) k h.head hs).bind' fun v hv => ?_
    refine (initAt_runs rest sites (dset vals name v) n (nodup_dset _ _ _ hnd) ?_ hlen hn k h.tail hs).mono
      fun out ho => ⟨ho.1, fun key hk => ?_⟩
    · intro kv hkv
      rcases mem_dset hnd hkv with h1 | rfl
      · exact hf kv h1.1
      · rw [← hlen]; exact hv
    · rw [ParamList.toList, List.map_cons, List.mem_cons, not_or] at hk
      rw [ho.2 key hk.2, dget_dset_ne _ _ _ _ hk.1]
theorem init_runs_P : ∀ (p : Param) (sites : List Pos), sites ≠ [] → ∀ k, SafeP k p → (∀ q ∈ sites, PosOf k q) →
    Runs (p.initialize sites) (Full sites.length)
  | .prior p, sites, hne, k, h, hs => by
    rw [Param.initialize]
    refine (initialize_runs h hs hne).bind' fun a ha => Runs.pure' ?_
    obtain ⟨xs, rfl, hl⟩ := ha
    exact ⟨hl, by simp⟩
  | .space sp, sites, hne, k, h, hs => by
    rw [Param.initialize]
    refine (Runs.forEach' (P := fun _ _ => True) fun q _ => init_runs_S sp h).bind' fun l hl => Runs.pure' ?_
    exact full_states (List.length_pos_iff.2 hne) hl.length_eq.symm
end

end BB.Lemmas
