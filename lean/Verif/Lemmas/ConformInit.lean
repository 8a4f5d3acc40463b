import Verif.Lemmas.Conform

/-!
# The invariant of parameter-space states: initialization and sampling
-/

namespace BB.Lemmas

open BB BB.Spec

/-- The state offers a tree if it is to. -/
def KdTop (sp : Space) (s : PSState) : Prop :=
  ∀ v, sp.info.kind = .vor2 v → v.kdtree = true → s.kd.isSome

theorem garbage_post (n : ℕ) : Post (garbage n) (fun g => g.length = n) := by
  unfold garbage
  exact (times_post (Post.trivial') n).mono fun g hg => hg.1

theorem forall₂_none {vs : ValSpec} {p : Prior} (h : ValOK vs p) {g : List Pos} {xs : List ℝ}
    (hf : List.Forall₂ (vs.V p) g xs) :
    List.Forall₂ (vs.V p) (List.replicate g.length .none) xs := by
  induction hf with
  | nil => exact .nil
  | cons h1 _ ih => exact .cons (h.none h1) ih

theorem PConf_none {vs : ValSpec} {p : Param} (h : PGood vs p) {g : List Pos} {v : PVal}
    (hv : PConf vs p g v) : PConf vs p (List.replicate g.length .none) v := by
  cases p with
  | space sp => rw [PConf] at *; exact hv
  | prior p =>
    rw [PConf] at *
    rw [PGood] at h
    obtain ⟨a, rfl, h1, h2⟩ := hv
    refine ⟨a, rfl, h1, fun xs hx hl => ?_⟩
    simp only [List.length_replicate] at hl
    exact forall₂_none h (h2 xs hx hl)

theorem names_nodup_tail {name : String} {keys : List String} {p : Param} {rest : ParamList}
    (h : (keys ++ (ParamList.cons name p rest).toList.map (·.1)).Nodup) :
    name ∉ keys ∧ ((keys ++ [name]) ++ rest.toList.map (·.1)).Nodup := by
  rw [ParamList.toList, List.map_cons] at h
  constructor
  · intro hm
    exact (List.nodup_append.1 h).2.2 _ hm _ (List.mem_cons_self ..) rfl
  · rw [List.append_assoc]
    exact h

mutual
theorem init_S {vs : ValSpec} : ∀ (sp : Space), SGood vs sp →
    Post sp.initialize (fun s => SConf vs sp s ∧ KdTop sp s)
  | .mk info ps, h => by
    rw [SGood] at h
    obtain ⟨hok, hl⟩ := h
    rw [Space.initialize]
    refine (initDim_post hok).bind' fun n hn => (sampleSites_post hok n).bind' fun o ho => ?_
    simp only [Space.info] at *
    cases o with
    | none =>
      obtain ⟨hd, ho⟩ := ho
      refine (initPlain_L ps n hl).bind' fun vals hvals => Post.lift' fun s hs => ?_
      obtain ⟨hsh, rfl⟩ := mkPS_shape hs
      refine ⟨?_, ?_⟩
      · rw [SConf]
        exact ⟨hn, hsh, [], vals, _, rfl, ho, hvals⟩
      · intro v hv
        simp only [Space.info] at hv
        rw [hv] at hd; cases hd
    | some sites =>
      obtain ⟨hd, hlen, ho⟩ := ho
      refine (initAt_L ps sites.positions [("discretization", .arr sites)] hl ?_).bind' fun vals hvals => ?_
      · have h1 := hok.nodup
        have h2 := hok.disc
        simp only [dkeys, List.map_cons, List.map_nil, List.singleton_append, List.nodup_cons]
        exact ⟨h2, h1⟩
      · obtain ⟨vs', rfl, hv⟩ := hvals
        refine (Post.lift' (P := fun s => SConf vs (.mk info ps) s) fun s hs => ?_).bind' fun s hs =>
          Post.lift' fun s' hs' => ?_
        · obtain ⟨hsh, rfl⟩ := mkPS_shape hs
          rw [SConf]
          exact ⟨hn, hsh, _, vs', _, rfl, ho, hv⟩
        · exact withKd_conf (sp := .mk info ps) hs hs'
theorem initPlain_L {vs : ValSpec} : ∀ (ps : ParamList) (n : ℕ), LGood vs ps →
    Post (ps.initPlain n) (fun vals => LConf vs ps (List.replicate n .none) vals)
  | .nil, n, _ => by
    rw [ParamList.initPlain]
    exact Post.pure' (by rw [LConf])
  | .cons name p rest, n, h => by
    rw [LGood] at h
    rw [ParamList.initPlain]
    refine (garbage_post n).bind' fun g hg => (init_P p g h.1).bind' fun v hv =>
      (initPlain_L rest n h.2).bind' fun vals hvals => Post.pure' ?_
    rw [LConf]
    refine ⟨v, vals, rfl, ?_, hvals⟩
    rw [← hg]
    exact PConf_none h.1 hv
theorem initAt_L {vs : ValSpec} : ∀ (ps : ParamList) (sites : List Pos) (vals : List (String × PVal)),
    LGood vs ps → (dkeys vals ++ ps.toList.map (·.1)).Nodup →
    Post (ps.initAt sites vals) (fun out => ∃ vs', out = vals ++ vs' ∧ LConf vs ps sites vs')
  | .nil, sites, vals, _, _ => by
    rw [ParamList.initAt]
    exact Post.pure' ⟨[], by simp, by rw [LConf]⟩
  | .cons name p rest, sites, vals, h, hk => by
    rw [LGood] at h
    rw [ParamList.initAt]
    obtain ⟨hk1, hk2⟩ := names_nodup_tail hk
    refine (init_P p sites h.1).bind' fun v hv => ?_
    rw [dset_new hk1]
    refine (initAt_L rest sites _ h.2 (by simpa [dkeys] using hk2)).mono fun out ho => ?_
    obtain ⟨vs', rfl, h2⟩ := ho
    refine ⟨(name, v) :: vs', by simp, ?_⟩
    rw [LConf]
    exact ⟨v, vs', rfl, hv, h2⟩
theorem init_P {vs : ValSpec} : ∀ (p : Param) (sites : List Pos), PGood vs p →
    Post (p.initialize sites) (PConf vs p sites)
  | .prior p, sites, h => by
    rw [PGood] at h
    rw [Param.initialize]
    refine (h.init sites).bind' fun a ha => Post.pure' ?_
    rw [PConf]
    exact ⟨a, rfl, ha⟩
  | .space s, sites, h => by
    rw [PGood] at h
    rw [Param.initialize]
    refine (forEach_mem (fun _ => init_S s h.1) sites).bind' fun l hl => Post.pure' ?_
    rw [PConf]
    exact ⟨l, Or.inl rfl, fun x hx => (hl.2 x hx).1⟩
end

/-- Lengths, in the course of sampling. -/
theorem shape_snoc {n : ℕ} {vals : List (String × PVal)} {kd kd' : Option (List (ℝ × ℝ))} {k : String}
    {v : PVal} (h : Shape (.mk n vals kd)) (h1 : v.len = n) (h2 : v ≠ .states []) :
    Shape (.mk n (vals ++ [(k, v)]) kd') := by
  intro kv hkv
  simp only [PSState.vals, List.mem_append, List.mem_singleton] at hkv
  rcases hkv with hkv | rfl
  · exact h kv hkv
  · exact ⟨h1, h2⟩

mutual
theorem sample_S {vs : ValSpec} : ∀ (sp : Space), SGood vs sp ∧ (vs.O ∨ Listed sp) →
    Post sp.sample (SConf vs sp)
  | .mk info ps, ⟨h, hlist⟩ => by
    rw [SGood] at h
    obtain ⟨hok, hl⟩ := h
    rw [Space.sample]
    refine (sampleDim_post info).bind' fun n hn => (sampleSites_post hok n).bind' fun o ho => ?_
    simp only [Space.info] at *
    cases o with
    | none =>
      have hlist' : vs.O ∨ ∀ k sp1, (k, Param.space sp1) ∈ ps.toList → sp1.info.kind.isDisc = false := by
        rcases hlist with h | h | h
        · exact Or.inl h
        · rw [Space.info, ho.1] at h; cases h
        · exact Or.inr h
      refine (samplePlain_L ps n hl hlist').bind' fun vals hvals => Post.lift' fun s hs => ?_
      obtain ⟨hsh, rfl⟩ := mkPS_shape hs
      rw [SConf]
      exact ⟨hn, hsh, [], vals, _, rfl, ho.2, hvals⟩
    | some sites =>
      obtain ⟨hd, hlen, ho⟩ := ho
      refine (Post.lift' (P := fun s => Shape s ∧ s = .mk n [("discretization", .arr sites)] none)
        fun s hs => mkPS_shape hs).bind' fun s hs => ?_
      obtain ⟨hsh, rfl⟩ := hs
      refine (sampleAt_L ps sites.positions n [("discretization", .arr sites)] hl ?_ hlen hsh).mono
        fun s hs => ?_
      · have h1 := hok.nodup
        have h2 := hok.disc
        simp only [dkeys, List.map_cons, List.map_nil, List.singleton_append, List.nodup_cons]
        exact ⟨h2, h1⟩
      · obtain ⟨vs', rfl, hsh, hv⟩ := hs
        rw [SConf]
        exact ⟨hn, hsh, _, vs', _, rfl, ho, hv⟩
theorem samplePlain_L {vs : ValSpec} : ∀ (ps : ParamList) (n : ℕ), LGood vs ps →
    (vs.O ∨ ∀ k sp1, (k, Param.space sp1) ∈ ps.toList → sp1.info.kind.isDisc = false) →
    Post (ps.samplePlain n) (fun vals => LConf vs ps (List.replicate n .none) vals)
  | .nil, n, _, _ => by
    rw [ParamList.samplePlain]
    exact Post.pure' (by rw [LConf])
  | .cons name p rest, n, h, hlist => by
    rw [LGood] at h
    rw [ParamList.samplePlain]
    refine (sampleMany_P p true (List.replicate n .none) h.1 fun sp1 hp _ =>
        hlist.imp id fun h => h name sp1 (by rw [hp, ParamList.toList]; exact List.mem_cons_self ..)).bind' fun v hv =>
      (samplePlain_L rest n h.2 (hlist.imp id fun h k sp1 hk => h k sp1 (by
        rw [ParamList.toList]; exact List.mem_cons_of_mem _ hk))).bind' fun vals hvals => Post.pure' ?_
    rw [LConf]
    exact ⟨v, vals, rfl, hv.1, hvals⟩
theorem sampleAt_L {vs : ValSpec} : ∀ (ps : ParamList) (sites : List Pos) (n : ℕ)
    (vals : List (String × PVal)), LGood vs ps → (dkeys vals ++ ps.toList.map (·.1)).Nodup →
    sites.length = n → Shape (.mk n vals none) →
    Post (ps.sampleAt sites (.mk n vals none)) (fun s => ∃ vs', s = .mk n (vals ++ vs') none ∧
      Shape s ∧ LConf vs ps sites vs')
  | .nil, sites, n, vals, _, _, _, hsh => by
    rw [ParamList.sampleAt]
    refine Post.pure' ⟨[], by simp, hsh, by rw [LConf]⟩
  | .cons name p rest, sites, n, vals, h, hk, hlen, hsh => by
    rw [LGood] at h
    rw [ParamList.sampleAt]
    obtain ⟨hk1, hk2⟩ := names_nodup_tail hk
    refine (sampleMany_P p false sites h.1 fun _ _ h => by cases h).bind' fun v hv => ?_
    refine (Post.lift' (P := fun s => Shape s ∧ s = .mk n (vals ++ [(name, v)]) none) fun s hs => ?_).bind'
      fun s hs => ?_
    · obtain ⟨hne, rfl⟩ := setVal_ok.1 hs
      simp only [PSState.n, PSState.vals, PSState.kd]
      rw [dset_new hk1]
      exact ⟨shape_snoc hsh (hv.2.trans hlen) hne, rfl⟩
    · obtain ⟨hsh', rfl⟩ := hs
      refine (sampleAt_L rest sites n _ h.2 (by simpa [dkeys] using hk2) hlen hsh').mono fun s ho => ?_
      obtain ⟨vs', rfl, h1, h2⟩ := ho
      refine ⟨(name, v) :: vs', by simp, h1, ?_⟩
      rw [LConf]
      exact ⟨v, vs', rfl, hv.1, h2⟩
theorem sampleMany_P {vs : ValSpec} : ∀ (p : Param) (plain : Bool) (sites : List Pos), PGood vs p →
    (∀ sp1, p = .space sp1 → plain = true → vs.O ∨ sp1.info.kind.isDisc = false) →
    Post (p.sampleMany plain sites) (fun v => PConf vs p sites v ∧ v.len = sites.length)
  | .prior p, plain, sites, h, _ => by
    rw [PGood] at h
    rw [Param.sampleMany]
    refine (forEach_post h.sample sites).bind' fun xs hxs => Post.pure' ?_
    rw [PConf]
    refine ⟨⟨_, rfl, fun _ => ⟨xs, rfl⟩, fun ys hy _ => ?_⟩, ?_⟩
    · injection hy with hy; subst hy; exact hxs
    · simpa [PVal.len, Arr.len] using hxs.length_eq.symm
  | .space s, plain, sites, h, hlist => by
    rw [PGood] at h
    rw [Param.sampleMany]
    refine (forEach_mem (fun _ => sample_S s h) sites).bind' fun l hl => Post.pure' ?_
    rw [PConf]
    unfold nestedVal
    split
    · rename_i hd
      rw [Bool.and_eq_true] at hd
      have hO : vs.O := (hlist s rfl hd.1).resolve_right (by rw [hd.2]; simp)
      exact ⟨⟨l, Or.inr ⟨hO, rfl⟩, hl.2⟩, hl.1⟩
    · exact ⟨⟨l, Or.inl rfl, hl.2⟩, hl.1⟩
end

end BB.Lemmas
