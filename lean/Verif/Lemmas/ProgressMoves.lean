import Verif.Lemmas.ProgressInit

/-!
# No exceptions: births, deaths, moves of sites, perturbations of values
-/

namespace BB.Lemmas

open BB BB.Spec

/-- The values of priors are vectors, and the states of nested spaces are in lists. -/
def vecVal : ValSpec := ⟨fun _ _ _ => True, fun _ => True, False⟩

theorem initialize_vec {k : Kind} {q : Prior} (hq : PriorSafe k q) (ps : List Pos) :
    Post (q.initialize ps) (fun a => ∃ xs, a = .vec xs) := by
  unfold Prior.initialize
  split
  · rename_i f hf
    intro t a t' h
    obtain ⟨xs, h1, _⟩ := (hq.init f hf ps).2 t a t' h
    exact ⟨xs, h1⟩
  split
  · refine Post.bind_any fun b => Post.ite' (fun _ => Post.throw') fun _ => Post.bind_any fun xs => Post.pure' ⟨xs, rfl⟩
  · exact Post.bind_any fun b => Post.bind_any fun b' => Post.bind_any fun xs => Post.pure' ⟨xs, rfl⟩
  · exact Post.bind_any fun b => Post.bind_any fun b' => Post.bind_any fun xs => Post.pure' ⟨xs, rfl⟩
  · rename_i e
    have := hq.dist
    rw [e] at this
    exact absurd this id

theorem vecVal_ok {k : Kind} {q : Prior} (hq : PriorSafe k q) : ValOK vecVal q where
  none := fun _ => trivial
  init := fun ps => (initialize_vec hq ps).mono fun a ha => ⟨fun _ => ha, fun xs _ hl =>
    List.forall₂_iff_get.2 ⟨hl.symm, fun _ _ _ => trivial⟩⟩
  sample := fun _ _ _ _ _ => trivial
  perturb := fun _ _ _ _ _ _ _ => trivial
  fromNb := fun _ _ _ _ _ _ _ => trivial
  move := fun _ _ _ _ _ => trivial
  free := fun _ _ => trivial

theorem SpaceSafe.listed {sp sp1 : Space} {k : String} (h : SpaceSafe sp) (hk : (k, Param.space sp1) ∈ sp.params.toList) :
    Listed sp1 := by
  by_cases hd : sp1.info.kind.isDisc = true
  · exact Or.inl hd
  · exact Or.inr (h.nested k sp1 hk (by simpa using hd))

theorem Safe.good {sp : Space} (h : Safe sp) : SGood vecVal sp :=
  good_S sp (fun sp' hs => (h sp' hs).1) (fun sp' k q hs hk => vecVal_ok ((h sp' hs).2.priors k q hk))
    fun _ _ _ hs hk => Or.inr (SpaceSafe.listed (h _ hs).2 hk)

/-! ### what is found in a state -/

theorem conf_prior {sp : Space} (hsp : Safe sp) {s : PSState} (h : SConf vecVal sp s) {k : String} {q : Prior}
    (hk : (k, Param.prior q) ∈ sp.params.toList) : ∃ xs, s.get k = some (.arr (.vec xs)) ∧ xs.length = s.n := by
  obtain ⟨h1, hsh, hdr, rest, poss, hv, hh, hr⟩ := SConf_iff.1 h
  obtain ⟨v, e1, e2, e3, _⟩ := get_params hsp.ok hv hh hr hsh hk
  rw [PConf] at e2
  obtain ⟨a, rfl, e4, _⟩ := e2
  obtain ⟨xs, rfl⟩ := e4 trivial
  exact ⟨xs, e1, e3⟩

theorem conf_space {sp : Space} (hsp : Safe sp) {s : PSState} (h : SConf vecVal sp s) {k : String} {sp1 : Space}
    (hk : (k, Param.space sp1) ∈ sp.params.toList) :
    ∃ l, s.get k = some (.states l) ∧ l.length = s.n ∧ ∀ x ∈ l, SConf vecVal sp1 x := by
  obtain ⟨h1, hsh, hdr, rest, poss, hv, hh, hr⟩ := SConf_iff.1 h
  obtain ⟨v, e1, e2, e3, _⟩ := get_params hsp.ok hv hh hr hsh hk
  simp only at e2
  rw [PConf] at e2
  obtain ⟨l, e4, e5⟩ := e2
  rcases e4 with rfl | ⟨h0, _⟩
  · exact ⟨l, e1, e3, e5⟩
  · exact absurd h0 id

theorem conf_pos {vs : ValSpec} {sp : Space} (hsp : Safe sp) {s : PSState} (h : SConf vs sp s) : 1 ≤ s.n :=
  hsp.safe.dims.trans (SConf_iff.1 h).1.1

/-- The sites of a discretization: a sorted vector, or points. -/
def SitesOf : Kind → Arr → Prop
  | .plain, _ => False
  | .vor1 v, a => ∃ xs, a = .vec xs ∧ xs.Pairwise (· ≤ ·) ∧ ∀ x ∈ xs, v.vmin ≤ x ∧ x ≤ v.vmax
  | .vor2 v, a => ∃ ps, a = .pts ps ∧ ∀ q ∈ ps, InDomain v q

theorem SitesOf.posOf {k : Kind} {a : Arr} (h : SitesOf k a) : ∀ p ∈ a.positions, PosOf k p := by
  intro p hp
  cases k with
  | plain => trivial
  | vor1 v =>
    obtain ⟨xs, rfl, _, h1⟩ := h
    obtain ⟨x, hx, rfl⟩ := List.mem_map.1 hp
    exact ⟨x, rfl, h1 x hx⟩
  | vor2 v =>
    obtain ⟨ps, rfl, h1⟩ := h
    obtain ⟨x, hx, rfl⟩ := List.mem_map.1 hp
    exact ⟨x, rfl, h1 x hx⟩

theorem hdr_sites {k : Kind} (hk : k.isDisc = true) {n : ℕ} (hn : 1 ≤ n) {kd : Option (List (ℝ × ℝ))}
    {hdr : List (String × PVal)} {poss : List Pos} (h : Hdr k n kd hdr poss) (hlen : poss.length = n) :
    ∃ a, hdr = [("discretization", .arr a)] ∧ a.positions.length = n ∧ SitesOf k a := by
  cases k with
  | plain => cases hk
  | vor1 v =>
    obtain ⟨xs, rfl, _, rfl, h1, h2⟩ := h
    exact ⟨_, rfl, hlen, xs, rfl, h1, h2⟩
  | vor2 v =>
    obtain ⟨a, rfl, rfl, _, h1⟩ := h
    rcases h1 with rfl | ⟨ps, rfl, h1⟩
    · simp [Arr.positions] at hlen
      omega
    · exact ⟨_, rfl, hlen, ps, rfl, h1⟩

theorem conf_sites {vs : ValSpec} {sp : Space} (hsp : Safe sp) (hk : sp.info.kind.isDisc = true) {s : PSState}
    (h : SConf vs sp s) : ∃ a, s.get "discretization" = some (.arr a) ∧ a.positions.length = s.n ∧
      SitesOf sp.info.kind a := by
  obtain ⟨h1, hsh, hdr, rest, poss, hv, hh, hr⟩ := SConf_iff.1 h
  have hlen : poss.length = s.n := hh.length fun kv hkv => hsh kv (by rw [hv]; simp [hkv])
  obtain ⟨a, rfl, h2, h3⟩ := hdr_sites hk (conf_pos hsp h) hh hlen
  refine ⟨a, ?_, h2, h3⟩
  unfold PSState.get
  rw [hv]
  simp [dget]

theorem argmin_some : ∀ {l : List ℝ}, l ≠ [] → ∃ j, argmin l = some j
  | [], h => absurd rfl h
  | x :: xs, _ => by
    rw [argmin]
    split
    · exact ⟨_, rfl⟩
    · split <;> exact ⟨_, rfl⟩

theorem nearest_runs {k : Kind} {a : Arr} (h : SitesOf k a) (hn : 1 ≤ a.positions.length) {pos : Pos} (hp : PosOf k pos) :
    ∃ i, nearest k (some (.arr a)) pos = .ok i ∧ i < a.positions.length := by
  cases k with
  | plain => exact absurd h id
  | vor1 v =>
    obtain ⟨xs, rfl, h1, _⟩ := h
    obtain ⟨x, rfl, _⟩ := hp
    simp only [Arr.positions, List.length_map] at hn ⊢
    obtain ⟨i, h3, h4, _⟩ := Props.C46_nearest xs (by rintro rfl; simp at hn) h1 x
    exact ⟨i, h3, h4⟩
  | vor2 v =>
    obtain ⟨ps, rfl, h1⟩ := h
    obtain ⟨q, rfl, _⟩ := hp
    simp only [Arr.positions, List.length_map] at hn ⊢
    obtain ⟨j, hj⟩ := argmin_some (l := ps.map fun s => dist2 s q) (by
      intro e
      rw [List.map_eq_nil_iff] at e
      subst e
      simp at hn)
    refine ⟨j, ?_, ?_⟩
    · unfold nearest
      simp only [hj]
    · obtain ⟨x, h2, _⟩ := argmin_spec hj
      have := (List.getElem?_eq_some_iff.1 h2).1
      simpa using this

/-- The values of the parameters at an index. -/
structure EntriesAt (ps : ParamList) (old : PSState) (i : ℕ) : Prop where
  nums : ∀ k q, (k, Param.prior q) ∈ ps.toList → ∃ x, numAt (old.get k) i = .ok x
  states : ∀ k sp1, (k, Param.space sp1) ∈ ps.toList → ∃ x, stateAt (old.get k) i = .ok x ∧ SConf vecVal sp1 x

theorem EntriesAt.tail {name : String} {p : Param} {rest : ParamList} {old : PSState} {i : ℕ}
    (h : EntriesAt (.cons name p rest) old i) : EntriesAt rest old i :=
  ⟨fun k q hk => h.nums k q (List.mem_cons_of_mem _ hk), fun k q hk => h.states k q (List.mem_cons_of_mem _ hk)⟩

theorem conf_entries {sp : Space} (hsp : Safe sp) {s : PSState} (h : SConf vecVal sp s) {i : ℕ} (hi : i < s.n) :
    EntriesAt sp.params s i := by
  refine ⟨fun k q hk => ?_, fun k sp1 hk => ?_⟩
  · obtain ⟨xs, e1, e2⟩ := conf_prior hsp h hk
    refine ⟨xs[i]'(by omega), ?_⟩
    rw [e1]
    unfold numAt
    simp only
    rw [List.getElem?_eq_getElem (by omega)]
  · obtain ⟨l, e1, e2, e3⟩ := conf_space hsp h hk
    refine ⟨l[i]'(by omega), ?_, e3 _ (List.getElem_mem _)⟩
    rw [e1]
    unfold stateAt
    simp only
    rw [List.getElem?_eq_getElem (by omega)]

/-! ### births near the values of the neighbour -/

theorem sampleDisc_runs {sp : Space} (h : Safe sp) (hk : sp.info.kind.isDisc = true) : Runs sp.sampleDisc (Bare sp) := by
  refine Runs.of ?_ (sampleDisc_post h.ok)
  unfold Space.sampleDisc
  refine ((sampleDim_runs h).bind' fun n _ => (sampleSites_runs h n).bind' fun o ho => ?_).noRaise (P := fun _ => True)
  cases o with
  | none => rw [ho.1] at hk; cases hk
  | some a =>
    refine Runs.lift' ⟨_, mkPS_runs (n := n) ?_, trivial⟩
    intro kv hkv
    rw [List.mem_singleton] at hkv
    subst hkv
    exact arr_len ho.2.1

theorem fillInitial_runs : ∀ (l : List (String × Param)) (s : PSState), 1 ≤ s.n →
    (∀ key sp1, (key, Param.space sp1) ∈ l → Safe sp1) → Runs (fillInitial l s) (fun _ => True)
  | [], s, _, _ => by
    rw [fillInitial]
    exact Runs.pure' trivial
  | (name, p) :: rest, s, hn, h => by
    rw [fillInitial.eq_def]
    simp only
    refine Runs.bind' (Q := fun v => v ≠ .states []) ?_ fun v hv => ?_
    · cases p with
      | prior q => exact Runs.pure' (by simp)
      | space sp =>
        have hs := h name sp (List.mem_cons_self ..)
        refine Runs.ite' (fun hd => ?_) fun hd => ?_
        · exact (Runs.times' (sampleDisc_runs hs hd) s.n).bind' fun l hl => Runs.pure' (full_states hn hl.1).2
        · exact (Runs.times' (sample_runs_S sp hs) s.n).bind' fun l hl => Runs.pure' (full_states hn hl.1).2
    · refine (Runs.lift' (P := fun s' => 1 ≤ s'.n) ⟨_, setVal_ok.2 ⟨hv, rfl⟩, hn⟩).bind' fun s' hs' => ?_
      exact fillInitial_runs rest s' hs' fun key sp1 hk => h key sp1 (List.mem_cons_of_mem _ hk)

/-- The values of a parameter in the course of filling: those from `i` on are to be done. -/
def PTodo (n i : ℕ) : Param → PVal → Prop
  | .prior _, v => ∃ xs, v = .arr (.vec xs) ∧ xs.length = n
  | .space sp, v => ∃ l, v = .states l ∧ l.length = n ∧
      (sp.info.kind.isDisc = true → ∀ j x, i ≤ j → l[j]? = some x → Bare sp x)

def KTodo (n i : ℕ) (kp : String × Param) (kv : String × PVal) : Prop := kv.1 = kp.1 ∧ PTodo n i kp.2 kv.2

theorem todo_of_fill {poss : List Pos} {kp : String × Param} {kv : String × PVal} (h : KFill vecVal poss 0 kp kv) :
    KTodo poss.length 0 kp kv := by
  obtain ⟨k, p⟩ := kp
  refine ⟨h.1, ?_⟩
  have h2 := h.2
  cases p with
  | prior q =>
    obtain ⟨xs, e1, e2, _⟩ := h2
    exact ⟨xs, e1, e2⟩
  | space sp =>
    obtain ⟨l, e1, e2, _, e3⟩ := h2
    refine ⟨l, e1, e2, fun hd j x _ hx => ?_⟩
    rcases e3 j x hx with ⟨_, _, hb⟩ | ⟨h0, _⟩
    · exact hb
    · have := h0 hd; omega

theorem forSites_runs {σ : Type} {body : ℕ → Pos → σ → M σ} (I : ℕ → σ → Prop) (poss : List Pos)
    (h : ∀ i pos s, poss[i]? = some pos → I i s → Runs (body i pos s) (I (i + 1))) :
    ∀ (done todo : List Pos) (s : σ), poss = done ++ todo → I done.length s →
      Runs (forSites body done.length todo s) (I poss.length)
  | done, [], s, hp, hI => by
    rw [forSites]
    refine Runs.pure' ?_
    rw [hp]
    simpa using hI
  | done, pos :: todo, s, hp, hI => by
    rw [forSites]
    refine (h done.length pos s (by rw [hp]; simp) hI).bind' fun s1 h1 => ?_
    have := forSites_runs I poss h (done ++ [pos]) todo s1 (by rw [hp]; simp)
    rw [List.length_append, List.length_singleton] at this
    exact this h1

mutual
theorem nb_runs_S : ∀ (sp : Space), Safe sp → sp.info.kind.isDisc = true → ∀ (old new : PSState), SConf vecVal sp old →
    Bare sp new → Runs (sp.sampleFromNeighbour old new) (fun _ => True)
  | .mk info ps, h, hk, old, new, hold, hnew => by
    have hl := h.params
    have hok1 := h.ok.nodup
    have hok2 := h.ok.disc
    have hgood := (SGood_iff.1 h.good).2
    have hlo := h.safe.dims
    obtain ⟨a0, ha0, hlen0, hsites0⟩ := conf_sites h hk hold
    have hent : ∀ i, i < old.n → EntriesAt ps old i := fun i hi => conf_entries h hold hi
    have holdn := conf_pos h hold
    obtain ⟨hn, hkd, hsh, a, hv, hlen, hh⟩ := hnew
    rw [Space.sampleFromNeighbour]
    simp only [Space.params, Space.info] at *
    have hkeys : (dkeys [("discretization", PVal.arr a)] ++ ps.toList.map (·.1)).Nodup := by
      simp only [dkeys, List.map_cons, List.map_nil, List.singleton_append, List.nodup_cons]
      exact ⟨hok2, hok1⟩
    refine ((fillInitial_runs ps.toList new (hlo.trans hn.1) hl.spaces).and (fillInitial_post (vs := vecVal)
      (poss := a.positions) ps.toList new hgood (by rw [hv]; exact hkeys) hlen)).bind' fun s1 hs1 => ?_
    obtain ⟨_, vs', rfl, hf⟩ := hs1
    rw [hv]
    refine (Runs.lift' (P := fun sites => sites = a.positions) ⟨a.positions, ?_, rfl⟩).bind' fun sites hs => ?_
    · unfold PSState.sites PSState.get
      simp [PSState.vals, dget]
    · subst hs
      refine (forSites_runs (σ := PSState × PyF)
        (fun i acc => ∃ rest, acc.1 = .mk new.n ([("discretization", .arr a)] ++ rest) new.kd ∧
          List.Forall₂ (KTodo new.n i) ps.toList rest) a.positions ?_ [] a.positions _ rfl ⟨vs', rfl, ?_⟩).mono
        fun _ _ => trivial
      · rintro i pos acc hpos ⟨rest, e1, e2⟩
        have hi : i < a.positions.length := (List.getElem?_eq_some_iff.1 hpos).1
        have hP : PosOf info.kind pos := hh.posOf pos (List.mem_of_getElem? hpos)
        obtain ⟨j, hj, hjn⟩ := nearest_runs hsites0 (by omega) hP
        refine (Runs.lift' (P := fun j' => j' = j) ⟨j, by rw [ha0]; exact hj, rfl⟩).bind' fun j' hj' => ?_
        subst hj'
        refine (fill_runs_L ps info.kind hk hl old i j' pos acc new.n [("discretization", .arr a)] rest hP (hent j' (by omega))
          (by omega) (by rw [e1]; rfl) hkeys e2).mono fun r hr => ?_
        obtain ⟨rest', e3, e4⟩ := hr
        exact ⟨rest', by rw [e3, e1]; rfl, e4⟩
      · rw [← hlen]
        exact hf.imp fun kp kv => todo_of_fill
theorem fill_runs_L : ∀ (ps : ParamList) (k : Kind), k.isDisc = true → SafeL k ps →
    ∀ (old : PSState) (i inb : ℕ) (pos : Pos) (acc : PSState × PyF) (n : ℕ) (pre rest : List (String × PVal)),
    PosOf k pos → EntriesAt ps old inb → i < n → acc.1.vals = pre ++ rest → (dkeys pre ++ ps.toList.map (·.1)).Nodup →
    List.Forall₂ (KTodo n i) ps.toList rest →
    Runs (ps.fillPoint old i inb pos acc) (fun r => ∃ rest', r.1 = .mk acc.1.n (pre ++ rest') acc.1.kd ∧
      List.Forall₂ (KTodo n (i + 1)) ps.toList rest')
  | .nil, k, _, _, old, i, inb, pos, acc, n, pre, rest, _, _, _, hv, _, hf => by
    rw [ParamList.fillPoint]
    refine Runs.pure' ⟨rest, ?_, ?_⟩
    · rw [← hv]; obtain ⟨⟨n, v, kd⟩, r⟩ := acc; rfl
    · rw [ParamList.toList, List.forall₂_nil_left_iff] at *; exact hf
  | .cons name p rest, k, hk, h, old, i, inb, pos, acc, n, pre, vals, hP, he, hi, hv, hnd, hf => by
    rw [ParamList.fillPoint]
    obtain ⟨hk1, hk2⟩ := names_nodup_tail hnd
    rw [ParamList.toList, List.forall₂_cons_left_iff] at hf
    obtain ⟨⟨key, v⟩, vals', ⟨hk0, hf1⟩, hf2, rfl⟩ := hf
    simp only at hk0 hf1
    subst hk0
    have h0 : (key, p) ∈ (ParamList.cons key p rest).toList := List.mem_cons_self ..
    refine (fill_runs_P p k hk h.head key old i inb pos acc n pre v vals' hP (fun q hq => he.nums key q (hq ▸ h0))
      (fun sp1 hq => he.states key sp1 (hq ▸ h0)) hi hv hk1 hf1).bind'
      fun acc1 h1 => ?_
    obtain ⟨v', h7, h8⟩ := h1
    refine (fill_runs_L rest k hk h.tail old i inb pos acc1 n (pre ++ [(key, v')]) vals' hP he.tail hi
      (by rw [h7]; simp [PSState.vals]) (by simpa [dkeys] using hk2) hf2).mono fun r hr => ?_
    obtain ⟨rest', h9, h10⟩ := hr
    refine ⟨(key, v') :: rest', ?_, ?_⟩
    · rw [h9, h7]; simp [PSState.n, PSState.kd]
    · rw [ParamList.toList]
      exact .cons ⟨rfl, h8⟩ h10
theorem fill_runs_P : ∀ (p : Param) (k : Kind), k.isDisc = true → SafeP k p →
    ∀ (name : String) (old : PSState) (i inb : ℕ) (pos : Pos) (acc : PSState × PyF) (n : ℕ)
    (pre : List (String × PVal)) (v : PVal) (post : List (String × PVal)), PosOf k pos →
    (∀ q, p = .prior q → ∃ x, numAt (old.get name) inb = .ok x) →
    (∀ sp1, p = .space sp1 → ∃ x, stateAt (old.get name) inb = .ok x ∧ SConf vecVal sp1 x) → i < n →
    acc.1.vals = pre ++ (name, v) :: post → name ∉ dkeys pre → PTodo n i p v →
    Runs (p.fillPoint name old i inb pos acc) (fun r => ∃ v',
      r.1 = .mk acc.1.n (pre ++ (name, v') :: post) acc.1.kd ∧ PTodo n (i + 1) p v')
  | .prior q, k, hk, h, name, old, i, inb, pos, (new, lpr), n, pre, v, post, hP, h1, _, hi, hv, hkp, hf => by
    rw [Param.fillPoint]
    obtain ⟨x, hx⟩ := h1 q rfl
    refine (Runs.lift' (P := fun _ => True) ⟨x, hx, trivial⟩).bind' fun nb _ =>
      (fromNeighbour_runs h hk hP nb).bind' fun xr _ => ?_
    obtain ⟨xs, rfl, hlen⟩ := hf
    refine (Runs.lift' (P := fun s => s = .mk new.n (pre ++ (name, .arr (.vec (xs.set i xr.1))) :: post) new.kd)
      ⟨_, ?_, rfl⟩).bind' fun s hs => Runs.pure' ⟨_, hs, _, rfl, by simpa using hlen⟩
    unfold PSState.setNumAt PSState.get
    simp only at hv
    rw [hv, dget_mid hkp]
    simp only
    rw [if_pos (by omega), dset_mid hkp]
  | .space sp, k, hk, h, name, old, i, inb, pos, (new, lpr), n, pre, v, post, hP, _, h1, hi, hv, hkp, hf => by
    rw [Param.fillPoint]
    obtain ⟨x, hx, hc⟩ := h1 sp rfl
    obtain ⟨l, rfl, hlen, hb⟩ := hf
    simp only at hv
    refine Runs.ite' (fun hd => ?_) fun hd => ?_
    · refine (Runs.lift' (P := fun y => SConf vecVal sp y) ⟨x, hx, hc⟩).bind' fun oldi ho => ?_
      refine (Runs.lift' (P := fun y => Bare sp y) ⟨l[i]'(by omega), ?_, hb hd i _ (le_refl _)
        (List.getElem?_eq_getElem (by omega))⟩).bind' fun newi hn => ?_
      · unfold PSState.get stateAt
        rw [hv, dget_mid hkp]
        simp only
        rw [List.getElem?_eq_getElem (by omega)]
      · refine (nb_runs_S sp h hd oldi newi ho hn).bind' fun r _ => Runs.pure' ⟨.states (l.set i r.1), ?_, _, rfl,
          by simpa using hlen, fun _ j y hj hy => ?_⟩
        · unfold PSState.setStateAt PSState.get
          rw [hv, dget_mid hkp]
          simp only
          rw [dset_mid hkp]
        · rw [List.getElem?_set_ne (by omega)] at hy
          exact hb hd j y (by omega) hy
    · refine Runs.pure' ⟨.states l, ?_, l, rfl, hlen, fun hd' => absurd hd' hd⟩
      rw [← hv]
      cases new
      rfl
end

/-! ### the newborn -/

/-- A number for a prior, a state for a nested space. -/
def KBorn (kp : String × Param) (kv : String × NVal) : Prop :=
  kv.1 = kp.1 ∧ match kp.2 with
    | .prior _ => ∃ x, kv.2 = .num x
    | .space _ => ∃ s, kv.2 = .ps s

theorem newbornFromPrior_runs {k : Kind} {pos : Pos} (hP : PosOf k pos) : ∀ (ps : ParamList), SafeL k ps →
    Runs (newbornFromPrior ps.toList pos) (List.Forall₂ KBorn ps.toList)
  | .nil, _ => by
    rw [ParamList.toList, newbornFromPrior]
    exact Runs.pure' .nil
  | .cons name p rest, h => by
    rw [ParamList.toList, newbornFromPrior.eq_def]
    simp only
    refine Runs.bind' (Q := fun v => KBorn (name, p) (name, v)) ?_ fun v hv =>
      (newbornFromPrior_runs hP rest h.tail).bind' fun vs hvs => Runs.pure' (.cons hv hvs)
    have hp := h.head
    cases p with
    | prior q => exact (sample_runs hp hP).bind' fun x _ => Runs.pure' ⟨rfl, x, rfl⟩
    | space sp => exact (sample_runs_S sp hp).bind' fun x _ => Runs.pure' ⟨rfl, x, rfl⟩

theorem newbornFromNeighbour_runs {k : Kind} (hk : k.isDisc = true) {pos : Pos} (hP : PosOf k pos) {old : PSState} {inear : ℕ} :
    ∀ (ps : ParamList) (lpr : PyF), SafeL k ps → EntriesAt ps old inear →
    (∀ key p, (key, p) ∈ ps.toList → key = p.name) →
    (∀ key sp1, (key, Param.space sp1) ∈ ps.toList → sp1.info.kind.isDisc = true) →
    Runs (newbornFromNeighbour old inear pos ps.toList lpr) (fun r => List.Forall₂ KBorn ps.toList r.1)
  | .nil, lpr, _, _, _, _ => by
    rw [ParamList.toList, newbornFromNeighbour]
    exact Runs.pure' .nil
  | .cons name p rest, lpr, h, he, hname, hd => by
    rw [ParamList.toList, newbornFromNeighbour.eq_def]
    simp only
    have hm : ∀ {x}, x ∈ rest.toList → x ∈ (ParamList.cons name p rest).toList := fun hx => List.mem_cons_of_mem _ hx
    have h0 : (name, p) ∈ (ParamList.cons name p rest).toList := List.mem_cons_self ..
    refine Runs.bind' (Q := fun v => KBorn (name, p) (name, v.1)) ?_ fun v hv =>
      (newbornFromNeighbour_runs hk hP rest v.2 h.tail he.tail (fun key q hq => hname key q (hm hq))
        fun key q hq => hd key q (hm hq)).bind' fun vs hvs => Runs.pure' (.cons hv hvs)
    have hp := h.head
    cases p with
    | prior q =>
      obtain ⟨x, hx⟩ := he.nums name q h0
      exact (Runs.lift' (P := fun _ => True) ⟨x, hx, trivial⟩).bind' fun nb _ =>
        (fromNeighbour_runs hp hk hP nb).bind' fun xr _ => Runs.pure' ⟨rfl, _, rfl⟩
    | space sp =>
      obtain ⟨x, hx, hc⟩ := he.states name sp h0
      have hd1 := hd name sp h0
      have hn : name = sp.info.name := hname name (.space sp) h0
      simp only
      rw [if_pos hd1]
      refine (Runs.lift' (P := fun y => SConf vecVal sp y) ⟨x, by rw [← hn]; exact hx, hc⟩).bind' fun oldi ho =>
        (sampleDisc_runs hp hd1).bind' fun newi hnew => (nb_runs_S sp hp hd1 oldi newi ho hnew).bind' fun r _ =>
        Runs.pure' ⟨rfl, _, rfl⟩

theorem newborn_runs {sp : Space} (h : Safe sp) (hk : sp.info.kind.isDisc = true) {pos : Pos} (hP : PosOf sp.info.kind pos)
    {old : PSState} (hold : SConf vecVal sp old) :
    Runs (sp.newborn pos old) (fun r => List.Forall₂ KBorn sp.params.toList r.1) := by
  unfold Space.newborn
  refine Runs.ite' (fun _ => (newbornFromPrior_runs hP sp.params h.params).bind' fun vs hvs => Runs.pure' hvs) fun hf => ?_
  obtain ⟨a, h1, h2, h3⟩ := conf_sites h hk hold
  obtain ⟨j, h4, h5⟩ := nearest_runs h3 (by rw [h2]; exact conf_pos h hold) hP
  refine (Runs.lift' (P := fun j' => j' = j) ⟨j, by rw [h1]; exact h4, rfl⟩).bind' fun j' hj => ?_
  subst hj
  exact newbornFromNeighbour_runs hk hP sp.params _ h.params (conf_entries h hold (by omega)) h.ok.key
    (h.safe.neighbours hk (by simpa using hf))

/-- Adding the newborn values to those of the old state. -/
theorem addNewborn_runs {old : PSState} {m : ℕ} {add : Option PVal → NVal → Except PyErr PVal} :
    ∀ {l : List (String × Param)} {nv : List (String × NVal)} (vals : List (String × PVal)), List.Forall₂ KBorn l nv →
    (∀ k q, (k, Param.prior q) ∈ l → ∀ x, ∃ v, add (old.get k) (.num x) = .ok v ∧ Full m v) →
    (∀ k sp1, (k, Param.space sp1) ∈ l → ∀ s, ∃ v, add (old.get k) (.ps s) = .ok v ∧ Full m v) →
    (dkeys vals).Nodup → (∀ kv ∈ vals, Full m kv.2) →
    ∃ out, addNewborn old add nv vals = .ok out ∧ (∀ kv ∈ out, Full m kv.2) ∧
      ∀ key, key ∉ l.map (·.1) → dget out key = dget vals key := by
  intro l nv vals h
  induction h generalizing vals with
  | nil => exact fun _ _ _ hf => ⟨vals, rfl, hf, fun _ _ => rfl⟩
  | @cons kp kv l nv h1 _ ih =>
    intro hp hs hnd hf
    obtain ⟨k, p⟩ := kp
    obtain ⟨k', x⟩ := kv
    obtain ⟨hk, hx⟩ := h1
    simp only at hk hx
    subst hk
    have hadd : ∃ v, add (old.get k') x = .ok v ∧ Full m v := by
      cases p with
      | prior q => obtain ⟨y, rfl⟩ := hx; exact hp k' q (List.mem_cons_self ..) y
      | space sp => obtain ⟨y, rfl⟩ := hx; exact hs k' sp (List.mem_cons_self ..) y
    obtain ⟨v, hv, hvf⟩ := hadd
    obtain ⟨out, e1, e2, e3⟩ := ih (dset vals k' v) (fun k q hk => hp k q (List.mem_cons_of_mem _ hk))
      (fun k q hk => hs k q (List.mem_cons_of_mem _ hk)) (nodup_dset _ _ _ hnd) (fun kv hkv => by
        rcases mem_dset hnd hkv with h1 | rfl
        · exact hf kv h1.1
        · exact hvf)
    refine ⟨out, ?_, e2, fun key hkey => ?_⟩
    · rw [addNewborn, hv]
      exact e1
    · rw [List.map_cons, List.mem_cons, not_or] at hkey
      rw [e3 key hkey.2, dget_dset_ne _ _ _ _ hkey.1]

theorem insert1d_runs {xs : List ℝ} {i : ℕ} (hi : i ≤ xs.length) (x : ℝ) :
    ∃ ys, Utils1d.insert1d 0 xs i x = .ok ys ∧ ys.length = xs.length + 1 := by
  rw [Props.C45_insert, if_pos ⟨by omega, by omega⟩]
  refine ⟨_, rfl, ?_⟩
  simp
  omega

theorem delete1d_runs {xs : List ℝ} {i : ℕ} (hi : i < xs.length) :
    ∃ ys, Utils1d.delete1d 0 xs i = .ok ys ∧ ys.length = xs.length - 1 := by
  rw [Props.C45_delete, if_neg (by rintro rfl; simp at hi), if_pos ⟨by omega, by omega⟩]
  refine ⟨_, rfl, ?_⟩
  simp
  omega

theorem insertAt_vec {xs : List ℝ} {i : ℕ} (hi : i ≤ xs.length) (x : ℝ) :
    ∃ v, PVal.insertAt (some (.arr (.vec xs))) i (.num x) = .ok v ∧ Full (xs.length + 1) v := by
  obtain ⟨ys, h1, h2⟩ := insert1d_runs hi x
  refine ⟨.arr (.vec ys), ?_, h2, by simp⟩
  unfold PVal.insertAt
  simp only
  rw [h1]
  rfl

theorem insertAt_states {l : List PSState} {i : ℕ} (hi : i ≤ l.length) (s : PSState) :
    ∃ v, PVal.insertAt (some (.states l)) i (.ps s) = .ok v ∧ Full (l.length + 1) v := by
  refine ⟨_, rfl, full_states (by omega) ?_⟩
  simp [listInsert]
  omega

/-- The tree is added to a state of which the sites are found. -/
theorem withKd_runs {k : Kind} {s : PSState} {a : Arr} (hs : s.get "discretization" = some (.arr a))
    (ha : ∀ v, k = .vor2 v → ∃ ps, a = .pts ps) : ∃ s', k.withKd s = .ok s' := by
  unfold Kind.withKd
  split
  · split
    · obtain ⟨ps, rfl⟩ := ha _ rfl
      unfold addKd
      rw [hs]
      exact ⟨_, rfl⟩
    · exact ⟨_, rfl⟩
  · exact ⟨_, rfl⟩

theorem conf_withKd {vs : ValSpec} {sp : Space} (h : Safe sp) (hk : sp.info.kind.isDisc = true) {s : PSState}
    (hs : SConf vs sp s) : ∃ s', sp.info.kind.withKd s = .ok s' := by
  obtain ⟨a, h1, _, h3⟩ := conf_sites h hk hs
  refine withKd_runs h1 fun v hv => ?_
  rw [hv] at h3
  obtain ⟨ps, h4, _⟩ := h3
  exact ⟨ps, h4⟩

theorem vorBirth_runs {sp : Space} (h : Safe sp) (hk : sp.info.kind.isDisc = true) {s : PSState} (hs : SConf vecVal sp s) :
    Runs (vorBirth sp s) (fun r => ∃ a, r.1.get "discretization" = some (.arr a) ∧
      ∀ v, sp.info.kind = .vor2 v → ∃ ps, a = .pts ps) := by
  obtain ⟨a, h1, h2, h3⟩ := conf_sites h hk hs
  have hline := h.ok.line
  have hplane := h.ok.plane
  have hborn := fun pos (hP : PosOf sp.info.kind pos) => newborn_runs h hk hP hs
  unfold vorBirth
  cases hkk : sp.info.kind with
  | plain => rw [hkk] at hk; cases hk
  | vor1 v =>
    rw [hkk] at h3 hborn
    obtain ⟨xs, rfl, hsort, _⟩ := h3
    have hlen : xs.length = s.n := by simpa [Arr.positions] using h2
    refine (Runs.uniform'.and (Post.uniform' (hline v hkk))).bind' fun x hx => (hborn (.one x) ⟨x, rfl, hx.2⟩).bind'
      fun r hr => ?_
    obtain ⟨nv, lpr⟩ := r
    simp only [h1]
    have hb := (bisectLeft_spec (x := x) hsort 0 xs.length (by omega) (le_refl _) (by omega) (by omega)).2.1
    obtain ⟨sites, e1, e2⟩ := insert1d_runs hb x
    refine (Runs.lift' (P := fun z => z = sites) ⟨sites, e1, rfl⟩).bind' fun z hz => ?_
    subst hz
    obtain ⟨out, e3, e4, e5⟩ := addNewborn_runs (old := s) (m := s.n + 1)
      (add := fun v y => PVal.insertAt v (bisectLeft xs x 0 xs.length) y) [("discretization", .arr (.vec z))] hr
      (fun k q hkq y => by
        obtain ⟨ys, f1, f2⟩ := conf_prior h hs hkq
        rw [f1, ← f2]
        exact insertAt_vec (by omega) y)
      (fun k q hkq y => by
        obtain ⟨ys, f1, f2, _⟩ := conf_space h hs hkq
        rw [f1, ← f2]
        exact insertAt_states (by omega) y) (by simp [dkeys]) (by
          intro kv hkv
          rw [List.mem_singleton] at hkv
          subst hkv
          exact ⟨by rw [← hlen]; exact e2, by simp⟩)
    refine (Runs.lift' (P := fun z => z = out) ⟨out, e3, rfl⟩).bind' fun out' ho => ?_
    subst ho
    refine (Runs.lift' (P := fun z => z.vals = out') ⟨_, mkPS_runs e4, rfl⟩).bind' fun new hnew => Runs.pure' ?_
    refine ⟨.vec z, ?_, fun v hv => by cases hv⟩
    change dget new.vals _ = _
    rw [hnew, e5 _ h.ok.disc]
    rfl
  | vor2 v =>
    rw [hkk] at h3 hborn
    obtain ⟨ps, rfl, _⟩ := h3
    have hlen : ps.length = s.n := by simpa [Arr.positions] using h2
    refine (sampleSite2_runs v (hplane v hkk)).bind' fun x hx => (hborn (.two x) ⟨x, rfl, hx⟩).bind'
      fun r hr => ?_
    obtain ⟨nv, lpr⟩ := r
    simp only [h1]
    obtain ⟨out, e3, e4, e5⟩ := addNewborn_runs (old := s) (m := s.n + 1)
      (add := PVal.append) [("discretization", .arr (.pts (ps ++ [x])))] hr
      (fun k q hkq y => by
        obtain ⟨ys, f1, f2⟩ := conf_prior h hs hkq
        rw [f1, ← f2]
        exact ⟨_, rfl, by simp [PVal.len, Arr.len], by simp⟩)
      (fun k q hkq y => by
        obtain ⟨ys, f1, f2, _⟩ := conf_space h hs hkq
        rw [f1, ← f2]
        exact ⟨_, rfl, full_states (by omega) (by simp)⟩) (by simp [dkeys]) (by
          intro kv hkv
          rw [List.mem_singleton] at hkv
          subst hkv
          exact ⟨by simp [PVal.len, Arr.len, hlen], by simp⟩)
    refine (Runs.lift' (P := fun z => z = out) ⟨out, e3, rfl⟩).bind' fun out' ho => ?_
    subst ho
    refine (Runs.lift' (P := fun z => z.vals = out') ⟨_, mkPS_runs e4, rfl⟩).bind' fun new hnew => Runs.pure' ?_
    refine ⟨.pts (ps ++ [x]), ?_, fun v _ => ⟨_, rfl⟩⟩
    change dget new.vals _ = _
    rw [hnew, e5 _ h.ok.disc]
    rfl

/-- A parameter and its values in a plain space. -/
theorem plain_rest {sp : Space} (hk : sp.info.kind.isDisc = false) {s : PSState} (hs : SConf vecVal sp s) :
    ∃ poss, List.Forall₂ (KConf vecVal poss) sp.params.toList s.vals ∧ Shape s := by
  obtain ⟨_, hsh, hdr, rest, poss, hv, hh, hr⟩ := SConf_iff.1 hs
  cases hkk : sp.info.kind with
  | plain =>
    rw [hkk] at hh
    obtain ⟨rfl, _⟩ := hh
    exact ⟨poss, by rw [hv]; exact hr, hsh⟩
  | vor1 v => rw [hkk] at hk; cases hk
  | vor2 v => rw [hkk] at hk; cases hk

theorem birthValues_runs {ps : ParamList} {i n : ℕ} (hi : i ≤ n) (hnd : (ps.toList.map (·.1)).Nodup)
    (h : SafeL .plain ps) {poss : List Pos} : ∀ {l : List (String × Param)} {vals : List (String × PVal)},
    (∀ kp ∈ l, kp ∈ ps.toList) → List.Forall₂ (KConf vecVal poss) l vals → (∀ kv ∈ vals, kv.2.len = n) →
    Runs (birthValues ps i vals) (fun out => ∀ kv ∈ out, Full (n + 1) kv.2) := by
  intro l vals hl hf
  induction hf with
  | nil => intro _; rw [birthValues]; exact Runs.pure' (by simp)
  | @cons kp kv l vals h1 _ ih =>
    intro hlen
    obtain ⟨k, p⟩ := kp
    obtain ⟨k', v⟩ := kv
    obtain ⟨h0, h1⟩ := h1
    simp only at h0 h1
    subst h0
    have hm := hl _ (List.mem_cons_self ..)
    have hv : v.len = n := hlen _ (List.mem_cons_self ..)
    rw [birthValues.eq_def]
    simp only [get?_of_mem hnd hm]
    have key : Runs ((match some p with
        | none => M.throw .keyError
        | some (.prior p) => do return .num (← p.sample .none)
        | some (.space s) => do return .ps (← s.sample) : M NVal))
        (fun x => ∃ v', PVal.insertAt (some v) i x = .ok v' ∧ Full (n + 1) v') := by
      cases p with
      | prior q =>
        refine (sample_runs (h.priors _ _ hm) trivial).bind' fun x _ => Runs.pure' ?_
        rw [PConf] at h1
        obtain ⟨a, rfl, e4, _⟩ := h1
        obtain ⟨xs, rfl⟩ := e4 trivial
        have hv' : xs.length = n := hv
        rw [← hv']
        exact insertAt_vec (by omega) x
      | space sp =>
        refine (sample_runs_S sp (h.spaces _ _ hm)).bind' fun x _ => Runs.pure' ?_
        rw [PConf] at h1
        obtain ⟨l, e4, _⟩ := h1
        rcases e4 with rfl | ⟨h0, _⟩
        · have hv' : l.length = n := hv
          rw [← hv']
          exact insertAt_states (by omega) x
        · exact absurd h0 id
    refine key.bind' fun x hx => ?_
    obtain ⟨v', e1, e2⟩ := hx
    refine (Runs.lift' (P := Full (n + 1)) ⟨v', e1, e2⟩).bind' fun v1 hv1 =>
      (ih (fun kp hkp => hl kp (List.mem_cons_of_mem _ hkp)) fun kv hkv => hlen kv (List.mem_cons_of_mem _ hkv)).bind'
      fun vs hvs => Runs.pure' ?_
    intro kv hkv
    rcases List.mem_cons.1 hkv with rfl | hkv
    · exact hv1
    · exact hvs kv hkv

theorem plain_kind {k : Kind} (h : k.isDisc = false) : k = .plain := by
  cases k with
  | plain => rfl
  | vor1 v => cases h
  | vor2 v => cases h

/-- Births raise nothing. -/
theorem birth_runs {sp : Space} (h : Safe sp) {s : PSState} (hs : SConf vecVal sp s) :
    Runs (sp.birth s) (fun _ => True) := by
  unfold Space.birth
  refine Runs.ite' (fun hd => ?_) fun hd => ?_
  · refine Runs.bind' (Q := fun r => ∃ a, r.1.get "discretization" = some (.arr a) ∧
      ∀ v, sp.info.kind = .vor2 v → ∃ ps, a = .pts ps) ?_ fun r hr => ?_
    · refine Runs.ite' (fun _ => Runs.pure' ?_) fun _ => vorBirth_runs h hd hs
      obtain ⟨a, h1, _, h3⟩ := conf_sites h hd hs
      refine ⟨a, h1, fun v hv => ?_⟩
      rw [hv] at h3
      obtain ⟨ps, h4, _⟩ := h3
      exact ⟨ps, h4⟩
    · obtain ⟨a, h1, h2⟩ := hr
      obtain ⟨s', h3⟩ := withKd_runs h1 h2
      exact (Runs.lift' (P := fun _ => True) ⟨s', h3, trivial⟩).bind' fun _ _ => Runs.pure' trivial
  · have hd' : sp.info.kind.isDisc = false := by simpa using hd
    unfold plainBirth
    refine Runs.ite' (fun _ => Runs.pure' trivial) fun _ => ?_
    obtain ⟨poss, hr, hsh⟩ := plain_rest hd' hs
    have hl := h.params
    rw [plain_kind hd'] at hl
    exact (Runs.randint' (Nat.zero_le _)).bind' fun i hi =>
      (birthValues_runs hi.2 h.ok.nodup hl (fun _ hk => hk) hr fun kv hkv => (hsh kv hkv).1).bind' fun vals hv =>
      (Runs.lift' (P := fun _ => True) ⟨_, mkPS_runs hv, trivial⟩).bind' fun _ _ => Runs.pure' trivial

/-! ### deaths -/

theorem mapVals_runs {f : PVal → Except PyErr PVal} {n : ℕ} : ∀ {vals : List (String × PVal)},
    (∀ kv ∈ vals, ∃ v, f kv.2 = .ok v ∧ Full n v) → ∃ out, mapVals f vals = .ok out ∧ ∀ kv ∈ out, Full n kv.2
  | [], _ => ⟨[], rfl, by simp⟩
  | (k, v) :: rest, h => by
    obtain ⟨v', h1, h2⟩ := h _ (List.mem_cons_self ..)
    obtain ⟨out, h3, h4⟩ := mapVals_runs fun kv hkv => h kv (List.mem_cons_of_mem _ hkv)
    refine ⟨(k, v') :: out, ?_, fun kv hkv => ?_⟩
    · rw [mapVals]
      simp only at h1
      rw [h1, h3]
      rfl
    · rcases List.mem_cons.1 hkv with rfl | hkv
      · exact h2
      · exact h4 kv hkv

theorem deleteAt_vec {xs : List ℝ} {i : ℕ} (hi : i < xs.length) :
    ∃ v, (PVal.arr (.vec xs)).deleteAt i = .ok v ∧ Full (xs.length - 1) v := by
  obtain ⟨ys, h1, h2⟩ := delete1d_runs hi
  refine ⟨.arr (.vec ys), ?_, h2, by simp⟩
  unfold PVal.deleteAt
  simp only
  rw [h1]
  rfl

theorem full_delete {l : List PSState} {i : ℕ} (hi : i < l.length) (h2 : 2 ≤ l.length) :
    Full (l.length - 1) (.states (listDelete l i)) := by
  refine full_states (by omega) ?_
  simp [listDelete]
  omega

/-- Each value of a state is the array of sites, a vector, or a list of states. -/
theorem conf_vals {sp : Space} {s : PSState} (h : Safe sp) (hs : SConf vecVal sp s) : ∀ kv ∈ s.vals,
    (∃ xs, kv.2 = .arr (.vec xs) ∧ xs.length = s.n) ∨ (∃ l, kv.2 = .states l ∧ l.length = s.n) ∨
    (∃ v ps, sp.info.kind = .vor2 v ∧ kv.2 = .arr (.pts ps) ∧ ps.length = s.n) := by
  obtain ⟨_, hsh, hdr, rest, poss, hv, hh, hr⟩ := SConf_iff.1 hs
  intro kv hkv
  have hlen := (hsh kv hkv).1
  rw [hv] at hkv
  rcases List.mem_append.1 hkv with hm | hm
  · cases hkk : sp.info.kind with
    | plain => rw [hkk] at hh; obtain ⟨rfl, _⟩ := hh; simp at hm
    | vor1 v =>
      rw [hkk] at hh
      obtain ⟨xs, rfl, _⟩ := hh
      rw [List.mem_singleton] at hm
      subst hm
      exact Or.inl ⟨xs, rfl, hlen⟩
    | vor2 v =>
      rw [hkk] at hh
      obtain ⟨a, rfl, _, _, h1⟩ := hh
      rw [List.mem_singleton] at hm
      subst hm
      rcases h1 with rfl | ⟨ps, rfl, _⟩
      · exact Or.inl ⟨[], rfl, hlen⟩
      · exact Or.inr (Or.inr ⟨v, ps, rfl, rfl, hlen⟩)
  · obtain ⟨⟨k, p⟩, _, _, hc⟩ := forall₂_mem_right hr hm
    cases p with
    | prior q =>
      simp only at hc
      rw [PConf] at hc
      obtain ⟨a, e1, e4, _⟩ := hc
      obtain ⟨xs, rfl⟩ := e4 trivial
      rw [e1] at hlen
      exact Or.inl ⟨xs, e1, hlen⟩
    | space sp1 =>
      simp only at hc
      rw [PConf] at hc
      obtain ⟨l, e4, _⟩ := hc
      rcases e4 with e1 | ⟨h0, _⟩
      · rw [e1] at hlen
        exact Or.inr (Or.inl ⟨l, e1, hlen⟩)
      · exact absurd h0 id

theorem forSitesE_runs {σ : Type} {body : ℕ → Pos → σ → Except PyErr σ} (poss : List Pos)
    (h : ∀ i pos s, poss[i]? = some pos → ∃ s', body i pos s = .ok s') :
    ∀ (done todo : List Pos) (s : σ), poss = done ++ todo → ∃ s', forSitesE body done.length todo s = .ok s'
  | done, [], s, _ => ⟨s, rfl⟩
  | done, pos :: todo, s, hp => by
    obtain ⟨s1, h1⟩ := h done.length pos s (by rw [hp]; simp)
    obtain ⟨s2, h2⟩ := forSitesE_runs poss h (done ++ [pos]) todo s1 (by rw [hp]; simp)
    rw [List.length_append, List.length_singleton] at h2
    refine ⟨s2, ?_⟩
    rw [forSitesE, h1]
    exact h2

theorem sites_of {s : PSState} {a : Arr} (h : s.get "discretization" = some (.arr a)) : s.sites = .ok a.positions := by
  unfold PSState.sites
  rw [h]

mutual
theorem deathPS_runs : ∀ (sp : Space), Safe sp → sp.info.kind.isDisc = true → ∀ (old new : PSState),
    SConf vecVal sp old → SConf vecVal sp new → ∃ r, sp.deathPS old new = .ok r
  | .mk info ps, h, hk, old, new, ho, hn => by
    obtain ⟨a, h1, h2, h3⟩ := conf_sites h hk ho
    obtain ⟨b, g1, g2, g3⟩ := conf_sites h hk hn
    have hl := h.params
    have hnd := conf_pos h hn
    rw [Space.deathPS, sites_of h1]
    refine forSitesE_runs a.positions (fun i pos acc hpos => ?_) [] a.positions _ rfl
    have hi : i < a.positions.length := (List.getElem?_eq_some_iff.1 hpos).1
    have hP := h3.posOf pos (List.mem_of_getElem? hpos)
    obtain ⟨j, e1, e2⟩ := nearest_runs g3 (by omega) hP
    have e1' : nearest info.kind (new.get "discretization") pos = .ok j := by rw [g1]; exact e1
    rw [e1']
    exact deathPoint_runs_L ps info.kind hk hl old new i j pos acc hP (conf_entries h ho (by omega))
      (conf_entries h hn (by omega))
theorem deathPoint_runs_L : ∀ (ps : ParamList) (k : Kind), k.isDisc = true → SafeL k ps → ∀ (old new : PSState) (i j : ℕ)
    (pos : Pos) (acc : PyF), PosOf k pos → EntriesAt ps old i → EntriesAt ps new j →
    ∃ r, ps.deathPoint old new i j pos acc = .ok r
  | .nil, _, _, _, _, _, _, _, _, acc, _, _, _ => ⟨acc, by rw [ParamList.deathPoint]⟩
  | .cons name p rest, k, hk, h, old, new, i, j, pos, acc, hP, ho, hn => by
    have h0 : (name, p) ∈ (ParamList.cons name p rest).toList := List.mem_cons_self ..
    obtain ⟨acc1, e1⟩ := deathPoint_runs_P p k hk h.head name old new i j pos acc hP
      (fun q hq => ⟨ho.nums name q (hq ▸ h0), hn.nums name q (hq ▸ h0)⟩)
      (fun q hq => ⟨ho.states name q (hq ▸ h0), hn.states name q (hq ▸ h0)⟩)
    obtain ⟨r, e2⟩ := deathPoint_runs_L rest k hk h.tail old new i j pos acc1 hP ho.tail hn.tail
    refine ⟨r, ?_⟩
    rw [ParamList.deathPoint, e1]
    exact e2
theorem deathPoint_runs_P : ∀ (p : Param) (k : Kind), k.isDisc = true → SafeP k p → ∀ (name : String) (old new : PSState)
    (i j : ℕ) (pos : Pos) (acc : PyF), PosOf k pos →
    (∀ q, p = .prior q → (∃ x, numAt (old.get name) i = .ok x) ∧ ∃ x, numAt (new.get name) j = .ok x) →
    (∀ sp1, p = .space sp1 → (∃ x, stateAt (old.get name) i = .ok x ∧ SConf vecVal sp1 x) ∧
      ∃ x, stateAt (new.get name) j = .ok x ∧ SConf vecVal sp1 x) →
    ∃ r, p.deathPoint name old new i j pos acc = .ok r
  | .prior q, k, hk, h, name, old, new, i, j, pos, acc, hP, h1, _ => by
    obtain ⟨⟨x, e1⟩, y, e2⟩ := h1 q rfl
    obtain ⟨r, e3⟩ := toNeighbour_runs h hk hP x y acc
    refine ⟨r, ?_⟩
    rw [Param.deathPoint, e1, e2]
    exact e3
  | .space sp, k, hk, h, name, old, new, i, j, pos, acc, _, _, h1 => by
    obtain ⟨⟨x, e1, c1⟩, y, e2, c2⟩ := h1 sp rfl
    rw [Param.deathPoint]
    by_cases hd : sp.info.kind.isDisc = true
    · rw [if_pos hd]
      obtain ⟨r, e3⟩ := deathPS_runs sp h hd x y c1 c2
      refine ⟨(acc.sub (.fin 0)).add r, ?_⟩
      rw [e1, e2]
      change (do let r ← sp.deathPS x y; return (acc.sub (.fin 0)).add r : Except PyErr PyF) = _
      rw [e3]
      rfl
    · rw [if_neg hd]
      exact ⟨acc, rfl⟩
end

theorem vorDeath_runs {sp : Space} (h : Safe sp) (hk : sp.info.kind.isDisc = true) {s : PSState} (hs : SConf vecVal sp s)
    (hn : s.n ≠ sp.info.lo) : Runs (vorDeath sp s) (fun r => SConf vecVal sp r.1) := by
  refine Runs.of ?_ (vorDeath_conf h.good hs hk hn)
  have hlo := h.safe.dims
  have hle := (SConf_iff.1 hs).1.1
  unfold vorDeath
  refine ((Runs.randIdx' (conf_pos h hs)).bind' fun i hi => ?_).noRaise (P := fun _ => True)
  have hvals := conf_vals h hs
  obtain ⟨vals, e1, e2⟩ := mapVals_runs (n := s.n - 1)
    (f := fun v => match sp.info.kind with | .vor2 _ => v.npDelete i | _ => v.deleteAt i) (vals := s.vals) (by
      intro kv hkv
      cases hkk : sp.info.kind with
      | plain => rw [hkk] at hk; cases hk
      | vor1 v =>
        rcases hvals kv hkv with ⟨xs, f1, f2⟩ | ⟨l, f1, f2⟩ | ⟨v', ps, f0, f1, f2⟩
        · rw [f1, ← f2]; exact deleteAt_vec (by omega)
        · rw [f1, ← f2]; exact ⟨_, rfl, full_delete (by omega) (by omega)⟩
        · rw [hkk] at f0; cases f0
      | vor2 v =>
        rcases hvals kv hkv with ⟨xs, f1, f2⟩ | ⟨l, f1, f2⟩ | ⟨v', ps, f0, f1, f2⟩
        · rw [f1]
          refine ⟨.arr (.vec (xs.eraseIdx i)), if_pos (by omega), ?_, by simp⟩
          change (xs.eraseIdx i).length = _
          rw [List.length_eraseIdx_of_lt (by omega), f2]
        · rw [f1, ← f2]; exact ⟨_, rfl, full_delete (by omega) (by omega)⟩
        · rw [f1]
          refine ⟨.arr (.pts (ps.eraseIdx i)), if_pos (by omega), ?_, by simp⟩
          change (ps.eraseIdx i).length = _
          rw [List.length_eraseIdx_of_lt (by omega), f2])
  refine (Runs.lift' (P := fun z => z = vals) ⟨vals, e1, rfl⟩).bind' fun vals' hz => ?_
  subst hz
  have hnew := mkPS_runs e2
  refine (Runs.lift' (P := fun z => mkPS (s.n - 1) vals' = .ok z) ⟨_, hnew, hnew⟩).bind' fun new hz => ?_
  have hc := deleted_conf h.good hs hk hn hi e1 hz
  refine (Runs.lift' (P := fun _ => True) ?_).bind' fun _ _ => Runs.pure' trivial
  unfold Space.deathRatio
  split
  · exact ⟨_, rfl, trivial⟩
  obtain ⟨a, h1, h2, h3⟩ := conf_sites h hk hs
  obtain ⟨b, g1, g2, g3⟩ := conf_sites h hk hc
  have hpos : a.positions[i]? = some (a.positions[i]'(by omega)) := List.getElem?_eq_getElem (by omega)
  have hP := h3.posOf _ (List.mem_of_getElem? hpos)
  obtain ⟨j, f1, f2⟩ := nearest_runs g3 (by rw [g2]; exact conf_pos h hc) hP
  obtain ⟨r, f3⟩ := deathPoint_runs_L sp.params sp.info.kind hk h.params s new i j _ (.fin 0) hP (conf_entries h hs hi)
    (conf_entries h hc (by omega))
  refine ⟨r, ?_, trivial⟩
  rw [sites_of h1]
  change (match a.positions[i]? with
    | none => throw .indexError
    | some pos => do
      let inear ← nearest sp.info.kind (new.get "discretization") pos
      sp.params.deathPoint s new i inear pos (.fin 0) : Except PyErr PyF) = _
  rw [hpos, g1]
  simp only [f1]
  exact f3

/-- Deaths raise nothing. -/
theorem death_runs {sp : Space} (h : Safe sp) {s : PSState} (hs : SConf vecVal sp s) :
    Runs (sp.death s) (fun _ => True) := by
  unfold Space.death
  refine Runs.ite' (fun hd => ?_) fun hd => ?_
  · refine Runs.bind' (Q := fun r => SConf vecVal sp r.1) ?_ fun r hr => ?_
    · exact Runs.ite' (fun _ => Runs.pure' hs) fun hn => vorDeath_runs h hd hs hn
    · obtain ⟨s', h3⟩ := conf_withKd h hd hr
      exact (Runs.lift' (P := fun _ => True) ⟨s', h3, trivial⟩).bind' fun _ _ => Runs.pure' trivial
  · have hd' : sp.info.kind.isDisc = false := by simpa using hd
    have hlo := h.safe.dims
    have hle := (SConf_iff.1 hs).1.1
    unfold plainDeath
    refine Runs.ite' (fun _ => Runs.pure' trivial) fun hn => (Runs.randIdx' (conf_pos h hs)).bind' fun i hi => ?_
    obtain ⟨vals, e1, e2⟩ := mapVals_runs (n := s.n - 1) (f := fun v => v.deleteAt i) (vals := s.vals) (by
      intro kv hkv
      rcases conf_vals h hs kv hkv with ⟨xs, f1, f2⟩ | ⟨l, f1, f2⟩ | ⟨v', ps, f0, f1, f2⟩
      · rw [f1, ← f2]; exact deleteAt_vec (by omega)
      · rw [f1, ← f2]; exact ⟨_, rfl, full_delete (by omega) (by omega)⟩
      · rw [f0] at hd'; cases hd')
    refine (Runs.lift' (P := fun z => z = vals) ⟨vals, e1, rfl⟩).bind' fun vals' hz => ?_
    subst hz
    exact (Runs.lift' (P := fun _ => True) ⟨_, mkPS_runs e2, trivial⟩).bind' fun _ _ => Runs.pure' trivial

/-! ### moves of sites -/

theorem perturbSite1_runs (v : Vor1) (x : ℝ) : Runs (v.perturbSite x) (fun y => v.vmin ≤ y ∧ y ≤ v.vmax) := by
  refine Runs.of ?_ (perturbSite1_post v x)
  unfold Vor1.perturbSite
  exact (Runs.until' (P := fun _ => True) (Runs.normal'.bind' fun _ _ => Runs.pure' fun _ _ => trivial)).noRaise

theorem perturbSite2_runs (v : Vor2) (h : 0 ≤ v.std.1 ∧ 0 ≤ v.std.2) (p : ℝ × ℝ) : Runs (v.perturbSite p) (InDomain v) := by
  refine Runs.of ?_ (perturbSite2_post v p)
  unfold Vor2.perturbSite
  exact (Runs.until' (P := fun _ => True) ((Runs.npNormal' h.1).bind' fun _ _ => (Runs.npNormal' h.2).bind' fun _ _ =>
    Runs.pure' fun _ _ => trivial)).noRaise

theorem gather_runs {α : Type} {xs : List α} : ∀ {is : List ℕ}, (∀ i ∈ is, i < xs.length) →
    ∃ ys, gather xs is = .ok ys ∧ ys.length = is.length
  | [], _ => ⟨[], rfl, rfl⟩
  | i :: is, h => by
    obtain ⟨ys, h1, h2⟩ := gather_runs fun j hj => h j (List.mem_cons_of_mem _ hj)
    refine ⟨xs[i]'(h i (List.mem_cons_self ..)) :: ys, ?_, by simp [h2]⟩
    rw [gather.eq_def]
    simp only
    rw [List.getElem?_eq_getElem (h i (List.mem_cons_self ..))]
    simp only [h1]
    rfl

theorem gatherVal_runs {n : ℕ} (hn : 1 ≤ n) {is : List ℕ} (hi : ∀ i ∈ is, i < n) (hl : is.length = n) {v : PVal}
    (hv : (∃ xs, v = .arr (.vec xs) ∧ xs.length = n) ∨ ∃ l, v = .states l ∧ l.length = n) :
    ∃ v', v.gather is = .ok v' ∧ Full n v' := by
  rcases hv with ⟨xs, rfl, h⟩ | ⟨l, rfl, h⟩
  · obtain ⟨ys, h1, h2⟩ := gather_runs (xs := xs) (is := is) (by rw [h]; exact hi)
    refine ⟨.arr (.vec ys), ?_, by rw [← hl]; exact h2, by simp⟩
    unfold PVal.gather
    simp only
    rw [h1]
    rfl
  · obtain ⟨ys, h1, h2⟩ := gather_runs (xs := l) (is := is) (by rw [h]; exact hi)
    refine ⟨.states ys, ?_, full_states hn (by rw [← hl]; exact h2)⟩
    unfold PVal.gather
    simp only
    rw [h1]
    rfl

theorem moveValues_runs {old : PSState} {isite n : ℕ} {k : Kind} {oldSite newSite : Pos} (h1 : PosOf k oldSite)
    (h2 : PosOf k newSite) {f : PVal → Except PyErr PVal} : ∀ {l : List (String × Param)} (vals : List (String × PVal)) (lpr : PyF),
    (∀ key q, (key, Param.prior q) ∈ l → PriorSafe k q ∧ ∃ x, numAt (old.get key) isite = .ok x) →
    (∀ kp ∈ l, ∃ v v', old.get kp.1 = some v ∧ f v = .ok v' ∧ Full n v') →
    (dkeys vals).Nodup → (∀ kv ∈ vals, Full n kv.2) →
    ∃ out, moveValues old isite oldSite newSite f l vals lpr = .ok out ∧ (∀ kv ∈ out.1, Full n kv.2) ∧
      ∀ key, key ∉ l.map (·.1) → dget out.1 key = dget vals key
  | [], vals, lpr, _, _, _, hf => ⟨(vals, lpr), rfl, hf, fun _ _ => rfl⟩
  | (name, p) :: l, vals, lpr, hp, hg, hnd, hf => by
    obtain ⟨v, v', e1, e2, e3⟩ := hg _ (List.mem_cons_self ..)
    simp only at e1
    have hlp : ∃ lpr', (match p with
      | .prior p =>
        if p.hasPosition then do
          let x ← numAt (old.get name) isite
          let a ← p.logPrior x oldSite
          let b ← p.logPrior x newSite
          return lpr.add (b.sub a)
        else return lpr
      | .space _ => return lpr : Except PyErr PyF) = .ok lpr' := by
      cases p with
      | space sp => exact ⟨lpr, rfl⟩
      | prior q =>
        obtain ⟨hq, x, hx⟩ := hp name q (List.mem_cons_self ..)
        obtain ⟨a, ha⟩ := logPrior_runs hq h1 x
        obtain ⟨b, hb⟩ := logPrior_runs hq h2 x
        by_cases hpos : q.hasPosition = true
        · refine ⟨lpr.add (b.sub a), ?_⟩
          simp only
          rw [if_pos hpos, hx]
          change (do
            let a ← q.logPrior x oldSite
            let b ← q.logPrior x newSite
            return lpr.add (b.sub a) : Except PyErr PyF) = _
          rw [ha, hb]
          rfl
        · exact ⟨lpr, if_neg hpos⟩
    obtain ⟨lpr', e4⟩ := hlp
    obtain ⟨out, e5, e6, e7⟩ := moveValues_runs h1 h2 (dset vals name v') lpr'
      (fun key q hk => hp key q (List.mem_cons_of_mem _ hk)) (fun kp hk => hg kp (List.mem_cons_of_mem _ hk))
      (nodup_dset _ _ _ hnd) (fun kv hkv => by
        rcases mem_dset hnd hkv with h1 | rfl
        · exact hf kv h1.1
        · exact e3)
    refine ⟨out, ?_, e6, fun key hkey => ?_⟩
    · rw [moveValues.eq_def]
      simp only
      refine bindE_ok.2 ⟨lpr', e4, bindE_ok.2 ⟨v', ?_, e5⟩⟩
      rw [e1]
      exact e2
    · rw [List.map_cons, List.mem_cons, not_or] at hkey
      rw [e7 key hkey.2, dget_dset_ne _ _ _ _ hkey.1]

theorem vorMove_runs {sp : Space} (h : Safe sp) (hk : sp.info.kind.isDisc = true) {s : PSState} (hs : SConf vecVal sp s)
    {isite : ℕ} (hi : isite < s.n) : Runs (vorMove sp s isite) (fun r => ∃ a, r.1.get "discretization" = some (.arr a) ∧
      ∀ v, sp.info.kind = .vor2 v → ∃ ps, a = .pts ps) := by
  obtain ⟨a, h1, h2, h3⟩ := conf_sites h hk hs
  have hent := conf_entries h hs hi
  have hpr : ∀ key q, (key, Param.prior q) ∈ sp.params.toList → PriorSafe sp.info.kind q ∧
      ∃ x, numAt (s.get key) isite = .ok x := fun key q hq => ⟨h.safe.priors key q hq, hent.nums key q hq⟩
  have hval : ∀ kp ∈ sp.params.toList, ∃ v, s.get kp.1 = some v ∧
      ((∃ xs, v = .arr (.vec xs) ∧ xs.length = s.n) ∨ ∃ l, v = .states l ∧ l.length = s.n) := by
    rintro ⟨key, p⟩ hkp
    cases p with
    | prior q =>
      obtain ⟨xs, f1, f2⟩ := conf_prior h hs hkp
      exact ⟨_, f1, Or.inl ⟨xs, rfl, f2⟩⟩
    | space sp1 =>
      obtain ⟨l, f1, f2, _⟩ := conf_space h hs hkp
      exact ⟨_, f1, Or.inr ⟨l, rfl, f2⟩⟩
  have hstd := h.safe.plane
  have hn := conf_pos h hs
  unfold vorMove
  cases hkk : sp.info.kind with
  | plain => rw [hkk] at hk; cases hk
  | vor1 v =>
    rw [hkk] at h3 hpr
    obtain ⟨xs, rfl, hsort, hdom⟩ := h3
    have hlen : xs.length = s.n := by simpa [Arr.positions] using h2
    have hx : xs[isite]? = some (xs[isite]'(by omega)) := List.getElem?_eq_getElem (by omega)
    simp only [h1, hx]
    refine (perturbSite1_runs v _).bind' fun y hy => ?_
    have hperm := v.argsort.perm (xs.set isite y)
    have hlt : ∀ i ∈ v.argsort.f (xs.set isite y), i < s.n := by
      intro i hi
      have := hperm.mem_iff.1 hi
      simpa [hlen] using this
    have hll : (v.argsort.f (xs.set isite y)).length = s.n := by
      rw [hperm.length_eq]
      simp [hlen]
    obtain ⟨sites, e1, e2⟩ := gather_runs (xs := xs.set isite y) (is := v.argsort.f (xs.set isite y)) (by
      rw [List.length_set, hlen]; exact hlt)
    refine (Runs.lift' (P := fun z => z = sites) ⟨sites, e1, rfl⟩).bind' fun z hz => ?_
    subst hz
    obtain ⟨out, e3, e4, e5⟩ := moveValues_runs (old := s) (isite := isite) (n := s.n) (k := .vor1 v)
      (oldSite := .one (xs[isite]'(by omega))) (newSite := .one y) ⟨_, rfl, hdom _ (List.getElem_mem _)⟩ ⟨_, rfl, hy⟩
      (f := fun w => w.gather (v.argsort.f (xs.set isite y))) (l := sp.params.toList)
      [("discretization", .arr (.vec z))] (.fin 0) hpr (fun kp hkp => by
        obtain ⟨w, f1, f2⟩ := hval kp hkp
        obtain ⟨w', f3, f4⟩ := gatherVal_runs hn hlt hll f2
        exact ⟨w, w', f1, f3, f4⟩) (by simp [dkeys]) (by
        intro kv hkv
        rw [List.mem_singleton] at hkv
        subst hkv
        exact ⟨by rw [← hll]; exact e2, by simp⟩)
    refine (Runs.lift' (P := fun z => z = out) ⟨out, e3, rfl⟩).bind' fun out' ho => ?_
    subst ho
    refine (Runs.lift' (P := fun z => z.vals = out'.1) ⟨_, mkPS_runs e4, rfl⟩).bind' fun new hnew => Runs.pure' ?_
    refine ⟨.vec z, ?_, fun v hv => by cases hv⟩
    change dget new.vals _ = _
    rw [hnew, e5 _ h.ok.disc]
    rfl
  | vor2 v =>
    rw [hkk] at h3 hpr
    obtain ⟨ps, rfl, hdom⟩ := h3
    have hlen : ps.length = s.n := by simpa [Arr.positions] using h2
    have hx : ps[isite]? = some (ps[isite]'(by omega)) := List.getElem?_eq_getElem (by omega)
    simp only [h1, hx]
    refine (perturbSite2_runs v (hstd v hkk) _).bind' fun y hy => ?_
    obtain ⟨out, e3, e4, e5⟩ := moveValues_runs (old := s) (isite := isite) (n := s.n) (k := .vor2 v)
      (oldSite := .two (ps[isite]'(by omega))) (newSite := .two y) ⟨_, rfl, hdom _ (List.getElem_mem _)⟩ ⟨_, rfl, hy⟩
      (f := fun w => .ok w) (l := sp.params.toList)
      [("discretization", .arr (.pts (ps.set isite y)))] (.fin 0) hpr (fun kp hkp => by
        obtain ⟨w, f1, f2⟩ := hval kp hkp
        refine ⟨w, w, f1, rfl, ?_⟩
        rcases f2 with ⟨xs, rfl, f2⟩ | ⟨l, rfl, f2⟩
        · exact ⟨f2, by simp⟩
        · exact full_states hn f2) (by simp [dkeys]) (by
        intro kv hkv
        rw [List.mem_singleton] at hkv
        subst hkv
        exact ⟨by simp [PVal.len, Arr.len, hlen], by simp⟩)
    refine (Runs.lift' (P := fun z => z = out) ⟨out, e3, rfl⟩).bind' fun out' ho => ?_
    subst ho
    refine (Runs.lift' (P := fun z => z.vals = out'.1) ⟨_, mkPS_runs e4, rfl⟩).bind' fun new hnew => Runs.pure' ?_
    refine ⟨.pts (ps.set isite y), ?_, fun v _ => ⟨_, rfl⟩⟩
    change dget new.vals _ = _
    rw [hnew, e5 _ h.ok.disc]
    rfl

/-- Moves of sites raise nothing. -/
theorem perturbSite_runs {sp : Space} (h : Safe sp) (hk : sp.info.kind.isDisc = true) {s : PSState}
    (hs : SConf vecVal sp s) {isite : ℕ} (hi : isite < s.n) : Runs (sp.perturbSite s isite) (fun _ => True) := by
  unfold Space.perturbSite
  refine (vorMove_runs h hk hs hi).bind' fun r hr => ?_
  obtain ⟨a, h1, h2⟩ := hr
  obtain ⟨s', h3⟩ := withKd_runs h1 h2
  exact (Runs.lift' (P := fun _ => True) ⟨s', h3, trivial⟩).bind' fun _ _ => Runs.pure' trivial

/-! ### values -/

theorem posAt_runs {sp : Space} (h : Safe sp) {s : PSState} (hs : SConf vecVal sp s) {idx : ℕ} (hi : idx < s.n) :
    ∃ pos, posAt s idx = .ok pos ∧ PosOf sp.info.kind pos := by
  by_cases hk : sp.info.kind.isDisc = true
  · obtain ⟨a, h1, h2, h3⟩ := conf_sites h hk hs
    have hpos : a.positions[idx]? = some (a.positions[idx]'(by omega)) := List.getElem?_eq_getElem (by omega)
    refine ⟨a.positions[idx]'(by omega), ?_, h3.posOf _ (List.mem_of_getElem? hpos)⟩
    unfold posAt
    rw [h1]
    simp only [hpos]
  · have hk' : sp.info.kind.isDisc = false := by simpa using hk
    obtain ⟨poss, hr, _⟩ := plain_rest hk' hs
    refine ⟨.none, ?_, by rw [plain_kind hk']; trivial⟩
    unfold posAt
    rw [disc_notin_get h.ok rfl hr]

theorem perturbPriors_runs {k : Kind} {s : PSState} {idx : ℕ} {pos : Pos} (hpos : posAt s idx = .ok pos) (hP : PosOf k pos) :
    ∀ (ps : List Prior) (vals : List (String × PVal)) (lpr : PyF), (∀ q ∈ ps, PriorSafe k q ∧
      ∃ xs, s.get q.name = some (.arr (.vec xs)) ∧ idx < xs.length) →
    Runs (perturbPriors s idx ps vals lpr) (fun _ => True)
  | [], vals, lpr, _ => by
    rw [perturbPriors]
    exact Runs.pure' trivial
  | q :: ps, vals, lpr, h => by
    obtain ⟨hq, xs, h1, h2⟩ := h q (List.mem_cons_self ..)
    rw [perturbPriors.eq_def]
    simp only [h1]
    refine (Runs.lift' (P := fun _ => True) ⟨xs[idx], ?_, trivial⟩).bind' fun old _ => ?_
    · unfold numAt
      simp only
      rw [List.getElem?_eq_getElem h2]
    · refine (Runs.lift' (P := fun p => p = pos) ⟨pos, hpos, rfl⟩).bind' fun p hp => ?_
      subst hp
      exact (perturbValue_runs' hq hP old false (by simp)).bind' fun r _ =>
        perturbPriors_runs hpos hP ps _ _ fun q' hq' => h q' (List.mem_cons_of_mem _ hq')

theorem values_runs {sp : Space} (h : Safe sp) {s : PSState} (hs : SConf vecVal sp s) (name : String) :
    Runs ((PSFunc.values name sp.params.priors).run s) (fun _ => True) := by
  unfold PSFunc.run
  refine (Runs.randIdx' (conf_pos h hs)).bind' fun idx hi => ?_
  obtain ⟨pos, h1, h2⟩ := posAt_runs h hs hi
  refine (perturbPriors_runs h1 h2 sp.params.priors _ _ fun q hq => ?_).bind' fun _ _ => Runs.pure' trivial
  obtain ⟨k, hk⟩ := mem_priors.1 hq
  obtain ⟨xs, e1, e2⟩ := conf_prior h hs hk
  have hname : k = q.name := h.ok.key k (.prior q) hk
  rw [← hname]
  exact ⟨h.safe.priors k q hk, xs, e1, by omega⟩

/-- Every perturbation that a space offers raises nothing. -/
theorem func_runs {sp : Space} (h : Safe sp) {s : PSState} (hs : SConf vecVal sp s) {f : PSFunc}
    (hf : f ∈ sp.ownPert.funcs) : Runs (f.run s) (fun _ => True) := by
  unfold Space.ownPert at hf
  simp only [List.mem_map] at hf
  obtain ⟨fw, hf, rfl⟩ := hf
  unfold Space.ownFuncs at hf
  rw [List.mem_append, List.mem_append] at hf
  rcases hf with (hf | hf) | hf
  · split at hf
    · rcases List.mem_cons.1 hf with rfl | hf
      · exact birth_runs h hs
      · rw [List.mem_singleton] at hf
        subst hf
        exact death_runs h hs
    · simp at hf
  · split at hf
    · simp at hf
    · rw [List.mem_singleton] at hf
      subst hf
      exact values_runs h hs _
  · split at hf
    · rename_i hd
      rw [List.mem_singleton] at hf
      subst hf
      exact (Runs.randIdx' (conf_pos h hs)).bind' fun idx hi => perturbSite_runs h hd hs hi
    · simp at hf

end BB.Lemmas
