import Verif.Lemmas.ConformVisited

/-!
# The invariant of parameter-space states: what follows from it
-/

namespace BB.Lemmas

open BB BB.Spec

/-! ### parameterizations that are as asked -/

mutual
theorem good_S {vs : ValSpec} : ∀ (sp : Space), (∀ sp', SubSpace sp sp' → SpaceOk sp') →
    (∀ sp' k q, SubSpace sp sp' → (k, Param.prior q) ∈ sp'.params.toList → ValOK vs q) →
    (∀ sp' k sp1, SubSpace sp sp' → (k, Param.space sp1) ∈ sp'.params.toList → vs.O ∨ Listed sp1) → SGood vs sp
  | .mk info ps, h1, h2, h4 => by
    rw [SGood]
    refine ⟨h1 _ .refl, good_L ps (fun k sp1 hk sp' hs => h1 sp' (.step hk hs))
      (fun k q hk => h2 _ k q .refl hk) (fun k sp1 hk sp' k' q hs => h2 sp' k' q (.step hk hs))
      (fun k sp1 hk => h4 _ k sp1 .refl hk) fun k sp1 hk sp' k' sp2 hs => h4 sp' k' sp2 (.step hk hs)⟩
theorem good_L {vs : ValSpec} : ∀ (ps : ParamList),
    (∀ k sp1, (k, Param.space sp1) ∈ ps.toList → ∀ sp', SubSpace sp1 sp' → SpaceOk sp') →
    (∀ k q, (k, Param.prior q) ∈ ps.toList → ValOK vs q) →
    (∀ k sp1, (k, Param.space sp1) ∈ ps.toList → ∀ sp' k' q, SubSpace sp1 sp' →
      (k', Param.prior q) ∈ sp'.params.toList → ValOK vs q) →
    (∀ k sp1, (k, Param.space sp1) ∈ ps.toList → vs.O ∨ Listed sp1) →
    (∀ k sp1, (k, Param.space sp1) ∈ ps.toList → ∀ sp' k' sp2, SubSpace sp1 sp' →
      (k', Param.space sp2) ∈ sp'.params.toList → vs.O ∨ Listed sp2) → LGood vs ps
  | .nil, _, _, _, _, _ => by rw [LGood]; trivial
  | .cons name p rest, h1, h2, h3, h4, h5 => by
    rw [LGood]
    have hm : ∀ {x}, x ∈ rest.toList → x ∈ (ParamList.cons name p rest).toList := by
      intro x hx; rw [ParamList.toList]; exact List.mem_cons_of_mem _ hx
    have h0 : (name, p) ∈ (ParamList.cons name p rest).toList := by
      rw [ParamList.toList]; exact List.mem_cons_self ..
    refine ⟨?_, good_L rest (fun k sp1 hk => h1 k sp1 (hm hk)) (fun k q hk => h2 k q (hm hk))
      (fun k sp1 hk => h3 k sp1 (hm hk)) (fun k sp1 hk => h4 k sp1 (hm hk)) fun k sp1 hk => h5 k sp1 (hm hk)⟩
    cases p with
    | prior q => rw [PGood]; exact h2 name q h0
    | space sp => rw [PGood]; exact ⟨good_S sp (h1 name sp h0) (h3 name sp h0) (h5 name sp h0), h4 name sp h0⟩
end

theorem good_problem {vs : ValSpec} {p : Problem} (hp : ProblemOk p)
    (hv : ∀ sp k q, Occurs p sp → (k, Param.prior q) ∈ sp.params.toList → ValOK vs q)
    (hO : ∀ sp k sp1, Occurs p sp → (k, Param.space sp1) ∈ sp.params.toList → vs.O ∨ Listed sp1) :
    ∀ k sp, (k, sp) ∈ p.spaces → SGood vs sp := fun k sp hk =>
  good_S sp (fun sp' hs => hp.ok sp' ⟨k, sp, hk, hs⟩) (fun sp' k' q hs => hv sp' k' q ⟨k, sp, hk, hs⟩)
    fun sp' k' sp1 hs => hO sp' k' sp1 ⟨k, sp, hk, hs⟩

/-- Nothing is asked of the values. -/
def anyVal : ValSpec := ⟨fun _ _ _ => True, fun _ => False, True⟩

theorem anyVal_ok (q : Prior) : ValOK anyVal q where
  none := fun _ => trivial
  init := fun ps t a t' _ => ⟨fun h => absurd h id, fun xs _ hl =>
    List.forall₂_iff_get.2 ⟨hl.symm, fun _ _ _ => trivial⟩⟩
  sample := fun _ _ _ _ _ => trivial
  perturb := fun _ _ _ _ _ _ _ => trivial
  fromNb := fun _ _ _ _ _ _ _ => trivial
  move := fun _ _ _ _ _ => trivial
  free := fun _ _ => trivial

/-- The bounds of uniform priors. -/
def bounds : ValSpec where
  V := fun p pos x => ∀ vmin vmax, p.dist = .uniform vmin vmax →
    ∀ lo hi, vmin.get pos = .ok lo → vmax.get pos = .ok hi → lo ≤ x ∧ x ≤ hi
  R := fun p => ∃ vmin vmax, p.dist = .uniform vmin vmax
  O := True

theorem get_none {h : Hyper} {x : ℝ} (hx : h.get .none = .ok x) (pos : Pos) : h.get pos = .ok x := by
  cases h with
  | const y => cases pos <;> exact hx
  | line xs ys => cases hx
  | plane f => cases hx

theorem mapM_forall₂ {α β : Type} {f : α → Except PyErr β} : ∀ {l : List α} {out : List β},
    l.mapM f = .ok out ↔ List.Forall₂ (fun a b => f a = .ok b) l out
  | [], out => by
    rw [List.mapM_nil, List.forall₂_nil_left_iff, pureE_ok]; exact eq_comm
  | a :: l, out => by
    rw [List.mapM_cons, List.forall₂_cons_left_iff, bindE_ok]
    constructor
    · rintro ⟨b, h1, h2⟩
      obtain ⟨bs, h3, h4⟩ := bindE_ok.1 h2
      rw [pureE_ok] at h4
      exact ⟨b, bs, h1, mapM_forall₂.1 h3, h4.symm⟩
    · rintro ⟨b, bs, h1, h2, rfl⟩
      exact ⟨b, h1, bindE_ok.2 ⟨bs, mapM_forall₂.2 h2, rfl⟩⟩

theorem forEach_forall₂ {α β : Type} {f : α → M β} {R : α → β → Prop}  :
    ∀ (l : List α), (∀ a ∈ l, Post (f a) (R a)) → Post (M.forEach f l) (List.Forall₂ R l)
  | [], _ => Post.pure' .nil
  | a :: l, h => by
    rw [M.forEach]
    exact (h a (List.mem_cons_self ..)).bind' fun b hb =>
      (forEach_forall₂ l fun a' ha => h a' (List.mem_cons_of_mem _ ha)).bind' fun bs hbs =>
        Post.pure' (.cons hb hbs)

theorem bounds_ok {q : Prior} (h : ∀ vmin vmax, q.dist = .uniform vmin vmax → UniformOk q vmin vmax) :
    ValOK bounds q := by
  by_cases hu : ∃ vmin vmax, q.dist = .uniform vmin vmax
  swap
  · have hV : ∀ pos x, bounds.V q pos x := fun pos x vmin vmax hd => absurd ⟨vmin, vmax, hd⟩ hu
    exact {
      none := fun _ => hV _ _
      init := fun ps t a t' _ => ⟨fun hr => absurd hr hu, fun xs _ hl =>
        List.forall₂_iff_get.2 ⟨hl.symm, fun _ _ _ => hV _ _⟩⟩
      sample := fun _ _ _ _ _ => hV _ _
      perturb := fun _ _ _ _ _ _ _ => hV _ _
      fromNb := fun _ _ _ _ _ _ _ => hV _ _
      move := fun _ _ _ _ _ => hV _ _
      free := fun _ _ => hV _ _ }
  obtain ⟨vmin, vmax, hd⟩ := hu
  have hok := h vmin vmax hd
  have hV : ∀ {pos x}, bounds.V q pos x ↔
      ∀ lo hi, vmin.get pos = .ok lo → vmax.get pos = .ok hi → lo ≤ x ∧ x ≤ hi := by
    intro pos x
    constructor
    · exact fun hv => hv vmin vmax hd
    · intro hv a b hab
      rw [hd] at hab
      injection hab with h1 h2
      subst h1 h2
      exact hv
  have hlp : ∀ {pos x l}, q.logPrior x pos = .ok l → l ≠ .ninf → bounds.V q pos x := by
    intro pos x l hl hne
    rw [hV]
    intro lo hi h1 h2
    obtain ⟨a, b, e1, e2, e3⟩ := (logPrior_uniform hd).1 hl
    rw [h1] at e1
    injection e1 with e1
    rw [h2] at e2
    injection e2 with e2
    subst e1 e2
    rcases e3 with e3 | ⟨_, e3⟩
    · exact ⟨e3.1, e3.2.1⟩
    · exact absurd e3 hne
  have hsample : ∀ pos, Post (q.sample pos) (bounds.V q pos) := by
    intro pos
    unfold Prior.sample
    rw [hd]
    refine (Post.lift' (P := fun a => vmin.get pos = .ok a) fun a ha => ha).bind' fun a ha =>
      (Post.lift' (P := fun b => vmax.get pos = .ok b) fun b hb => hb).bind' fun b hb => ?_
    refine (Post.uniform' (hok.ordered pos a b ha hb)).mono fun x hx => ?_
    rw [hV]
    intro lo hi h1 h2
    rw [ha] at h1
    injection h1 with h1
    rw [hb] at h2
    injection h2 with h2
    subst h1 h2
    exact hx
  exact {
    none := by
      intro pos x hx
      rw [hV] at *
      exact fun lo hi h1 h2 => hx lo hi (get_none h1 pos) (get_none h2 pos)
    init := by
      intro ps
      unfold Prior.initialize
      cases hi : q.init with
      | some f =>
        intro t a t' ha
        obtain ⟨xs, rfl, hxs⟩ := hok.init f hi ps t a t' ha
        refine ⟨fun _ => ⟨xs, rfl⟩, fun ys hy hl => ?_⟩
        injection hy with hy
        subst hy
        refine List.forall₂_iff_get.2 ⟨hl.symm, fun i h1 h2 => ?_⟩
        rw [hV]
        exact hxs i _ _ (List.getElem?_eq_getElem h1) (List.getElem?_eq_getElem h2)
      | none =>
        simp only [hd]
        refine (Post.lift' (P := fun bs => ps.mapM (fun q => do
          let a ← vmin.get q
          let b ← vmax.get q
          return (a, b)) = Except.ok bs) fun bs hbs => hbs).bind' fun bs hbs => ?_
        refine Post.ite' (fun _ => Post.throw') fun _ => ?_
        rw [mapM_forall₂] at hbs
        have hb2 : List.Forall₂ (fun q (ab : ℝ × ℝ) => vmin.get q = .ok ab.1 ∧ vmax.get q = .ok ab.2) ps bs := by
          refine hbs.imp fun q ab h => ?_
          obtain ⟨a, e1, e2⟩ := bindE_ok.1 h
          obtain ⟨b, e3, e4⟩ := bindE_ok.1 e2
          rw [pureE_ok] at e4
          subst e4
          exact ⟨e1, e3⟩
        refine (forEach_forall₂ (R := fun (ab : ℝ × ℝ) x => ab.1 ≤ x ∧ x ≤ ab.2) bs
          fun ab hab => ?_).bind' fun xs hxs => Post.pure' ?_
        · obtain ⟨pos, _, e1, e2⟩ := forall₂_mem_right hb2 hab
          exact Post.uniform' (hok.ordered pos _ _ e1 e2)
        · refine ⟨fun _ => ⟨xs, rfl⟩, fun ys hy hl => ?_⟩
          injection hy with hy
          subst hy
          refine List.forall₂_iff_get.2 ⟨hl.symm, fun i h1 h2 => ?_⟩
          rw [hV]
          intro lo hi e1 e2
          have h3 : i < bs.length := by rw [hxs.length_eq]; exact h2
          obtain ⟨e3, e4⟩ := (List.forall₂_iff_get.1 hb2).2 i h1 h3
          have e5 := (List.forall₂_iff_get.1 hxs).2 i h3 h2
          rw [e1] at e3
          injection e3 with e3
          rw [e2] at e4
          injection e4 with e4
          rw [e3, e4]
          exact e5
    sample := hsample
    perturb := by
      rintro old pos t ⟨new, r⟩ t' he hr
      obtain ⟨s, a, b, d, _, e1, e2, _, _, e3⟩ := (perturbValue_uniform hd).1 he
      rw [hV]
      intro lo hi h1 h2
      rw [h1] at e1
      injection e1 with e1
      rw [h2] at e2
      injection e2 with e2
      subst e1 e2
      rcases e3 with e3 | ⟨_, e3⟩
      · exact ⟨e3.1, e3.2.1⟩
      · exact absurd e3 hr.1
    fromNb := by
      intro old pos
      unfold Prior.fromNeighbour
      refine Post.bind_any fun new => Post.bind_any fun s =>
        (Post.lift' (P := fun l => q.logPrior new.1 pos = .ok l) fun l hl => hl).bind' fun l hl =>
        Post.bind_any fun g => Post.pure' fun hr => ?_
      exact hlp hl (Ok_add hr).1.1
    move := by
      intro pos pos' x a b _ _ _ hb hok'
      refine hlp hb fun hb' => ?_
      subst hb'
      cases a <;> simp [PyF.Ok, PyF.sub, PyF.neg, PyF.add] at hok'
    free := by
      intro pos pos' x hp hx
      obtain ⟨a, b, rfl, rfl⟩ := hok.const hp
      rw [hV] at *
      intro lo hi h1 h2
      exact hx lo hi (by cases pos <;> exact h1) (by cases pos <;> exact h2) }

/-! ### what the invariant says -/

theorem hasLen_of {v : PVal} {n : ℕ} (h : v.len = n) : HasLen v n := by
  cases v with
  | arr a => cases a <;> exact h
  | states l => exact h
  | objs l => exact h

theorem conf_dims {vs : ValSpec} {sp : Space} {s : PSState} (h : SConf vs sp s) : DimsOk sp.info s.n := by
  obtain ⟨h1, _⟩ := SConf_iff.1 h
  unfold Info.lo Info.hi at h1
  refine ⟨fun m hm => ?_, fun hm => ?_⟩
  · rw [hm] at h1; simp only [Option.getD_some] at h1; omega
  · rw [hm] at h1; simpa using h1

theorem conf_arrays {vs : ValSpec} {sp : Space} (hg : SGood vs sp) {s : PSState} (h : SConf vs sp s) :
    ArraysOk sp s := by
  obtain ⟨h1, hsh, hdr, rest, poss, hv, hh, hr⟩ := SConf_iff.1 h
  have hok := (SGood_iff.1 hg).1
  refine ⟨?_, fun k v hm => hasLen_of (hsh _ hm).1, fun k q hk => ?_, fun k sp1 hk => ?_⟩
  · rw [hv, List.map_append]
    congr 1
    · have := hh.keys
      unfold dkeys at this
      rw [this]
      cases sp.info.kind <;> rfl
    · exact KConf.keys hr
  · obtain ⟨v, e1, e2, _⟩ := get_params hok hv hh hr hsh hk
    simp only at e1 e2
    rw [PConf] at e2
    obtain ⟨a, rfl, _⟩ := e2
    exact ⟨a, e1⟩
  · obtain ⟨v, e1, e2, _⟩ := get_params hok hv hh hr hsh hk
    simp only at e1 e2
    rw [PConf] at e2
    obtain ⟨l, hl, _⟩ := e2
    exact ⟨l, by rcases hl with rfl | ⟨_, rfl⟩; exacts [Or.inl e1, Or.inr e1]⟩

theorem conf_line {vs : ValSpec} {sp : Space} {s : PSState} (h : SConf vs sp s) {v : Vor1}
    (hk : sp.info.kind = .vor1 v) : LineOk v s := by
  obtain ⟨h1, hsh, hdr, rest, poss, hv, hh, hr⟩ := SConf_iff.1 h
  rw [hk] at hh
  obtain ⟨xs, rfl, _, _, h2, h3⟩ := hh
  refine ⟨xs, ?_, ?_, h2, h3⟩
  · unfold PSState.get; rw [hv]; simp [dget]
  · exact (hsh ("discretization", .arr (.vec xs)) (by rw [hv]; simp)).1

theorem conf_plane {vs : ValSpec} {sp : Space} {s : PSState} (h : SConf vs sp s) {v : Vor2}
    (hk : sp.info.kind = .vor2 v) :
    PlaneOk v s ∧ ∀ ks, s.kd = some ks → s.get "discretization" = some (.arr (.pts ks)) := by
  obtain ⟨h1, hsh, hdr, rest, poss, hv, hh, hr⟩ := SConf_iff.1 h
  rw [hk] at hh
  obtain ⟨a, rfl, _, h2, h3⟩ := hh
  have hd : s.get "discretization" = some (.arr a) := by
    unfold PSState.get; rw [hv]; simp [dget]
  have hl := (hsh ("discretization", .arr a) (by rw [hv]; simp)).1
  refine ⟨?_, fun ks hks => by rw [hd, h2 ks hks]⟩
  rcases h3 with rfl | ⟨ps, rfl, h3⟩
  · exact Or.inl ⟨hl.symm, hd⟩
  · exact Or.inr ⟨ps, hd, hl, h3⟩

theorem siteAt_eq {vs : ValSpec} {sp : Space} {s : PSState} (hok : SpaceOk sp) {hdr rest poss}
    (hv : s.vals = hdr ++ rest) (hh : Hdr sp.info.kind s.n s.kd hdr poss)
    (hr : List.Forall₂ (KConf vs poss) sp.params.toList rest) {idx : ℕ} {pos q : Pos}
    (hp : SiteAt s idx pos) (hq : poss[idx]? = some q) : q = pos := by
  refine posAt_eq hok hv hh hr (idx := idx) ?_ hq
  unfold posAt
  rcases hp with ⟨xs, x, h1, h2, rfl⟩ | ⟨ps, x, h1, h2, rfl⟩ | ⟨h1, rfl⟩
  · rw [h1]; simp [Arr.positions, h2]
  · rw [h1]; simp [Arr.positions, h2]
  · rw [h1]

theorem conf_uniform {sp : Space} (hg : SGood bounds sp) {s : PSState} (h : SConf bounds sp s)
    {k : String} {q : Prior} (hk : (k, Param.prior q) ∈ sp.params.toList) {vmin vmax : Hyper}
    (hd : q.dist = .uniform vmin vmax) : UniformWithin q vmin vmax s := by
  obtain ⟨h1, hsh, hdr, rest, poss, hv, hh, hr⟩ := SConf_iff.1 h
  have hok := (SGood_iff.1 hg).1
  obtain ⟨v, e1, e2, e3, _⟩ := get_params hok hv hh hr hsh hk
  simp only at e1 e2 e3
  rw [PConf] at e2
  obtain ⟨a, rfl, e4, e5⟩ := e2
  obtain ⟨xs, rfl⟩ := e4 ⟨vmin, vmax, hd⟩
  have hname : k = q.name := hok.key _ _ hk
  have hlen : poss.length = s.n := hh.length fun kv hkv => hsh kv (by rw [hv]; simp [hkv])
  have e3' : xs.length = s.n := e3
  refine ⟨xs, by rw [← hname]; exact e1, e3', fun i x pos hx hp => ?_⟩
  have e6 := List.forall₂_iff_get.1 (e5 xs rfl (by rw [hlen]; exact e3'))
  obtain ⟨hi, rfl⟩ := List.getElem?_eq_some_iff.1 hx
  have hi' : i < poss.length := by rw [e6.1]; exact hi
  have e7 := e6.2 i hi' hi
  rw [List.get_eq_getElem, List.get_eq_getElem,
    siteAt_eq hok hv hh hr hp (List.getElem?_eq_getElem hi')] at e7
  exact e7 vmin vmax hd

/-! ### newborn states have no tree -/

theorem setVal_kd {s s' : PSState} {k : String} {v : PVal} (h : s.setVal k v = .ok s') : s'.kd = s.kd := by
  unfold PSState.setVal at h
  obtain ⟨_, _, h2⟩ := bindE_ok.1 h
  rw [pureE_ok] at h2
  subst h2
  rfl

theorem mkPS_kd {n : ℕ} {vals : List (String × PVal)} {s : PSState} (h : mkPS n vals = .ok s) :
    s.kd = none := by
  unfold mkPS at h
  obtain ⟨_, _, h2⟩ := bindE_ok.1 h
  rw [pureE_ok] at h2
  subst h2
  rfl

theorem sampleAt_kd : ∀ (ps : ParamList) (sites : List Pos) (s : PSState),
    Post (ps.sampleAt sites s) (fun s' => s'.kd = s.kd)
  | .nil, sites, s => by rw [ParamList.sampleAt]; exact Post.pure' rfl
  | .cons name p rest, sites, s => by
    rw [ParamList.sampleAt]
    refine Post.bind_any fun v => (Post.lift' (P := fun s' => s'.kd = s.kd) fun s' h => setVal_kd h).bind'
      fun s' hs' => (sampleAt_kd rest sites s').mono fun s2 h2 => h2.trans hs'

theorem sample_kd (sp : Space) : Post sp.sample (fun s => s.kd = none) := by
  cases sp with
  | mk info ps =>
    rw [Space.sample]
    refine Post.bind_any fun n => Post.bind_any fun o => ?_
    split
    · exact Post.bind_any fun vals => Post.lift' fun s h => mkPS_kd h
    · refine (Post.lift' (P := fun s => s.kd = none) fun s h => mkPS_kd h).bind' fun s hs =>
        (sampleAt_kd ps _ s).mono fun s2 h2 => h2.trans hs

theorem sampleDisc_kd (sp : Space) : Post sp.sampleDisc (fun s => s.kd = none) := by
  unfold Space.sampleDisc
  refine Post.bind_any fun n => Post.bind_any fun o => ?_
  split
  · exact Post.throw'
  · exact Post.lift' fun s h => mkPS_kd h

theorem fillInitial_kd : ∀ (l : List (String × Param)) (s : PSState),
    Post (fillInitial l s) (fun s' => s'.kd = s.kd)
  | [], s => by rw [fillInitial]; exact Post.pure' rfl
  | (name, p) :: rest, s => by
    rw [fillInitial.eq_def]
    simp only
    refine Post.bind_any fun v => (Post.lift' (P := fun s' => s'.kd = s.kd) fun s' h => setVal_kd h).bind'
      fun s' hs' => (fillInitial_kd rest s').mono fun s2 h2 => h2.trans hs'

theorem fillPoint_kd : ∀ (ps : ParamList) (old : PSState) (i inb : ℕ) (pos : Pos) (acc : PSState × PyF),
    Post (ps.fillPoint old i inb pos acc) (fun r => r.1.kd = acc.1.kd)
  | .nil, old, i, inb, pos, acc => by rw [ParamList.fillPoint]; exact Post.pure' rfl
  | .cons name p rest, old, i, inb, pos, acc => by
    rw [ParamList.fillPoint]
    refine Post.bind' (Q := fun r => r.1.kd = acc.1.kd) ?_ fun r hr =>
      (fillPoint_kd rest old i inb pos r).mono fun r2 h2 => h2.trans hr
    obtain ⟨new, lpr⟩ := acc
    cases p with
    | prior q =>
      rw [Param.fillPoint]
      refine Post.bind_any fun nb => Post.bind_any fun xr =>
        (Post.lift' (P := fun s' => s'.kd = new.kd) fun s' h => ?_).bind' fun s' hs' => Post.pure' hs'
      unfold PSState.setNumAt at h
      split at h
      · split at h
        · injection h with h; subst h; rfl
        · cases h
      · cases h
    | space sp =>
      rw [Param.fillPoint]
      refine Post.ite' (fun _ => ?_) fun _ => Post.pure' rfl
      refine Post.bind_any fun oldi => Post.bind_any fun newi => Post.bind_any fun r => Post.pure' ?_
      change (PSState.setStateAt new name i r.1).kd = new.kd
      unfold PSState.setStateAt
      split <;> rfl

theorem forSites_kd {body : ℕ → Pos → PSState × PyF → M (PSState × PyF)}
    (h : ∀ i p acc, Post (body i p acc) (fun r => r.1.kd = acc.1.kd)) :
    ∀ (ps : List Pos) (i : ℕ) (acc : PSState × PyF),
    Post (forSites body i ps acc) (fun r => r.1.kd = acc.1.kd)
  | [], i, acc => by rw [forSites]; exact Post.pure' rfl
  | p :: ps, i, acc => by
    rw [forSites]
    exact (h i p acc).bind' fun r hr => (forSites_kd h ps (i + 1) r).mono fun r2 h2 => h2.trans hr

theorem sampleFromNeighbour_kd (sp : Space) (old new : PSState) :
    Post (sp.sampleFromNeighbour old new) (fun r => r.1.kd = new.kd) := by
  cases sp with
  | mk info ps =>
    rw [Space.sampleFromNeighbour]
    refine (fillInitial_kd _ new).bind' fun new' hnew => Post.bind_any fun sites => ?_
    exact (forSites_kd (fun i p acc => Post.bind_any fun inb => fillPoint_kd ps old i inb p acc) sites 0
      (new', .fin 0)).mono fun r hr => hr.trans hnew

/-- The newborn nested states. -/
theorem newborn_kd (sp : Space) (pos : Pos) (old : PSState) {k : String} {sp1 : Space}
    (hk : (k, Param.space sp1) ∈ sp.params.toList) :
    Post (sp.newborn pos old) (fun r => r.1.map (·.1) = sp.params.toList.map (·.1) ∧
      ∃ x, (k, NVal.ps x) ∈ r.1 ∧ x.kd = none) := by
  have key1 : ∀ (l : List (String × Param)), Post (newbornFromPrior l pos) (fun r =>
      r.map (·.1) = l.map (·.1) ∧ ((k, Param.space sp1) ∈ l → ∃ x, (k, NVal.ps x) ∈ r ∧ x.kd = none)) := by
    intro l
    induction l with
    | nil => rw [newbornFromPrior]; exact Post.pure' ⟨rfl, by simp⟩
    | cons np rest ih =>
      obtain ⟨name, p⟩ := np
      rw [newbornFromPrior.eq_def]
      simp only
      refine Post.bind' (Q := fun v => ∀ s, p = .space s → ∃ x, v = NVal.ps x ∧ x.kd = none) ?_ fun v hv =>
        ih.bind' fun vs hvs => Post.pure' ⟨by simp [hvs.1], fun hm => ?_⟩
      · cases p with
        | prior q => exact Post.bind_any fun x => Post.pure' fun s hs => by cases hs
        | space s => exact (sample_kd s).bind' fun x hx => Post.pure' fun _ _ => ⟨x, rfl, hx⟩
      · rcases List.mem_cons.1 hm with hm | hm
        · injection hm with h1 h2
          obtain ⟨x, rfl, hx⟩ := hv sp1 h2.symm
          subst h1
          exact ⟨x, List.mem_cons_self .., hx⟩
        · obtain ⟨x, h1, h2⟩ := hvs.2 hm
          exact ⟨x, List.mem_cons_of_mem _ h1, h2⟩
  have key2 : ∀ (inear : ℕ) (l : List (String × Param)) (lpr : PyF),
      Post (newbornFromNeighbour old inear pos l lpr) (fun r =>
      r.1.map (·.1) = l.map (·.1) ∧ ((k, Param.space sp1) ∈ l → ∃ x, (k, NVal.ps x) ∈ r.1 ∧ x.kd = none)) := by
    intro inear l
    induction l with
    | nil => intro lpr; rw [newbornFromNeighbour]; exact Post.pure' ⟨rfl, by simp⟩
    | cons np rest ih =>
      intro lpr
      obtain ⟨name, p⟩ := np
      rw [newbornFromNeighbour.eq_def]
      simp only
      refine Post.bind' (Q := fun v => ∀ s, p = .space s → ∃ x, v.1 = NVal.ps x ∧ x.kd = none) ?_ fun v hv =>
        (ih v.2).bind' fun vs hvs => Post.pure' ⟨by simp [hvs.1], fun hm => ?_⟩
      · cases p with
        | prior q =>
          exact Post.bind_any fun x => Post.bind_any fun y => Post.pure' fun s hs => by cases hs
        | space s =>
          refine Post.ite' (fun _ => ?_) fun _ => Post.bind_any fun _ => Post.throw'
          refine Post.bind_any fun oldi => (sampleDisc_kd s).bind' fun newi hn =>
            (sampleFromNeighbour_kd s oldi newi).bind' fun r hr => Post.pure' fun _ _ => ⟨r.1, rfl, hr.trans hn⟩
      · rcases List.mem_cons.1 hm with hm | hm
        · injection hm with h1 h2
          obtain ⟨x, h3, hx⟩ := hv sp1 h2.symm
          subst h1
          exact ⟨x, by rw [← h3]; exact List.mem_cons_self .., hx⟩
        · obtain ⟨x, h1, h2⟩ := hvs.2 hm
          exact ⟨x, List.mem_cons_of_mem _ h1, h2⟩
  unfold Space.newborn
  refine Post.ite' (fun _ => ?_) fun _ => ?_
  · exact (key1 _).bind' fun r hr => Post.pure' ⟨hr.1, hr.2 hk⟩
  · exact Post.bind_any fun inear => (key2 inear _ _).mono fun r hr => ⟨hr.1, hr.2 hk⟩

theorem addNewborn_get {old : PSState} {add : Option PVal → NVal → Except PyErr PVal} :
    ∀ {nv : List (String × NVal)} {vals out : List (String × PVal)}, (nv.map (·.1)).Nodup →
    addNewborn old add nv vals = .ok out →
    (∀ k x, (k, x) ∈ nv → ∃ v, dget out k = some v ∧ add (old.get k) x = .ok v) ∧
      ∀ k, k ∉ nv.map (·.1) → dget out k = dget vals k
  | [], vals, out, _, h => by
    rw [addNewborn] at h
    injection h with h
    subst h
    exact ⟨by simp, fun _ _ => rfl⟩
  | (name, x) :: rest, vals, out, hnd, h => by
    rw [addNewborn] at h
    obtain ⟨v, h1, h2⟩ := bindE_ok.1 h
    rw [List.map_cons, List.nodup_cons] at hnd
    obtain ⟨h3, h4⟩ := addNewborn_get hnd.2 h2
    refine ⟨fun k y hm => ?_, fun k hk => ?_⟩
    · rcases List.mem_cons.1 hm with hm | hm
      · injection hm with e1 e2
        subst e1 e2
        exact ⟨v, by rw [h4 _ hnd.1]; exact dget_dset_same _ _ _, h1⟩
      · exact h3 k y hm
    · rw [List.map_cons, List.mem_cons, not_or] at hk
      rw [h4 k hk.2]
      exact dget_dset_ne _ _ _ _ hk.1

theorem withKd_vals {k : Kind} {s s' : PSState} (h : k.withKd s = .ok s') : s'.vals = s.vals := by
  unfold Kind.withKd at h
  split at h
  · split at h
    · unfold addKd at h
      split at h
      · injection h with h; subst h; rfl
      · cases h
    · injection h with h; subst h; rfl
  · injection h with h; subst h; rfl

theorem birth_kd {sp : Space} (hok : SpaceOk sp) {s : PSState} (hd : sp.info.kind.isDisc = true)
    (hn : s.n ≠ sp.info.hi) {k : String} {sp1 : Space} (hk : (k, Param.space sp1) ∈ sp.params.toList) :
    Post (sp.birth s) (fun r => ∃ l x, (r.1.get k = some (.states l) ∨ r.1.get k = some (.objs l)) ∧
      x ∈ l ∧ x.kd = none) := by
  have fin : ∀ {nv : List (String × NVal)} {add : Option PVal → NVal → Except PyErr PVal}
      {vals0 vals : List (String × PVal)} {n : ℕ} {new : PSState},
      (∀ v x v', add v (.ps x) = .ok v' → ∃ l, (v' = .states l ∨ v' = .objs l) ∧ x ∈ l) →
      nv.map (·.1) = sp.params.toList.map (·.1) → (∃ x, (k, NVal.ps x) ∈ nv ∧ x.kd = none) →
      addNewborn s add nv vals0 = .ok vals → mkPS n vals = .ok new →
      ∃ l x, (new.get k = some (.states l) ∨ new.get k = some (.objs l)) ∧ x ∈ l ∧ x.kd = none := by
    intro nv add vals0 vals n new ha h1 ⟨x, h2, h3⟩ h4 h5
    obtain ⟨v, e1, e2⟩ := (addNewborn_get (by rw [h1]; exact hok.nodup) h4).1 k _ h2
    obtain ⟨l, e3, e4⟩ := ha _ _ _ e2
    obtain ⟨_, rfl⟩ := mkPS_shape h5
    refine ⟨l, x, ?_, e4, h3⟩
    rcases e3 with rfl | ⟨_, rfl⟩
    · exact Or.inl e1
    · exact Or.inr e1
  unfold Space.birth
  rw [if_pos hd]
  rw [if_neg hn]
  refine Post.bind' (Q := fun r => ∃ l x, (r.1.get k = some (.states l) ∨ r.1.get k = some (.objs l)) ∧
      x ∈ l ∧ x.kd = none) ?_ fun r hr =>
    (Post.lift' (P := fun new => sp.info.kind.withKd r.1 = .ok new) fun new h => h).bind' fun new hnew =>
      Post.pure' (by
        obtain ⟨l, x, h1, h2⟩ := hr
        refine ⟨l, x, ?_, h2⟩
        unfold PSState.get at *
        rw [withKd_vals hnew]
        exact h1)
  unfold vorBirth
  split
  · exact Post.throw'
  · refine Post.bind_any fun x => (newborn_kd sp _ s hk).bind' fun nv hnv => ?_
    obtain ⟨nv, lpr⟩ := nv
    simp only at hnv ⊢
    split
    · refine Post.bind_any fun sites =>
        (Post.lift' (P := fun vals => addNewborn s _ nv _ = .ok vals) fun vals h => h).bind' fun vals hvals =>
        (Post.lift' (P := fun new => mkPS _ vals = .ok new) fun new h => h).bind' fun new hnew =>
        Post.pure' (fin ?_ hnv.1 hnv.2 hvals hnew)
      intro v y v' h
      cases v with
      | none => cases h
      | some v =>
        cases v with
        | arr a => cases a <;> cases h
        | objs l => cases h
        | states l =>
          injection h with h
          exact ⟨_, Or.inl h.symm, by simp [listInsert]⟩
    · exact Post.throw'
  · refine Post.bind_any fun x => (newborn_kd sp _ s hk).bind' fun nv hnv => ?_
    obtain ⟨nv, lpr⟩ := nv
    simp only at hnv ⊢
    split
    · refine
        (Post.lift' (P := fun vals => addNewborn s _ nv _ = .ok vals) fun vals h => h).bind' fun vals hvals =>
        (Post.lift' (P := fun new => mkPS _ vals = .ok new) fun new h => h).bind' fun new hnew =>
        Post.pure' (fin ?_ hnv.1 hnv.2 hvals hnew)
      intro v y v' h
      cases v with
      | none => cases h
      | some v =>
        cases v with
        | arr a => cases a <;> cases h
        | objs l =>
          injection h with h
          exact ⟨_, Or.inr h.symm, by simp⟩
        | states l =>
          injection h with h
          exact ⟨_, Or.inl h.symm, by simp⟩
    · exact Post.throw'

end BB.Lemmas
