import Verif.Lemmas.MoveRun

/-!
# What the perturbation of a site computes
-/

namespace BB.Lemmas

open BB BB.Spec BB.Props MeasureTheory ProbabilityTheory

section

variable {P : Type} [MeasurableSpace P] {k : ℕ}

/-- What is used of the perturbation of a site. -/
def SiteRuns {α : Type} (sp : Space) (prs : Fin k → Prior) (col : List P → List (String × PVal)) (ok : List P → Prop) (dom : Set P)
    (step : P → α → P) (enc : α → List Draw) (dens : Fin k → P → ℝ → ℝ) : Prop :=
  ∀ (l : List (P × (Fin k → ℝ))) (s : PSState), Holds col prs l s → ∀ (m : ℕ) (hm : m % l.length < l.length),
    (l[m % l.length]).1 ∈ dom → ∀ ω : ℕ → α, (∃ j, step (l[m % l.length]).1 (ω j) ∈ dom) →
    ∃ l' s' lpr, l'.Perm (l.set (m % l.length) (newSite (landIn step dom) l[m % l.length] ω)) ∧ Holds col prs l' s' ∧
      ok (l'.map Prod.fst) ∧
      (∀ rest, (PSFunc.site sp).run s (indexDraw m :: (landTape enc step dom (l[m % l.length]).1 ω ++ rest)) =
        (.ok (s', lpr), rest)) ∧
      (0 < priorDens dens l[m % l.length] → lpr = logOf (priorDens dens (newSite (landIn step dom) l[m % l.length] ω) /
        priorDens dens l[m % l.length]))

theorem stored_plain {sp : Space} {prs : Fin k → Prior} (hp : OnlyPriors sp prs) : Stored prs noSites fun _ => .none where
  keys := fun xs => by
    simp only [noSites, dkeys, List.map_nil, List.nil_append]
    exact List.nodup_ofFn.2 hp.inj
  get := fun l s hl j => by
    unfold PSState.get
    refine dget_of_mem ?_ ?_
    · rw [hl.2]
      simp only [noSites, dkeys, List.nil_append, List.map_ofFn]
      exact List.nodup_ofFn.2 hp.inj
    · rw [hl.2]
      exact List.mem_ofFn.2 ⟨j, rfl⟩
  pos := fun l s hl i h => by
    unfold posAt
    have : s.get "discretization" = none := by
      unfold PSState.get
      refine dget_none_iff.2 ?_
      rw [hl.2]
      simp only [noSites, dkeys, List.nil_append, List.map_ofFn]
      intro hc
      obtain ⟨j, hj⟩ := List.mem_ofFn.1 hc
      exact hp.disc j hj
    rw [this]

omit [MeasurableSpace P] in
theorem stored_disc {sp : Space} {prs : Fin k → Prior} (hp : OnlyPriors sp prs) {disc : List P → Arr} {loc : P → Pos}
    (hpos : ∀ xs, (disc xs).positions = xs.map loc) : Stored prs (fun xs => [("discretization", .arr (disc xs))]) loc where
  keys := fun xs => by
    simp only [dkeys, List.map_cons, List.map_nil, List.singleton_append]
    refine List.nodup_cons.2 ⟨fun hc => ?_, List.nodup_ofFn.2 hp.inj⟩
    obtain ⟨j, hj⟩ := List.mem_ofFn.1 hc
    exact hp.disc j hj
  get := fun l s hl j => (holds_get (disc := fun xs => .arr (disc xs)) hp hl).2 j
  pos := fun l s hl i h => by
    unfold posAt
    rw [(holds_get (disc := fun xs => .arr (disc xs)) hp hl).1]
    simp only [hpos]
    rw [List.getElem?_map, List.getElem?_map, List.getElem?_eq_getElem h]
    rfl

omit [MeasurableSpace P] in
theorem set_site {α : Type} {g : P → α → P} {l : List (P × (Fin k → ℝ))} {i : ℕ} (hi : i < l.length) (ω : α) (j : Fin k) :
    (l.set i (newSite g l[i] ω)).map (fun r => r.2 j) = l.map fun r => r.2 j := by
  rw [List.map_set]
  have h3 : i < (l.map fun r => r.2 j).length := by rw [List.length_map]; exact hi
  have h4 : (newSite g l[i] ω).2 j = (l.map fun r => r.2 j)[i] := by
    rw [List.getElem_map]
    rfl
  rw [h4]
  exact List.set_getElem_self h3

end

section

variable {k : ℕ} {sp : Space} {prs : Fin k → Prior}

theorem site_runs_line {v : Vor1} (hk : sp.info.kind = .vor1 v) (hp : OnlyPriors sp prs) {dens : Fin k → ℝ → ℝ → ℝ}
    (hd : ∀ j, HasDensity (prs j) Pos.one (Set.Icc v.vmin v.vmax) (dens j))
    (hsame : ∀ j, SameEverywhere (prs j) (Set.Icc v.vmin v.vmax) (dens j)) :
    SiteRuns sp prs lineSites (fun xs => xs.Pairwise (· ≤ ·)) (Set.Icc v.vmin v.vmax) (lineStep v) gaussDraw dens := by
  intro l s hl m hm hx ω hω
  set i := m % l.length with hi
  set r := l[i] with hr
  set y := landIn (lineStep v) (Set.Icc v.vmin v.vmax) r.1 ω with hy
  set l2 := l.set i (newSite (landIn (lineStep v) (Set.Icc v.vmin v.vmax)) r ω) with hl2
  obtain ⟨g1, g2⟩ := holds_get (disc := fun xs => .arr (.vec xs)) hp hl
  have hnum : ∀ j, numAt (s.get (prs j).name) i = .ok (r.2 j) := by
    intro j
    rw [g2 j]
    unfold numAt
    simp only [List.getElem?_map, List.getElem?_eq_getElem hm]
    rfl
  obtain ⟨lp, h1, h2⟩ := site_ratio hd hsame hx (landIn_in hω) hnum
  have e0 : l2.map Prod.fst = (l.map Prod.fst).set i y := by
    rw [hl2, List.map_set]
    rfl
  have hlen2 : l2.length = l.length := List.length_set ..
  set isort := v.argsort.f (l2.map Prod.fst) with hisort
  have hperm : isort.Perm (List.range l2.length) := by
    have := v.argsort.perm (l2.map Prod.fst)
    rwa [List.length_map] at this
  obtain ⟨l', hg, hlen'⟩ := gather_runs (xs := l2) (is := isort) fun j hj => List.mem_range.1 (hperm.mem_iff.1 hj)
  have hsites : gather ((l.map Prod.fst).set i y) isort = .ok (l'.map Prod.fst) := by
    rw [← e0]
    exact gather_map hg
  have hcols : ∀ j, gather (l.map fun r => r.2 j) isort = .ok (l'.map fun r => r.2 j) := by
    intro j
    have := gather_map (f := fun r : ℝ × (Fin k → ℝ) => r.2 j) hg
    rwa [hl2, hr, set_site hm ω j] at this
  let ws : List Moved := List.ofFn fun j => ⟨prs j, .arr (.vec (l'.map fun r => r.2 j)), lp j⟩
  have hmv := moveValues_run (old := s) (isite := i) (oldSite := .one r.1) (newSite := .one y) (f := fun v => v.gather isort)
    ws [("discretization", .arr (.vec (l'.map Prod.fst)))] (.fin 0) (by
      have := (stored_disc (disc := fun xs => .vec xs) (loc := Pos.one) hp fun _ => rfl).keys (l'.map Prod.fst)
      simp only [ws, List.map_ofFn]
      exact this) (by
    intro w hw
    obtain ⟨j, rfl⟩ := List.mem_ofFn.1 hw
    refine ⟨⟨_, g2 j, ?_⟩, (h1 j).1, (h1 j).2⟩
    simp only [PVal.gather, hcols j]
    rfl)
  have e1 : ws.map (fun w => (w.prior.name, Param.prior w.prior)) = sp.params.toList := by
    rw [hp.params]
    simp only [ws, List.map_ofFn]
    rfl
  have e2 : ws.map (fun w => (w.prior.name, w.val)) =
      List.ofFn fun j => ((prs j).name, PVal.arr (.vec (l'.map fun r => r.2 j))) := by
    simp only [ws, List.map_ofFn]
    rfl
  have e3 : ws.map Moved.ratio = List.ofFn lp := by
    simp only [ws, List.map_ofFn]
    rfl
  rw [e1, e2, e3] at hmv
  have hp2 : l'.Perm l2 := gather_perm hperm hg (gather_range l2)
  have hmk := mkPS_arrays (n := s.n) (vals := [("discretization", PVal.arr (.vec (l'.map Prod.fst)))] ++
      List.ofFn fun j => ((prs j).name, PVal.arr (.vec (l'.map fun r => r.2 j)))) (by
    intro kv hkv
    have hn : s.n = l'.length := by rw [hl.1, hp2.length_eq, hlen2]
    rcases List.mem_append.1 hkv with h | h
    · rw [List.mem_singleton] at h
      subst h
      exact ⟨by rw [len_vec, List.length_map, hn], _, rfl⟩
    · obtain ⟨j, rfl⟩ := List.mem_ofFn.1 h
      exact ⟨by rw [len_vec, List.length_map, hn], _, rfl⟩)
  refine ⟨l', .mk s.n ([("discretization", PVal.arr (.vec (l'.map Prod.fst)))] ++
    List.ofFn fun j => ((prs j).name, PVal.arr (.vec (l'.map fun r => r.2 j)))) none, (List.ofFn lp).foldl PyF.add (.fin 0), hp2, ?_, ?_,
    fun rest => ?_, h2⟩
  rotate_left
  · have h3 := gather_eq_map hsites
    have h4 := v.argsort.sorted (l2.map Prod.fst)
    rw [h3, ← e0]
    exact h4
  · unfold PSFunc.run
    have hn : s.n ≠ 0 := by
      rw [hl.1]
      omega
    refine (M.bind_of (M.randIdx_run hn _ _)).trans ?_
    have : (indexDraw m).n % s.n = i := by
      rw [hl.1]
      rfl
    rw [this]
    unfold Space.perturbSite vorMove
    rw [hk]
    simp only [g1]
    have hget : (l.map Prod.fst)[i]? = some r.1 := by
      rw [List.getElem?_map, List.getElem?_eq_getElem hm]
      rfl
    rw [hget]
    simp only
    have hin : ((do
        let y ← v.perturbSite r.1
        let sites ← M.lift (gather ((l.map Prod.fst).set i y) (v.argsort.f ((l.map Prod.fst).set i y)))
        let (vals, lpr) ← M.lift (moveValues s i (.one r.1) (.one y) (fun w => w.gather (v.argsort.f ((l.map Prod.fst).set i y)))
          sp.params.toList [("discretization", .arr (.vec sites))] (.fin 0))
        let new ← M.lift (mkPS s.n vals)
        return (new, lpr)) : M (PSState × PyF)) (landTape gaussDraw (lineStep v) (Set.Icc v.vmin v.vmax) r.1 ω ++ rest) =
        (.ok (.mk s.n ([("discretization", PVal.arr (.vec (l'.map Prod.fst)))] ++
          List.ofFn fun j => ((prs j).name, PVal.arr (.vec (l'.map fun r => r.2 j)))) none,
          (List.ofFn lp).foldl PyF.add (.fin 0)), rest) := by
      refine (M.bind_of (perturbSite_line hω rest)).trans ?_
      rw [← hy, ← e0, ← hisort, e0, hsites]
      refine (M.bind_of rfl).trans ?_
      simp only [hmv]
      refine (M.bind_of rfl).trans ?_
      simp only [hmk]
      exact (M.bind_of rfl).trans rfl
    refine (M.bind_of hin).trans ?_
    exact (M.bind_of rfl).trans rfl
  · refine ⟨?_, rfl⟩
    change s.n = _
    rw [hl.1, hp2.length_eq, hlen2]

theorem site_runs_plane {v : Vor2} (hk : sp.info.kind = .vor2 v) (hp : OnlyPriors sp prs) (hs : 0 ≤ v.std.1 ∧ 0 ≤ v.std.2)
    {dens : Fin k → ℝ × ℝ → ℝ → ℝ} (hd : ∀ j, HasDensity (prs j) Pos.two (domain2 v) (dens j))
    (hsame : ∀ j, SameEverywhere (prs j) (domain2 v) (dens j)) :
    SiteRuns sp prs planeSites (fun _ => True) (domain2 v) (planeStep v) pairDraw dens := by
  intro l s hl m hm hx ω hω
  set i := m % l.length with hi
  set r := l[i] with hr
  set y := landIn (planeStep v) (domain2 v) r.1 ω with hy
  set l2 := l.set i (newSite (landIn (planeStep v) (domain2 v)) r ω) with hl2
  obtain ⟨g1, g2⟩ := holds_get (disc := fun xs => .arr (.pts xs)) hp hl
  have hnum : ∀ j, numAt (s.get (prs j).name) i = .ok (r.2 j) := by
    intro j
    rw [g2 j]
    unfold numAt
    simp only [List.getElem?_map, List.getElem?_eq_getElem hm]
    rfl
  obtain ⟨lp, h1, h2⟩ := site_ratio hd hsame hx (landIn_in hω) hnum
  have e0 : l2.map Prod.fst = (l.map Prod.fst).set i y := by
    rw [hl2, List.map_set]
    rfl
  have hlen2 : l2.length = l.length := List.length_set ..
  have hcols : ∀ j, l.map (fun r => r.2 j) = l2.map fun r => r.2 j := fun j => by rw [hl2, hr, set_site hm ω j]
  let ws : List Moved := List.ofFn fun j => ⟨prs j, .arr (.vec (l2.map fun r => r.2 j)), lp j⟩
  have hmv := moveValues_run (old := s) (isite := i) (oldSite := .two r.1) (newSite := .two y) (f := fun v => .ok v)
    ws [("discretization", .arr (.pts (l2.map Prod.fst)))] (.fin 0) (by
      have := (stored_disc (disc := fun xs => .pts xs) (loc := Pos.two) hp fun _ => rfl).keys (l2.map Prod.fst)
      simp only [ws, List.map_ofFn]
      exact this) (by
    intro w hw
    obtain ⟨j, rfl⟩ := List.mem_ofFn.1 hw
    refine ⟨⟨_, g2 j, ?_⟩, (h1 j).1, (h1 j).2⟩
    rw [hcols j])
  have e1 : ws.map (fun w => (w.prior.name, Param.prior w.prior)) = sp.params.toList := by
    rw [hp.params]
    simp only [ws, List.map_ofFn]
    rfl
  have e2 : ws.map (fun w => (w.prior.name, w.val)) =
      List.ofFn fun j => ((prs j).name, PVal.arr (.vec (l2.map fun r => r.2 j))) := by
    simp only [ws, List.map_ofFn]
    rfl
  have e3 : ws.map Moved.ratio = List.ofFn lp := by
    simp only [ws, List.map_ofFn]
    rfl
  rw [e1, e2, e3] at hmv
  have hmk := mkPS_arrays (n := s.n) (vals := [("discretization", PVal.arr (.pts (l2.map Prod.fst)))] ++
      List.ofFn fun j => ((prs j).name, PVal.arr (.vec (l2.map fun r => r.2 j)))) (by
    intro kv hkv
    have hn : s.n = l2.length := by rw [hl.1, hlen2]
    rcases List.mem_append.1 hkv with h | h
    · rw [List.mem_singleton] at h
      subst h
      exact ⟨by rw [len_pts, List.length_map, hn], _, rfl⟩
    · obtain ⟨j, rfl⟩ := List.mem_ofFn.1 h
      exact ⟨by rw [len_vec, List.length_map, hn], _, rfl⟩)
  obtain ⟨kd', hkd⟩ := withKd_plane (v := v) (n := s.n) (ps := l2.map Prod.fst)
    (vals := List.ofFn fun j => ((prs j).name, PVal.arr (.vec (l2.map fun r => r.2 j)))) (kd := none)
  refine ⟨l2, .mk s.n (("discretization", PVal.arr (.pts (l2.map Prod.fst))) ::
    List.ofFn fun j => ((prs j).name, PVal.arr (.vec (l2.map fun r => r.2 j)))) kd', (List.ofFn lp).foldl PyF.add (.fin 0), .refl _, ?_, trivial,
    fun rest => ?_, h2⟩
  rotate_left
  · unfold PSFunc.run
    have hn : s.n ≠ 0 := by
      rw [hl.1]
      omega
    refine (M.bind_of (M.randIdx_run hn _ _)).trans ?_
    have : (indexDraw m).n % s.n = i := by
      rw [hl.1]
      rfl
    rw [this]
    unfold Space.perturbSite vorMove
    rw [hk]
    simp only [g1]
    have hget : (l.map Prod.fst)[i]? = some r.1 := by
      rw [List.getElem?_map, List.getElem?_eq_getElem hm]
      rfl
    rw [hget]
    simp only
    have hin : ((do
        let q ← v.perturbSite r.1
        let (vals, lpr) ← M.lift (moveValues s i (.two r.1) (.two q) (fun w => .ok w)
          sp.params.toList [("discretization", .arr (.pts ((l.map Prod.fst).set i q)))] (.fin 0))
        let new ← M.lift (mkPS s.n vals)
        return (new, lpr)) : M (PSState × PyF)) (landTape pairDraw (planeStep v) (domain2 v) r.1 ω ++ rest) =
        (.ok (.mk s.n ([("discretization", PVal.arr (.pts (l2.map Prod.fst)))] ++
          List.ofFn fun j => ((prs j).name, PVal.arr (.vec (l2.map fun r => r.2 j)))) none,
          (List.ofFn lp).foldl PyF.add (.fin 0)), rest) := by
      refine (M.bind_of (perturbSite_plane hs hω rest)).trans ?_
      rw [← hy, ← e0]
      simp only [hmv]
      refine (M.bind_of rfl).trans ?_
      simp only [hmk]
      exact (M.bind_of rfl).trans rfl
    refine (M.bind_of hin).trans ?_
    have hkd2 : (Kind.vor2 v).withKd (.mk s.n ([("discretization", PVal.arr (.pts (l2.map Prod.fst)))] ++
          List.ofFn fun j => ((prs j).name, PVal.arr (.vec (l2.map fun r => r.2 j)))) none) = _ := hkd
    simp only [hkd2]
    exact (M.bind_of rfl).trans rfl
  · refine ⟨?_, rfl⟩
    change s.n = _
    rw [hl.1, hlen2]

end

end BB.Lemmas
