import Verif.Lemmas.TruncatedPlane
import Verif.Props.C24_Redrawn

/-!
# C24 in the plane

The proposals of the sites of `Voronoi2D`, both coordinates of which are redrawn until they are in the domain.
-/

namespace BB.Props

open BB Spec Lemmas MeasureTheory ProbabilityTheory

/-- The law of a moved site in the plane has the density `redrawn2`. -/
theorem C24_density_plane (v : Vor2) (h1 : 0 < v.std.1) (h2 : 0 < v.std.2) (hD : MeasurableSet {q | InDomain v q})
    (hv : volume {q | InDomain v q} ≠ 0) (p : ℝ × ℝ) (A : Set (ℝ × ℝ)) (hA : MeasurableSet A) :
    Measure.infinitePi (fun _ : ℕ => stdNormal.prod stdNormal)
      {ω | ∃ n y rest, y ∈ A ∧ v.perturbSite p (tape normals2 ω n) = (.ok y, rest)} =
      ∫⁻ y in {q | InDomain v q} ∩ A, ENNReal.ofReal (redrawn2 v.std {q | InDomain v q} p y) := by
  rw [C24_law_site2 v h1.le h2.le hD p A hA, cond_gaussian2 h1 h2 hD hv p hA]

/-- C24 for the sites in the plane: the ratio reported is the prior ratio of the values in the moved cell (C65), without the log
ratio of the densities of the proposals; it is thus right exactly if a step from the new site is as likely to stay in the domain as
one from the old site. -/
theorem C24_plane_iff (sp : Space) (hok : SpaceOk sp) (v : Vor2) (hk : sp.info.kind = .vor2 v) (h1 : 0 < v.std.1) (h2 : 0 < v.std.2)
    (hD : MeasurableSet {q | InDomain v q}) (hv : volume {q | InDomain v q} ≠ 0) (s : PSState) (ha : ArraysOk sp s) (new : PSState)
    (lpr : PyF) (t t' : List Draw) (h : (PSFunc.site sp).run s t = (.ok (new, lpr), t')) :
    ∃ i y, i < s.n ∧ (rows new).Perm ((rows s).set i (withSite (row s i) (.pt y))) ∧
      ∀ (x : ℝ × ℝ) (a : String → ℝ) (b : String → LogP) (prior : ℝ), posAt s i = .ok (.two x) →
        (∀ k p, (k, Param.prior p) ∈ sp.params.toList → p.hasPosition = true → ∃ z,
          numAt (s.get k) i = .ok z ∧ p.logPrior z (.two x) = .ok (.fin (a k)) ∧ p.logPrior z (.two y) = .ok (b k).num) →
        total ((sp.params.toList.filter positional).map fun kp => change (a kp.1) (b kp.1)) = some prior →
        (lpr = .fin (prior + proposalRatio2 v.std {q | InDomain v q} x y) ↔ planeStay v y = planeStay v x) := by
  obtain ⟨i, t1, g1, g2⟩ := M.bind_ok.1 h
  obtain ⟨g3, _, e, g4, g5, g6⟩ := perturbSite_rows hok ha i t1 _ t' g2
  cases e with
  | state => exact g4.elim
  | num q =>
    obtain ⟨v', e, -⟩ := g4
    rw [hk] at e
    cases e
  | pt y =>
    refine ⟨i, y, g3, g5, fun x a b prior hx hab hp => ?_⟩
    have := g6 (.two x) a b hx hab
    simp only at this
    rw [hp] at this
    rw [this, ← planeStay_iff h1 h2 hD hv]
    change PyF.fin prior = _ ↔ _
    rw [PyF.fin.injEq]
    constructor
    · intro h; linarith
    · intro h; rw [h, add_zero]

theorem domain_rectangle {v : Vor2} (hp : v.polygon = none) :
    {q | InDomain v q} = Set.Icc v.vmin.1 v.vmax.1 ×ˢ Set.Icc v.vmin.2 v.vmax.2 := by
  ext q
  simp only [Set.mem_ofPred_eq, InDomain, hp, Set.mem_prod, Set.mem_Icc]
  exact ⟨fun h => h.1, fun h => ⟨h, fun _ h => by cases h⟩⟩

/-- In a rectangle, a step that moves a site along the first axis only is as likely to stay in it before and after the move only if
the site is not moved or reflected at the middle. -/
theorem C24_rectangle_iff (v : Vor2) (hp : v.polygon = none) (h1 : 0 < v.std.1) (h2 : 0 < v.std.2) (hb1 : v.vmin.1 < v.vmax.1)
    (hb2 : v.vmin.2 < v.vmax.2) (x y z : ℝ) :
    proposalRatio2 v.std {q | InDomain v q} (x, z) (y, z) = 0 ↔ y = x ∨ x + y = v.vmin.1 + v.vmax.1 := by
  have hD : MeasurableSet {q | InDomain v q} := by
    rw [domain_rectangle hp]
    exact measurableSet_Icc.prod measurableSet_Icc
  have hv : volume {q | InDomain v q} ≠ 0 := by
    rw [domain_rectangle hp, Measure.volume_eq_prod, Measure.prod_prod, Real.volume_Icc, Real.volume_Icc]
    exact mul_ne_zero (ENNReal.ofReal_pos.2 (sub_pos.2 hb1)).ne' (ENNReal.ofReal_pos.2 (sub_pos.2 hb2)).ne'
  have hm : ∀ x, ∫ q in {q | InDomain v q}, bell2 v.std (x, z) q =
      mass v.std.1 v.vmin.1 v.vmax.1 x * mass v.std.2 v.vmin.2 v.vmax.2 z := by
    intro x
    rw [domain_rectangle hp, Measure.volume_eq_prod]
    unfold bell2 mass
    rw [intervalIntegral.integral_of_le hb1.le, intervalIntegral.integral_of_le hb2.le, ← integral_Icc_eq_integral_Ioc,
      ← integral_Icc_eq_integral_Ioc]
    exact setIntegral_prod_mul (bell v.std.1 x) (bell v.std.2 z) _ _
  rw [ratio2_zero_iff h1 h2 hv, hm, hm, ← mass_eq_iff h1 hb1]
  constructor
  · intro h
    exact (mul_right_cancel₀ (mass_pos hb2 z).ne' h).symm
  · intro h
    rw [h]

/-! ### A concrete run -/

section Examples

/-- One cell on the unit square, no parameters. -/
noncomputable def exBarePlane : Space :=
  .mk { name := "v", nMin := 1, nMax := 3, initRange := 1, kind := .vor2 exSquare, fromPrior := true } .nil

theorem exBarePlane_ok : SpaceOk exBarePlane where
  nodup := by simp [exBarePlane, Space.params, ParamList.toList]
  disc := by simp [exBarePlane, Space.params, ParamList.toList]
  key := by
    intro k p h
    simp [exBarePlane, Space.params, ParamList.toList] at h
  dims := fun _ => by simp [exBarePlane, Space.info]
  line := by intro v h; cases h
  plane := by
    intro v h
    injection h with h
    subst h
    simp [exSquare]

/-- A state with the cell at `x`, and the tree of the sites. -/
noncomputable def exOnePoint (x : ℝ × ℝ) : PSState := .mk 1 [("discretization", .arr (.pts [x]))] (some [x])

theorem exOnePoint_ok (x : ℝ × ℝ) : ArraysOk exBarePlane (exOnePoint x) := by
  refine ⟨rfl, ?_, ?_, ?_⟩
  · intro k v hv
    simp only [exOnePoint, PSState.vals, List.mem_cons, List.not_mem_nil, or_false, Prod.mk.injEq] at hv
    obtain ⟨rfl, rfl⟩ := hv
    rfl
  · intro k q hq
    simp [exBarePlane, Space.params, ParamList.toList] at hq
  · intro k q hq
    simp [exBarePlane, Space.params, ParamList.toList] at hq

/-- A move from (1/4, 1/4) to (3/8, 1/4). -/
theorem exOnePoint_move : (PSFunc.site exBarePlane).run (exOnePoint (1 / 4, 1 / 4))
    [⟨0, 0, 1 / 2, by norm_num⟩, ⟨0, 1 / 8, 1 / 2, by norm_num⟩, ⟨0, 0, 1 / 2, by norm_num⟩] =
      (.ok (exOnePoint (3 / 8, 1 / 4), .fin 0), []) := by
  have hsite : exSquare.perturbSite (1 / 4, 1 / 4) [⟨0, 1 / 8, 1 / 2, by norm_num⟩, ⟨0, 0, 1 / 2, by norm_num⟩] =
      (.ok (3 / 8, 1 / 4), []) := by
    refine (M.bind_of (a := some (3 / 8, 1 / 4)) (t1 := []) ?_).trans rfl
    have e1 : M.npNormal 0 exSquare.std.1 [⟨0, 1 / 8, 1 / 2, by norm_num⟩, ⟨0, 0, 1 / 2, by norm_num⟩] =
        (.ok (0 + 1 / 8 * 1), [⟨0, 0, 1 / 2, by norm_num⟩]) := by
      unfold M.npNormal
      rw [if_neg (by norm_num [exSquare])]
      exact M.normalvariate_run _ _ _ _
    have e2 : M.npNormal 0 exSquare.std.2 [⟨0, 0, 1 / 2, by norm_num⟩] = (.ok (0 + 0 * 1), []) := by
      unfold M.npNormal
      rw [if_neg (by norm_num [exSquare])]
      exact M.normalvariate_run _ _ _ _
    refine (M.bind_of e1).trans ((M.bind_of e2).trans ?_)
    norm_num [exSquare, M.pure_run]
  refine (M.bind_of (M.randIdx_run (by simp [exOnePoint, PSState.n]) _ _)).trans ?_
  have hg : (exOnePoint (1 / 4, 1 / 4)).get "discretization" = some (.arr (.pts [(1 / 4, 1 / 4)])) := by
    simp [exOnePoint, PSState.get, PSState.vals, dget]
  have hk : exBarePlane.info.kind = .vor2 exSquare := rfl
  have hi : (0 : ℕ) % (exOnePoint (1 / 4, 1 / 4)).n = 0 := rfl
  have hmv : ∀ (x y : Pos) f acc, moveValues (exOnePoint (1 / 4, 1 / 4)) 0 x y f exBarePlane.params.toList acc (.fin 0) =
      .ok (acc, .fin 0) := fun _ _ _ _ => rfl
  have hmk : mkPS (exOnePoint (1 / 4, 1 / 4)).n [("discretization", .arr (.pts [(3 / 8, 1 / 4)]))] =
      .ok (.mk 1 [("discretization", .arr (.pts [(3 / 8, 1 / 4)]))] none) := rfl
  refine (M.bind_of (a := (.mk 1 [("discretization", .arr (.pts [(3 / 8, 1 / 4)]))] none, .fin 0)) (t1 := []) ?_).trans ?_
  · simp only [vorMove, hk, hg, hi, List.getElem?_cons_zero, M.bind_run, hsite, List.set_cons_zero, M.lift_run, hmv, hmk, M.pure_run]
  · have hkd : exBarePlane.info.kind.withKd (.mk 1 [("discretization", .arr (.pts [(3 / 8, 1 / 4)]))] none) =
        .ok (exOnePoint (3 / 8, 1 / 4)) := by
      rw [hk]
      simp [Kind.withKd, exSquare, addKd, exOnePoint, PSState.get, PSState.vals, PSState.n, dget]
    simp only [hkd, M.bind_run, M.lift_run, M.pure_run]

/-- C24 is false of the code in the plane: the run reports 0, the log ratio of the densities is another number. -/
theorem C24_plane_false : ∃ (sp : Space) (v : Vor2) (s new : PSState) (t t' : List Draw) (x y : ℝ × ℝ),
    SpaceOk sp ∧ ArraysOk sp s ∧ sp.info.kind = .vor2 v ∧ sp.params.toList = [] ∧
    s.get "discretization" = some (.arr (.pts [x])) ∧ new.get "discretization" = some (.arr (.pts [y])) ∧
    (PSFunc.site sp).run s t = (.ok (new, .fin 0), t') ∧ proposalRatio2 v.std {q | InDomain v q} x y ≠ 0 := by
  refine ⟨exBarePlane, exSquare, exOnePoint (1 / 4, 1 / 4), exOnePoint (3 / 8, 1 / 4), _, _, (1 / 4, 1 / 4), (3 / 8, 1 / 4),
    exBarePlane_ok, exOnePoint_ok _, rfl, rfl, by simp [exOnePoint, PSState.get, PSState.vals, dget],
    by simp [exOnePoint, PSState.get, PSState.vals, dget], exOnePoint_move, ?_⟩
  rw [Ne, C24_rectangle_iff exSquare rfl (by simp [exSquare]) (by simp [exSquare]) (by simp [exSquare]) (by simp [exSquare])]
  norm_num [exSquare]

theorem exSquare_meas : MeasurableSet {q | InDomain exSquare q} := by
  rw [domain_rectangle rfl]
  exact measurableSet_Icc.prod measurableSet_Icc

theorem exSquare_vol : volume {q | InDomain exSquare q} ≠ 0 := by
  rw [domain_rectangle rfl, Measure.volume_eq_prod, Measure.prod_prod, Real.volume_Icc, Real.volume_Icc]
  simp [exSquare]

/-- The hypotheses are met. -/
example := C24_plane_iff exBarePlane exBarePlane_ok exSquare rfl (by simp [exSquare]) (by simp [exSquare]) exSquare_meas exSquare_vol
  (exOnePoint (1 / 4, 1 / 4)) (exOnePoint_ok _) _ _ _ _ exOnePoint_move

example := C24_density_plane exSquare (by simp [exSquare]) (by simp [exSquare]) exSquare_meas exSquare_vol

end Examples

end BB.Props
