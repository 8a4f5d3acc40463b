import Verif.Lemmas.Truncated
import Verif.Lemmas.Rejection
import Verif.Props.C14_C65_Rows
import Verif.Props.C16_C33_Noise

/-!
# C24 — proposals that are redrawn until they are in the allowed range

The first theorems derive the law of such a proposal from the loops of the code, run on an endless tape of
independent standard normal deviates.  The others compare the log ratio of the densities of that law with the one reported.
-/

namespace BB.Props

open BB Spec Lemmas MeasureTheory ProbabilityTheory

/-- A tape of normal deviates. -/
def normals (z : ℝ) : List Draw := [⟨0, z, 0, by norm_num⟩]

/-- A tape of pairs of normal deviates. -/
def normals2 (z : ℝ × ℝ) : List Draw := [⟨0, z.1, 0, by norm_num⟩, ⟨0, z.2, 0, by norm_num⟩]

/-- The standard normal law. -/
noncomputable abbrev stdNormal : Measure ℝ := gaussianReal 0 1

theorem map_stdNormal (x σ : ℝ) : stdNormal.map (fun z => x + (0 + z * σ)) = gaussianReal x (σ ^ 2).toNNReal := by
  have h1 : (fun z : ℝ => x + (0 + z * σ)) = (fun z => x + z) ∘ fun z => z * σ := by
    funext z
    simp
  rw [h1, ← Measure.map_map (by fun_prop) (by fun_prop), gaussianReal_map_mul_const, gaussianReal_map_const_add]
  simp only [mul_zero, zero_add, mul_one]
  congr 1
  exact (Real.toNNReal_of_nonneg (sq_nonneg σ)).symm

/-- The law of the redrawn noise parameters: for every set `A`, the probability that the loop returns a value in
`A` is the probability that a Gaussian deviate around the old value falls in `A` given that it falls between the bounds. -/
theorem C24_law_noise (a b σ x : ℝ) (A : Set ℝ) (hA : MeasurableSet A) :
    Measure.infinitePi (fun _ : ℕ => stdNormal)
      {ω | ∃ n y rest, y ∈ A ∧ redraw a b σ x (tape normals ω n) = (.ok y, rest)} =
      (gaussianReal x (σ ^ 2).toNNReal)[A | Set.Icc a b] := by
  classical
  rw [← map_stdNormal]
  refine until_law stdNormal (by simp [normals]) (by fun_prop) measurableSet_Icc hA ?_ ?_
  · intro z rest
    refine (M.bind_of (M.normalvariate_run _ _ _ _)).trans ?_
    rw [M.pure_run]
    refine Prod.ext ?_ rfl
    simp only [Set.mem_Icc]
    by_cases h : a ≤ x + (0 + z * σ) ∧ x + (0 + z * σ) ≤ b
    · rw [if_pos h, if_neg (by push Not; exact h)]
    · rw [if_neg h, if_pos]
      by_contra hc
      push Not at hc
      exact h hc
  · intro o h
    cases h

/-- The law of a moved site on a line. -/
theorem C24_law_site (v : Vor1) (x : ℝ) (A : Set ℝ) (hA : MeasurableSet A) :
    Measure.infinitePi (fun _ : ℕ => stdNormal)
      {ω | ∃ n y rest, y ∈ A ∧ v.perturbSite x (tape normals ω n) = (.ok y, rest)} =
      (gaussianReal x (v.std ^ 2).toNNReal)[A | Set.Icc v.vmin v.vmax] := by
  classical
  rw [← map_stdNormal]
  refine until_law stdNormal (by simp [normals]) (by fun_prop) measurableSet_Icc hA ?_ ?_
  · intro z rest
    refine (M.bind_of (M.normalvariate_run _ _ _ _)).trans ?_
    rw [M.pure_run]
    refine Prod.ext (congrArg Except.ok ?_) rfl
    by_cases h : v.vmin ≤ x + (0 + z * v.std) ∧ x + (0 + z * v.std) ≤ v.vmax
    · exact (if_pos h).trans (if_pos (c := x + (0 + z * v.std) ∈ Set.Icc v.vmin v.vmax) h).symm
    · exact (if_neg h).trans (if_neg (c := x + (0 + z * v.std) ∈ Set.Icc v.vmin v.vmax) h).symm
  · intro o h
    cases h

/-- The law of a moved site in the plane: both coordinates are drawn again together. -/
theorem C24_law_site2 (v : Vor2) (h1 : 0 ≤ v.std.1) (h2 : 0 ≤ v.std.2) (hD : MeasurableSet {q | InDomain v q})
    (p : ℝ × ℝ) (A : Set (ℝ × ℝ)) (hA : MeasurableSet A) :
    Measure.infinitePi (fun _ : ℕ => stdNormal.prod stdNormal)
      {ω | ∃ n y rest, y ∈ A ∧ v.perturbSite p (tape normals2 ω n) = (.ok y, rest)} =
      ((gaussianReal p.1 (v.std.1 ^ 2).toNNReal).prod (gaussianReal p.2 (v.std.2 ^ 2).toNNReal))[A |
        {q | InDomain v q}] := by
  classical
  rw [← map_stdNormal, ← map_stdNormal, Measure.map_prod_map _ _ (by fun_prop) (by fun_prop)]
  refine until_law _ (by simp [normals2]) (by fun_prop) hD hA ?_ ?_
  · intro z rest
    have e1 : M.npNormal 0 v.std.1 (normals2 z ++ rest) =
        (.ok (0 + z.1 * v.std.1), ⟨0, z.2, 0, by norm_num⟩ :: rest) := by
      unfold M.npNormal
      rw [if_neg (not_lt.2 h1)]
      exact M.normalvariate_run _ _ _ _
    have e2 : M.npNormal 0 v.std.2 (⟨0, z.2, 0, by norm_num⟩ :: rest) = (.ok (0 + z.2 * v.std.2), rest) := by
      unfold M.npNormal
      rw [if_neg (not_lt.2 h2)]
      exact M.normalvariate_run _ _ _ _
    refine (M.bind_of e1).trans ((M.bind_of e2).trans ?_)
    rw [M.pure_run]
    refine Prod.ext (congrArg Except.ok ?_) rfl
    have : ((match v.polygon with
      | none => (p.1 + (0 + z.1 * v.std.1) ≥ v.vmin.1 ∧ p.2 + (0 + z.2 * v.std.2) ≥ v.vmin.2) ∧
          (p.1 + (0 + z.1 * v.std.1) ≤ v.vmax.1 ∧ p.2 + (0 + z.2 * v.std.2) ≤ v.vmax.2)
      | some inside => inside (p.1 + (0 + z.1 * v.std.1), p.2 + (0 + z.2 * v.std.2)) : Prop)) ↔
        InDomain v (p.1 + (0 + z.1 * v.std.1), p.2 + (0 + z.2 * v.std.2)) := by
      unfold InDomain
      have hb := v.bounds
      cases hp : v.polygon with
      | none =>
        simp only [ge_iff_le]
        constructor
        · rintro ⟨⟨a, b⟩, c, d⟩
          exact ⟨⟨⟨a, c⟩, b, d⟩, by simp⟩
        · rintro ⟨⟨⟨a, c⟩, b, d⟩, -⟩
          exact ⟨⟨a, b⟩, c, d⟩
      | some inside =>
        simp only
        constructor
        · intro h
          refine ⟨hb inside hp _ h, fun i hi => ?_⟩
          injection hi with hi
          subst hi
          exact h
        · intro h
          exact h.2 inside rfl
    by_cases h : InDomain v (p.1 + (0 + z.1 * v.std.1), p.2 + (0 + z.2 * v.std.2))
    · exact (if_pos (this.2 h)).trans (if_pos (c := (p.1 + (0 + z.1 * v.std.1), p.2 + (0 + z.2 * v.std.2)) ∈
        {q | InDomain v q}) h).symm
    · exact (if_neg (fun hc => h (this.1 hc))).trans (if_neg (c := (p.1 + (0 + z.1 * v.std.1),
        p.2 + (0 + z.2 * v.std.2)) ∈ {q | InDomain v q}) h).symm
  · intro o
    change ((M.npNormal 0 v.std.1 >>= _ : M _) []).1 ≠ .ok o
    intro h
    obtain ⟨d, t1, e, -⟩ := M.bind_ok.1 (Prod.ext h rfl : _ = (Except.ok o, _))
    unfold M.npNormal at e
    rw [if_neg (not_lt.2 h1)] at e
    cases e

/-- The law has the density `redrawn`. -/
theorem C24_density {σ a b : ℝ} (hσ : 0 < σ) (h : a < b) (x : ℝ) (A : Set ℝ) (hA : MeasurableSet A) :
    Measure.infinitePi (fun _ : ℕ => stdNormal)
      {ω | ∃ n y rest, y ∈ A ∧ redraw a b σ x (tape normals ω n) = (.ok y, rest)} =
      ∫⁻ y in Set.Icc a b ∩ A, ENNReal.ofReal (redrawn σ a b x y) := by
  rw [C24_law_noise a b σ x A hA, cond_gaussian hσ h x hA]

/-- The log ratio of the densities of the reverse and the forward proposal of all noise parameters of a target. -/
noncomputable def noiseRatio (tg : Target) (d d' : Noise) : ℝ :=
  proposalRatio tg.stdPerturb tg.stdMin tg.stdMax d.std d'.std +
    match d.corr, d'.corr with
    | some r, some r' => proposalRatio tg.corrPerturb tg.corrMin tg.corrMax r r'
    | _, _ => 0

/-- The log ratio of the densities vanishes exactly for a move that ends at its start or at the mirror image of its start. -/
theorem C24_symmetric_iff {σ a b : ℝ} (hσ : 0 < σ) (h : a < b) (x y : ℝ) :
    proposalRatio σ a b x y = 0 ↔ y = x ∨ x + y = a + b :=
  ratio_zero_iff hσ h x y

/-- C24 fails for the noise of a target, except for the moves of a null set: the ratio reported is the log ratio of
the densities only if the standard deviation is not changed or reflected at the middle of its range. -/
theorem C24_noise_iff (tg : Target) (hc : tg.correlated = false) (hσ : 0 < tg.stdPerturb) (hb : tg.stdMin < tg.stdMax)
    (s new : State) (r : PyF) (t t' : List Draw) (h : noisePerturb [tg] s t = (.ok (new, r), t')) (d d' : Noise)
    (hd' : dget new.params tg.name = some (.noise d')) :
    r = .fin (noiseRatio tg d d') ↔ d'.std = d.std ∨ d.std + d'.std = tg.stdMin + tg.stdMax := by
  obtain ⟨h1, -, -, h2⟩ := C16_perturbation [tg] (by simp) s new r t t' h
  obtain ⟨d2, e1, -, -, e2⟩ := h1 tg (by simp)
  rw [hd'] at e1
  injection e1 with e1
  injection e1 with e1
  subst e1
  rw [hc] at e2
  simp only [Bool.false_eq_true, if_false] at e2
  have : noiseRatio tg d d' = proposalRatio tg.stdPerturb tg.stdMin tg.stdMax d.std d'.std := by
    unfold noiseRatio
    rw [e2]
    cases d.corr <;> simp
  rw [h2, this, PyF.fin.injEq, ← ratio_zero_iff hσ hb, eq_comm]

/-- C24 for the noise, the moves for which it holds: all noise parameters of all targets are kept or reflected.
Missing: all other moves, for which `C24_noise_iff` shows that it fails. -/
theorem C24_noise_partial (ts : List Target) (hnd : (ts.map (·.name)).Nodup)
    (hok : ∀ tg ∈ ts, 0 < tg.stdPerturb ∧ tg.stdMin < tg.stdMax ∧
      (tg.correlated = true → 0 < tg.corrPerturb ∧ tg.corrMin < tg.corrMax))
    (s new : State) (r : PyF) (t t' : List Draw) (h : noisePerturb ts s t = (.ok (new, r), t'))
    (d d' : Target → Noise) (hd' : ∀ tg ∈ ts, dget new.params tg.name = some (.noise (d' tg)))
    (hsym : ∀ tg ∈ ts, ((d' tg).std = (d tg).std ∨ (d tg).std + (d' tg).std = tg.stdMin + tg.stdMax) ∧
      ∀ c c', (d tg).corr = some c → (d' tg).corr = some c' → c' = c ∨ c + c' = tg.corrMin + tg.corrMax) :
    r = .fin (ts.map fun tg => noiseRatio tg (d tg) (d' tg)).sum := by
  obtain ⟨h1, -, -, h2⟩ := C16_perturbation ts hnd s new r t t' h
  have : (ts.map fun tg => noiseRatio tg (d tg) (d' tg)) = ts.map fun _ => 0 := by
    refine List.map_congr_left fun tg htg => ?_
    obtain ⟨g1, g2, g3⟩ := hok tg htg
    obtain ⟨d2, e1, -, -, e2⟩ := h1 tg htg
    rw [hd' tg htg] at e1
    injection e1 with e1
    injection e1 with e1
    subst e1
    obtain ⟨k1, k2⟩ := hsym tg htg
    unfold noiseRatio
    rw [(ratio_zero_iff g1 g2 _ _).2 k1, zero_add]
    cases hcorr : tg.correlated with
    | false =>
      rw [hcorr] at e2
      simp only [Bool.false_eq_true, if_false] at e2
      rw [e2]
      cases (d tg).corr <;> rfl
    | true =>
      obtain ⟨g4, g5⟩ := g3 hcorr
      cases hd1 : (d tg).corr with
      | none => rfl
      | some c =>
        cases hd2 : (d' tg).corr with
        | none => rfl
        | some c' => exact (ratio_zero_iff g4 g5 _ _).2 (k2 c c' hd1 hd2)
  rw [h2, this]
  simp

/-- C24 fails for the sites on a line, except for the moves of a null set: the ratio reported is the prior ratio of the
values in the moved cell (C65), without the log ratio of the densities of the proposals, which vanishes only if the
site is not moved or reflected at the middle of the domain. -/
theorem C24_site_iff (sp : Space) (hok : SpaceOk sp) (v : Vor1) (hk : sp.info.kind = .vor1 v) (hσ : 0 < v.std)
    (hb : v.vmin < v.vmax) (s : PSState) (ha : ArraysOk sp s) (new : PSState) (lpr : PyF)
    (t t' : List Draw) (h : (PSFunc.site sp).run s t = (.ok (new, lpr), t')) :
    ∃ i y, i < s.n ∧ (rows new).Perm ((rows s).set i (withSite (row s i) (.num y))) ∧
      ∀ (x : ℝ) (a : String → ℝ) (b : String → LogP) (prior : ℝ), posAt s i = .ok (.one x) →
        (∀ k p, (k, Param.prior p) ∈ sp.params.toList → p.hasPosition = true → ∃ z,
          numAt (s.get k) i = .ok z ∧ p.logPrior z (.one x) = .ok (.fin (a k)) ∧ p.logPrior z (.one y) = .ok (b k).num) →
        total ((sp.params.toList.filter positional).map fun kp => change (a kp.1) (b kp.1)) = some prior →
        (lpr = .fin (prior + proposalRatio v.std v.vmin v.vmax x y) ↔ y = x ∨ x + y = v.vmin + v.vmax) := by
  obtain ⟨i, t1, h1, h2⟩ := M.bind_ok.1 h
  obtain ⟨h3, _, e, h4, h5, h6⟩ := perturbSite_rows hok ha i t1 _ t' h2
  cases e with
  | state => exact h4.elim
  | pt q =>
    obtain ⟨v', e, -⟩ := h4
    rw [hk] at e
    cases e
  | num y =>
    refine ⟨i, y, h3, h5, fun x a b prior hx hab hp => ?_⟩
    have := h6 (.one x) a b hx hab
    simp only at this
    rw [hp] at this
    rw [this, ← ratio_zero_iff hσ hb]
    change PyF.fin prior = _ ↔ _
    rw [PyF.fin.injEq]
    constructor
    · intro h; linarith
    · intro h; rw [h, add_zero]

/-- C24 for the sites on a line, the moves for which it holds: the site is kept or reflected at the middle of the
domain.  Missing: all others, for which `C24_site_iff` shows that it fails.  (For the plane, see `C24_plane_iff`.) -/
theorem C24_site_partial (sp : Space) (hok : SpaceOk sp) (v : Vor1) (hk : sp.info.kind = .vor1 v) (hσ : 0 < v.std)
    (hb : v.vmin < v.vmax) (s : PSState) (ha : ArraysOk sp s) (new : PSState) (lpr : PyF)
    (t t' : List Draw) (h : (PSFunc.site sp).run s t = (.ok (new, lpr), t')) :
    ∃ i y, i < s.n ∧ (rows new).Perm ((rows s).set i (withSite (row s i) (.num y))) ∧
      ∀ (x : ℝ) (a : String → ℝ) (b : String → LogP) (prior : ℝ), posAt s i = .ok (.one x) →
        (∀ k p, (k, Param.prior p) ∈ sp.params.toList → p.hasPosition = true → ∃ z,
          numAt (s.get k) i = .ok z ∧ p.logPrior z (.one x) = .ok (.fin (a k)) ∧ p.logPrior z (.one y) = .ok (b k).num) →
        total ((sp.params.toList.filter positional).map fun kp => change (a kp.1) (b kp.1)) = some prior →
        y = x ∨ x + y = v.vmin + v.vmax →
        lpr = .fin (prior + proposalRatio v.std v.vmin v.vmax x y) := by
  obtain ⟨i, y, h1, h2, h3⟩ := C24_site_iff sp hok v hk hσ hb s ha new lpr t t' h
  exact ⟨i, y, h1, h2, fun x a b prior hx hab hp hs => (h3 x a b prior hx hab hp).2 hs⟩

/-! ### Concrete runs -/

section Examples

/-- The standard deviation goes from 2 to 4, the range is from 1 to 4. -/
theorem exNoise24_run : noisePerturb [exTarget33] exState33 [⟨0, 2, 0, by norm_num⟩] =
    (.ok ({ params := [("t", .noise ⟨4, none⟩)], temperature := 1, cache := [], extra := [] }, .fin 0), []) := by
  have hr : redraw 1 4 1 2 [⟨0, 2, 0, by norm_num⟩] = (.ok 4, []) := by
    simp only [redraw, M.until, M.untilFuel, bind, M.normalvariate, M.draw, pure, List.length]
    norm_num
  have hp : exTarget33.perturbNoise ⟨2, none⟩ [⟨0, 2, 0, by norm_num⟩] = (.ok ⟨4, none⟩, []) := by
    unfold Target.perturbNoise
    rw [M.bind_run]
    have : redraw exTarget33.stdMin exTarget33.stdMax exTarget33.stdPerturb 2
      [⟨0, 2, 0, by norm_num⟩] = (.ok 4, []) := hr
    rw [this]
    rfl
  unfold noisePerturb
  rw [M.bind_run]
  have : perturbNoises exState33.params [exTarget33] [] [⟨0, 2, 0, by norm_num⟩] =
      (.ok [("t", .noise ⟨4, none⟩)], []) := by
    rw [perturbNoises, M.bind_run]
    have hg : M.lift (getNoise exState33.params exTarget33.name) [⟨0, 2, 0, by norm_num⟩] =
        (.ok ⟨2, none⟩, [⟨0, 2, 0, by norm_num⟩]) := by
      simp [M.lift, getNoise, exState33, exTarget33, dget]
    rw [hg]
    simp only
    rw [M.bind_run, hp]
    rfl
  rw [this]
  simp only [M.pure_run, Prod.mk.injEq, Except.ok.injEq, State.mk.injEq, and_true]
  refine ⟨?_, rfl, ?_, rfl⟩
  · rfl
  · simp [exState33, State.copy]

/-- C24 is false of the code for the noise: this run does not report the log ratio of the densities. -/
theorem C24_noise_false : ∃ (tg : Target) (s new : State) (r : PyF) (t t' : List Draw) (d d' : Noise),
    noisePerturb [tg] s t = (.ok (new, r), t') ∧ dget s.params tg.name = some (.noise d) ∧
    dget new.params tg.name = some (.noise d') ∧ r ≠ .fin (noiseRatio tg d d') := by
  refine ⟨exTarget33, exState33, _, _, _, _, ⟨2, none⟩, ⟨4, none⟩, exNoise24_run, by simp [exTarget33, exState33, dget],
    by simp [exTarget33, dget], ?_⟩
  intro hc
  have := (C24_noise_iff exTarget33 rfl (by simp [exTarget33]) (by norm_num [exTarget33]) exState33 _ _ _ _
    exNoise24_run ⟨2, none⟩ ⟨4, none⟩ (by simp [exTarget33, dget])).1 hc
  norm_num [exTarget33] at this

/-- The hypotheses of the partial theorem are met: in this run of C16 the standard deviation goes from 2 to 3, which is
its reflection in the range from 1 to 4. -/
example : (PyF.fin 0) = .fin ([exTarget33].map fun tg => noiseRatio tg ⟨2, none⟩ ⟨3, none⟩).sum := by
  refine C24_noise_partial [exTarget33] (by simp) ?_ exState33 _ _ _ _ exState33_run (fun _ => ⟨2, none⟩)
    (fun _ => ⟨3, none⟩) ?_ ?_
  · intro tg htg
    simp only [List.mem_singleton] at htg
    subst htg
    exact ⟨by norm_num [exTarget33], by norm_num [exTarget33], fun h => by cases h⟩
  · intro tg htg
    simp only [List.mem_singleton] at htg
    subst htg
    simp [exTarget33, dget]
  · intro tg htg
    simp only [List.mem_singleton] at htg
    subst htg
    exact ⟨.inr (by norm_num [exTarget33]), fun c c' h => by cases h⟩

/-- One cell on the unit interval, no parameters. -/
noncomputable def exBareCells : Space :=
  .mk { name := "v", nMin := 1, nMax := 3, initRange := 1, kind := .vor1 exLine, fromPrior := true } .nil

theorem exBareCells_ok : SpaceOk exBareCells where
  nodup := by simp [exBareCells, Space.params, ParamList.toList]
  disc := by simp [exBareCells, Space.params, ParamList.toList]
  key := by
    intro k p h
    simp [exBareCells, Space.params, ParamList.toList] at h
  dims := fun _ => by simp [exBareCells, Space.info]
  line := by
    intro v h
    injection h with h
    subst h
    simp [exLine]
  plane := by intro v h; cases h

noncomputable def exOneCell (x : ℝ) : PSState := .mk 1 [("discretization", .arr (.vec [x]))] none

theorem exOneCell_ok (x : ℝ) : ArraysOk exBareCells (exOneCell x) := by
  refine ⟨rfl, ?_, ?_, ?_⟩
  · intro k v hv
    simp only [exOneCell, PSState.vals, List.mem_cons, List.not_mem_nil, or_false, Prod.mk.injEq] at hv
    obtain ⟨rfl, rfl⟩ := hv
    rfl
  · intro k q hq
    simp [exBareCells, Space.params, ParamList.toList] at hq
  · intro k q hq
    simp [exBareCells, Space.params, ParamList.toList] at hq

/-- A move from 1/4 to 3/8. -/
theorem exOneCell_move : (PSFunc.site exBareCells).run (exOneCell (1 / 4))
    [⟨0, 0, 1 / 2, by norm_num⟩, ⟨0, 1 / 8, 1 / 2, by norm_num⟩] = (.ok (exOneCell (3 / 8), .fin 0), []) := by
  have hsort : stableSort.f [3 / 8] = [0] := by
    have h3 : stableSort.f [3 / 8] ∈ [[0]] := List.mem_permutations'.2 (stableSort.perm [3 / 8])
    simpa using h3
  have hsite : exLine.perturbSite (1 / 4) [⟨0, 1 / 8, 1 / 2, by norm_num⟩] = (.ok (3 / 8), []) := by
    refine (M.bind_of (a := some (3 / 8)) (t1 := []) ?_).trans rfl
    refine (M.bind_of (M.normalvariate_run _ _ _ _)).trans ?_
    norm_num [exLine, M.pure_run]
  refine (M.bind_of (M.randIdx_run (by simp [exOneCell, PSState.n]) _ _)).trans ?_
  refine (M.bind_of (a := (exOneCell (3 / 8), .fin 0)) (t1 := []) ?_).trans rfl
  have hg : (exOneCell (1 / 4)).get "discretization" = some (.arr (.vec [1 / 4])) := by
    simp [exOneCell, PSState.get, PSState.vals, dget]
  have hk : exBareCells.info.kind = .vor1 exLine := rfl
  have hi : (0 : ℕ) % (exOneCell (1 / 4)).n = 0 := rfl
  have ha : exLine.argsort = stableSort := rfl
  have hgs : gather [(3 / 8 : ℝ)] [0] = .ok [3 / 8] := rfl
  have hmv : ∀ (x y : Pos) f acc, moveValues (exOneCell (1 / 4)) 0 x y f exBareCells.params.toList acc (.fin 0) =
      .ok (acc, .fin 0) := fun _ _ _ _ => rfl
  have hmk : mkPS (exOneCell (1 / 4)).n [("discretization", .arr (.vec [3 / 8]))] = .ok (exOneCell (3 / 8)) := rfl
  simp only [vorMove, hk, hg, hi, List.getElem?_cons_zero, M.bind_run, hsite, List.set_cons_zero, ha, hsort, M.lift_run,
    hgs, hmv, hmk, M.pure_run]

/-- C24 is false of the code for the sites: the run reports 0, the log ratio of the densities is another number. -/
theorem C24_site_false : ∃ (sp : Space) (v : Vor1) (s new : PSState) (t t' : List Draw) (x y : ℝ),
    SpaceOk sp ∧ ArraysOk sp s ∧ sp.info.kind = .vor1 v ∧ sp.params.toList = [] ∧
    s.get "discretization" = some (.arr (.vec [x])) ∧ new.get "discretization" = some (.arr (.vec [y])) ∧
    (PSFunc.site sp).run s t = (.ok (new, .fin 0), t') ∧ proposalRatio v.std v.vmin v.vmax x y ≠ 0 := by
  refine ⟨exBareCells, exLine, exOneCell (1 / 4), exOneCell (3 / 8), _, _, 1 / 4, 3 / 8, exBareCells_ok, exOneCell_ok _, rfl,
    rfl, by simp [exOneCell, PSState.get, PSState.vals, dget], by simp [exOneCell, PSState.get, PSState.vals, dget],
    exOneCell_move, ?_⟩
  rw [Ne, ratio_zero_iff (by simp [exLine]) (by simp [exLine])]
  norm_num [exLine]

/-- The hypotheses of `C24_site_iff` are met. -/
example := C24_site_iff exBareCells exBareCells_ok exLine rfl (by simp [exLine]) (by simp [exLine]) (exOneCell (1 / 4))
  (exOneCell_ok _) _ _ _ _ exOneCell_move

end Examples

end BB.Props
