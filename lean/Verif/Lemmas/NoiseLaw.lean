import Verif.Spec.Hierarchical
import Verif.Lemmas.SiteLaw
import Verif.Lemmas.Truncated
import Verif.Lemmas.Tilt
import Mathlib.MeasureTheory.Integral.Marginal
import Mathlib.MeasureTheory.Integral.DominatedConvergence
import Mathlib.Probability.Distributions.Gaussian.Real

/-!
# The law of the redrawn noise
-/

namespace BB.Lemmas

open BB BB.Spec MeasureTheory ProbabilityTheory

/-! ### products -/

section

variable {ι : Type} [Fintype ι] [DecidableEq ι]

theorem lmarginal_const_prod {Y : Type} [MeasurableSpace Y] (μ : ι → Measure Y) [∀ i, SigmaFinite (μ i)]
    {f : ι → Y → ENNReal} (hf : ∀ i, Measurable (f i)) (s : Finset ι) : ∀ c : ENNReal,
    lmarginal μ s (fun x => c * ∏ i ∈ s, f i (x i)) = fun _ => c * ∏ i ∈ s, ∫⁻ t, f i t ∂μ i := by
  induction s using Finset.induction with
  | empty =>
    intro c
    simp
  | insert i s hi ih =>
    intro c
    have hm : Measurable fun x : ι → Y => c * ∏ j ∈ insert i s, f j (x j) :=
      (Finset.measurable_prod _ fun j _ => (hf j).comp (measurable_pi_apply j)).const_mul c
    rw [lmarginal_insert' _ hm hi]
    have e : (fun x : ι → Y => ∫⁻ t, c * ∏ j ∈ insert i s, f j (Function.update x i t j) ∂μ i) =
        fun x => (c * ∫⁻ t, f i t ∂μ i) * ∏ j ∈ s, f j (x j) := by
      funext x
      have e1 : ∀ t, c * ∏ j ∈ insert i s, f j (Function.update x i t j) = (c * ∏ j ∈ s, f j (x j)) * f i t := by
        intro t
        rw [Finset.prod_insert hi, Function.update_self]
        have : ∏ j ∈ s, f j (Function.update x i t j) = ∏ j ∈ s, f j (x j) := by
          refine Finset.prod_congr rfl fun j hj => ?_
          rw [Function.update_of_ne (by rintro rfl; exact hi hj)]
        rw [this]
        ring
      rw [lintegral_congr e1, lintegral_const_mul _ (hf i)]
      ring
    rw [e, ih]
    funext x
    rw [Finset.prod_insert hi]
    ring

theorem lintegral_prod_coords {Y : Type} [MeasurableSpace Y] [Nonempty Y] (μ : ι → Measure Y) [∀ i, SigmaFinite (μ i)]
    {f : ι → Y → ENNReal} (hf : ∀ i, Measurable (f i)) :
    ∫⁻ x, ∏ i, f i (x i) ∂Measure.pi μ = ∏ i, ∫⁻ t, f i t ∂μ i := by
  have h := lmarginal_const_prod μ hf Finset.univ 1
  rw [lmarginal_univ] at h
  have h2 := congrFun h fun _ => Classical.arbitrary Y
  simpa using h2

theorem pi_density {Y : Type} [MeasurableSpace Y] [Nonempty Y] (μ : ι → Measure Y) [∀ i, SigmaFinite (μ i)]
    {f : ι → Y → ENNReal} (hf : ∀ i, Measurable (f i)) [∀ i, SigmaFinite ((μ i).withDensity (f i))] :
    (Measure.pi fun i => (μ i).withDensity (f i)) = (Measure.pi μ).withDensity fun x => ∏ i, f i (x i) := by
  refine Measure.pi_eq fun s hs => ?_
  have hms : MeasurableSet (Set.pi Set.univ s) := MeasurableSet.univ_pi hs
  rw [withDensity_apply _ hms, ← lintegral_indicator hms]
  have e : (Set.pi Set.univ s).indicator (fun v : ι → Y => ∏ j, f j (v j)) =
      fun v => ∏ j, (s j).indicator (f j) (v j) := by
    classical
    funext v
    by_cases h : v ∈ Set.pi Set.univ s
    · rw [Set.indicator_of_mem h]
      exact Finset.prod_congr rfl fun j _ => (Set.indicator_of_mem (h j trivial) _).symm
    · rw [Set.indicator_of_notMem h]
      obtain ⟨j, hj⟩ : ∃ j, v j ∉ s j := by
        by_contra hc
        push Not at hc
        exact h fun j _ => hc j
      exact (Finset.prod_eq_zero (Finset.mem_univ j) (Set.indicator_of_notMem hj _)).symm
  rw [e, lintegral_prod_coords μ fun j => (hf j).indicator (hs j)]
  refine Finset.prod_congr rfl fun j _ => ?_
  rw [lintegral_indicator (hs j), withDensity_apply _ (hs j)]

/-- Independent moves of all coordinates. -/
theorem joint_coords {Ω : Type} [MeasurableSpace Ω] {β : ι → Measure ℝ} [∀ i, IsFiniteMeasure (β i)] {w : ι → ℝ → ENNReal}
    (hw : ∀ i, Measurable (w i)) [∀ i, SigmaFinite ((β i).withDensity (w i))] {k : ι → ℝ × ℝ → ENNReal}
    (hk : ∀ i, Measurable (k i)) [∀ i, SigmaFinite (((β i).prod (β i)).withDensity (k i))] {ν : Measure Ω}
    [IsProbabilityMeasure ν] {mv : ι → ℝ → Ω → ℝ} (hm : ∀ i, Measurable fun z : ℝ × Ω => mv i z.1 z.2)
    (h : ∀ i, (((β i).withDensity (w i)).prod ν).map (fun z => (z.1, mv i z.1 z.2)) =
      ((β i).prod (β i)).withDensity (k i)) :
    (((Measure.pi β).withDensity fun x => ∏ i, w i (x i)).prod (Measure.pi fun _ : ι => ν)).map
        (fun z => (z.1, fun i => mv i (z.1 i) (z.2 i))) =
      ((Measure.pi β).prod (Measure.pi β)).withDensity fun z => ∏ i, k i (z.1 i, z.2 i) := by
  have hm' : ∀ i, Measurable fun z : ℝ × Ω => (z.1, mv i z.1 z.2) := fun i => measurable_fst.prodMk (hm i)
  have hmv : Measurable fun z : (ι → ℝ) × (ι → Ω) => (z.1, fun i => mv i (z.1 i) (z.2 i)) := by
    refine measurable_fst.prodMk (measurable_pi_lambda _ fun i => ?_)
    have h1 : Measurable fun z : (ι → ℝ) × (ι → Ω) => (z.1 i, z.2 i) :=
      ((measurable_pi_apply i).comp measurable_fst).prodMk ((measurable_pi_apply i).comp measurable_snd)
    exact (hm i).comp h1
  have e1 := measurePreserving_arrowProdEquivProdArrow ℝ Ω ι (fun i => (β i).withDensity (w i)) (fun _ => ν)
  have e2 := measurePreserving_arrowProdEquivProdArrow ℝ ℝ ι β β
  have hsf : ∀ i, SigmaFinite ((((β i).withDensity (w i)).prod ν).map fun z => (z.1, mv i z.1 z.2)) := by
    intro i
    rw [h i]
    infer_instance
  have e3 := Measure.pi_map_pi (μ := fun i => ((β i).withDensity (w i)).prod ν) (f := fun i z => (z.1, mv i z.1 z.2))
    fun i => (hm' i).aemeasurable
  simp only [h] at e3
  rw [pi_density (fun i => (β i).prod (β i)) hk] at e3
  rw [← pi_density β hw, ← e1.map_eq, Measure.map_map hmv e1.measurable, ← e2.map_eq]
  have hK : Measurable fun z : (ι → ℝ) × (ι → ℝ) => ∏ i, k i (z.1 i, z.2 i) := by
    refine Finset.measurable_prod _ fun i _ => (hk i).comp ?_
    exact ((measurable_pi_apply i).comp measurable_fst).prodMk ((measurable_pi_apply i).comp measurable_snd)
  have e4 : (fun z : (ι → ℝ) × (ι → Ω) => (z.1, fun i => mv i (z.1 i) (z.2 i))) ∘
      (MeasurableEquiv.arrowProdEquivProdArrow ℝ Ω ι) = (MeasurableEquiv.arrowProdEquivProdArrow ℝ ℝ ι) ∘
        fun z i => ((z i).1, mv i (z i).1 (z i).2) := rfl
  have hg : Measurable fun (z : ι → ℝ × Ω) i => ((z i).1, mv i (z i).1 (z i).2) :=
    measurable_pi_lambda _ fun i => (hm' i).comp (measurable_pi_apply i)
  rw [e4, ← Measure.map_map e2.measurable hg, e3]
  refine Measure.ext_of_lintegral _ fun F hF => ?_
  have hF2 : Measurable fun z : ι → ℝ × ℝ => F (MeasurableEquiv.arrowProdEquivProdArrow ℝ ℝ ι z) := hF.comp e2.measurable
  have hK2 : Measurable fun z : ι → ℝ × ℝ => ∏ i, k i (z i) :=
    Finset.measurable_prod _ fun i _ => (hk i).comp (measurable_pi_apply i)
  rw [lintegral_map hF e2.measurable, lintegral_withDensity_eq_lintegral_mul _ hK2 hF2,
    lintegral_withDensity_eq_lintegral_mul _ hK hF, lintegral_map (hK.mul hF) e2.measurable]
  rfl

/-- Distributions whose coordinates are independent do not charge a set that is null in one of the coordinates. -/
theorem pi_null {μ : ι → Measure ℝ} [∀ i, SigmaFinite (μ i)] {S : Set (ι → ℝ)} (hS : MeasurableSet S) (i : ι)
    (h : ∀ x, μ i {t | Function.update x i t ∈ S} = 0) : Measure.pi μ S = 0 := by
  classical
  rw [← lintegral_indicator_one hS, lintegral_eq_lmarginal_univ (fun _ => 0),
    lmarginal_erase' _ (measurable_one.indicator hS) (Finset.mem_univ i)]
  have e : (fun x : ι → ℝ => ∫⁻ t, S.indicator (1 : (ι → ℝ) → ENNReal) (Function.update x i t) ∂μ i) = fun _ => 0 := by
    funext x
    have hm : Measurable fun t : ℝ => Function.update x i t := measurable_update x
    have : ∀ t, S.indicator (1 : (ι → ℝ) → ENNReal) (Function.update x i t) =
        {t | Function.update x i t ∈ S}.indicator 1 t := by
      intro t
      by_cases ht : Function.update x i t ∈ S
      · rw [Set.indicator_of_mem ht, Set.indicator_of_mem (show t ∈ {t | Function.update x i t ∈ S} from ht)]
        rfl
      · rw [Set.indicator_of_notMem ht, Set.indicator_of_notMem (show t ∉ {t | Function.update x i t ∈ S} from ht)]
    have hS' : MeasurableSet {t | Function.update x i t ∈ S} := hm hS
    rw [lintegral_congr this, lintegral_indicator_one hS', h x]
  rw [e]
  simp [lmarginal]

end

/-! ### one parameter -/

/-- A Gaussian deviate, scaled. -/
def stepTo (r : Range) (x z : ℝ) : ℝ := x + (0 + z * r.step)

/-- The first perturbed value between the bounds. -/
noncomputable def landing : Option Range → ℝ → (ℕ → ℝ) → ℝ
  | some r, x, ω => stepTo r x (ω (firstIn (Set.Icc r.lo r.hi) fun k => stepTo r x (ω k)))
  | none, _, _ => 0

/-- The density of the perturbation, up to a factor that depends on the start only. -/
noncomputable def kernelOf : Option Range → ℝ × ℝ → ℝ
  | some r, z => bell r.step z.1 z.2
  | none, _ => 1

theorem landing_meas (o : Option Range) : Measurable fun z : ℝ × (ℕ → ℝ) => landing o z.1 z.2 := by
  cases o with
  | none => exact measurable_const
  | some r =>
    have hf : Measurable fun z : ℝ × ℝ => stepTo r z.1 z.2 := by
      unfold stepTo
      fun_prop
    have h1 := firstIn_meas hf (measurableSet_Icc (a := r.lo) (b := r.hi))
    have h2 : Measurable fun z : ℝ × (ℕ → ℝ) => fun k => (z.1, z.2 k) :=
      measurable_pi_lambda _ fun k => measurable_fst.prodMk ((measurable_pi_apply k).comp measurable_snd)
    exact h1.comp h2

theorem kernelOf_meas (o : Option Range) : Measurable (kernelOf o) := by
  cases o with
  | none => exact measurable_const
  | some r =>
    unfold kernelOf bell
    fun_prop

theorem kernelOf_pos (o : Option Range) (z : ℝ × ℝ) : 0 < kernelOf o z := by
  cases o with
  | none => exact one_pos
  | some r => exact bell_pos _ _ _

theorem kernelOf_swap (o : Option Range) (z : ℝ × ℝ) : kernelOf o z.swap = kernelOf o z := by
  cases o with
  | none => rfl
  | some r => exact bell_symm _ _ _

theorem staying_meas (o : Option Range) : Measurable (staying o) := by
  cases o with
  | none => exact measurable_const
  | some r =>
    have : Continuous (Function.uncurry (bell r.step)) := by
      unfold bell Function.uncurry
      fun_prop
    exact (intervalIntegral.continuous_parametric_intervalIntegral_of_continuous' this r.lo r.hi).measurable

theorem staying_pos {o : Option Range} (h : ∀ r ∈ o, r.Proper) (x : ℝ) : 0 < staying o x := by
  cases o with
  | none => exact one_pos
  | some r => exact mass_pos (h r rfl).lo_hi x

instance flat_finite (o : Option Range) : IsFiniteMeasure (flat o) := by
  cases o with
  | none => unfold flat; infer_instance
  | some r =>
    unfold flat
    exact ⟨by rw [Measure.restrict_apply_univ, Real.volume_Icc]; exact ENNReal.ofReal_lt_top⟩

theorem stepTo_law (r : Range) (x : ℝ) :
    (gaussianReal 0 1).map (stepTo r x) = gaussianReal x (r.step ^ 2).toNNReal := by
  have h1 : stepTo r x = (fun z => x + z) ∘ fun z => z * r.step := by
    funext z
    simp [stepTo]
  rw [h1, ← Measure.map_map (by fun_prop) (by fun_prop), gaussianReal_map_mul_const, gaussianReal_map_const_add]
  simp only [mul_zero, zero_add, mul_one]
  congr 1
  exact (Real.toNNReal_of_nonneg (sq_nonneg r.step)).symm

theorem stepTo_ne {r : Range} (h : r.Proper) (x : ℝ) :
    (gaussianReal 0 1).map (stepTo r x) (Set.Icc r.lo r.hi) ≠ 0 := by
  rw [stepTo_law]
  have hv : (r.step ^ 2).toNNReal ≠ 0 := by simpa using h.step.ne'
  intro hc
  have h1 := (gaussianReal_absolutelyContinuous' x hv) hc
  rw [Real.volume_Icc, ENNReal.ofReal_eq_zero] at h1
  linarith [h.lo_hi]

theorem landing_law {o : Option Range} (h : ∀ r ∈ o, r.Proper) (x : ℝ) :
    (Measure.infinitePi fun _ : ℕ => gaussianReal 0 1).map (landing o x) =
      (flat o).withDensity fun y => ENNReal.ofReal (kernelOf o (x, y) / staying o x) := by
  cases o with
  | none =>
    change Measure.map (fun _ => 0) _ = (Measure.dirac 0).withDensity fun _ => ENNReal.ofReal (1 / 1)
    rw [Measure.map_const, measure_univ, one_smul]
    simp
  | some r =>
    have hr := h r rfl
    have hf : Measurable (stepTo r x) := by
      unfold stepTo
      fun_prop
    have e := firstIn_law (gaussianReal 0 1) hf (measurableSet_Icc (a := r.lo) (b := r.hi)) (stepTo_ne hr x)
    refine e.trans ?_
    rw [stepTo_law]
    ext A hA
    rw [cond_gaussian hr.step hr.lo_hi x hA, withDensity_apply _ hA]
    change _ = ∫⁻ y in A, _ ∂volume.restrict (Set.Icc r.lo r.hi)
    rw [Measure.restrict_restrict hA, Set.inter_comm]
    rfl

theorem landing_joint {o : Option Range} (h : ∀ r ∈ o, r.Proper) :
    (((flat o).withDensity fun x => ENNReal.ofReal (staying o x)).prod (Measure.infinitePi fun _ : ℕ => gaussianReal 0 1)).map
        (fun z => (z.1, landing o z.1 z.2)) =
      ((flat o).prod (flat o)).withDensity fun z => ENNReal.ofReal (kernelOf o z) := by
  have hm : Measurable fun z : ℝ × (ℕ → ℝ) => (z.1, landing o z.1 z.2) := measurable_fst.prodMk (landing_meas o)
  have hs := (staying_meas o).ennreal_ofReal
  have hk := (kernelOf_meas o).ennreal_ofReal
  refine Measure.ext_of_lintegral _ fun F hF => ?_
  have h1 : Measurable fun x => ∫⁻ ω, F (x, landing o x ω) ∂Measure.infinitePi fun _ : ℕ => gaussianReal 0 1 :=
    Measurable.lintegral_prod_right' (hF.comp hm)
  rw [lintegral_map hF hm, lintegral_prod (fun z : ℝ × (ℕ → ℝ) => F (z.1, landing o z.1 z.2)) (hF.comp hm).aemeasurable,
    lintegral_withDensity_eq_lintegral_mul _ hs h1, lintegral_withDensity_eq_lintegral_mul _ hk hF,
    lintegral_prod _ (hk.mul hF).aemeasurable]
  refine lintegral_congr fun x => ?_
  simp only [Pi.mul_apply]
  have hx : Measurable (landing o x) := (landing_meas o).comp measurable_prodMk_left
  have hFx : Measurable fun y => F (x, y) := hF.comp measurable_prodMk_left
  have hkx : Measurable fun y => ENNReal.ofReal (kernelOf o (x, y) / staying o x) :=
    (((kernelOf_meas o).comp measurable_prodMk_left).div_const _).ennreal_ofReal
  rw [← lintegral_map (f := fun y => F (x, y)) hFx hx, landing_law h x,
    lintegral_withDensity_eq_lintegral_mul _ hkx hFx, ← lintegral_const_mul _ (hkx.mul hFx)]
  refine lintegral_congr fun y => ?_
  simp only [Pi.mul_apply]
  rw [← mul_assoc, ← ENNReal.ofReal_mul (staying_pos h x).le, mul_div_cancel₀ _ (staying_pos h x).ne']

end BB.Lemmas
