import Verif.Lemmas.TemperingSwaps
import Verif.Lemmas.WholeRoam
import Verif.Lemmas.ProgressEval
import Verif.Spec.Iterations
import Verif.Spec.Samples

/-!
# Lemmas: the swaps of the chains of a whole inversion
-/

namespace BB.Lemmas

open BB BB.Spec BB.Props MeasureTheory

variable {E : Type} {p : Problem} {B : ℕ → Block} {logLik : Whole p B → ℝ}

/-- A state at a possible model with this log likelihood. -/
def AtModel (p : Problem) (B : ℕ → Block) (logLik : Whole p B → ℝ) (s : State) (l : ℝ) : Prop :=
  HoldsAll p B s.params ∧ PossibleWhole (wholeOf p B s.params) ∧ Coherent p.tf s ∧ logLik (wholeOf p B s.params) = l

theorem whole_scored (h : AnyProblem p B logLik) : Scored p.cfg (AtModel p B logLik) := by
  have hnd := tf_nodup h.targets
  have step : ∀ a b T, (p.cfg.llr a b T).2.1.params = a.params ∧ (p.cfg.llr a b T).2.2.params = b.params := by
    intro a b T
    obtain ⟨c1, c2⟩ := llr_step p.kind p.tf p.perturbs p.weights
      (Option.some (p.spaces.map fun kv => (kv.1, kv.2.info.transD))) p.saveDpred a b T
    exact ⟨c1.params, c2.params⟩
  constructor
  · rintro a b la lb T hT ⟨a1, a2, a3, rfl⟩ ⟨b1, b2, b3, rfl⟩
    exact llr_whole h hT a1 b1 a2 b2 a3 b3
  · rintro a b la lb T ⟨a1, a2, a3, a4⟩ -
    refine ⟨?_, ?_, llr_left hnd a b T a3, ?_⟩ <;> rw [(step a b T).1]
    · exact a1
    · exact a2
    · exact a4
  · rintro a b la lb T - ⟨a1, a2, a3, a4⟩
    refine ⟨?_, ?_, llr_right hnd a b T a3, ?_⟩ <;> rw [(step a b T).2]
    · exact a1
    · exact a2
    · exact a4
  · intro a l T ha
    exact ha

theorem possible_whole_same (h : AnyProblem p B logLik) {x y : Whole p B} (hxy : SameWhole x y) (hx : PossibleWhole x) :
    PossibleWhole y := by
  intro i
  have R := (whole_realized h i).some
  have hi := hx i
  rw [← R.possible] at hi ⊢
  refine (R.ok.possible_same _ _ ?_).1 hi
  rw [R.same]
  exact hxy i

theorem at_model (h : AnyProblem p B logLik) {T : ℝ} {c : Chain State Store E} {x : Whole p B} (hx : PossibleWhole x)
    (hc : Ready p B T c ∧ SameWhole x (wholeOf p B c.cur.params)) : AtModel p B logLik c.cur (logLik x) :=
  ⟨hc.1.holds, possible_whole_same h hc.2 hx, hc.1.cache, (h.lumps _ _ hc.2).symm⟩

theorem hotter_finite {X : Type} [MeasurableSpace X] {μ : Measure X} [IsFiniteMeasure μ] {ℓ : X → ℝ} {T : ℝ} (hT : 1 < T)
    (h : posterior μ ℓ 1 Set.univ ≠ ⊤) : posterior μ ℓ T Set.univ ≠ ⊤ := by
  unfold posterior at h ⊢
  rw [withDensity_apply _ .univ, Measure.restrict_univ] at h ⊢
  refine ne_top_of_le_ne_top (b := ∫⁻ x, (1 + ENNReal.ofReal (Real.exp (ℓ x / 1))) ∂μ) ?_ (lintegral_mono fun x => ?_)
  · rw [lintegral_add_left measurable_const]
    exact ENNReal.add_ne_top.2 ⟨by simp, h⟩
  · rcases le_total (ℓ x) 0 with hx | hx
    · refine le_trans (ENNReal.ofReal_le_one.2 (Real.exp_le_one_iff.2 (div_nonpos_of_nonpos_of_nonneg hx (by linarith)))) ?_
      exact le_self_add
    · refine le_trans (ENNReal.ofReal_le_ofReal (Real.exp_le_exp.2 ?_)) le_add_self
      rw [div_one]
      exact div_le_self hx hT.le

theorem equilibrium_ac {X : Type} [MeasurableSpace X] (μ : Measure X) (ℓ : X → ℝ) (T : ℝ) : equilibrium μ ℓ T ≪ μ :=
  Measure.smul_absolutelyContinuous.trans (withDensity_absolutelyContinuous _ _)

theorem staying_finite (h : WholeProblem p B logLik) :
    IsFiniteMeasure ((wholePrior p B).withDensity fun x => ENNReal.ofReal (wholeStaying p B x)) := by
  obtain ⟨c, hc⟩ := whole_bounded h
  have hf := wholePrior_finite (any_of_whole h)
  refine isFiniteMeasure_withDensity (ne_top_of_le_ne_top (b := ∫⁻ _, ENNReal.ofReal c ∂wholePrior p B) ?_
    (lintegral_mono fun x => ENNReal.ofReal_le_ofReal (hc x)))
  rw [lintegral_const]
  exact ENNReal.mul_ne_top ENNReal.ofReal_ne_top (measure_ne_top _ _)

/-- A property of one block that holds almost surely. -/
theorem whole_block_ae (h : AnyProblem p B logLik) (i : Fin p.cfg.perturbs.length) {P : (B i).X → Prop}
    (hP : MeasurableSet {y | P y}) (ha : ∀ᵐ x ∂wholePrior p B, P (x i)) : ∀ᵐ y ∂(B i).prior, P y := by
  have hfi : ∀ i : Fin p.cfg.perturbs.length, IsFiniteMeasure (B i).prior := fun i => (whole_regular h i).finite
  have e := Measure.pi_map_eval (fun i : Fin p.cfg.perturbs.length => (B i).prior) i
  have h1 : ∀ᵐ y ∂(Measure.pi fun i : Fin p.cfg.perturbs.length => (B i).prior).map (Function.eval i), P y :=
    (ae_map_iff (measurable_pi_apply i).aemeasurable hP).2 ha
  rw [e] at h1
  refine (Measure.absolutelyContinuous_smul ?_).ae_le h1
  rw [Finset.prod_ne_zero_iff]
  intro j _ hj
  exact (whole_regular h j).nonzero (Measure.measure_univ_eq_zero.1 hj)

end BB.Lemmas
