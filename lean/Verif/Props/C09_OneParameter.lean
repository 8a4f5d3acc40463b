import Verif.Props.C09_Balance
import Verif.Props.C18_C19_ValuePerturbation
import Verif.Props.C24_Redrawn

/-!
# C09 — an instance: the perturbations of the values of a parameter

A chain over the values of one parameter with the perturbation of the code (`Prior.perturbValue`) meets all
hypotheses of C09, for the uniform, the Gaussian and the Laplace prior.
-/

namespace BB.Props

open BB Spec Lemmas MeasureTheory ProbabilityTheory

/-- A chain over the values of one parameter. -/
noncomputable def oneParameter (pr : Prior) (logLik : ℝ → ℝ) : ChainCfg ℝ Unit where
  perturbs := [("ParamPerturbation", fun v => pr.perturbValue v .none false)]
  weights := [3]
  llr := fun s new T => (.ok (.fin ((logLik new - logLik s) / T)), s, new)
  stats := fun _ => .ok []
  setTemp := fun s _ => s
  save := fun _ s => (.ok (), s)

/-- The prior with density `ρ` and the random walk with step size `s`. -/
noncomputable def walk (ρ : ℝ → ℝ) (s : ℝ) : Scheme ℝ ℝ 1 where
  prior := volume.withDensity fun x => ENNReal.ofReal (ρ x)
  draws := stdNormal
  move := fun _ x z => x + (0 + z * s)
  rev := id
  common := fun _ => volume.prod volume
  dens := fun _ z => ρ z.1 * gaussianPDFReal z.1 (s ^ 2).toNNReal z.2

theorem sq_ne {s : ℝ} (hs : s ≠ 0) : (s ^ 2).toNNReal ≠ 0 := by
  simpa using hs

theorem pdf_swap (v : NNReal) (x y : ℝ) : gaussianPDFReal x v y = gaussianPDFReal y v x := by
  unfold gaussianPDFReal
  rw [show (y - x) ^ 2 = (x - y) ^ 2 by ring]

theorem walk_ok {ρ : ℝ → ℝ} (hm : Measurable ρ) (h0 : ∀ x, 0 ≤ ρ x) {s : ℝ} (hs : s ≠ 0) (w : Fin 1 → ℝ) :
    (walk ρ s).Ok w where
  sfinite := by unfold walk; infer_instance
  prob := by unfold walk; infer_instance
  meas := by
    intro i
    unfold walk
    fun_prop
  rev_rev := fun i => rfl
  rev_weight := fun i => rfl
  symm := fun _ => Measure.prod_swap
  dens_meas := by
    intro i
    unfold walk
    have h1 : Measurable fun z : ℝ × ℝ => gaussianPDFReal z.1 (s ^ 2).toNNReal z.2 := by
      unfold gaussianPDFReal
      fun_prop
    fun_prop
  dens_nonneg := fun i z => mul_nonneg (h0 _) (gaussianPDFReal_nonneg _ _ _)
  joint := by
    intro i
    have hmove : Measurable fun z : ℝ × ℝ => (z.1, z.1 + (0 + z.2 * s)) := by fun_prop
    have hpdf : Measurable fun z : ℝ × ℝ => gaussianPDFReal z.1 (s ^ 2).toNNReal z.2 := by
      unfold gaussianPDFReal
      fun_prop
    refine Measure.ext_of_lintegral _ fun F hF => ?_
    change ∫⁻ z, F z ∂((volume.withDensity fun x => ENNReal.ofReal (ρ x)).prod stdNormal).map
      (fun z => (z.1, z.1 + (0 + z.2 * s))) = ∫⁻ z, F z ∂(volume.prod volume).withDensity fun z : ℝ × ℝ =>
        ENNReal.ofReal (ρ z.1 * gaussianPDFReal z.1 (s ^ 2).toNNReal z.2)
    rw [lintegral_map hF hmove, lintegral_prod _ (by fun_prop),
      lintegral_withDensity_eq_lintegral_mul _ (by fun_prop) hF, lintegral_prod _ (by fun_prop),
      lintegral_withDensity_eq_lintegral_mul _ (by fun_prop) (by
        exact Measurable.lintegral_prod_right' (f := fun z : ℝ × ℝ => F (z.1, z.1 + (0 + z.2 * s))) (by fun_prop))]
    refine lintegral_congr fun x => ?_
    simp only [Pi.mul_apply]
    have h1 : ∫⁻ z, F (x, x + (0 + z * s)) ∂stdNormal =
        ∫⁻ y, gaussianPDF x (s ^ 2).toNNReal y * F (x, y) := by
      have hFx : Measurable fun y => F (x, y) := by fun_prop
      rw [← lintegral_map (f := fun y => F (x, y)) (g := fun z => x + (0 + z * s)) hFx (by fun_prop), map_stdNormal,
        gaussianReal_of_var_ne_zero x (sq_ne hs), lintegral_withDensity_eq_lintegral_mul _ (measurable_gaussianPDF _ _) hFx]
      rfl
    rw [h1, ← lintegral_const_mul' _ _ ENNReal.ofReal_ne_top]
    refine lintegral_congr fun y => ?_
    rw [ENNReal.ofReal_mul (h0 x), mul_assoc]
    rfl

/-- The perturbation of the code succeeds wherever the log prior is defined. -/
theorem perturbValue_runs {p : Prior} (hp : p.builtin) {v : ℝ} {pos : Pos} {l : PyF} (hl : p.logPrior v pos = .ok l)
    {isBirth : Bool} {s : ℝ} (hs : p.getStd isBirth pos = .ok s) (z : ℝ) : ∃ r, ∀ rest,
      p.perturbValue v pos isBirth (normals z ++ rest) = (.ok (v + z * s, r), rest) := by
  match hd : p.dist with
  | .uniform vmin vmax =>
    obtain ⟨a, b, h1, h2, -⟩ := (logPrior_uniform hd).1 hl
    by_cases h : a ≤ v + z * s ∧ v + z * s ≤ b
    · exact ⟨.fin 0, fun rest => (perturbValue_uniform hd).2 ⟨s, a, b, _, hs, h1, h2, rfl, rfl, .inl ⟨h.1, h.2, rfl⟩⟩⟩
    · exact ⟨.ninf, fun rest => (perturbValue_uniform hd).2 ⟨s, a, b, _, hs, h1, h2, rfl, rfl, .inr ⟨h, rfl⟩⟩⟩
  | .gaussian mean std =>
    obtain ⟨m, sd, h1, h2, h3⟩ := (logPrior_gaussian hd).1 hl
    have hne : sd ≠ 0 := by
      rcases h3 with ⟨h, -⟩ | ⟨h, -⟩
      · exact h.ne
      · exact h.ne'
    exact ⟨_, fun rest => (perturbValue_gaussian hd).2 ⟨s, m, sd, _, hs, h1, h2, rfl, rfl, hne, rfl⟩⟩
  | .laplace mean scale =>
    obtain ⟨m, sc, h1, h2, h3, -⟩ := (logPrior_laplace hd).1 hl
    exact ⟨_, fun rest => (perturbValue_laplace hd).2 ⟨s, m, sc, _, hs, h1, h2, rfl, rfl, h3.ne', rfl⟩⟩
  | .custom f g sm =>
    unfold Prior.builtin at hp
    rw [hd] at hp
    exact hp.elim

theorem oneParameter_reports {pr : Prior} (hpr : pr.builtin) {ρ : ℝ → ℝ} (h0 : ∀ x, 0 ≤ ρ x)
    (hρ : ∀ v, pr.logPrior v .none = .ok (logOf (ρ v))) {s : ℝ} (hs : s ≠ 0) (hstd : pr.getStd false .none = .ok s)
    (logLik : ℝ → ℝ) (T : ℝ) :
    Reports (oneParameter pr logLik) (walk ρ s) logLik T (fun _ _ z => normals z) (fun v => v) (fun _ => True) Eq where
  proposal := by
    intro i v _
    refine .of_forall fun z => ?_
    obtain ⟨r, hr⟩ := perturbValue_runs hpr (hρ v) hstd z
    have hi : (oneParameter pr logLik).perturbs[i] = ("ParamPerturbation", fun v => pr.perturbValue v .none false) := by
      obtain ⟨k, hk⟩ := i
      have hk' : k < 1 := hk
      obtain rfl : k = 0 := by omega
      rfl
    have hmove : (walk ρ s).move i v z = v + z * s := by
      change v + (0 + z * s) = v + z * s
      ring
    rw [hmove]
    refine ⟨v + z * s, r, fun rest => ?_, trivial, rfl, ?_⟩
    · rw [hi]
      exact hr rest
    · intro hd
      change ρ v * gaussianPDFReal v _ (v + z * s) ≠ 0 at hd
      have hv : 0 < ρ v := lt_of_le_of_ne (h0 v) fun hc => hd (by rw [← hc, zero_mul])
      have hg : 0 < gaussianPDFReal v (s ^ 2).toNNReal (v + z * s) := gaussianPDFReal_pos _ _ _ (sq_ne hs)
      have hlv : pr.logPrior v .none = .ok (.fin (Real.log (ρ v))) := by
        rw [hρ, logOf, if_pos hv]
      obtain ⟨y, hy, hry⟩ := perturbValue_ratio (hr []) hlv
      rw [hρ] at hy
      injection hy with hy
      rw [hry, ← hy]
      change (logOf (ρ (v + z * s))).sub (.fin (Real.log (ρ v))) =
        (logQuotient (ρ (v + z * s) * gaussianPDFReal (v + z * s) (s ^ 2).toNNReal v)
          (ρ v * gaussianPDFReal v (s ^ 2).toNNReal (v + z * s))).num
      rw [pdf_swap _ (v + z * s) v]
      unfold logOf logQuotient
      by_cases hn : 0 < ρ (v + z * s)
      · rw [if_pos hn, if_neg (mul_pos hn hg).ne', mul_div_mul_right _ _ hg.ne', Real.log_div hn.ne' hv.ne']
        rfl
      · have : ρ (v + z * s) = 0 := le_antisymm (not_lt.1 hn) (h0 _)
        rw [if_neg hn, if_pos (by rw [this, zero_mul])]
        rfl
  likelihood := fun a b _ _ => ⟨a, b, rfl, trivial, trivial, rfl, rfl⟩

/-- C09, instance: the perturbation of the values of a parameter preserves the tempered posterior, whatever the prior
density (of a built-in prior), the step size and the likelihood. -/
theorem C09_values (pr : Prior) (hpr : pr.builtin) (ρ : ℝ → ℝ) (hm : Measurable ρ) (h0 : ∀ x, 0 ≤ ρ x)
    (hρ : ∀ v, pr.logPrior v .none = .ok (logOf (ρ v))) (s : ℝ) (hs : s ≠ 0) (hstd : pr.getStd false .none = .ok s)
    (logLik : ℝ → ℝ) (hℓ : Measurable logLik) (c : Chain ℝ Unit Unit) :
    Spec.Preserves (posterior (volume.withDensity fun x => ENNReal.ofReal (ρ x)) logLik c.temp)
      (fun x => IterationLaw (oneParameter pr logLik) (fun _ _ z => normals z) stdNormal (fun v => v) { c with cur := x }) :=
  (C09_detailed_balance (oneParameter pr logLik) rfl (by simp [oneParameter]) (by simp [oneParameter]) (walk ρ s)
    (walk_ok hm h0 hs _) logLik hℓ c.temp (fun _ _ z => normals z) (fun v => v)
    (fun _ => True) (oneParameter_reports hpr h0 hρ hs hstd logLik c.temp) (fun x => { c with cur := x })
    (.of_forall fun _ => ⟨trivial, rfl⟩) fun _ => rfl).2

/-! ### Non-trivial instances -/

section Examples

/-- A uniform prior on `[0, 2]`, steps with standard deviation 1/2. -/
noncomputable def exPrior09 (d : Dist) : Prior :=
  { name := "v", dist := d, std := .const (1 / 2), stdBirth := .const 1, hasPosition := false }

theorem uniformPDF_meas (a b : ℝ) : Measurable (uniformPDF a b) := by
  classical
  unfold uniformPDF
  exact Measurable.ite ((measurableSet_le measurable_const measurable_id).inter
    (measurableSet_le measurable_id measurable_const)) measurable_const measurable_const

example (c : Chain ℝ Unit Unit) := C09_values (exPrior09 (.uniform (.const 0) (.const 2))) trivial (uniformPDF 0 2)
  (uniformPDF_meas 0 2) (fun x => by unfold uniformPDF; split <;> norm_num)
  (fun v => C18_log_prior_uniform (exPrior09 (.uniform (.const 0) (.const 2))) (.const 0) (.const 2) rfl .none 0 2 rfl rfl
    (by norm_num) v) (1 / 2) (by norm_num) rfl (fun v => -(v - 1) ^ 2) (by fun_prop) c

example (c : Chain ℝ Unit Unit) := C09_values (exPrior09 (.gaussian (.const 1) (.const 2))) trivial (normalPDF 1 2)
  (measurable_gaussianPDFReal _ _) (fun x => gaussianPDFReal_nonneg _ _ _)
  (fun v => C18_log_prior_gaussian (exPrior09 (.gaussian (.const 1) (.const 2))) (.const 1) (.const 2) rfl .none 1 2 rfl rfl
    (by norm_num) v) (1 / 2) (by norm_num) rfl (fun v => -(v - 1) ^ 2) (by fun_prop) c

example (c : Chain ℝ Unit Unit) := C09_values (exPrior09 (.laplace (.const 1) (.const 2))) trivial (laplacePDF 1 2)
  (by unfold laplacePDF; fun_prop) (fun x => by unfold laplacePDF; positivity)
  (fun v => C18_log_prior_laplace (exPrior09 (.laplace (.const 1) (.const 2))) (.const 1) (.const 2) rfl .none 1 2 rfl rfl
    (by norm_num) v) (1 / 2) (by norm_num) rfl (fun v => -(v - 1) ^ 2) (by fun_prop) c

end Examples

end BB.Props
