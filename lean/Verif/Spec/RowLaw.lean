import Verif.Spec.TransD
import Verif.Spec.Densities
import Verif.Model.Prior

/-!
# Specification: the law of a site with the values of the parameters there
-/

namespace BB.Spec

open BB MeasureTheory

/-- The law of a row: a site with the law `σ` and, given the site, independent values with the densities `dens`. -/
noncomputable def rowLaw {P : Type} [MeasurableSpace P] (σ : Measure P) {k : ℕ} (dens : Fin k → P → ℝ → ℝ) :
    Measure (P × (Fin k → ℝ)) :=
  (σ.prod volume).withDensity fun z => ∏ j, ENNReal.ofReal (dens j z.1 (z.2 j))

/-- The law of `random.random()`: uniform on `[0, 1)`. -/
noncomputable def unitLaw : Measure ℝ := volume.restrict (Set.Ico 0 1)

/-- The law of a Laplace deviate with mean 0 and scale 1. -/
noncomputable def laplaceLaw : Measure ℝ := volume.withDensity fun x => ENNReal.ofReal (laplacePDF 0 1 x)

/-- The law of the deviate drawn by `Prior.sample`. -/
noncomputable def devLaw : Dist → Measure ℝ
  | .uniform _ _ => unitLaw
  | .gaussian _ _ => ProbabilityTheory.gaussianReal 0 1
  | .laplace _ _ => unitLaw
  | .custom _ _ _ => unitLaw

open Classical in
/-- A draw of a number in `[0, 1)`. -/
noncomputable def unitDraw (u : ℝ) : Draw := if h : 0 ≤ u ∧ u < 1 then ⟨0, 0, u, h⟩ else ⟨0, 0, 0, by norm_num⟩

/-- The draw with this deviate. -/
noncomputable def devDraw : Dist → ℝ → Draw
  | .uniform _ _, u => unitDraw u
  | .gaussian _ _, z => ⟨0, z, 0, by norm_num⟩
  | .laplace _ _, u => unitDraw u
  | .custom _ _ _, u => unitDraw u

/-- The prior is defined at all positions `loc x`, `x ∈ dom`, with hyper-parameters that are measurable functions of
the position and that make sense; `dens x` is its density at `loc x`.  For a `CustomPrior`, the user's functions fit
together: the log prior is the logarithm of the density of what is sampled (with one random number). -/
def HasDensity {P : Type} [MeasurableSpace P] (pr : Prior) (loc : P → Pos) (dom : Set P) (dens : P → ℝ → ℝ) : Prop :=
  match pr.dist with
  | .uniform vmin vmax => ∃ a b : P → ℝ, Measurable a ∧ Measurable b ∧
      (∀ x ∈ dom, vmin.get (loc x) = .ok (a x) ∧ vmax.get (loc x) = .ok (b x) ∧ a x < b x) ∧
      dens = fun x => uniformPDF (a x) (b x)
  | .gaussian mean std => ∃ m s : P → ℝ, Measurable m ∧ Measurable s ∧
      (∀ x ∈ dom, mean.get (loc x) = .ok (m x) ∧ std.get (loc x) = .ok (s x) ∧ 0 < s x) ∧
      dens = fun x => normalPDF (m x) (s x)
  | .laplace mean scale => ∃ m s : P → ℝ, Measurable m ∧ Measurable s ∧
      (∀ x ∈ dom, mean.get (loc x) = .ok (m x) ∧ scale.get (loc x) = .ok (s x) ∧ 0 < s x) ∧
      dens = fun x => laplacePDF (m x) (s x)
  | .custom log _ sample => (Measurable fun z : P × ℝ => dens z.1 z.2) ∧
      (∀ x ∈ dom, ∀ v, log v (loc x) = .ok (logOf (dens x v))) ∧
      ∃ value : P → ℝ → ℝ, (Measurable fun z : P × ℝ => value z.1 z.2) ∧
        (∀ x ∈ dom, ∀ u rest, sample (loc x) (unitDraw u :: rest) = (.ok (value x u), rest)) ∧
        ∀ x ∈ dom, unitLaw.map (value x) = volume.withDensity fun v => ENNReal.ofReal (dens x v)

end BB.Spec
