import Verif.Lemmas.AverageKernel
import Verif.Lemmas.Iterate

/-!
# Sums along repeated transitions, where models are distinguished only up to a relation
-/

namespace BB.Lemmas

open BB.Spec MeasureTheory ProbabilityTheory

section

variable {C X Ω : Type} [MeasurableSpace X] [MeasurableSpace Ω] (μ : Measure Ω) (step : C → Ω → Option C)

open Classical in
/-- The probability that `n` steps are completed and lead to where `Q` holds. -/
noncomputable def stepsTo (Q : C → Prop) : ℕ → C → ENNReal
  | 0, c => if Q c then 1 else 0
  | n + 1, c => ∫⁻ ω, (match step c ω with
    | some c' => stepsTo Q n c'
    | none => 0) ∂μ

/-- The weights of `n` ticks from `t` on. -/
def ticks (wt : ℕ → ℝ) : ℕ → ℕ → List ℝ
  | _, 0 => []
  | t, n + 1 => wt t :: ticks wt (t + 1) n

variable {μ step} {val : C → X} [IsProbabilityMeasure μ] {r : X → X → Prop} {K : Kernel X X} [IsMarkovKernel K] {ok : C → Prop} {G : Set X}
  {f : X → ℝ} {g : ℝ → ENNReal}

theorem pathE_measK (hf : Measurable f) (hg : Measurable g) : ∀ w, Measurable fun z : X × ℝ => Ker.pathE K f g w z.1 z.2
  | [] => hg.comp measurable_snd
  | a :: w => by
    have ih := pathE_measK hf hg w
    have h1 : Measurable fun z : (X × ℝ) × X => (z.2, z.1.2 + a * f z.2) :=
      measurable_snd.prodMk ((measurable_snd.comp measurable_fst).add ((hf.comp measurable_snd).const_mul a))
    exact Measurable.lintegral_kernel_prod_right' (κ := K.comap Prod.fst measurable_fst) (ih.comp h1)

theorem pathE_step (hf : Measurable f) (hg : Measurable g) (w : List ℝ) (a s : ℝ) :
    Measurable fun y => Ker.pathE K f g w y (s + a * f y) :=
  (pathE_measK hf hg w).comp (measurable_id.prodMk (measurable_const.add (hf.const_mul a)))

theorem pathE_alike (hr : Alike r K) (hf : Measurable f) (hfr : ∀ x y, r x y → f x = f y) (hg : Measurable g) :
    ∀ w s x y, r x y → Ker.pathE K f g w x s = Ker.pathE K f g w y s
  | [], _, _, _, _ => rfl
  | a :: w, s, x, y, h => by
    refine lintegral_alike hr (fun x => inferInstance) h (pathE_step hf hg w a s) fun x y h => ?_
    rw [hfr x y h]
    exact pathE_alike hr hf hfr hg w _ x y h

/-- The sums along the steps have the distribution of the sums along the transitions. -/
theorem path_le (h : Follows μ step val r K ok G) (hr : Alike r K) (hG : MeasurableSet G) (hGr : Invariant r G) (hf : Measurable f)
    (hfr : ∀ x y, r x y → f x = f y) (hg : Measurable g) {obs : C → ℝ} {tick : C → ℕ} {wt : ℕ → ℝ} {Inv Q : C → Prop}
    (hstep : ∀ c ω c', ok c → ok c' → Inv c → step c ω = some c' →
      Inv c' ∧ tick c' = tick c + 1 ∧ obs c' = obs c + wt (tick c + 1) * f (val c')) {N : ℕ}
    (hend : ∀ c, ok c → Inv c → tick c = N → g (obs c) ≠ 0 → g (obs c) ≤ 1 ∧ Q c) :
    ∀ n c, ok c → val c ∈ within K G n → Inv c → tick c + n = N →
      Ker.pathE K f g (ticks wt (tick c + 1) n) (val c) (obs c) ≤ stepsTo μ step Q n c
  | 0, c, hc, _, hi, ht => by
    unfold stepsTo
    change g (obs c) ≤ _
    by_cases h0 : g (obs c) = 0
    · rw [h0]
      exact zero_le
    · obtain ⟨h1, h2⟩ := hend c hc hi ht h0
      rw [if_pos h2]
      exact h1
  | n + 1, c, hc, hv, hi, ht => by
    have hK : Measurable (K : X → Measure X) := K.measurable
    have hsub : ∀ n, within K G n ⊆ G := fun n => by
      induction n with
      | zero => exact le_rfl
      | succ n ih => exact fun x hx => ih hx.1
    have ih := path_le h hr hG hGr hf hfr hg hstep hend n
    have hag := h.again c hc (hsub _ hv)
    have hlaw := h.law c hc (hsub _ hv)
    set V : Ω → X := fun ω => match step c ω with
      | some c' => val c'
      | none => val c with hVdef
    have hV : ∀ A, MeasurableSet A → Invariant r A → μ (V ⁻¹' A) = K (val c) A := by
      intro A hA hAr
      rw [← hlaw A hA hAr]
      refine measure_congr ?_
      filter_upwards [hag] with ω hω
      obtain ⟨c', e, -⟩ := hω
      apply propext
      change V ω ∈ A ↔ ∃ c', step c ω = some c' ∧ val c' ∈ A
      have e' : V ω = val c' := by rw [hVdef]; simp only [e]
      rw [e']
      constructor
      · exact fun hx => ⟨c', e, hx⟩
      · rintro ⟨c2, e2, hx⟩
        rw [e] at e2
        injection e2 with e2
        rwa [e2]
    have hin : ∀ᵐ ω ∂μ, V ω ∈ within K G n := by
      have := hV _ (within_meas hK hG n).compl (invariant_compl (within_invariant hr hK hG hGr n))
      rw [hv.2] at this
      exact this
    have e1 : ∫⁻ ω, Ker.pathE K f g (ticks wt (tick c + 1 + 1) n) (V ω) (obs c + wt (tick c + 1) * f (V ω)) ∂μ ≤
        stepsTo μ step Q (n + 1) c := by
      refine lintegral_mono_ae ?_
      filter_upwards [hag, hin] with ω hω hω2
      obtain ⟨c', e, hok⟩ := hω
      have e' : V ω = val c' := by rw [hVdef]; simp only [e]
      rw [e'] at hω2
      obtain ⟨h1, h2, h3⟩ := hstep c ω c' hc hok hi e
      have h4 := ih c' hok hω2 h1 (by omega)
      rw [h2, h3] at h4
      rw [e']
      simp only [e]
      exact h4
    refine le_trans (le_of_eq ?_) e1
    exact (transfer hV (pathE_step hf hg _ _ _) fun x y hxy => by
      rw [hfr x y hxy]
      exact pathE_alike hr hf hfr hg _ _ x y hxy).2.symm

end

end BB.Lemmas
