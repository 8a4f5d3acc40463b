import Mathlib.Analysis.SpecialFunctions.Exp
import Mathlib.Algebra.BigOperators.Fin
import Mathlib.Data.Fintype.BigOperators
import Mathlib.Tactic.Linarith
import Mathlib.Tactic.Positivity
import Mathlib.Tactic.FieldSimp

/-!
# Lemmas: where the hot one among several chains moves

One of `m + 1` chains is hot; the positions of the chains have the log likelihoods `l`.  In a round of swaps the hot position moves from
`k` to `j` with a probability that depends on `l j - l k`.  With the probabilities of the code it moves to higher likelihoods more often
than with those that keep the equilibrium.
-/

namespace BB.Lemmas

variable {m : ℕ}

/-- The mean of `g` after a round, the hot position being `k` before. -/
noncomputable def swapStep (w : ℝ → ℝ) (l g : Fin (m + 1) → ℝ) (k : Fin (m + 1)) : ℝ := g k + ∑ j, w (l j - l k) * (g j - g k)

/-- The probability of either order of two given chains. -/
noncomputable def pairChance (m : ℕ) : ℝ := (((m : ℝ) + 1) * m)⁻¹

/-- The probabilities of the code. -/
noncomputable def codeRate (m : ℕ) (T d : ℝ) : ℝ :=
  pairChance m * (min 1 (Real.exp (-((1 - 1 / T) * d) / T)) + min 1 (Real.exp (-((1 - 1 / T) * d))))

/-- The probabilities that would keep the equilibrium. -/
noncomputable def fairRate (m : ℕ) (T d : ℝ) : ℝ := pairChance m * (2 * min 1 (Real.exp (-((1 - 1 / T) * d))))

theorem pairChance_pos (hm : 1 ≤ m) : 0 < pairChance m := by
  have : (0 : ℝ) < m := by exact_mod_cast hm
  unfold pairChance
  positivity

theorem cold_pos {T : ℝ} (hT : 1 < T) : 0 < 1 - 1 / T := by
  rw [sub_pos, div_lt_one (by linarith)]
  exact hT

section rates

variable {T d : ℝ}

theorem fair_nonneg (hm : 1 ≤ m) : 0 ≤ fairRate m T d :=
  mul_nonneg (pairChance_pos hm).le (mul_nonneg zero_le_two (le_min zero_le_one (Real.exp_pos _).le))

theorem fair_le (hm : 1 ≤ m) : fairRate m T d ≤ 2 * pairChance m := by
  have := pairChance_pos hm
  unfold fairRate
  have h : min 1 (Real.exp (-((1 - 1 / T) * d))) ≤ 1 := min_le_left _ _
  nlinarith

theorem fair_low (hT : 1 < T) (hd : d ≤ 0) : fairRate m T d = 2 * pairChance m := by
  have h := cold_pos hT
  unfold fairRate
  rw [min_eq_left (Real.one_le_exp (by nlinarith))]
  ring

theorem fair_lt (hm : 1 ≤ m) (hT : 1 < T) (hd : 0 < d) : fairRate m T d < 2 * pairChance m := by
  have h := cold_pos hT
  have := pairChance_pos hm
  unfold fairRate
  have h2 : min 1 (Real.exp (-((1 - 1 / T) * d))) < 1 := by
    rw [min_eq_right (Real.exp_le_one_iff.2 (by nlinarith))]
    exact Real.exp_lt_one_iff.2 (by nlinarith [mul_pos h hd])
  nlinarith

theorem fair_anti (hm : 1 ≤ m) (hT : 1 < T) {d d' : ℝ} (hd : d ≤ d') : fairRate m T d' ≤ fairRate m T d := by
  have h := cold_pos hT
  unfold fairRate
  refine mul_le_mul_of_nonneg_left (mul_le_mul_of_nonneg_left (min_le_min_left 1 (Real.exp_le_exp.2 ?_)) zero_le_two) (pairChance_pos hm).le
  nlinarith

theorem code_nonneg (hm : 1 ≤ m) : 0 ≤ codeRate m T d :=
  mul_nonneg (pairChance_pos hm).le (add_nonneg (le_min zero_le_one (Real.exp_pos _).le) (le_min zero_le_one (Real.exp_pos _).le))

theorem code_le (hm : 1 ≤ m) : codeRate m T d ≤ 2 * pairChance m := by
  have := pairChance_pos hm
  unfold codeRate
  have h : min 1 (Real.exp (-((1 - 1 / T) * d))) ≤ 1 := min_le_left _ _
  have h' : min 1 (Real.exp (-((1 - 1 / T) * d) / T)) ≤ 1 := min_le_left _ _
  nlinarith

theorem code_low (hT : 1 < T) (hd : d ≤ 0) : codeRate m T d = 2 * pairChance m := by
  have h := cold_pos hT
  have h1 : 0 ≤ -((1 - 1 / T) * d) := by nlinarith
  unfold codeRate
  rw [min_eq_left (Real.one_le_exp h1), min_eq_left (Real.one_le_exp (div_nonneg h1 (by linarith)))]
  ring

theorem code_gt (hm : 1 ≤ m) (hT : 1 < T) (hd : 0 < d) : fairRate m T d < codeRate m T d := by
  have h := cold_pos hT
  have h1 : 0 < (1 - 1 / T) * d := mul_pos h hd
  have h2 : (1 - 1 / T) * d / T < (1 - 1 / T) * d := by
    rw [div_lt_iff₀ (by linarith)]
    nlinarith
  have h3 : 0 < (1 - 1 / T) * d / T := div_pos h1 (by linarith)
  have := pairChance_pos hm
  unfold codeRate fairRate
  rw [neg_div, min_eq_right (Real.exp_le_one_iff.2 (by linarith)), min_eq_right (Real.exp_le_one_iff.2 (by linarith))]
  have h4 := Real.exp_lt_exp.2 (neg_lt_neg h2)
  nlinarith

theorem code_ge (hm : 1 ≤ m) (hT : 1 < T) : fairRate m T d ≤ codeRate m T d := by
  rcases le_or_gt d 0 with hd | hd
  · rw [fair_low hT hd, code_low hT hd]
  · exact (code_gt hm hT hd).le

end rates

/-! ### the steps -/

section steps

variable {w : ℝ → ℝ} {l g g' : Fin (m + 1) → ℝ} {T : ℝ}

theorem step_sub (w : ℝ → ℝ) (l g g' : Fin (m + 1) → ℝ) (k : Fin (m + 1)) :
    swapStep w l (fun i => g' i - g i) k = swapStep w l g' k - swapStep w l g k := by
  unfold swapStep
  rw [add_sub_add_comm, ← Finset.sum_sub_distrib]
  congr 1
  exact Finset.sum_congr rfl fun j _ => by ring

theorem step_const (w : ℝ → ℝ) (l : Fin (m + 1) → ℝ) (c : ℝ) (k : Fin (m + 1)) : swapStep w l (fun _ => c) k = c := by
  unfold swapStep
  simp

theorem step_nonneg (hm : 1 ≤ m) (hw : ∀ d, 0 ≤ w d ∧ w d ≤ 2 * pairChance m) (hg : ∀ i, 0 ≤ g i) (k : Fin (m + 1)) :
    0 ≤ swapStep w l g k := by
  unfold swapStep
  rw [Fin.sum_univ_succAbove _ k, sub_self (g k), mul_zero, zero_add]
  have h1 : ∀ j : Fin m, -(2 * pairChance m * g k) ≤ w (l (k.succAbove j) - l k) * (g (k.succAbove j) - g k) := by
    intro j
    obtain ⟨a, b⟩ := hw (l (k.succAbove j) - l k)
    nlinarith [hg k, hg (k.succAbove j), mul_nonneg a (hg (k.succAbove j)), mul_nonneg (sub_nonneg.2 b) (hg k)]
  have h2 := Finset.sum_le_sum fun j (_ : j ∈ (Finset.univ : Finset (Fin m))) => h1 j
  rw [Finset.sum_const, Finset.card_univ, Fintype.card_fin, nsmul_eq_mul] at h2
  have hm' : (1 : ℝ) ≤ m := by exact_mod_cast hm
  have h3 : (m : ℝ) * (2 * pairChance m) ≤ 1 := by
    unfold pairChance
    rw [mul_inv, mul_left_comm, mul_comm (m : ℝ), mul_assoc, inv_mul_cancel₀ (by positivity), mul_one]
    rw [← div_eq_mul_inv, div_le_one (by positivity)]
    linarith
  nlinarith [hg k]

theorem step_le (hm : 1 ≤ m) (hw : ∀ d, 0 ≤ w d ∧ w d ≤ 2 * pairChance m) (hg : ∀ i, g i ≤ g' i) (k : Fin (m + 1)) :
    swapStep w l g k ≤ swapStep w l g' k := by
  have := step_nonneg (l := l) hm hw (g := fun i => g' i - g i) (fun i => sub_nonneg.2 (hg i)) k
  rw [step_sub] at this
  linarith

/-- Functions that increase with the log likelihood. -/
def Rises (l g : Fin (m + 1) → ℝ) : Prop := (∀ i j, l i ≤ l j → g i ≤ g j) ∧ ∀ i j, l i < l j → g i < g j

theorem fair_rises (hm : 2 ≤ m) (hT : 1 < T) (hg : Rises l g) : Rises l (swapStep (fairRate m T) l g) := by
  have h1 : 1 ≤ m := by omega
  have hc := pairChance_pos h1
  have hm' : (2 : ℝ) ≤ m := by exact_mod_cast hm
  have hn : ((m : ℝ) + 1) * (2 * pairChance m) ≤ 1 := by
    unfold pairChance
    rw [mul_inv, ← mul_assoc, mul_comm _ (2 : ℝ), ← mul_assoc, mul_assoc 2, mul_inv_cancel₀ (by positivity), mul_one,
      ← div_eq_mul_inv, div_le_one (by positivity)]
    exact hm'
  have key : ∀ k k', l k ≤ l k' → (2 * pairChance m - fairRate m T (l k' - l k)) * (g k' - g k) ≤
      swapStep (fairRate m T) l g k' - swapStep (fairRate m T) l g k := by
    intro k k' hk
    have hΔ : 0 ≤ g k' - g k := sub_nonneg.2 (hg.1 _ _ hk)
    have term : ∀ j, -(2 * pairChance m * (g k' - g k)) ≤
        fairRate m T (l j - l k') * (g j - g k') - fairRate m T (l j - l k) * (g j - g k) := by
      intro j
      rcases le_total (l j) (l k) with a | a
      · rw [fair_low hT (by linarith : l j - l k' ≤ 0), fair_low hT (by linarith : l j - l k ≤ 0)]
        nlinarith
      · rcases le_total (l j) (l k') with b | b
        · rw [fair_low hT (by linarith : l j - l k' ≤ 0)]
          have f1 := fair_le (T := T) (d := l j - l k) h1
          have f2 := hg.1 _ _ a
          nlinarith
        · have f1 := fair_le (T := T) (d := l j - l k) h1
          have f2 := hg.1 _ _ b
          have f3 : fairRate m T (l j - l k) ≤ fairRate m T (l j - l k') := fair_anti h1 hT (by linarith)
          nlinarith
    have e : swapStep (fairRate m T) l g k' - swapStep (fairRate m T) l g k = (g k' - g k) +
        ∑ j, (fairRate m T (l j - l k') * (g j - g k') - fairRate m T (l j - l k) * (g j - g k)) := by
      unfold swapStep
      rw [add_sub_add_comm, ← Finset.sum_sub_distrib]
    rw [e, Fin.sum_univ_succAbove _ k']
    have h2 := Finset.sum_le_sum fun j (_ : j ∈ (Finset.univ : Finset (Fin m))) => term (k'.succAbove j)
    rw [Finset.sum_const, Finset.card_univ, Fintype.card_fin, nsmul_eq_mul] at h2
    rw [sub_self (g k'), mul_zero, zero_sub]
    nlinarith
  refine ⟨fun i j hij => ?_, fun i j hij => ?_⟩
  · have := key i j hij
    have h2 := mul_nonneg (sub_nonneg.2 (fair_le (T := T) (d := l j - l i) h1)) (sub_nonneg.2 (hg.1 _ _ hij))
    linarith
  · have := key i j hij.le
    have h2 := mul_pos (sub_pos.2 (fair_lt (T := T) h1 hT (sub_pos.2 hij))) (sub_pos.2 (hg.2 _ _ hij))
    linarith

theorem code_more (hm : 1 ≤ m) (hT : 1 < T) (hg : Rises l g) (k : Fin (m + 1)) :
    swapStep (fairRate m T) l g k ≤ swapStep (codeRate m T) l g k ∧
    ((∃ j, l k < l j) → swapStep (fairRate m T) l g k < swapStep (codeRate m T) l g k) := by
  have term : ∀ j, fairRate m T (l j - l k) * (g j - g k) ≤ codeRate m T (l j - l k) * (g j - g k) := by
    intro j
    rcases le_total (l j) (l k) with a | a
    · rw [fair_low hT (by linarith), code_low hT (by linarith)]
    · exact mul_le_mul_of_nonneg_right (code_ge hm hT) (sub_nonneg.2 (hg.1 _ _ a))
  unfold swapStep
  refine ⟨by have := Finset.sum_le_sum fun j (_ : j ∈ (Finset.univ : Finset (Fin (m + 1)))) => term j; linarith, ?_⟩
  rintro ⟨j, hj⟩
  have := Finset.sum_lt_sum (fun j (_ : j ∈ (Finset.univ : Finset (Fin (m + 1)))) => term j)
    ⟨j, Finset.mem_univ j, mul_lt_mul_of_pos_right (code_gt hm hT (sub_pos.2 hj)) (sub_pos.2 (hg.2 _ _ hj))⟩
  linarith

theorem fair_iterate (hm : 2 ≤ m) (hT : 1 < T) (hg : Rises l g) (n : ℕ) : Rises l ((swapStep (fairRate m T) l)^[n] g) := by
  induction n with
  | zero => exact hg
  | succ n ih =>
    rw [Function.iterate_succ_apply']
    exact fair_rises hm hT ih

theorem code_iterate (hm : 2 ≤ m) (hT : 1 < T) (hg : Rises l g) (n : ℕ) (k : Fin (m + 1)) :
    (swapStep (fairRate m T) l)^[n] g k ≤ (swapStep (codeRate m T) l)^[n] g k := by
  induction n generalizing k with
  | zero => exact le_rfl
  | succ n ih =>
    rw [Function.iterate_succ_apply', Function.iterate_succ_apply']
    exact (code_more (by omega) hT (fair_iterate hm hT hg n) k).1.trans
      (step_le (by omega) (fun d => ⟨code_nonneg (by omega), code_le (by omega)⟩) ih k)

theorem code_iterate_lt (hm : 2 ≤ m) (hT : 1 < T) (hg : Rises l g) (n : ℕ) (k : Fin (m + 1)) (hk : ∃ j, l k < l j) :
    (swapStep (fairRate m T) l)^[n + 1] g k < (swapStep (codeRate m T) l)^[n + 1] g k := by
  rw [Function.iterate_succ_apply', Function.iterate_succ_apply']
  exact ((code_more (by omega) hT (fair_iterate hm hT hg n) k).2 hk).trans_le
    (step_le (by omega) (fun d => ⟨code_nonneg (by omega), code_le (by omega)⟩) (code_iterate hm hT hg n) k)

/-- The fair probabilities keep the equilibrium. -/
theorem fair_balance (T : ℝ) (l g : Fin (m + 1) → ℝ) :
    ∑ k, Real.exp (-((1 - 1 / T) * l k)) * swapStep (fairRate m T) l g k = ∑ k, Real.exp (-((1 - 1 / T) * l k)) * g k := by
  have sym : ∀ j k, Real.exp (-((1 - 1 / T) * l k)) * fairRate m T (l j - l k) =
      Real.exp (-((1 - 1 / T) * l j)) * fairRate m T (l k - l j) := by
    intro j k
    unfold fairRate
    have e : ∀ a b : ℝ, Real.exp (-((1 - 1 / T) * a)) * min 1 (Real.exp (-((1 - 1 / T) * (b - a)))) =
        min (Real.exp (-((1 - 1 / T) * a))) (Real.exp (-((1 - 1 / T) * b))) := by
      intro a b
      rw [mul_min_of_nonneg _ _ (Real.exp_pos _).le, mul_one, ← Real.exp_add]
      congr 2
      ring
    have h1 := e (l k) (l j)
    have h2 := e (l j) (l k)
    rw [min_comm (Real.exp (-((1 - 1 / T) * l j)))] at h2
    have h3 := h1.trans h2.symm
    linear_combination (2 * pairChance m) * h3
  unfold swapStep
  have h1 : ∑ k, Real.exp (-((1 - 1 / T) * l k)) * (g k + ∑ j, fairRate m T (l j - l k) * (g j - g k)) =
      ∑ k, Real.exp (-((1 - 1 / T) * l k)) * g k +
      (∑ k, ∑ j, Real.exp (-((1 - 1 / T) * l k)) * fairRate m T (l j - l k) * g j -
        ∑ k, ∑ j, Real.exp (-((1 - 1 / T) * l k)) * fairRate m T (l j - l k) * g k) := by
    rw [← Finset.sum_sub_distrib, ← Finset.sum_add_distrib]
    refine Finset.sum_congr rfl fun k _ => ?_
    rw [mul_add, Finset.mul_sum, ← Finset.sum_sub_distrib]
    congr 1
    exact Finset.sum_congr rfl fun j _ => by ring
  rw [h1, Finset.sum_comm]
  have h2 : ∑ j, ∑ k, Real.exp (-((1 - 1 / T) * l k)) * fairRate m T (l j - l k) * g j =
      ∑ k, ∑ j, Real.exp (-((1 - 1 / T) * l k)) * fairRate m T (l j - l k) * g k :=
    Finset.sum_congr rfl fun j _ => Finset.sum_congr rfl fun k _ => by rw [sym j k]
  rw [h2, sub_self, add_zero]

theorem fair_balance_iterate (T : ℝ) (l g : Fin (m + 1) → ℝ) (n : ℕ) :
    ∑ k, Real.exp (-((1 - 1 / T) * l k)) * (swapStep (fairRate m T) l)^[n] g k = ∑ k, Real.exp (-((1 - 1 / T) * l k)) * g k := by
  induction n with
  | zero => rfl
  | succ n ih =>
    rw [Function.iterate_succ_apply', fair_balance]
    exact ih

/-- Two chains, two rounds. -/
theorem two_raise {l g : Fin (1 + 1) → ℝ} (hT : 1 < T) (hg : Rises l g) :
    ∑ k, Real.exp (-((1 - 1 / T) * l k)) * g k ≤ ∑ k, Real.exp (-((1 - 1 / T) * l k)) * (swapStep (codeRate 1 T) l)^[2] g k ∧
    ((∃ i j, l i < l j) →
      ∑ k, Real.exp (-((1 - 1 / T) * l k)) * g k < ∑ k, Real.exp (-((1 - 1 / T) * l k)) * (swapStep (codeRate 1 T) l)^[2] g k) := by
  have c1 : pairChance 1 = 1 / 2 := by unfold pairChance; norm_num
  have e : ∑ k, Real.exp (-((1 - 1 / T) * l k)) * (swapStep (codeRate 1 T) l)^[2] g k =
      ∑ k, Real.exp (-((1 - 1 / T) * l k)) * g k +
      (2 - codeRate 1 T (l 1 - l 0) - codeRate 1 T (l 0 - l 1)) * ((g 1 - g 0) *
        (Real.exp (-((1 - 1 / T) * l 0)) * codeRate 1 T (l 1 - l 0) - Real.exp (-((1 - 1 / T) * l 1)) * codeRate 1 T (l 0 - l 1))) := by
    have hs : ∀ F : Fin (1 + 1) → ℝ, ∑ x, F x = F 0 + F 1 := Fin.sum_univ_two
    simp only [Function.iterate_succ, Function.iterate_zero, Function.comp, id, swapStep, hs]
    ring
  have key : ∀ i j : Fin (1 + 1), l i < l j → 0 < (2 - codeRate 1 T (l j - l i) - codeRate 1 T (l i - l j)) * ((g j - g i) *
        (Real.exp (-((1 - 1 / T) * l i)) * codeRate 1 T (l j - l i) - Real.exp (-((1 - 1 / T) * l j)) * codeRate 1 T (l i - l j))) := by
    intro i j hij
    have hd : 0 < l j - l i := sub_pos.2 hij
    have a := code_low (m := 1) hT (d := l i - l j) (by linarith)
    have b := code_gt (m := 1) le_rfl hT hd
    have h := cold_pos hT
    have h1 : 0 < (1 - 1 / T) * (l j - l i) := mul_pos h hd
    have hT0 : 0 < T := by linarith
    have h3 : 0 < (1 - 1 / T) * (l j - l i) / T := div_pos h1 hT0
    have c : codeRate 1 T (l j - l i) < 1 := by
      unfold codeRate
      rw [c1, neg_div, min_eq_right (Real.exp_le_one_iff.2 (by linarith)), min_eq_right (Real.exp_le_one_iff.2 (by linarith))]
      have := Real.exp_lt_one_iff.2 (neg_lt_zero.2 h1)
      have := Real.exp_lt_one_iff.2 (neg_lt_zero.2 h3)
      linarith
    rw [a, c1]
    have w : Real.exp (-((1 - 1 / T) * l j)) = Real.exp (-((1 - 1 / T) * l i)) * fairRate 1 T (l j - l i) := by
      unfold fairRate
      rw [c1, min_eq_right (Real.exp_le_one_iff.2 (by linarith))]
      rw [← mul_assoc (1 / 2 : ℝ), one_div_mul_cancel (by norm_num), one_mul, ← Real.exp_add]
      congr 1
      ring
    rw [w]
    have p := Real.exp_pos (-((1 - 1 / T) * l i))
    have g0 := hg.2 _ _ hij
    refine mul_pos (by linarith) (mul_pos (by linarith) ?_)
    nlinarith [mul_pos p (sub_pos.2 b)]
  rcases lt_trichotomy (l 0) (l 1) with h | h | h
  · have := key 0 1 h
    rw [e]
    exact ⟨by linarith, fun _ => by linarith⟩
  · rw [e]
    have hge : g 0 = g 1 := le_antisymm (hg.1 _ _ h.le) (hg.1 _ _ h.ge)
    rw [hge, sub_self, zero_mul, mul_zero, add_zero]
    refine ⟨le_rfl, ?_⟩
    rintro ⟨i, j, hij⟩
    have hall : ∀ i : Fin (1 + 1), i = 0 ∨ i = 1 := by decide
    rcases hall i with rfl | rfl <;> rcases hall j with rfl | rfl <;> linarith
  · have := key 1 0 h
    rw [e]
    have e2 : (2 - codeRate 1 T (l 1 - l 0) - codeRate 1 T (l 0 - l 1)) * ((g 1 - g 0) *
        (Real.exp (-((1 - 1 / T) * l 0)) * codeRate 1 T (l 1 - l 0) - Real.exp (-((1 - 1 / T) * l 1)) * codeRate 1 T (l 0 - l 1))) =
        (2 - codeRate 1 T (l 0 - l 1) - codeRate 1 T (l 1 - l 0)) * ((g 0 - g 1) *
        (Real.exp (-((1 - 1 / T) * l 1)) * codeRate 1 T (l 0 - l 1) - Real.exp (-((1 - 1 / T) * l 0)) * codeRate 1 T (l 1 - l 0))) := by ring
    rw [e2]
    exact ⟨by linarith, fun _ => by linarith⟩

/-- As many rounds as there are chains raise the likelihood at the hot position. -/
theorem rounds_raise (hm : 1 ≤ m) (hT : 1 < T) {l g : Fin (m + 1) → ℝ} (hg : Rises l g) :
    ∑ k, Real.exp (-((1 - 1 / T) * l k)) * g k ≤
      ∑ k, Real.exp (-((1 - 1 / T) * l k)) * (swapStep (codeRate m T) l)^[m + 1] g k ∧
    ((∃ i j, l i < l j) → ∑ k, Real.exp (-((1 - 1 / T) * l k)) * g k <
      ∑ k, Real.exp (-((1 - 1 / T) * l k)) * (swapStep (codeRate m T) l)^[m + 1] g k) := by
  rcases hm.eq_or_lt with rfl | h2
  · exact two_raise hT hg
  · rw [← fair_balance_iterate T l g (m + 1)]
    have h : ∀ k, Real.exp (-((1 - 1 / T) * l k)) * (swapStep (fairRate m T) l)^[m + 1] g k ≤
        Real.exp (-((1 - 1 / T) * l k)) * (swapStep (codeRate m T) l)^[m + 1] g k := fun k =>
      mul_le_mul_of_nonneg_left (code_iterate h2 hT hg _ k) (Real.exp_pos _).le
    refine ⟨Finset.sum_le_sum fun k _ => h k, ?_⟩
    rintro ⟨i, j, hij⟩
    exact Finset.sum_lt_sum (fun k _ => h k) ⟨i, Finset.mem_univ i,
      mul_lt_mul_of_pos_left (code_iterate_lt h2 hT hg m i ⟨j, hij⟩) (Real.exp_pos _)⟩

/-- The names of the positions do not matter. -/
theorem step_perm (w : ℝ → ℝ) (l g : Fin (m + 1) → ℝ) (e : Equiv.Perm (Fin (m + 1))) (k : Fin (m + 1)) :
    swapStep w (fun i => l (e i)) (fun i => g (e i)) k = swapStep w l g (e k) := by
  unfold swapStep
  congr 1
  exact Equiv.sum_comp e fun j => w (l j - l (e k)) * (g j - g (e k))

theorem iterate_perm (w : ℝ → ℝ) (l g : Fin (m + 1) → ℝ) (e : Equiv.Perm (Fin (m + 1))) (n : ℕ) (k : Fin (m + 1)) :
    (swapStep w fun i => l (e i))^[n] (fun i => g (e i)) k = (swapStep w l)^[n] g (e k) := by
  induction n generalizing k with
  | zero => rfl
  | succ n ih =>
    rw [Function.iterate_succ_apply', Function.iterate_succ_apply', ← step_perm]
    congr 1
    funext i
    exact ih i

theorem iterate_sub (w : ℝ → ℝ) (l g : Fin (m + 1) → ℝ) (c : ℝ) (n : ℕ) (k : Fin (m + 1)) :
    (swapStep w l)^[n] (fun i => c - g i) k = c - (swapStep w l)^[n] g k := by
  induction n generalizing k with
  | zero => rfl
  | succ n ih =>
    rw [Function.iterate_succ_apply', Function.iterate_succ_apply']
    have : (swapStep w l)^[n] (fun i => c - g i) = fun i => c - (swapStep w l)^[n] g i := funext ih
    rw [this]
    exact (step_sub w l _ (fun _ => c) k).trans (by rw [step_const])

theorem iterate_const (w : ℝ → ℝ) (l : Fin (m + 1) → ℝ) (c : ℝ) (n : ℕ) (k : Fin (m + 1)) :
    (swapStep w l)^[n] (fun _ => c) k = c := by
  induction n with
  | zero => rfl
  | succ n ih =>
    have : swapStep w l (fun _ => c) = fun _ => c := funext (step_const w l c)
    rw [Function.iterate_succ_apply, this]
    exact ih

theorem iterate_nonneg (hm : 1 ≤ m) (hw : ∀ d, 0 ≤ w d ∧ w d ≤ 2 * pairChance m) (hg : ∀ i, 0 ≤ g i) (n : ℕ) (k : Fin (m + 1)) :
    0 ≤ (swapStep w l)^[n] g k := by
  induction n generalizing k with
  | zero => exact hg k
  | succ n ih =>
    rw [Function.iterate_succ_apply']
    exact step_nonneg hm hw ih k

end steps

end BB.Lemmas
