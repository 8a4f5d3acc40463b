import Mathlib.LinearAlgebra.Matrix.Block
import Mathlib.LinearAlgebra.Matrix.PosDef
import Mathlib.Algebra.Order.Star.Real
import Mathlib.Tactic.Ring
import Mathlib.Tactic.FieldSimp
import Mathlib.Tactic.Linarith
import Verif.Spec.Gaussian
import Verif.Model.Utils1d
import Verif.Lemmas.InsertDelete

/-!
# Linear algebra of the exponential covariance matrix
-/

set_option linter.unusedSectionVars false

namespace BB.Lemmas

open Matrix BB.Spec

/-- Unit lower triangular factor. -/
def facL (r : ℝ) (n : ℕ) : Matrix (Fin n) (Fin n) ℝ :=
  Matrix.of fun i k => if (k : ℕ) ≤ i then r ^ ((i : ℕ) - k) else 0

/-- Diagonal factor. -/
def facD (σ r : ℝ) (n : ℕ) : Fin n → ℝ :=
  fun k => if (k : ℕ) = 0 then σ ^ 2 else σ ^ 2 * (1 - r ^ 2)

theorem sum_fac (σ r : ℝ) (i j m : ℕ) (hi : m ≤ i) (hj : m ≤ j) :
    ∑ k ∈ Finset.range (m + 1),
      r ^ (i - k) * (if k = 0 then σ ^ 2 else σ ^ 2 * (1 - r ^ 2)) * r ^ (j - k)
      = σ ^ 2 * (r ^ (i - m) * r ^ (j - m)) := by
  induction m with
  | zero => simp; ring
  | succ m ih =>
    rw [Finset.sum_range_succ, ih (by omega) (by omega)]
    have h1 : i - m = (i - (m + 1)) + 1 := by omega
    have h2 : j - m = (j - (m + 1)) + 1 := by omega
    rw [h1, h2]
    simp
    ring

theorem expCov_eq (σ r : ℝ) (n : ℕ) :
    expCov σ r n = facL r n * Matrix.diagonal (facD σ r n) * (facL r n)ᵀ := by
  ext i j
  rw [Matrix.mul_apply]
  simp only [Matrix.mul_diagonal, Matrix.transpose_apply, expCov, facL, facD, Matrix.of_apply]
  have : ∀ x : Fin n,
      (if (x : ℕ) ≤ i then r ^ ((i : ℕ) - x) else 0)
        * (if (x : ℕ) = 0 then σ ^ 2 else σ ^ 2 * (1 - r ^ 2))
        * (if (x : ℕ) ≤ j then r ^ ((j : ℕ) - x) else 0)
      = (fun k : ℕ => if k < min (i : ℕ) j + 1 then
          r ^ ((i : ℕ) - k) * (if k = 0 then σ ^ 2 else σ ^ 2 * (1 - r ^ 2)) * r ^ ((j : ℕ) - k)
          else 0) x := by
    intro x
    by_cases h1 : (x : ℕ) ≤ i <;> by_cases h2 : (x : ℕ) ≤ j
    · have : (x : ℕ) < min (i : ℕ) j + 1 := by omega
      simp [h1, h2, this]
    · have : ¬ (x : ℕ) < min (i : ℕ) j + 1 := by omega
      simp only [h1, h2, this, if_true, if_false, mul_zero]
    · have : ¬ (x : ℕ) < min (i : ℕ) j + 1 := by omega
      simp only [h1, h2, this, if_true, if_false, zero_mul]
    · have : ¬ (x : ℕ) < min (i : ℕ) j + 1 := by omega
      simp only [h1, h2, this, if_false, zero_mul]
  rw [Finset.sum_congr rfl (fun x _ => this x), Fin.sum_univ_eq_sum_range
    (fun k : ℕ => if k < min (i : ℕ) j + 1 then
          r ^ ((i : ℕ) - k) * (if k = 0 then σ ^ 2 else σ ^ 2 * (1 - r ^ 2)) * r ^ ((j : ℕ) - k)
          else 0)]
  rw [← Finset.sum_filter]
  have hf : Finset.filter (fun k => k < min (i : ℕ) j + 1) (Finset.range n)
      = Finset.range (min (i : ℕ) j + 1) := by
    ext k
    have := i.isLt
    simp only [Finset.mem_filter, Finset.mem_range]
    omega
  rw [hf, sum_fac σ r i j _ (by omega) (by omega), ← pow_add]
  congr 2
  omega

theorem det_facL (r : ℝ) (n : ℕ) : (facL r n).det = 1 := by
  rw [Matrix.det_of_isLowerTriangular]
  · simp [facL]
  · intro i j hij
    have : (i : ℕ) < j := by simpa using hij
    have h2 : ¬ j ≤ i := by simpa using hij
    simp [facL, h2]

theorem det_expCov (σ r : ℝ) (n : ℕ) (hn : n ≠ 0) :
    (expCov σ r n).det = σ ^ (2 * n) * (1 - r ^ 2) ^ (n - 1) := by
  rw [expCov_eq, Matrix.det_mul, Matrix.det_mul, Matrix.det_transpose, det_facL,
    Matrix.det_diagonal, one_mul, mul_one]
  obtain ⟨m, rfl⟩ := Nat.exists_eq_succ_of_ne_zero hn
  simp only [facD]
  rw [Fin.prod_univ_succ]
  simp [mul_pow]
  ring

theorem posDef_expCov (σ r : ℝ) (n : ℕ) (hσ : σ ≠ 0) (hr : |r| < 1) :
    (expCov σ r n).PosDef := by
  rw [expCov_eq]
  have hD : (Matrix.diagonal (facD σ r n)).PosDef := by
    apply Matrix.PosDef.diagonal
    intro k
    have h2 : 0 < σ ^ 2 := by positivity
    have h3 : 0 < 1 - r ^ 2 := by
      have := (sq_lt_one_iff_abs_lt_one r).2 hr
      linarith
    unfold facD
    split_ifs
    · exact h2
    · exact mul_pos h2 h3
  have := hD.mul_mul_conjTranspose_same (B := facL r n) ?_
  · simpa [Matrix.conjTranspose_eq_transpose_of_trivial] using this
  · rw [Matrix.vecMul_injective_iff_isUnit, Matrix.isUnit_iff_isUnit_det, det_facL]
    exact isUnit_one

/-- Entries of the inverse. -/
def tri (r f : ℝ) (n : ℕ) (i j : ℕ) : ℝ :=
  if i = j then (if i = 0 ∨ i + 1 = n then f else (1 + r ^ 2) * f)
  else if i = j + 1 ∨ j = i + 1 then -r * f else 0

theorem tri_mul_expCov (σ r : ℝ) (n : ℕ) (hn : 2 ≤ n) (h : σ ^ 2 * (1 - r ^ 2) ≠ 0) :
    (Matrix.of fun i j : Fin n => tri r (1 / (σ ^ 2 * (1 - r ^ 2))) n i j) * expCov σ r n = 1 := by
  ext i j
  rw [Matrix.mul_apply]
  simp only [Matrix.of_apply, expCov]
  set f := 1 / (σ ^ 2 * (1 - r ^ 2)) with hf
  set C : ℕ → ℝ := fun k => σ ^ 2 * r ^ ((k : ℤ) - (j : ℤ)).natAbs with hC
  have hsum : ∑ k : Fin n, tri r f n i k * (σ ^ 2 * r ^ (((k : ℕ) : ℤ) - (j : ℤ)).natAbs)
      = ∑ k ∈ Finset.range n, tri r f n i k * C k :=
    Fin.sum_univ_eq_sum_range (fun k => tri r f n i k * C k) n
  rw [hsum]
  have hsplit : ∀ k ∈ Finset.range n, tri r f n i k * C k
      = (if (i : ℕ) = k then (if (i : ℕ) = 0 ∨ (i : ℕ) + 1 = n then f else (1 + r ^ 2) * f) * C k
          else 0)
        + (if k = (i : ℕ) + 1 then -r * f * C k else 0)
        + (if k = (i : ℕ) - 1 then (if (i : ℕ) = 0 then 0 else -r * f * C k) else 0) := by
    intro k _
    unfold tri
    rcases Nat.lt_trichotomy k i with hk | hk | hk
    · by_cases hki : k + 1 = i
      · have e1 : ¬ (i : ℕ) = k := by omega
        have e2 : (i : ℕ) = k + 1 ∨ k = (i : ℕ) + 1 := by omega
        have e3 : ¬ k = (i : ℕ) + 1 := by omega
        have e4 : k = (i : ℕ) - 1 := by omega
        have e5 : ¬ (i : ℕ) = 0 := by omega
        rw [if_neg e1, if_pos e2, if_neg e1, if_neg e3, if_pos e4, if_neg e5]; ring
      · have e1 : ¬ (i : ℕ) = k := by omega
        have e2 : ¬ ((i : ℕ) = k + 1 ∨ k = (i : ℕ) + 1) := by omega
        have e3 : ¬ k = (i : ℕ) + 1 := by omega
        have e4 : ¬ k = (i : ℕ) - 1 := by omega
        rw [if_neg e1, if_neg e2, if_neg e1, if_neg e3, if_neg e4]; ring
    · have e1 : (i : ℕ) = k := hk.symm
      have e3 : ¬ k = (i : ℕ) + 1 := by omega
      rw [if_pos e1, if_pos e1, if_neg e3]
      by_cases hi0 : (i : ℕ) = 0
      · have e4 : k = (i : ℕ) - 1 := by omega
        rw [if_pos e4, if_pos hi0]; ring
      · have e4 : ¬ k = (i : ℕ) - 1 := by omega
        rw [if_neg e4]; ring
    · have e1 : ¬ (i : ℕ) = k := by omega
      have e4 : ¬ k = (i : ℕ) - 1 := by omega
      rw [if_neg e1, if_neg e1, if_neg e4]
      by_cases e3 : k = (i : ℕ) + 1
      · have e2 : (i : ℕ) = k + 1 ∨ k = (i : ℕ) + 1 := by omega
        rw [if_pos e2, if_pos e3]; ring
      · have e2 : ¬ ((i : ℕ) = k + 1 ∨ k = (i : ℕ) + 1) := by omega
        rw [if_neg e2, if_neg e3]; ring
  rw [Finset.sum_congr rfl hsplit, Finset.sum_add_distrib, Finset.sum_add_distrib,
    Finset.sum_ite_eq, Finset.sum_ite_eq', Finset.sum_ite_eq']
  have hi := i.isLt
  have hj := j.isLt
  have hm1 : (i : ℕ) - 1 ∈ Finset.range n := by rw [Finset.mem_range]; omega
  have hm0 : (i : ℕ) ∈ Finset.range n := by simp
  rw [if_pos hm1, if_pos hm0]
  have hf1 : f * σ ^ 2 * (1 - r ^ 2) = 1 := by
    rw [hf, mul_assoc]; exact one_div_mul_cancel h
  have hpow : ∀ a b : ℕ, a ≤ b → ((a : ℤ) - (b : ℤ)).natAbs = b - a := by intro a b h; omega
  have hpow' : ∀ a b : ℕ, b ≤ a → ((a : ℤ) - (b : ℤ)).natAbs = a - b := by intro a b h; omega
  rw [Matrix.one_apply]
  simp only [Finset.mem_range]
  rcases Nat.lt_trichotomy i j with hij | hij | hij
  · -- i < j
    have hne : i ≠ j := by intro h; subst h; omega
    rw [if_neg hne]
    have hC0 : C i = σ ^ 2 * (r * r ^ ((j : ℕ) - i - 1)) := by
      rw [hC]; simp only
      rw [hpow _ _ hij.le, ← pow_succ']; congr 2; omega
    have hCp : C (i + 1) = σ ^ 2 * r ^ ((j : ℕ) - i - 1) := by
      rw [hC]; simp only
      rw [hpow _ _ (by omega)]; congr 2
    have h1 : (i : ℕ) + 1 < n := by omega
    have h2 : ¬ (i : ℕ) + 1 = n := by omega
    rw [if_pos h1, hC0, hCp]
    by_cases hi0 : (i : ℕ) = 0
    · rw [if_pos (Or.inl hi0), if_pos hi0]; ring
    · have h3 : ¬ ((i : ℕ) = 0 ∨ (i : ℕ) + 1 = n) := by omega
      have hCm : C ((i : ℕ) - 1) = σ ^ 2 * (r * r * r ^ ((j : ℕ) - i - 1)) := by
        rw [hC]; simp only
        rw [hpow _ _ (by omega), mul_assoc r r, ← pow_succ', ← pow_succ']; congr 2; omega
      rw [if_neg h3, if_neg hi0, hCm]; ring
  · have hne : i = j := Fin.ext hij
    rw [if_pos hne]
    have hC0 : C i = σ ^ 2 := by
      rw [hC]; simp only
      rw [hpow _ _ hij.le, hij]; simp
    have hCp : C (i + 1) = σ ^ 2 * r := by
      rw [hC]; simp only
      rw [hpow' _ _ (by omega)]
      have : (i : ℕ) + 1 - j = 1 := by omega
      rw [this, pow_one]
    rw [hC0, hCp]
    by_cases hi0 : (i : ℕ) = 0
    · have h1 : (i : ℕ) + 1 < n := by omega
      rw [if_pos (Or.inl hi0), if_pos h1, if_pos hi0]
      linear_combination hf1
    · have hCm : C ((i : ℕ) - 1) = σ ^ 2 * r := by
        rw [hC]; simp only
        rw [hpow _ _ (by omega)]
        have : (j : ℕ) - (i - 1) = 1 := by omega
        rw [this, pow_one]
      rw [if_neg hi0, hCm]
      by_cases h1 : (i : ℕ) + 1 < n
      · have h3 : ¬ ((i : ℕ) = 0 ∨ (i : ℕ) + 1 = n) := by omega
        rw [if_neg h3, if_pos h1]
        linear_combination hf1
      · have h3 : ((i : ℕ) = 0 ∨ (i : ℕ) + 1 = n) := by omega
        rw [if_pos h3, if_neg h1]
        linear_combination hf1
  · have hne : i ≠ j := by intro h; subst h; omega
    have hi0 : ¬ (i : ℕ) = 0 := by omega
    rw [if_neg hne, if_neg hi0]
    have hC0 : C i = σ ^ 2 * (r * r ^ ((i : ℕ) - j - 1)) := by
      rw [hC]; simp only
      rw [hpow' _ _ hij.le, ← pow_succ']; congr 2; omega
    have hCm : C ((i : ℕ) - 1) = σ ^ 2 * r ^ ((i : ℕ) - j - 1) := by
      rw [hC]; simp only
      rw [hpow' _ _ (by omega)]; congr 2; omega
    have hCp : C (i + 1) = σ ^ 2 * (r * r * r ^ ((i : ℕ) - j - 1)) := by
      rw [hC]; simp only
      rw [hpow' _ _ (by omega), mul_assoc r r, ← pow_succ', ← pow_succ']; congr 2; omega
    rw [hC0, hCm, hCp]
    by_cases h1 : (i : ℕ) + 1 < n
    · have h3 : ¬ ((i : ℕ) = 0 ∨ (i : ℕ) + 1 = n) := by omega
      rw [if_neg h3, if_pos h1]; ring
    · have h3 : ((i : ℕ) = 0 ∨ (i : ℕ) + 1 = n) := by omega
      rw [if_pos h3, if_neg h1]; ring

/-! ### The loop of `inverse_covariance` -/

open BB.Utils1d

/-- Contents of the matrix before the iteration with index `j`. -/
def part (r f : ℝ) (j : ℕ) (a b : ℕ) : ℝ :=
  if a = b then (if 1 ≤ a ∧ a < j then (1 + r ^ 2) * f else 0)
  else if (a = b + 1 ∧ a < j) ∨ (b = a + 1 ∧ b < j) then -r * f else 0

theorem Mat.wr_ok (m : Mat ℝ) (a b : ℕ) (v : ℝ) (ha : a < m.n) (hb : b < m.n) :
    m.wr a b v = .ok { m with f := fun i j => if i = a ∧ j = b then v else m.f i j } := by
  simp [Mat.wr, ha, hb]

theorem part_step (r f : ℝ) (j : ℕ) (hj : 1 ≤ j) :
    (fun a b => if a = j - 1 ∧ b = j then -r * f
      else if a = j ∧ b = j - 1 then -r * f
      else if a = j ∧ b = j then (1 + r ^ 2) * f else part r f j a b) = part r f (j + 1) := by
  funext a b
  unfold part
  rcases Nat.lt_trichotomy a b with h | h | h
  · split_ifs <;> first | rfl | omega
  · split_ifs <;> first | rfl | omega
  · split_ifs <;> first | rfl | omega

theorem invCovLoop_spec (r f : ℝ) (k : ℕ) : ∀ (j n : ℕ) (i : Option ℕ), 1 ≤ j → j + k ≤ n →
    invCovLoop r f k j i ⟨n, part r f j⟩
      = .ok (if k = 0 then i else some (j + k - 1), ⟨n, part r f (j + k)⟩) := by
  induction k with
  | zero => intro j n i _ _; simp [invCovLoop]
  | succ k ih =>
    intro j n i hj hn
    rw [invCovLoop, Mat.wr_ok _ _ _ _ (by simp; omega) (by simp; omega), ok_bind,
      Mat.wr_ok _ _ _ _ (by simp; omega) (by simp; omega), ok_bind,
      Mat.wr_ok _ _ _ _ (by simp; omega) (by simp; omega), ok_bind]
    simp only
    rw [part_step r f j hj, ih (j + 1) n (some j) (by omega) (by omega)]
    simp only [Nat.succ_ne_zero, if_false]
    have h1 : j + 1 + k = j + (k + 1) := by omega
    rw [h1]
    congr 2
    split_ifs with hk
    · subst hk; simp
    · rfl

theorem part_zero (r f : ℝ) : part r f 1 = fun _ _ => 0 := by
  funext a b
  unfold part
  split_ifs <;> first | rfl | omega

theorem inverseCovariance_ok (σ r : ℝ) (n : ℕ) (hn : 3 ≤ n) (h : σ ^ 2 * (1 - r ^ 2) ≠ 0) :
    ∃ m : Mat ℝ, inverseCovariance σ r n = .ok m ∧ m.n = n ∧
      ∀ i j, i < n → j < n → m.f i j = tri r (1 / (σ ^ 2 * (1 - r ^ 2))) n i j := by
  unfold inverseCovariance
  rw [if_neg h]
  have h0 : ¬ n = 0 := by omega
  have hk : ¬ n - 1 - 1 = 0 := by omega
  set f := 1 / (σ ^ 2 * (1 - r ^ 2))
  simp only [if_neg h0]
  rw [← part_zero r f, invCovLoop_spec r f _ _ _ _ le_rfl (by omega), ok_bind]
  simp only [if_neg hk]
  have e1 : 1 + (n - 1 - 1) - 1 = n - 2 := by omega
  have e2 : 1 + (n - 1 - 1) = n - 1 := by omega
  rw [Mat.wr_ok _ _ _ _ (by simp; omega) (by simp; omega), ok_bind,
    Mat.wr_ok _ _ _ _ (by simp; omega) (by simp; omega), ok_bind]
  simp only [rdVar, ok_bind]
  rw [e1, e2, Mat.wr_ok _ _ _ _ (by simp; omega) (by simp; omega), ok_bind,
    Mat.wr_ok _ _ _ _ (by simp; omega) (by simp; omega)]
  refine ⟨_, rfl, rfl, ?_⟩
  intro i j hi hj
  simp only [part, tri]
  rcases Nat.lt_trichotomy i j with h | h | h
  · split_ifs <;> first | rfl | omega
  · split_ifs <;> first | rfl | omega
  · split_ifs <;> first | rfl | omega

theorem inverseCovariance_ub (σ r : ℝ) (n : ℕ) (hn : n ≤ 2) (h : σ ^ 2 * (1 - r ^ 2) ≠ 0) :
    inverseCovariance σ r n = .error .undefinedBehaviour := by
  unfold inverseCovariance
  rw [if_neg h]
  rcases Nat.lt_or_ge n 1 with h1 | h1
  · have : n = 0 := by omega
    subst this; rfl
  · have h0 : ¬ n = 0 := by omega
    have hk : n - 1 - 1 = 0 := by omega
    simp only [if_neg h0, hk, invCovLoop, ok_bind]
    rw [Mat.wr_ok _ _ _ _ (by simp; omega) (by simp; omega), ok_bind,
      Mat.wr_ok _ _ _ _ (by simp; omega) (by simp; omega), ok_bind]
    rfl

end BB.Lemmas
