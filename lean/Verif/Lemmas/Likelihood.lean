import Verif.Lemmas.Covariance
import Verif.Lemmas.Dict
import Verif.Spec.Likelihood

/-!
# Facts about the model of the likelihood
-/

namespace BB.Lemmas

open BB BB.Spec BB.Utils1d Matrix

/-! ### Lists as vectors -/

theorem ofFn_vecOf {n : ℕ} {xs : List ℝ} (h : xs.length = n) : List.ofFn (vecOf n xs) = xs := by
  subst h
  apply List.ext_getElem
  · simp
  · intro i h1 h2
    simp [vecOf, h2]

theorem zipWith_ofFn {n : ℕ} (f : ℝ → ℝ → ℝ) (a b : Fin n → ℝ) :
    List.zipWith f (List.ofFn a) (List.ofFn b) = List.ofFn fun i => f (a i) (b i) := by
  apply List.ext_getElem
  · simp
  · intro i h1 h2; simp

theorem vdot_ofFn {n : ℕ} (a b : Fin n → ℝ) :
    vdot (List.ofFn a) (List.ofFn b) = .ok (a ⬝ᵥ b) := by
  simp [vdot, zipWith_ofFn, List.sum_ofFn, dotProduct]

theorem bcast_ofFn {n : ℕ} (f : ℝ → ℝ → ℝ) (a b : Fin n → ℝ) :
    bcast f (List.ofFn a) (List.ofFn b) = .ok (List.ofFn fun i => f (a i) (b i)) := by
  simp [bcast, zipWith_ofFn]

theorem mapM_ok {α β : Type} (f : α → Except PyErr β) (g : α → β) (l : List α)
    (h : ∀ x ∈ l, f x = .ok (g x)) : l.mapM f = .ok (l.map g) := by
  induction l with
  | nil => rfl
  | cons x l ih =>
    rw [List.mapM_cons, h x (by simp), ok_bind, ih (fun y hy => h y (List.mem_cons_of_mem _ hy))]
    rfl

theorem matVec_rows {n : ℕ} (M : Matrix (Fin n) (Fin n) ℝ) (v : Fin n → ℝ) :
    matVec (List.ofFn fun i => List.ofFn (M i)) (List.ofFn v) = .ok (List.ofFn (M *ᵥ v)) := by
  unfold matVec
  rw [mapM_ok _ (fun row => (List.zipWith (· * ·) row (List.ofFn v)).sum)]
  · congr 1
    rw [List.map_ofFn]
    congr 1
    funext i
    simp [Function.comp, zipWith_ofFn, List.sum_ofFn, mulVec, dotProduct]
  · intro row hrow
    obtain ⟨i, rfl⟩ := List.mem_ofFn.1 hrow
    simp [vdot]

theorem Mat.rows_eq {n : ℕ} (m : Utils1d.Mat ℝ) (hn : m.n = n) :
    m.rows = List.ofFn fun i : Fin n => List.ofFn fun j : Fin n => m.f i j := by
  subst hn
  unfold Utils1d.Mat.rows
  apply List.ext_getElem
  · simp
  · intro i h1 h2
    simp only [List.getElem_map, List.getElem_range, List.getElem_ofFn]
    apply List.ext_getElem
    · simp
    · intro j h3 h4; simp

theorem rows_matOf {n : ℕ} (m : List (List ℝ)) (h1 : m.length = n)
    (h2 : ∀ row ∈ m, row.length = n) :
    (List.ofFn fun i => List.ofFn (matOf n m i)) = m := by
  subst h1
  apply List.ext_getElem
  · simp
  · intro i h3 h4
    have h5 : (m[i]).length = m.length := h2 _ (List.getElem_mem _)
    apply List.ext_getElem
    · simp [h5]
    · intro j h6 h7
      simp [matOf, h7]

/-! ### The misfit is the Mahalanobis distance -/

theorem diagonal_inv_of_ne {n : ℕ} (d : Fin n → ℝ) (h : ∀ i, d i ≠ 0) :
    (Matrix.diagonal d)⁻¹ = Matrix.diagonal fun i => (d i)⁻¹ := by
  apply Matrix.inv_eq_left_inv
  rw [Matrix.diagonal_mul_diagonal]
  have : (fun i => (d i)⁻¹ * d i) = fun _ => 1 := by
    funext i; exact inv_mul_cancel₀ (h i)
  rw [this, Matrix.diagonal_one]

/-- The inverse of the data covariance applied by the code is the inverse of the documented
covariance. -/
theorem invCovTimes_ok (t : Target) (p : Params) (noise : Noise) (hN : NoiseOf p t noise)
    (hA : Admissible t noise) (v : Fin t.dobs.length → ℝ) :
    t.invCovTimes p (List.ofFn v) = .ok (List.ofFn ((dataCov t noise)⁻¹ *ᵥ v)) := by
  unfold Target.invCovTimes dataCov
  unfold Admissible at hA
  unfold NoiseOf at hN
  match hc : t.covInv with
  | some (.scalar c) =>
    simp only [hc] at hA ⊢
    have hc0 : c⁻¹ ≠ 0 := inv_ne_zero hA.ne'
    rw [diagonal_inv_of_ne _ (fun _ => hc0), List.map_ofFn]
    congr 2
    funext i
    simp [Matrix.mulVec_diagonal]
  | some (.vec w) =>
    simp only [hc] at hA ⊢
    have hw : ∀ i, vecOf t.dobs.length w i ≠ 0 := by
      intro i
      have hi : (i : ℕ) < w.length := by rw [hA.1]; exact i.isLt
      have : vecOf t.dobs.length w i = w[(i : ℕ)] := by simp [vecOf, hi]
      rw [this]
      exact (hA.2 _ (List.getElem_mem _)).ne'
    rw [diagonal_inv_of_ne _ (fun i => inv_ne_zero (hw i))]
    conv_lhs => rw [← ofFn_vecOf hA.1]
    rw [bcast_ofFn]
    congr 2
    funext i
    simp [Matrix.mulVec_diagonal]
  | some (.mat m) =>
    simp only [hc] at hA ⊢
    conv_lhs => rw [← rows_matOf m hA.1 hA.2.1]
    rw [matVec_rows, Matrix.nonsing_inv_nonsing_inv]
    exact (Matrix.isUnit_iff_isUnit_det _).1 hA.2.2.isUnit
  | none =>
    simp only [hc] at hA ⊢
    have hg : getNoise p t.name = .ok noise := by simp [getNoise, hN hc]
    rw [hg, ok_bind]
    have hσ : noise.std ^ 2 ≠ 0 := pow_ne_zero _ hA.1.ne'
    match hr : noise.corr with
    | none =>
      simp only [if_neg hσ]
      rw [diagonal_inv_of_ne _ (fun _ => hσ), List.map_ofFn]
      change Except.ok _ = Except.ok _
      congr 2
      funext i
      simp [Matrix.mulVec_diagonal]
    | some r =>
      obtain ⟨h1, h3⟩ := hA.2 r hr
      have hr2 : 1 - r ^ 2 ≠ 0 := by
        have := (sq_lt_one_iff_abs_lt_one r).2 h1
        linarith
      have hne := mul_ne_zero hσ hr2
      obtain ⟨m, hm, hmn, hmf⟩ := inverseCovariance_ok noise.std r t.dobs.length h3 hne
      simp only
      rw [hm, ok_bind, Mat.rows_eq m hmn]
      have hM : (fun i : Fin t.dobs.length => List.ofFn fun j : Fin t.dobs.length => m.f i j)
          = fun i => List.ofFn ((expCov noise.std r t.dobs.length)⁻¹ i) := by
        rw [Matrix.inv_eq_left_inv (tri_mul_expCov noise.std r t.dobs.length (by omega) hne)]
        funext i
        congr 1
        funext j
        rw [hmf _ _ i.isLt j.isLt]
        rfl
      rw [hM, matVec_rows]

theorem misfit_ok (t : Target) (p : Params) (noise : Noise) (hN : NoiseOf p t noise)
    (hA : Admissible t noise) (dpred : List ℝ) (hl : dpred.length = t.dobs.length) :
    t.misfit p dpred = .ok
      ((vecOf _ dpred - vecOf _ t.dobs) ⬝ᵥ
        ((dataCov t noise)⁻¹ *ᵥ (vecOf _ dpred - vecOf _ t.dobs))) := by
  unfold Target.misfit
  conv_lhs => rw [← ofFn_vecOf hl]
  have h0 : t.dobs = List.ofFn (vecOf t.dobs.length t.dobs) := (ofFn_vecOf rfl).symm
  have : bcast (fun x1 x2 => x1 - x2) (List.ofFn (vecOf t.dobs.length dpred)) t.dobs
      = .ok (List.ofFn (vecOf t.dobs.length dpred - vecOf t.dobs.length t.dobs)) := by
    conv_lhs => rw [h0]
    have e : (List.ofFn (vecOf (List.ofFn (vecOf t.dobs.length t.dobs)).length dpred))
      = (List.ofFn (vecOf t.dobs.length dpred)) := by rw [← h0]
    rw [e, bcast_ofFn]
    rfl
  rw [this, ok_bind, invCovTimes_ok t p noise hN hA, ok_bind, vdot_ofFn]

theorem posDef_dataCov (t : Target) (noise : Noise) (hA : Admissible t noise) :
    (dataCov t noise).PosDef := by
  unfold dataCov
  unfold Admissible at hA
  match hc : t.covInv with
  | some (.scalar c) =>
    simp only [hc] at hA ⊢
    exact Matrix.PosDef.diagonal fun _ => inv_pos.2 hA
  | some (.vec w) =>
    simp only [hc] at hA ⊢
    refine Matrix.PosDef.diagonal fun i => inv_pos.2 ?_
    have hi : (i : ℕ) < w.length := by rw [hA.1]; exact i.isLt
    have : vecOf t.dobs.length w i = w[(i : ℕ)] := by simp [vecOf, hi]
    rw [this]
    exact hA.2 _ (List.getElem_mem _)
  | some (.mat m) =>
    simp only [hc] at hA ⊢
    exact hA.2.2.inv
  | none =>
    simp only [hc] at hA ⊢
    match hr : noise.corr with
    | none => exact Matrix.PosDef.diagonal fun _ => pow_pos hA.1 2
    | some r => exact posDef_expCov _ _ _ hA.1.ne' (hA.2 r hr).1

theorem logDet_ok (t : Target) (p : Params) (noise : Noise) (hc : t.covInv = none)
    (hN : NoiseOf p t noise) (hσ : 0 < noise.std) (hr : ∀ r, noise.corr = some r → |r| < 1)
    (hn : t.dobs ≠ []) :
    t.logDet p = .ok (Real.log (dataCov t noise).det) := by
  unfold Target.logDet
  have hg : getNoise p t.name = .ok noise := by simp [getNoise, hN hc]
  have hn0 : t.dobs.length ≠ 0 := by simpa using hn
  rw [hg, ok_bind]
  have hr1 : |noise.corr.getD 0| < 1 := by
    match h : noise.corr with
    | none => simp
    | some r => simpa using hr r h
  have hr2 : 0 < 1 - (noise.corr.getD 0) ^ 2 := by
    have := (sq_lt_one_iff_abs_lt_one _).2 hr1
    linarith
  simp only [pyLog, if_pos hσ, ok_bind, if_pos hr2]
  have hdet : (dataCov t noise).det
      = noise.std ^ (2 * t.dobs.length) * (1 - (noise.corr.getD 0) ^ 2) ^ (t.dobs.length - 1) := by
    unfold dataCov
    simp only [hc]
    match h : noise.corr with
    | none => simp [Matrix.det_diagonal, pow_mul]
    | some r => simpa using det_expCov noise.std r _ hn0
  rw [hdet, Real.log_mul (pow_ne_zero _ hσ.ne') (pow_ne_zero _ hr2.ne'), Real.log_pow,
    Real.log_pow]
  have : ((t.dobs.length - 1 : ℕ) : ℝ) = (t.dobs.length : ℝ) - 1 := by
    rw [Nat.cast_sub (by omega)]; simp
  rw [this]
  push_cast
  rfl

end BB.Lemmas
