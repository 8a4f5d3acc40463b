import Verif.Lemmas.Rand
import Mathlib.Algebra.BigOperators.Group.List.Basic
import Mathlib.Algebra.Order.BigOperators.Group.List
import Mathlib.MeasureTheory.Measure.Lebesgue.Basic
import Mathlib.Tactic.Linarith

/-!
# `random.choices`
-/

namespace BB

/-- What binary search returns on a sorted list. -/
theorem bisectRight_spec (a : List ℝ) (x : ℝ)
    (hmono : ∀ i j, i ≤ j → j < a.length → a.getD i 0 ≤ a.getD j 0) :
    ∀ lo hi, lo ≤ hi → hi ≤ a.length →
      lo ≤ bisectRight a x lo hi ∧ bisectRight a x lo hi ≤ hi ∧
      (∀ j, lo ≤ j → j < bisectRight a x lo hi → a.getD j 0 ≤ x) ∧
      (∀ j, bisectRight a x lo hi ≤ j → j < hi → x < a.getD j 0) := by
  intro lo hi
  induction hd : hi - lo using Nat.strong_induction_on generalizing lo hi with
  | _ d ih =>
    intro hle hlen
    unfold bisectRight
    by_cases h : lo < hi
    · simp only [h, if_true]
      by_cases hx : x < a.getD ((lo + hi) / 2) 0
      · simp only [hx, if_true]
        obtain ⟨h1, h2, h3, h4⟩ := ih ((lo + hi) / 2 - lo) (by omega) lo ((lo + hi) / 2) rfl
          (by omega) (by omega)
        refine ⟨h1, by omega, h3, ?_⟩
        intro j hj1 hj2
        by_cases hj : j < (lo + hi) / 2
        · exact h4 j hj1 hj
        · exact lt_of_lt_of_le hx (hmono _ _ (by omega) (by omega))
      · simp only [hx, if_false]
        obtain ⟨h1, h2, h3, h4⟩ := ih (hi - ((lo + hi) / 2 + 1)) (by omega) ((lo + hi) / 2 + 1) hi
          rfl (by omega) (by omega)
        refine ⟨by omega, h2, ?_, h4⟩
        intro j hj1 hj2
        by_cases hj : (lo + hi) / 2 + 1 ≤ j
        · exact h3 j hj hj2
        · exact le_trans (hmono _ _ (by omega) (by omega)) (not_lt.1 hx)
    · simp only [h, if_false]
      exact ⟨le_refl _, hle, fun j h1 h2 => by omega, fun j h1 h2 => by omega⟩

theorem accumulate_length (s : ℝ) (ws : List ℝ) : (accumulate s ws).length = ws.length := by
  induction ws generalizing s with
  | nil => rfl
  | cons w ws ih => simp [accumulate, ih]

theorem accumulate_getD (s : ℝ) (ws : List ℝ) (i : ℕ) (h : i < ws.length) :
    (accumulate s ws).getD i 0 = s + (ws.take (i + 1)).sum := by
  induction ws generalizing s i with
  | nil => simp at h
  | cons w ws ih =>
    cases i with
    | zero => simp [accumulate]
    | succ i =>
      simp only [List.length_cons, Nat.add_lt_add_iff_right] at h
      simp only [accumulate, List.getD_cons_succ, List.take_succ_cons, List.sum_cons]
      rw [ih _ _ h]; ring

theorem accumulate_getLast (s : ℝ) (ws : List ℝ) (h : ws ≠ []) :
    (accumulate s ws).getLast? = some (s + ws.sum) := by
  induction ws generalizing s with
  | nil => exact absurd rfl h
  | cons w ws ih =>
    cases ws with
    | nil => simp [accumulate]
    | cons w' ws =>
      have := ih (s + w) (by simp)
      simp only [accumulate, List.getLast?_cons_cons] at this ⊢
      rw [this]; simp [add_assoc]

theorem take_sum_mono {ws : List ℝ} (hw : ∀ w ∈ ws, 0 ≤ w) {i j : ℕ} (h : i ≤ j) :
    (ws.take i).sum ≤ (ws.take j).sum := by
  obtain ⟨k, rfl⟩ := Nat.exists_eq_add_of_le h
  rw [List.take_add, List.sum_append]
  have : 0 ≤ ((ws.drop i).take k).sum :=
    List.sum_nonneg fun x hx => hw x (List.mem_of_mem_drop (List.mem_of_mem_take hx))
  linarith

theorem take_sum_le {ws : List ℝ} (hw : ∀ w ∈ ws, 0 ≤ w) (i : ℕ) : (ws.take i).sum ≤ ws.sum := by
  have h := take_sum_mono hw (i := i) (j := max i ws.length) (le_max_left _ _)
  rwa [List.take_of_length_le (le_max_right i ws.length)] at h

/-- `choices` raises without drawing, or draws once. -/
theorem choices_tape (n : ℕ) (ws : List ℝ) :
    (∃ e, ∀ t, choices n ws t = (.error e, t)) ∨
      ∃ g : ℝ → ℕ, choices n ws [] = (.error .tapeExhausted, []) ∧
        ∀ d t, choices n ws (d :: t) = (.ok (g d.u), t) := by
  by_cases h1 : (accumulate 0 ws).length ≠ n
  · have : choices n ws = M.throw .valueError := by unfold choices; simp only [if_pos h1]
    left; exact ⟨.valueError, fun t => by rw [this]; rfl⟩
  · match h2 : (accumulate 0 ws).getLast? with
    | none =>
      have : choices n ws = M.throw .indexError := by
        unfold choices; simp only [if_neg h1, h2]
      left; exact ⟨.indexError, fun t => by rw [this]; rfl⟩
    | some total =>
      by_cases h3 : total ≤ 0
      · have : choices n ws = M.throw .valueError := by
          unfold choices; simp only [if_neg h1, h2, if_pos h3]
        left; exact ⟨.valueError, fun t => by rw [this]; rfl⟩
      · have : choices n ws = (do
            let u ← M.random
            return bisectRight (accumulate 0 ws) (u * total) 0 (n - 1)) := by
          unfold choices; simp only [if_neg h1, h2, if_neg h3]
        right
        exact ⟨fun u => bisectRight (accumulate 0 ws) (u * total) 0 (n - 1), by rw [this]; rfl,
          fun d t => by rw [this]; rfl⟩

theorem choices_cons {n : ℕ} {ws : List ℝ} {d : Draw} {i : ℕ} {t0 t0' : List Draw}
    (h : choices n ws (d :: t0) = (.ok i, t0')) (t : List Draw) :
    choices n ws (d :: t) = (.ok i, t) := by
  rcases choices_tape n ws with ⟨e, he⟩ | ⟨g, -, hg⟩
  · rw [he] at h; simp at h
  · rw [hg] at h ⊢
    simp only [Prod.mk.injEq, Except.ok.injEq] at h
    rw [h.1]

/-- `choices` on one draw, for weights with a positive sum. -/
theorem choices_run (ws : List ℝ) (hw : ∀ w ∈ ws, 0 ≤ w) (hs : 0 < ws.sum) (d : Draw)
    (t : List Draw) :
    ∃ i, choices ws.length ws (d :: t) = (.ok i, t) ∧ i < ws.length ∧
      (ws.take i).sum ≤ d.u * ws.sum ∧ d.u * ws.sum < (ws.take (i + 1)).sum := by
  have hne : ws ≠ [] := by rintro rfl; simp at hs
  have hlen : 0 < ws.length := List.length_pos_iff.2 hne
  have hrun : choices ws.length ws (d :: t) =
      (.ok (bisectRight (accumulate 0 ws) (d.u * ws.sum) 0 (ws.length - 1)), t) := by
    unfold choices
    simp only [accumulate_length, ne_eq, not_true, if_false]
    rw [accumulate_getLast 0 ws hne]
    simp only [zero_add, not_le.2 hs, if_false]
    rfl
  have hmono : ∀ i j, i ≤ j → j < (accumulate 0 ws).length →
      (accumulate 0 ws).getD i 0 ≤ (accumulate 0 ws).getD j 0 := by
    intro i j hij hj
    rw [accumulate_length] at hj
    rw [accumulate_getD _ _ _ hj, accumulate_getD _ _ _ (lt_of_le_of_lt hij hj)]
    have := take_sum_mono hw (Nat.succ_le_succ hij)
    simpa using this
  obtain ⟨h1, h2, h3, h4⟩ := bisectRight_spec (accumulate 0 ws) (d.u * ws.sum) hmono 0
    (ws.length - 1) (Nat.zero_le _) (by rw [accumulate_length]; omega)
  refine ⟨_, hrun, by omega, ?_, ?_⟩
  · rcases Nat.eq_zero_or_pos (bisectRight (accumulate 0 ws) (d.u * ws.sum) 0 (ws.length - 1)) with
      h0 | h0
    · rw [h0]; simp only [List.take_zero, List.sum_nil]
      exact mul_nonneg d.hu.1 hs.le
    · have := h3 (bisectRight (accumulate 0 ws) (d.u * ws.sum) 0 (ws.length - 1) - 1)
        (Nat.zero_le _) (by omega)
      rw [accumulate_getD _ _ _ (by omega), zero_add, Nat.sub_add_cancel h0] at this
      exact this
  · by_cases hl : bisectRight (accumulate 0 ws) (d.u * ws.sum) 0 (ws.length - 1) < ws.length - 1
    · have := h4 _ (le_refl _) hl
      rw [accumulate_getD _ _ _ (by omega), zero_add] at this
      exact this
    · have he : bisectRight (accumulate 0 ws) (d.u * ws.sum) 0 (ws.length - 1) + 1 = ws.length := by
        omega
      rw [he, List.take_length]
      have := mul_lt_mul_of_pos_right d.hu.2 hs
      linarith

/-- Exactly for which draws the index `i` is chosen. -/
theorem choices_iff (ws : List ℝ) (hw : ∀ w ∈ ws, 0 ≤ w) (hs : 0 < ws.sum) (d : Draw)
    (t t' : List Draw) (i : ℕ) :
    choices ws.length ws (d :: t) = (.ok i, t') ↔
      t' = t ∧ i < ws.length ∧
      (ws.take i).sum ≤ d.u * ws.sum ∧ d.u * ws.sum < (ws.take (i + 1)).sum := by
  obtain ⟨j, h1, h2, h3, h4⟩ := choices_run ws hw hs d t
  rw [h1]
  simp only [Prod.mk.injEq, Except.ok.injEq]
  constructor
  · rintro ⟨rfl, rfl⟩; exact ⟨rfl, h2, h3, h4⟩
  · rintro ⟨rfl, h5, h6, h7⟩
    refine ⟨?_, rfl⟩
    by_contra hne
    rcases Nat.lt_or_gt_of_ne hne with h | h
    · have := take_sum_mono hw (Nat.succ_le_of_lt h)
      linarith
    · have := take_sum_mono hw (Nat.succ_le_of_lt h)
      linarith

theorem take_succ_sum (ws : List ℝ) (i : ℕ) (h : i < ws.length) :
    (ws.take (i + 1)).sum = (ws.take i).sum + ws[i] := by
  rw [List.take_succ_eq_append_getElem h, List.sum_append]; simp

open MeasureTheory in
theorem choices_volume (ws : List ℝ) (hw : ∀ w ∈ ws, 0 ≤ w) (hs : 0 < ws.sum) (n : ℕ) (z : ℝ)
    (t : List Draw) (i : ℕ) (hi : i < ws.length) :
    volume {u : ℝ | ∃ h, choices ws.length ws (⟨n, z, u, h⟩ :: t) = (.ok i, t)} =
      ENNReal.ofReal (ws[i] / ws.sum) := by
  have : {u : ℝ | ∃ h, choices ws.length ws (⟨n, z, u, h⟩ :: t) = (.ok i, t)} =
      Set.Ico ((ws.take i).sum / ws.sum) ((ws.take (i + 1)).sum / ws.sum) := by
    ext u
    simp only [Set.mem_ofPred_eq, Set.mem_Ico]
    rw [div_le_iff₀ hs, lt_div_iff₀ hs]
    constructor
    · rintro ⟨h, hc⟩
      rw [choices_iff ws hw hs] at hc
      exact ⟨hc.2.2.1, hc.2.2.2⟩
    · rintro ⟨h1, h2⟩
      have h0 : 0 ≤ (ws.take i).sum :=
        List.sum_nonneg fun x hx => hw x (List.mem_of_mem_take hx)
      refine ⟨⟨?_, ?_⟩, ?_⟩
      · by_contra hneg
        have := mul_neg_of_neg_of_pos (not_le.1 hneg) hs
        linarith
      · have h3 := take_sum_le hw (i + 1)
        by_contra hge
        have := mul_le_mul_of_nonneg_right (not_lt.1 hge) hs.le
        linarith
      · rw [choices_iff ws hw hs]
        exact ⟨rfl, hi, h1, h2⟩
  rw [this, Real.volume_Ico, take_succ_sum ws i hi]
  congr 1
  ring

end BB
