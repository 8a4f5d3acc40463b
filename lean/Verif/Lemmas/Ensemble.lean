import Mathlib.Data.List.GetD
import Mathlib.Tactic.Linarith
import Mathlib.Tactic.Positivity
import Mathlib.Tactic.FieldSimp
import Verif.Model.Ensemble
import Verif.Spec.Ensemble

/-!
# Lemmas about NumPy's statistics
-/

namespace BB.Lemmas

open BB Ensemble Spec

theorem sorted_perm (xs : List ℝ) : (sorted xs).Perm xs := List.perm_insertionSort _ _

theorem sorted_length (xs : List ℝ) : (sorted xs).length = xs.length := (sorted_perm xs).length_eq

theorem sorted_pairwise (xs : List ℝ) : (sorted xs).Pairwise (· ≤ ·) := List.pairwise_insertionSort _ _

theorem sorted_mono (xs : List ℝ) {i j : ℕ} (hij : i ≤ j) (hj : j < xs.length) :
    (sorted xs).getD i 0 ≤ (sorted xs).getD j 0 := by
  have hj' : j < (sorted xs).length := by rw [sorted_length]; exact hj
  rw [List.getD_eq_getElem _ _ (hij.trans_lt hj'), List.getD_eq_getElem _ _ hj']
  rcases hij.eq_or_lt with rfl | h
  · exact le_rfl
  · exact List.pairwise_iff_getElem.1 (sorted_pairwise xs) i j _ _ h

theorem sorted_rank (xs : List ℝ) {k : ℕ} (hk : k < xs.length) : IsRank xs k ((sorted xs).getD k 0) := by
  have hk' : k < (sorted xs).length := by rw [sorted_length]; exact hk
  have hp := sorted_perm xs
  have hs := List.pairwise_iff_getElem.1 (sorted_pairwise xs)
  rw [List.getD_eq_getElem _ _ hk']
  generalize sorted xs = s at *
  obtain ⟨r, hr⟩ : ∃ r, r = s[k] := ⟨_, rfl⟩
  rw [← hr]
  refine ⟨hp.mem_iff.1 (hr ▸ List.getElem_mem hk'), ?_, ?_⟩
  · rw [← hp.countP_eq]
    have h0 : s.countP (fun x => decide (x < r)) =
        (s.take k).countP (fun x => decide (x < r)) + (s.drop k).countP (fun x => decide (x < r)) := by
      rw [← List.countP_append, List.take_append_drop]
    have h1 : (s.drop k).countP (fun x => decide (x < r)) = 0 := by
      rw [List.countP_eq_zero]
      intro a ha
      obtain ⟨i, hi, rfl⟩ := List.getElem_of_mem ha
      simp only [decide_eq_true_eq, not_lt, List.getElem_drop, hr]
      rcases Nat.eq_zero_or_pos i with rfl | h
      · simp
      · rw [List.length_drop] at hi
        exact hs k (k + i) _ (by omega) (by omega)
    have := List.countP_le_length (l := s.take k) (p := fun x => decide (x < r))
    rw [List.length_take] at this
    omega
  · rw [← hp.countP_eq]
    have h1 : (s.take (k + 1)).countP (fun x => decide (x ≤ r)) = k + 1 := by
      rw [List.countP_eq_length.2, List.length_take]
      · omega
      · intro a ha
        obtain ⟨i, hi, rfl⟩ := List.getElem_of_mem ha
        rw [List.length_take] at hi
        rw [List.getElem_take, decide_eq_true_eq, hr]
        rcases Nat.lt_or_ge i k with h | h
        · exact hs i k _ _ h
        · obtain rfl : i = k := by omega
          exact le_rfl
    have h2 := (List.take_sublist (k + 1) s).countP_le (p := fun x => decide (x ≤ r))
    omega

/-- A rank belongs to one value only. -/
theorem rank_unique {xs : List ℝ} {k : ℕ} {a b : ℝ} (ha : IsRank xs k a) (hb : IsRank xs k b) : a = b := by
  have key : ∀ {a b : ℝ}, IsRank xs k a → IsRank xs k b → ¬ a < b := by
    intro a b ha hb hab
    have : xs.countP (fun x => decide (x ≤ a)) ≤ xs.countP (fun x => decide (x < b)) :=
      List.countP_mono_left fun x _ hx => by
        rw [decide_eq_true_eq] at hx ⊢
        exact hx.trans_lt hab
    have h1 := ha.2.2
    have h2 := hb.2.1
    omega
  exact le_antisymm (not_lt.1 (key hb ha)) (not_lt.1 (key ha hb))

theorem quantile_unique {xs : List ℝ} {v r r' : ℝ} (h : IsQuantile xs v r) (h' : IsQuantile xs v r') : r = r' := by
  obtain ⟨k, t, a, rfl, h0, h1, ha, hr⟩ := h
  obtain ⟨k', t', a', he, h0', h1', ha', hr'⟩ := h'
  have hk : k = k' := by
    have e1 : ⌊(k : ℝ) + t⌋₊ = k := by
      rw [Nat.floor_eq_iff (by positivity)]
      constructor <;> linarith
    have e2 : ⌊(k : ℝ) + t⌋₊ = k' := by
      rw [he, Nat.floor_eq_iff (by positivity)]
      constructor <;> linarith
    rw [← e1, e2]
  subst hk
  have ht : t = t' := by linarith
  subst ht
  have := rank_unique ha ha'
  subst this
  rcases hr with ⟨ht, rfl⟩ | ⟨b, hb, rfl⟩ <;> rcases hr' with ⟨ht', rfl⟩ | ⟨b', hb', rfl⟩
  · rfl
  · rw [ht]
    ring
  · rw [ht']
    ring
  · rw [rank_unique hb hb']

theorem npMean_spec {xs : List ℝ} (h : xs ≠ []) : IsMean xs (npMean xs) := by
  have : (xs.length : ℝ) ≠ 0 := by simpa using h
  unfold IsMean npMean
  field_simp

theorem npStd_spec {xs : List ℝ} (h : xs ≠ []) : IsStd xs (npStd xs) := by
  refine ⟨Real.sqrt_nonneg _, _, npMean_spec h, ?_⟩
  unfold npStd
  rw [Real.sq_sqrt]
  · have := npMean_spec (xs := xs.map fun x => (x - npMean xs) ^ 2) (by simpa using h)
    unfold IsMean at this
    rwa [List.length_map] at this
  · refine div_nonneg (List.sum_nonneg ?_) (Nat.cast_nonneg _)
    intro y hy
    obtain ⟨x, _, rfl⟩ := List.mem_map.1 hy
    positivity

theorem npPercentile_spec {xs : List ℝ} (h : xs ≠ []) {q : ℝ} (h0 : 0 ≤ q) (h1 : q ≤ 100) :
    IsQuantile xs (((xs.length : ℝ) - 1) * (q / 100)) (npPercentile xs q) := by
  have hn : 0 < xs.length := List.length_pos_iff.2 h
  have hn' : (1 : ℝ) ≤ xs.length := by exact_mod_cast hn
  have hv0 : 0 ≤ ((xs.length : ℝ) - 1) * (q / 100) := mul_nonneg (by linarith) (by positivity)
  have hv1 : ((xs.length : ℝ) - 1) * (q / 100) ≤ (xs.length : ℝ) - 1 :=
    mul_le_of_le_one_right (by linarith) (by linarith)
  unfold npPercentile
  simp only
  set v := ((xs.length : ℝ) - 1) * (q / 100)
  have hf := Nat.floor_le hv0
  have hf' := Nat.lt_floor_add_one v
  have hle : (⌊v⌋₊ : ℝ) ≤ ((xs.length - 1 : ℕ) : ℝ) := by
    rw [Nat.cast_sub hn]
    push_cast
    linarith
  have hle' : ⌊v⌋₊ ≤ xs.length - 1 := by exact_mod_cast hle
  split
  · rename_i hc
    have e : ⌊v⌋₊ = xs.length - 1 := le_antisymm hle' hc
    refine ⟨xs.length - 1, 0, _, ?_, le_rfl, one_pos, sorted_rank xs (by omega), Or.inl ⟨rfl, rfl⟩⟩
    rw [e, Nat.cast_sub hn] at hf
    push_cast at hf ⊢
    rw [Nat.cast_sub hn]
    push_cast
    linarith
  · rename_i hc
    refine ⟨⌊v⌋₊, v - ⌊v⌋₊, _, by ring, by linarith, by linarith, sorted_rank xs (by omega),
      Or.inr ⟨_, sorted_rank xs (by omega), by ring⟩⟩

theorem npMedian_spec {xs : List ℝ} (h : xs ≠ []) :
    IsQuantile xs (((xs.length : ℝ) - 1) / 2) (npMedian xs) := by
  have hn : 0 < xs.length := List.length_pos_iff.2 h
  unfold npMedian
  split
  · rename_i hc
    obtain ⟨k, hk⟩ : ∃ k, xs.length = 2 * k + 1 := ⟨xs.length / 2, by omega⟩
    refine ⟨xs.length / 2, 0, _, ?_, le_rfl, one_pos, sorted_rank xs (by omega), Or.inl ⟨rfl, rfl⟩⟩
    have : xs.length / 2 = k := by omega
    rw [this, hk]
    push_cast
    ring
  · rename_i hc
    obtain ⟨k, hk⟩ : ∃ k, xs.length = 2 * k + 2 := ⟨xs.length / 2 - 1, by omega⟩
    have e1 : xs.length / 2 - 1 = k := by omega
    have e2 : xs.length / 2 = k + 1 := by omega
    rw [e1, e2]
    refine ⟨k, 1 / 2, _, ?_, by norm_num, by norm_num, sorted_rank xs (by omega),
      Or.inr ⟨_, sorted_rank xs (by omega), by ring⟩⟩
    rw [hk]
    push_cast
    ring

theorem sorted_congr {xs ys : List ℝ} (h : xs.Perm ys) : sorted xs = sorted ys :=
  List.Perm.eq_of_pairwise' (sorted_pairwise xs) (sorted_pairwise ys)
    ((sorted_perm xs).trans (h.trans (sorted_perm ys).symm))

theorem npMean_congr {xs ys : List ℝ} (h : xs.Perm ys) : npMean xs = npMean ys := by
  unfold npMean
  rw [h.sum_eq, h.length_eq]

theorem npStd_congr {xs ys : List ℝ} (h : xs.Perm ys) : npStd xs = npStd ys := by
  unfold npStd
  rw [npMean_congr h, npMean_congr (h.map _)]

theorem npMedian_congr {xs ys : List ℝ} (h : xs.Perm ys) : npMedian xs = npMedian ys := by
  unfold npMedian
  rw [sorted_congr h, h.length_eq]

theorem npPercentile_congr {xs ys : List ℝ} (h : xs.Perm ys) (q : ℝ) : npPercentile xs q = npPercentile ys q := by
  unfold npPercentile
  rw [sorted_congr h, h.length_eq]

theorem statistics_congr {rows rows' : List (List ℝ)} (h : rows.Perm rows') (n : ℕ) (ps : List ℝ) :
    statistics rows n ps = statistics rows' n ps := by
  have hc : ∀ j, (column rows j).Perm (column rows' j) := fun j => h.map _
  have e : (rows = []) = (rows' = []) := by
    rw [← List.length_eq_zero_iff, h.length_eq, List.length_eq_zero_iff]
  unfold statistics
  simp only [e, npMean_congr (hc _), npMedian_congr (hc _), npStd_congr (hc _), npPercentile_congr (hc _)]

theorem npPercentile_mono {xs : List ℝ} (h : xs ≠ []) {q q' : ℝ} (h0 : 0 ≤ q) (hq : q ≤ q') :
    npPercentile xs q ≤ npPercentile xs q' := by
  have hn : 0 < xs.length := List.length_pos_iff.2 h
  have hn' : (1 : ℝ) ≤ xs.length := by exact_mod_cast hn
  have hv0 : 0 ≤ ((xs.length : ℝ) - 1) * (q / 100) := mul_nonneg (by linarith) (by positivity)
  have hv1 : ((xs.length : ℝ) - 1) * (q / 100) ≤ ((xs.length : ℝ) - 1) * (q' / 100) :=
    mul_le_mul_of_nonneg_left (by linarith) (by linarith)
  unfold npPercentile
  simp only
  set v := ((xs.length : ℝ) - 1) * (q / 100)
  set v' := ((xs.length : ℝ) - 1) * (q' / 100)
  have hf := Nat.floor_le hv0
  have hf' := Nat.lt_floor_add_one v
  have hg := Nat.floor_le (hv0.trans hv1)
  have hg' := Nat.lt_floor_add_one v'
  have hfg : ⌊v⌋₊ ≤ ⌊v'⌋₊ := Nat.floor_le_floor hv1
  have m := @sorted_mono xs
  set s := fun i => (sorted xs).getD i 0 with hs
  have m' : ∀ {i j}, i ≤ j → j < xs.length → s i ≤ s j := m
  change (if _ then s _ else s _ + (s _ - s _) * _) ≤ (if _ then s _ else s _ + (s _ - s _) * _)
  split <;> split
  · exact le_rfl
  · omega
  · rename_i a b
    have h1 := m' (show ⌊v⌋₊ ≤ ⌊v⌋₊ + 1 by omega) (by omega)
    have h2 := m' (show ⌊v⌋₊ + 1 ≤ xs.length - 1 by omega) (by omega)
    nlinarith
  · rename_i a b
    rcases hfg.eq_or_lt with e | e
    · rw [← e]
      have h1 := m' (show ⌊v⌋₊ ≤ ⌊v⌋₊ + 1 by omega) (by omega)
      have := mul_le_mul_of_nonneg_left (show v - (⌊v⌋₊ : ℝ) ≤ v' - (⌊v⌋₊ : ℝ) by linarith) (sub_nonneg.2 h1)
      linarith
    · have h1 := m' (show ⌊v⌋₊ ≤ ⌊v⌋₊ + 1 by omega) (by omega)
      have h2 := m' (show ⌊v⌋₊ + 1 ≤ ⌊v'⌋₊ by omega) (by omega)
      have h3 := m' (show ⌊v'⌋₊ ≤ ⌊v'⌋₊ + 1 by omega) (by omega)
      have k1 : (s (⌊v⌋₊ + 1) - s ⌊v⌋₊) * (v - ⌊v⌋₊) ≤ s (⌊v⌋₊ + 1) - s ⌊v⌋₊ :=
        mul_le_of_le_one_right (by linarith) (by linarith)
      have k2 : 0 ≤ (s (⌊v'⌋₊ + 1) - s ⌊v'⌋₊) * (v' - ⌊v'⌋₊) := mul_nonneg (by linarith) (by linarith)
      linarith

end BB.Lemmas
