import Mathlib.Algebra.BigOperators.Group.List.Basic
import Mathlib.Algebra.Order.BigOperators.Group.List
import Verif.Lemmas.Ensemble

/-!
# Lemmas about NumPy's histograms
-/

namespace BB.Lemmas

open BB Ensemble Spec

theorem foldl_min_le (a : ℝ) (xs : List ℝ) : xs.foldl min a ≤ a ∧ (∀ x ∈ xs, xs.foldl min a ≤ x) ∧
    (xs.foldl min a = a ∨ xs.foldl min a ∈ xs) := by
  induction xs generalizing a with
  | nil => exact ⟨le_rfl, by simp, Or.inl rfl⟩
  | cons b xs ih =>
    obtain ⟨h1, h2, h3⟩ := ih (min a b)
    rw [List.foldl_cons]
    refine ⟨h1.trans (min_le_left _ _), ?_, ?_⟩
    · intro x hx
      rcases List.mem_cons.1 hx with rfl | hx
      · exact h1.trans (min_le_right _ _)
      · exact h2 x hx
    · rcases h3 with h | h
      · rcases min_choice a b with e | e
        · left
          rw [h, e]
        · right
          rw [h, e]
          exact List.mem_cons_self
      · exact Or.inr (List.mem_cons_of_mem _ h)

theorem le_foldl_max (a : ℝ) (xs : List ℝ) : a ≤ xs.foldl max a ∧ (∀ x ∈ xs, x ≤ xs.foldl max a) ∧
    (xs.foldl max a = a ∨ xs.foldl max a ∈ xs) := by
  induction xs generalizing a with
  | nil => exact ⟨le_rfl, by simp, Or.inl rfl⟩
  | cons b xs ih =>
    obtain ⟨h1, h2, h3⟩ := ih (max a b)
    rw [List.foldl_cons]
    refine ⟨(le_max_left _ _).trans h1, ?_, ?_⟩
    · intro x hx
      rcases List.mem_cons.1 hx with rfl | hx
      · exact (le_max_right _ _).trans h1
      · exact h2 x hx
    · rcases h3 with h | h
      · rcases max_choice a b with e | e
        · left
          rw [h, e]
        · right
          rw [h, e]
          exact List.mem_cons_self
      · exact Or.inr (List.mem_cons_of_mem _ h)

theorem foldl_min_eq {xs : List ℝ} {m : ℝ} (hm : m ∈ xs) (h : ∀ x ∈ xs, m ≤ x) : xs.foldl min (xs.headD 0) = m := by
  obtain ⟨h1, h2, h3⟩ := foldl_min_le (xs.headD 0) xs
  refine le_antisymm (h2 m hm) ?_
  rcases h3 with e | e
  · rw [e]
    cases xs with
    | nil => cases hm
    | cons a xs => exact h _ List.mem_cons_self
  · exact h _ e

theorem foldl_max_eq {xs : List ℝ} {m : ℝ} (hm : m ∈ xs) (h : ∀ x ∈ xs, x ≤ m) : xs.foldl max (xs.headD 0) = m := by
  obtain ⟨h1, h2, h3⟩ := le_foldl_max (xs.headD 0) xs
  refine le_antisymm ?_ (h2 m hm)
  rcases h3 with e | e
  · rw [e]
    cases xs with
    | nil => cases hm
    | cons a xs => exact h _ List.mem_cons_self
  · exact h _ e

theorem linspace_length (lo hi : ℝ) (n : ℕ) : (linspace lo hi n).length = n := by simp [linspace]

theorem linspace_get (lo hi : ℝ) (n : ℕ) {k : ℕ} (hk : k < n) :
    (linspace lo hi n)[k]? = some (lo + k * ((hi - lo) / ((n : ℝ) - 1))) := by
  simp [linspace, hk]

theorem linspace_strict {lo hi : ℝ} (h : lo < hi) {n : ℕ} (hn : 2 ≤ n) : (linspace lo hi n).Pairwise (· < ·) := by
  rw [List.pairwise_iff_getElem]
  intro i j hi' hj hij
  rw [linspace_length] at hi' hj
  have hn' : (2 : ℝ) ≤ n := by exact_mod_cast hn
  have hij' : (i : ℝ) < j := by exact_mod_cast hij
  have e1 := linspace_get lo hi n hi'
  have e2 := linspace_get lo hi n hj
  rw [List.getElem?_eq_some_iff] at e1 e2
  rw [e1.2, e2.2]
  have : 0 < (hi - lo) / ((n : ℝ) - 1) := div_pos (by linarith) (by linarith)
  nlinarith

theorem pairwise_get {e : List ℝ} (h : e.Pairwise (· ≤ ·)) {i j : ℕ} (hij : i ≤ j) {a b : ℝ} (ha : e[i]? = some a)
    (hb : e[j]? = some b) : a ≤ b := by
  rw [List.getElem?_eq_some_iff] at ha hb
  obtain ⟨hi, rfl⟩ := ha
  obtain ⟨hj, rfl⟩ := hb
  rcases hij.eq_or_lt with rfl | h'
  · exact le_rfl
  · exact List.pairwise_iff_getElem.1 h i j _ _ h'

theorem inBin_unique {e : List ℝ} (h : e.Pairwise (· ≤ ·)) {k k' : ℕ} {x : ℝ} (hk : InBin e k x) (hk' : InBin e k' x) :
    k = k' := by
  have key : ∀ {k k' : ℕ}, InBin e k x → InBin e k' x → ¬ k < k' := by
    rintro k k' ⟨a, b, ha, hb, h1, h2⟩ ⟨a', b', ha', hb', h1', h2'⟩ hlt
    have h3 := pairwise_get h (show k + 1 ≤ k' by omega) hb ha'
    have h4 := (List.getElem?_eq_some_iff.1 hb').1
    rcases h2 with h2 | ⟨h2, h5⟩
    · linarith
    · omega
  exact le_antisymm (not_lt.1 (key hk' hk)) (not_lt.1 (key hk hk'))

theorem countP_le_eq {e : List ℝ} (h : e.Pairwise (· ≤ ·)) {k : ℕ} {a x : ℝ} (ha : e[k]? = some a) (h1 : a ≤ x)
    (h2 : ∀ b, e[k + 1]? = some b → x < b) : e.countP (· ≤ x) = k + 1 := by
  obtain ⟨hk, rfl⟩ := List.getElem?_eq_some_iff.1 ha
  have h0 : e.countP (fun y => decide (y ≤ x)) =
      (e.take (k + 1)).countP (fun y => decide (y ≤ x)) + (e.drop (k + 1)).countP (fun y => decide (y ≤ x)) := by
    rw [← List.countP_append, List.take_append_drop]
  rw [h0, List.countP_eq_length.2, List.countP_eq_zero.2, List.length_take]
  · omega
  · intro y hy
    obtain ⟨i, hi, rfl⟩ := List.getElem_of_mem hy
    rw [List.length_drop] at hi
    rw [List.getElem_drop, decide_eq_true_eq, not_le]
    have e1 : e[k + 1]? = some (e[k + 1]'(by omega)) := List.getElem?_eq_getElem _
    refine (h2 _ e1).trans_le (pairwise_get h (show k + 1 ≤ k + 1 + i by omega) e1 (List.getElem?_eq_getElem _))
  · intro y hy
    obtain ⟨i, hi, rfl⟩ := List.getElem_of_mem hy
    rw [List.length_take] at hi
    rw [List.getElem_take, decide_eq_true_eq]
    exact (pairwise_get h (show i ≤ k by omega) (List.getElem?_eq_getElem _) ha).trans h1

theorem binOf_of_inBin {e : List ℝ} (h : e.Pairwise (· ≤ ·)) {k : ℕ} {x : ℝ} (hk : InBin e k x) : binOf e x = some k := by
  obtain ⟨a, b, ha, hb, h1, h2⟩ := hk
  have hlen := (List.getElem?_eq_some_iff.1 hb).1
  unfold binOf
  rw [List.getLast?_eq_getElem?]
  rcases h2 with h2 | ⟨rfl, h2⟩
  · have hlast : e[e.length - 1]? ≠ some x := by
      intro hc
      have := pairwise_get h (show k + 1 ≤ e.length - 1 by omega) hb hc
      linarith
    have hc := countP_le_eq h ha h1 fun b' hb' => by
      rw [hb] at hb'
      cases hb'
      exact h2
    rw [if_neg hlast]
    simp only [hc]
    rw [if_neg (by omega)]
    rfl
  · have e1 : e.length - 1 = k + 1 := by omega
    rw [e1, if_pos hb, if_neg (by omega)]
    congr 1
    omega

/-- Values between the first and the last edge are in a bin. -/
theorem exists_inBin {e : List ℝ} (h : e.Pairwise (· ≤ ·)) {a b x : ℝ} (ha : e[0]? = some a) (hb : e.getLast? = some b)
    (hl : 2 ≤ e.length) (h1 : a ≤ x) (h2 : x ≤ b) : ∃ k < e.length - 1, InBin e k x := by
  rw [List.getLast?_eq_getElem?] at hb
  rcases h2.eq_or_lt with rfl | h2
  · refine ⟨e.length - 2, by omega, e[e.length - 2]'(by omega), x, List.getElem?_eq_getElem _, ?_, ?_, Or.inr ⟨rfl, by omega⟩⟩
    · rw [show e.length - 2 + 1 = e.length - 1 by omega, hb]
    · exact pairwise_get h (show e.length - 2 ≤ e.length - 1 by omega) (List.getElem?_eq_getElem _) hb
  · classical
    have hex : ∃ m, ∃ c, e[m]? = some c ∧ x < c := ⟨_, b, hb, h2⟩
    obtain ⟨c, hc, hxc⟩ := Nat.find_spec hex
    have hmin := fun m => @Nat.find_min _ _ hex m
    set m := Nat.find hex
    have hm0 : m ≠ 0 := by
      intro h0
      rw [h0, ha] at hc
      cases hc
      linarith
    have hml := (List.getElem?_eq_some_iff.1 hc).1
    refine ⟨m - 1, by omega, e[m - 1]'(by omega), c, List.getElem?_eq_getElem _, by rw [show m - 1 + 1 = m by omega, hc], ?_, Or.inl hxc⟩
    by_contra hcon
    exact hmin (m - 1) (by omega) ⟨_, List.getElem?_eq_getElem _, not_le.1 hcon⟩

theorem binOf_iff {e : List ℝ} (h : e.Pairwise (· ≤ ·)) {k : ℕ} {x : ℝ} : binOf e x = some k ↔ InBin e k x := by
  refine ⟨fun hb => ?_, binOf_of_inBin h⟩
  have hin : 2 ≤ e.length ∧ ∃ a b, e[0]? = some a ∧ e.getLast? = some b ∧ a ≤ x ∧ x ≤ b := by
    unfold binOf at hb
    split at hb
    · rename_i hl
      split at hb
      · cases hb
      · rename_i h2
        refine ⟨by omega, e[0]'(by omega), x, List.getElem?_eq_getElem _, hl, ?_, le_rfl⟩
        rw [List.getLast?_eq_getElem?] at hl
        exact pairwise_get h (Nat.zero_le _) (List.getElem?_eq_getElem _) hl
    · rename_i hl
      simp only at hb
      split at hb
      · cases hb
      · rename_i hc
        have hc0 : e.countP (fun y => decide (y ≤ x)) ≠ 0 := fun h => hc (Or.inl h)
        have hcl : e.countP (fun y => decide (y ≤ x)) ≠ e.length := fun h => hc (Or.inr h)
        have hcl' := List.countP_le_length (l := e) (p := fun y => decide (y ≤ x))
        have hlen : 2 ≤ e.length := by omega
        have e0 : e[0]? = some (e[0]'(by omega)) := List.getElem?_eq_getElem _
        have el : e.getLast? = some (e[e.length - 1]'(by omega)) := by
          rw [List.getLast?_eq_getElem?]
          exact List.getElem?_eq_getElem _
        refine ⟨hlen, _, _, e0, el, ?_, ?_⟩
        · by_contra hcon
          refine hc0 (List.countP_eq_zero.2 fun y hy => ?_)
          obtain ⟨i, hi, rfl⟩ := List.getElem_of_mem hy
          rw [decide_eq_true_eq, not_le]
          exact (not_le.1 hcon).trans_le (pairwise_get h (Nat.zero_le i) e0 (List.getElem?_eq_getElem _))
        · by_contra hcon
          refine hcl (List.countP_eq_length.2 fun y hy => ?_)
          obtain ⟨i, hi, rfl⟩ := List.getElem_of_mem hy
          rw [decide_eq_true_eq]
          refine (pairwise_get h (show i ≤ e.length - 1 by omega) (List.getElem?_eq_getElem _) (List.getElem?_eq_getElem (by omega))).trans (not_le.1 hcon).le
  obtain ⟨hl, a, b, ha, hb', h1, h2⟩ := hin
  obtain ⟨k', _, hk'⟩ := exists_inBin h ha hb' hl h1 h2
  rw [binOf_of_inBin h hk'] at hb
  cases hb
  exact hk'

/-! ### sums over all bins -/

theorem sum_map_div {α : Type} (l : List α) (f : α → ℝ) (c : ℝ) : (l.map fun a => f a / c).sum = (l.map f).sum / c := by
  induction l with
  | nil => simp
  | cons a l ih =>
    simp only [List.map_cons, List.sum_cons, ih]
    ring

theorem cast_sum_map {α : Type} (l : List α) (f : α → ℕ) : (((l.map f).sum : ℕ) : ℝ) = (l.map fun a => (f a : ℝ)).sum := by
  induction l with
  | nil => simp
  | cons a l ih =>
    simp only [List.map_cons, List.sum_cons, Nat.cast_add, ih]

/-- The number of points in the bins of the table. -/
noncomputable def total (pts : List (ℝ × ℝ)) (ex ey : List ℝ) : ℕ :=
  ((List.range (ex.length - 1)).map fun i => ((List.range (ey.length - 1)).map fun j => count pts ex ey i j).sum).sum

theorem density_eq (pts : List (ℝ × ℝ)) (ex ey : List ℝ) : density pts ex ey =
    if total pts ex ey = 0 then .error .nonFinite
    else if (∃ i < ex.length - 1, width ex i = 0) ∨ ∃ j < ey.length - 1, width ey j = 0 then .error .nonFinite
    else .ok ((List.range (ex.length - 1)).map fun i => (List.range (ey.length - 1)).map fun j =>
      count pts ex ey i j / (width ex i * width ey j) / total pts ex ey) := rfl

theorem density_ok {pts : List (ℝ × ℝ)} {ex ey : List ℝ} {d : List (List ℝ)} (h : density pts ex ey = .ok d) :
    total pts ex ey ≠ 0 ∧ (∀ i < ex.length - 1, width ex i ≠ 0) ∧ (∀ j < ey.length - 1, width ey j ≠ 0) ∧
    d = (List.range (ex.length - 1)).map fun i => (List.range (ey.length - 1)).map fun j =>
      count pts ex ey i j / (width ex i * width ey j) / total pts ex ey := by
  unfold density at h
  simp only at h
  split at h
  · cases h
  · rename_i h0
    split at h
    · cases h
    · rename_i hw
      push Not at hw
      cases h
      exact ⟨h0, hw.1, hw.2, rfl⟩

theorem count_zip {positions : List ℝ} {ex ey : List ℝ} (hbin : ∀ i (hi : i < positions.length), binOf ex positions[i] = some i)
    {row : List ℝ} (hl : row.length = positions.length) {i : ℕ} (hi : i < positions.length) (j : ℕ) :
    count (positions.zip row) ex ey i j = if binOf ey (row.getD i 0) = some j then 1 else 0 := by
  have e : positions.zip row = (List.range positions.length).map fun k => (positions.getD k 0, row.getD k 0) := by
    apply List.ext_getElem
    · simp [hl]
    · intro k h1 h2
      simp only [List.length_zip, hl, min_self] at h1
      rw [List.getElem_zip, List.getElem_map, List.getElem_range, List.getD_eq_getElem _ _ h1, List.getD_eq_getElem _ _ (hl ▸ h1)]
  unfold count
  rw [e, List.countP_map]
  split
  · rename_i hb
    have : (List.range positions.length).countP ((fun p : ℝ × ℝ => decide (binOf ex p.1 = some i ∧ binOf ey p.2 = some j)) ∘
        fun k => (positions.getD k 0, row.getD k 0)) = (List.range positions.length).countP (· == i) := by
      refine List.countP_congr fun k hk => ?_
      rw [List.mem_range] at hk
      simp only [Function.comp, decide_eq_true_eq, beq_iff_eq]
      rw [List.getD_eq_getElem _ _ hk, hbin k hk]
      constructor
      · rintro ⟨h1, _⟩
        cases h1
        rfl
      · rintro rfl
        exact ⟨rfl, hb⟩
    rw [this]
    exact List.count_eq_one_of_mem List.nodup_range (List.mem_range.2 hi)
  · rename_i hb
    rw [List.countP_eq_zero]
    intro k hk
    rw [List.mem_range] at hk
    simp only [Function.comp, decide_eq_true_eq]
    rw [List.getD_eq_getElem _ _ hk, hbin k hk]
    rintro ⟨h1, h2⟩
    cases h1
    exact hb h2

theorem zip_rows {positions : List ℝ} {rows : List (List ℝ)} (hl : ∀ r ∈ rows, r.length = positions.length) :
    (List.replicate rows.length positions).flatten.zip rows.flatten = (rows.map fun r => positions.zip r).flatten := by
  induction rows with
  | nil => rfl
  | cons r rows ih =>
    rw [List.length_cons, List.replicate_succ, List.flatten_cons, List.flatten_cons, List.map_cons, List.flatten_cons,
      List.zip_append (hl r List.mem_cons_self).symm, ih fun r' hr' => hl r' (List.mem_cons_of_mem _ hr')]

theorem count_rows {positions : List ℝ} {ex ey : List ℝ} (hbin : ∀ i (hi : i < positions.length), binOf ex positions[i] = some i)
    {rows : List (List ℝ)} (hl : ∀ r ∈ rows, r.length = positions.length) {i : ℕ} (hi : i < positions.length) (j : ℕ) :
    count ((List.replicate rows.length positions).flatten.zip rows.flatten) ex ey i j =
      (column rows i).countP fun v => binOf ey v = some j := by
  rw [zip_rows hl]
  unfold count column
  rw [List.countP_flatten, List.countP_map, List.map_map]
  induction rows with
  | nil => rfl
  | cons r rows ih =>
    rw [List.map_cons, List.sum_cons, ih fun r' hr' => hl r' (List.mem_cons_of_mem _ hr'), List.countP_cons]
    have := count_zip (ey := ey) hbin (hl r List.mem_cons_self) hi j
    unfold count at this
    simp only [Function.comp]
    rw [this, add_comm]
    simp

theorem sum_count_bins {n : ℕ} {ey : List ℝ} {vs : List ℝ} (h : ∀ v ∈ vs, ∃ j < n, binOf ey v = some j) :
    ((List.range n).map fun j => vs.countP fun v => binOf ey v = some j).sum = vs.length := by
  induction vs with
  | nil => simp
  | cons v vs ih =>
    obtain ⟨j, hj, hb⟩ := h v List.mem_cons_self
    have h1 := ih fun w hw => h w (List.mem_cons_of_mem _ hw)
    simp only [List.countP_cons, hb, Option.some.injEq, decide_eq_true_eq, List.length_cons]
    rw [List.sum_map_add, h1]
    congr 1
    have : ∀ l : List ℕ, (l.map fun k => if j = k then 1 else 0).sum = l.count j := by
      intro l
      induction l with
      | nil => rfl
      | cons a l ih =>
        rw [List.map_cons, List.sum_cons, ih, List.count_cons, add_comm]
        congr 1
        by_cases h : j = a
        · simp [h]
        · simp [h, Ne.symm h]
    rw [this]
    exact List.count_eq_one_of_mem List.nodup_range (List.mem_range.2 hj)

end BB.Lemmas
