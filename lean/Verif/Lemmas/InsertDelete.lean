import Verif.Model.Utils1d
import Mathlib.Tactic.Ring
import Mathlib.Tactic.Linarith

/-! Loop lemmas for `insert_1d` and `delete_1d`. -/

namespace BB.Utils1d

variable {α : Type}

theorem rd_ok {xs : List α} {i : ℕ} (h : i < xs.length) : rd xs i = .ok xs[i] := by
  simp [rd, List.getElem?_eq_getElem h]

theorem rd_err {xs : List α} {i : ℕ} (h : xs.length ≤ i) :
    rd xs i = .error .undefinedBehaviour := by
  simp [rd, List.getElem?_eq_none h]

theorem wr_ok {xs : List α} {i : ℕ} (v : α) (h : i < xs.length) : wr xs i v = .ok (xs.set i v) := by
  simp [wr, h]

theorem wr_err {xs : List α} {i : ℕ} (v : α) (h : xs.length ≤ i) :
    wr xs i v = .error .undefinedBehaviour := by
  simp [wr, Nat.not_lt.mpr h]

@[simp] theorem ok_bind {ε β γ : Type} (x : β) (f : β → Except ε γ) :
    (Except.ok x >>= f) = f x := rfl

@[simp] theorem error_bind {ε β γ : Type} (e : ε) (f : β → Except ε γ) :
    (Except.error e >>= f) = Except.error e := rfl

theorem set_append_replicate {p : List α} {i : ℕ} (hp : p.length = i) (z v : α) (n : ℕ) :
    (p ++ List.replicate (n + 1) z).set i v = (p ++ [v]) ++ List.replicate n z := by
  subst hp
  simp [List.replicate_succ]

/-- After the insertion point: the rest of `values` is copied. -/
theorem insertLoop_after (values : List α) (idx : ℤ) (v z : α) :
    ∀ (n i j : ℕ) (p : List α), p.length = i → idx < i → j + n = values.length →
      insertLoop values idx v n i j (p ++ List.replicate n z) = .ok (p ++ values.drop j) := by
  intro n
  induction n with
  | zero =>
    intro i j p hp hi hj
    have : values.drop j = [] := List.drop_eq_nil_of_le (by omega)
    simp [insertLoop, this]
  | succ n ih =>
    intro i j p hp hi hj
    have hne : (i : ℤ) ≠ idx := by omega
    have hj' : j < values.length := by omega
    rw [insertLoop, if_neg hne, rd_ok hj', ok_bind, wr_ok _ (by simp [hp]), ok_bind,
      set_append_replicate hp, ih _ _ _ (by simp [hp]) (by push_cast; omega) (by omega)]
    simp [List.append_assoc]

/-- Before the insertion point: `values` is copied, then `v`, then the rest. -/
theorem insertLoop_before (values : List α) (k : ℕ) (hk : k ≤ values.length) (v z : α) :
    ∀ (m i : ℕ) (p : List α), p.length = i → i + m = k →
      insertLoop values (k : ℤ) v (values.length + 1 - i) i i
        (p ++ List.replicate (values.length + 1 - i) z)
        = .ok (p ++ (values.drop i).take m ++ v :: values.drop k) := by
  intro m
  induction m with
  | zero =>
    intro i p hp hi
    have hi' : i = k := by omega
    subst hi'
    obtain ⟨n, hn⟩ : ∃ n, values.length + 1 - i = n + 1 := ⟨values.length - i, by omega⟩
    rw [hn, insertLoop, if_pos rfl, wr_ok _ (by simp [hp]), ok_bind]
    rw [set_append_replicate hp, insertLoop_after _ _ _ _ _ _ _ _ (by simp [hp]) (by push_cast; omega) (by omega)]
    simp
  | succ m ih =>
    intro i p hp hi
    obtain ⟨n, hn⟩ : ∃ n, values.length + 1 - i = n + 1 := ⟨values.length - i, by omega⟩
    have hn' : n = values.length + 1 - (i + 1) := by omega
    have hne : (i : ℤ) ≠ (k : ℤ) := by omega
    have hlt : i < values.length := by omega
    rw [hn, insertLoop, if_neg hne, rd_ok hlt, ok_bind, wr_ok _ (by simp [hp]), ok_bind]
    rw [set_append_replicate hp]
    rw [hn', ih _ _ (by simp [hp]) (by omega)]
    rw [List.drop_eq_getElem_cons hlt]
    simp only [List.take_succ_cons, List.append_assoc, List.cons_append, List.nil_append]

/-- An insertion index that is never met: the loop ends up reading `values` out of bounds. -/
theorem insertLoop_bad (values : List α) (idx : ℤ) (v : α)
    (hidx : idx < 0 ∨ (values.length : ℤ) < idx) :
    ∀ (n i : ℕ) (nv : List α), i + n = values.length →
      insertLoop values idx v (n + 1) i i nv = .error .undefinedBehaviour := by
  intro n
  induction n with
  | zero =>
    intro i nv hi
    have hne : (i : ℤ) ≠ idx := by omega
    rw [insertLoop, if_neg hne, rd_err (by omega), error_bind]
  | succ n ih =>
    intro i nv hi
    have hne : (i : ℤ) ≠ idx := by omega
    rw [insertLoop, if_neg hne, rd_ok (by omega), ok_bind]
    by_cases hw : i < nv.length
    · rw [wr_ok _ hw, ok_bind, ih _ _ (by omega)]
    · rw [wr_err _ (by omega), error_bind]

/-- Copying phase of `delete_1d` after the deleted index. -/
theorem deleteLoop_after (values : List α) (idx : ℤ) (z : α) :
    ∀ (n i j : ℕ) (p : List α), p.length = j → idx < i → i + n = values.length →
      deleteLoop values idx n i j (p ++ List.replicate n z) = .ok (p ++ values.drop i) := by
  intro n
  induction n with
  | zero =>
    intro i j p hp hi hj
    have : values.drop i = [] := List.drop_eq_nil_of_le (by omega)
    simp [deleteLoop, this]
  | succ n ih =>
    intro i j p hp hi hj
    have hne : (i : ℤ) ≠ idx := by omega
    have hlt : i < values.length := by omega
    rw [deleteLoop, if_pos hne, rd_ok hlt, ok_bind, wr_ok _ (by simp [hp]), ok_bind,
      set_append_replicate hp, ih _ _ _ (by simp [hp]) (by push_cast; omega) (by omega)]
    rw [List.drop_eq_getElem_cons hlt]
    simp only [List.append_assoc, List.cons_append, List.nil_append]

/-- Copying phase of `delete_1d` up to and including the deleted index. -/
theorem deleteLoop_before (values : List α) (k : ℕ) (hk : k < values.length) (z : α) :
    ∀ (m i : ℕ) (p : List α), p.length = i → i + m = k →
      deleteLoop values (k : ℤ) (values.length - i) i i
        (p ++ List.replicate (values.length - 1 - i) z)
        = .ok (p ++ (values.drop i).take m ++ values.drop (k + 1)) := by
  intro m
  induction m with
  | zero =>
    intro i p hp hi
    have hi' : i = k := by omega
    subst hi'
    obtain ⟨n, hn⟩ : ∃ n, values.length - i = n + 1 := ⟨values.length - i - 1, by omega⟩
    rw [hn, deleteLoop, if_neg (by simp)]
    have : values.length - 1 - i = n := by omega
    rw [this, deleteLoop_after _ _ _ _ _ _ _ (by omega) (by push_cast; omega) (by omega)]
    simp
  | succ m ih =>
    intro i p hp hi
    obtain ⟨n, hn⟩ : ∃ n, values.length - 1 - i = n + 1 := ⟨values.length - i - 2, by omega⟩
    have hn2 : values.length - i = (n + 1) + 1 := by omega
    have hne : (i : ℤ) ≠ (k : ℤ) := by omega
    have hlt : i < values.length := by omega
    rw [hn, hn2, deleteLoop, if_pos hne, rd_ok hlt, ok_bind, wr_ok _ (by simp [hp]), ok_bind]
    rw [set_append_replicate hp]
    have e1 : n + 1 = values.length - (i + 1) := by omega
    have e2 : n = values.length - 1 - (i + 1) := by omega
    rw [e1]
    conv_lhs => rw [e2]
    rw [ih _ _ (by simp [hp]) (by omega), List.drop_eq_getElem_cons hlt]
    simp only [List.take_succ_cons, List.append_assoc, List.cons_append, List.nil_append]

/-- A deletion index that is never met: the loop ends up writing out of bounds. -/
theorem deleteLoop_bad (values : List α) (idx : ℤ)
    (hidx : idx < 0 ∨ (values.length : ℤ) ≤ idx) :
    ∀ (n i : ℕ) (nv : List α), i + n + 1 = values.length → nv.length + 1 = values.length →
      deleteLoop values idx (n + 1) i i nv = .error .undefinedBehaviour := by
  intro n
  induction n with
  | zero =>
    intro i nv hi hnv
    have hne : (i : ℤ) ≠ idx := by omega
    rw [deleteLoop, if_pos hne, rd_ok (by omega), ok_bind, wr_err _ (by omega), error_bind]
  | succ n ih =>
    intro i nv hi hnv
    have hne : (i : ℤ) ≠ idx := by omega
    rw [deleteLoop, if_pos hne, rd_ok (by omega), ok_bind, wr_ok _ (by omega), ok_bind,
      ih _ _ (by omega) (by simpa using hnv)]

end BB.Utils1d
