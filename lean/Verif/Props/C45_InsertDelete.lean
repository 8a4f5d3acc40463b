import Verif.Lemmas.InsertDelete
import Mathlib.Algebra.Field.Rat
import Mathlib.Algebra.Order.Ring.Rat

/-!
# C45: `insert_1d` and `delete_1d` are list insertion and deletion
-/

namespace BB.Props

open BB.Utils1d

variable {α : Type}

/-- `insert_1d(values, k, v)` is `values[:k] + [v] + values[k:]` for `0 <= k <= len(values)`; for
every other index the compiled code reads out of bounds. -/
theorem C45_insert (zero : α) (values : List α) (index : ℤ) (v : α) :
    insert1d zero values index v =
      if 0 ≤ index ∧ index ≤ values.length then
        .ok (values.take index.toNat ++ v :: values.drop index.toNat)
      else .error .undefinedBehaviour := by
  split
  next h =>
    obtain ⟨k, rfl⟩ : ∃ k : ℕ, index = k := ⟨index.toNat, by omega⟩
    have hk : k ≤ values.length := by omega
    have := insertLoop_before values k hk v zero k 0 [] rfl (by omega)
    simpa [insert1d] using this
  next h =>
    exact insertLoop_bad values index v (by omega) values.length 0 _ (by omega)

/-- `delete_1d(values, k)` is `values[:k] + values[k+1:]` for `0 <= k < len(values)`; an empty
array raises `ValueError`, and for every other index the compiled code writes out of bounds. -/
theorem C45_delete (zero : α) (values : List α) (index : ℤ) :
    delete1d zero values index =
      if values = [] then .error .valueError
      else if 0 ≤ index ∧ index < values.length then
        .ok (values.take index.toNat ++ values.drop (index.toNat + 1))
      else .error .undefinedBehaviour := by
  unfold delete1d
  by_cases h0 : values = []
  · simp [h0]
  · have hlen : 0 < values.length := List.length_pos_iff.mpr h0
    rw [if_neg (by omega), if_neg h0]
    split
    next h =>
      obtain ⟨k, rfl⟩ : ∃ k : ℕ, index = k := ⟨index.toNat, by omega⟩
      have hk : k < values.length := by omega
      have := deleteLoop_before values k hk zero k 0 [] rfl (by omega)
      simpa using this
    next h =>
      obtain ⟨n, hn⟩ : ∃ n, values.length = n + 1 := ⟨values.length - 1, by omega⟩
      rw [hn]
      exact deleteLoop_bad values index (by omega) n 0 _ (by omega) (by simp; omega)

/-- Deleting what has just been inserted gives the original array back. -/
theorem C45_delete_insert (zero : α) (values : List α) (k : ℕ) (hk : k ≤ values.length) (v : α) :
    (insert1d zero values k v >>= fun w => delete1d zero w k) = .ok values := by
  rw [C45_insert, if_pos ⟨by omega, by omega⟩]
  have hne : values.take k ++ v :: values.drop k ≠ [] := by simp
  simp only [Int.toNat_natCast, ok_bind]
  rw [C45_delete, if_neg hne, if_pos ⟨by omega, by simp; omega⟩]
  have hl : (values.take k).length = k := by simp [hk]
  simp only [Int.toNat_natCast, Except.ok.injEq]
  rw [List.take_append_of_le_length (by omega), List.take_of_length_le (by omega),
    List.drop_append, hl, List.drop_of_length_le (by omega)]
  simp

/-- Inserting what has just been deleted, at the same place, gives the original array back. -/
theorem C45_insert_delete (zero : α) (values : List α) (k : ℕ) (hk : k < values.length) :
    (delete1d zero values k >>= fun w => insert1d zero w k values[k]) = .ok values := by
  have hne : values ≠ [] := by rintro rfl; simp at hk
  rw [C45_delete, if_neg hne, if_pos ⟨by omega, by omega⟩]
  simp only [Int.toNat_natCast, ok_bind]
  have hl : (values.take k).length = k := by simp; omega
  rw [C45_insert, if_pos ⟨by omega, by simp; omega⟩]
  simp only [Int.toNat_natCast, Except.ok.injEq]
  rw [List.take_append_of_le_length (by omega), List.take_of_length_le (by omega),
    List.drop_append, hl, List.drop_of_length_le (by omega)]
  simp

/-- A concrete case: inserting into the middle, and at the end. -/
example : insert1d (0 : ℚ) [1, 2, 4] 2 3 = .ok [1, 2, 3, 4] := by rw [C45_insert]; simp
example : insert1d (0 : ℚ) [1, 2, 4] 3 5 = .ok [1, 2, 4, 5] := by rw [C45_insert]; simp
example : delete1d (0 : ℚ) [1, 2, 4] 1 = .ok [1, 4] := by rw [C45_delete]; simp
example : delete1d (0 : ℚ) [1, 2, 4] 3 = .error .undefinedBehaviour := by rw [C45_delete]; simp

end BB.Props
