import Verif.Model.Dict
import Mathlib.Data.List.Basic
import Mathlib.Data.List.Nodup

/-!
# Facts about dictionaries
-/

namespace BB.Lemmas

open BB

variable {α : Type}

@[simp] theorem dget_nil (k : String) : dget ([] : List (String × α)) k = none := rfl

theorem dget_dset_same (d : List (String × α)) (k : String) (v : α) :
    dget (dset d k v) k = some v := by
  induction d with
  | nil => simp [dset, dget]
  | cons kv d ih =>
    obtain ⟨k', v'⟩ := kv
    unfold dset
    split_ifs with h
    · simp [dget, h]
    · simp [dget, h, ih]

theorem dget_dset_ne (d : List (String × α)) (k k2 : String) (v : α) (h : k2 ≠ k) :
    dget (dset d k v) k2 = dget d k2 := by
  induction d with
  | nil => simp [dset, dget, Ne.symm h]
  | cons kv d ih =>
    obtain ⟨k', v'⟩ := kv
    unfold dset
    split_ifs with h1
    · subst h1
      simp [dget, Ne.symm h]
    · simp only [dget, ih]

theorem dget_some_mem {d : List (String × α)} {k : String} {v : α} (h : dget d k = some v) :
    (k, v) ∈ d := by
  induction d with
  | nil => simp at h
  | cons kv d ih =>
    obtain ⟨k', v'⟩ := kv
    simp only [dget] at h
    split_ifs at h with h1
    · simp at h; subst h1; subst h; simp
    · exact List.mem_cons_of_mem _ (ih h)

theorem dget_of_mem {d : List (String × α)} (hd : (dkeys d).Nodup) {k : String} {v : α}
    (h : (k, v) ∈ d) : dget d k = some v := by
  induction d with
  | nil => simp at h
  | cons kv d ih =>
    obtain ⟨k', v'⟩ := kv
    simp only [dkeys, List.map_cons, List.nodup_cons] at hd
    rcases List.mem_cons.1 h with h | h
    · injection h with h1 h2; subst h1; subst h2; simp [dget]
    · have : k ∈ List.map (·.1) d := List.mem_map.2 ⟨_, h, rfl⟩
      have hne : k' ≠ k := by rintro rfl; exact hd.1 this
      simp [dget, hne, ih hd.2 h]

theorem dget_none_iff {d : List (String × α)} {k : String} : dget d k = none ↔ k ∉ dkeys d := by
  induction d with
  | nil => simp [dkeys]
  | cons kv d ih =>
    obtain ⟨k', v'⟩ := kv
    simp only [dget, dkeys, List.map_cons, List.mem_cons, not_or]
    split_ifs with h
    · simp [h]
    · rw [ih]; simp only [dkeys]
      exact ⟨fun h2 => ⟨fun h3 => h h3.symm, h2⟩, fun h2 => h2.2⟩

theorem dkeys_dset (d : List (String × α)) (k : String) (v : α) :
    dkeys (dset d k v) = if k ∈ dkeys d then dkeys d else dkeys d ++ [k] := by
  induction d with
  | nil => simp [dset, dkeys]
  | cons kv d ih =>
    obtain ⟨k', v'⟩ := kv
    unfold dset
    by_cases h : k' = k
    · simp [h, dkeys]
    · simp only [h, if_false]
      have : dkeys ((k', v') :: dset d k v) = k' :: dkeys (dset d k v) := rfl
      rw [this, ih]
      have e : dkeys ((k', v') :: d) = k' :: dkeys d := rfl
      rw [e]
      by_cases h2 : k ∈ dkeys d
      · simp [h2]
      · simp [h2, Ne.symm h]

theorem nodup_dset (d : List (String × α)) (k : String) (v : α) (h : (dkeys d).Nodup) :
    (dkeys (dset d k v)).Nodup := by
  rw [dkeys_dset]
  split_ifs with h2
  · exact h
  · rw [List.nodup_append]
    refine ⟨h, by simp, ?_⟩
    intro a ha b hb
    simp at hb
    subst hb
    rintro rfl
    exact h2 ha

/-- Every entry of `dset d k v` is an entry of `d` with another key, or `(k, v)`, when the keys of
`d` are distinct. -/
theorem mem_dset {d : List (String × α)} {k : String} {v : α} (hd : (dkeys d).Nodup)
    {x : String × α} (h : x ∈ dset d k v) : (x ∈ d ∧ x.1 ≠ k) ∨ x = (k, v) := by
  have h1 := dget_of_mem (nodup_dset d k v hd) (k := x.1) (v := x.2) h
  by_cases hk : x.1 = k
  · right
    rw [hk, dget_dset_same] at h1
    injection h1 with h1
    exact Prod.ext hk h1.symm
  · left
    rw [dget_dset_ne _ _ _ _ hk] at h1
    exact ⟨dget_some_mem h1, hk⟩

theorem dset_eq_self {d : List (String × α)} {k : String} {v : α} (h : dget d k = some v) :
    dset d k v = d := by
  induction d with
  | nil => simp at h
  | cons kv d ih =>
    obtain ⟨k', v'⟩ := kv
    simp only [dget] at h
    simp only [dset]
    split_ifs at h ⊢ with h1
    · injection h with h; subst h; rfl
    · rw [ih h]

end BB.Lemmas
