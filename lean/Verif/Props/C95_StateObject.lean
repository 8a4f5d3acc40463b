import Verif.Model.StateObject
import Verif.Lemmas.Dict

/-!
# C95: states are made of, and give back, what they have been given
-/

namespace BB.Props

open BB BB.Lemmas

variable {V : Type}

/-- What a state can be made of. -/
def ProperItem (kv : Key × TopGiven V) : Prop := ∃ k v, kv = (.str k, .proper v)

theorem initTopLoop_ok (kvs : List (String × V)) (d : List (String × V)) (hn : (dkeys (d ++ kvs)).Nodup) :
    initTopLoop (kvs.map fun kv => (.str kv.1, .proper kv.2)) d = .ok (d ++ kvs) := by
  induction kvs generalizing d with
  | nil => simp [initTopLoop]
  | cons kv kvs ih =>
    obtain ⟨k, v⟩ := kv
    have hk : k ∉ dkeys d := by
      simp only [dkeys, List.map_append, List.map_cons] at hn ⊢
      intro h
      exact (List.nodup_append.1 hn).2.2 k h k (List.mem_cons_self ..) rfl
    have hs : dset d k v = d ++ [(k, v)] := by
      clear ih hn
      induction d with
      | nil => rfl
      | cons p d ih =>
        obtain ⟨k', v'⟩ := p
        simp only [dkeys, List.map_cons, List.mem_cons, not_or] at hk
        rw [dset, ih hk.2]
        simp [Ne.symm hk.1]
    simp only [List.map_cons, initTopLoop, setTop]
    rw [hs, ih (d ++ [(k, v)]) (by simpa using hn)]
    simp

theorem initTopLoop_error (kvs : List (Key × TopGiven V)) (d : List (String × V)) (h : ¬ ∀ kv ∈ kvs, ProperItem kv) :
    initTopLoop kvs d = .error .typeError ∨ initTopLoop kvs d = .error .valueError := by
  induction kvs generalizing d with
  | nil => simp at h
  | cons kv kvs ih =>
    match kv with
    | (.str k, .proper v) =>
      simp only [initTopLoop, setTop]
      refine ih _ fun hc => h ?_
      intro kv hkv
      rcases List.mem_cons.1 hkv with rfl | hkv
      · exact ⟨k, v, rfl⟩
      · exact hc kv hkv
    | (.str k, .other) => exact Or.inl rfl
    | (.other, _) => exact Or.inr rfl

/-- C95, construction: a state made of a number and a dictionary of proper items has exactly these, in the same order. -/
theorem C95_constructed (temp : ℝ) (kvs : List (String × V)) (hn : (dkeys kvs).Nodup) :
    initTop (some temp) (some (kvs.map fun kv => (.str kv.1, .proper kv.2))) = .ok kvs := by
  exact initTopLoop_ok kvs [] (by simpa using hn)

/-- C95, anything else is rejected with `TypeError` or `ValueError`. -/
theorem C95_rejected (temp : Option ℝ) (d : Option (List (Key × TopGiven V)))
    (h : temp = none ∨ d = none ∨ ∃ kvs, d = some kvs ∧ ∃ kv ∈ kvs, ¬ ProperItem kv) :
    initTop temp d = .error .typeError ∨ initTop temp d = .error .valueError := by
  match temp, d with
  | none, _ => exact Or.inl rfl
  | some _, none => exact Or.inl rfl
  | some _, some kvs =>
    rcases h with h | h | ⟨kvs', h, kv, hkv, hn⟩
    · cases h
    · cases h
    · injection h with h
      subst h
      exact initTopLoop_error kvs [] fun hc => hn (hc kv hkv)

/-- C95, the exceptions of setting: `ValueError` exactly for names that are not strings, `TypeError` exactly for other objects under names
that are; then nothing changes. -/
theorem C95_set (d : List (String × V)) (k : Key) (v : TopGiven V) :
    ((setTop d k v).1 = .error .valueError ↔ k = .other) ∧
    ((setTop d k v).1 = .error .typeError ↔ v = .other ∧ k ≠ .other) ∧
    ((setTop d k v).1 ≠ .ok () → (setTop d k v).2 = d) ∧
    ((setTop d k v).1 = .ok () ↔ ProperItem (k, v)) := by
  cases k <;> cases v <;> simp [setTop, ProperItem]

/-- C95, histories: after any sequence of settings, of which some may have failed, each name has the value that has been set last
without failing, and the one it had before if there is none. -/
theorem C95_last (d : List (String × V)) (hist : List (Key × TopGiven V)) (k : String) :
    (∀ before after v, hist = before ++ (.str k, .proper v) :: after → (∀ w, (.str k, .proper w) ∉ after) →
      getTop (setAllTop d hist) (.str k) = .ok (some v)) ∧
    ((∀ w, (.str k, .proper w) ∉ hist) → getTop (setAllTop d hist) (.str k) = getTop d (.str k)) := by
  have keep : ∀ (hist : List (Key × TopGiven V)) (d : List (String × V)), (∀ w, (.str k, .proper w) ∉ hist) →
      getTop (setAllTop d hist) (.str k) = getTop d (.str k) := by
    intro hist
    induction hist with
    | nil => exact fun _ _ => rfl
    | cons kv hist ih =>
      intro d hw
      have hr := ih (setTop d kv.1 kv.2).2 fun w hm => hw w (List.mem_cons_of_mem _ hm)
      rw [setAllTop, hr]
      match kv with
      | (.str k', .proper v) =>
        have hk : k ≠ k' := by
          rintro rfl
          exact hw v (List.mem_cons_self ..)
        simp only [setTop, getTop]
        rw [dget_dset_ne _ _ _ _ hk]
      | (.str _, .other) => rfl
      | (.other, _) => rfl
  refine ⟨?_, keep hist d⟩
  rintro before after v rfl hafter
  induction before generalizing d with
  | nil =>
    rw [List.nil_append, setAllTop, keep after _ hafter]
    simp only [setTop, getTop]
    rw [dget_dset_same]
  | cons kv before ih =>
    rw [List.cons_append, setAllTop]
    exact ih _

/-- C95, names that are not strings cannot be looked up, others can be whether they are there or not. -/
theorem C95_get (d : List (String × V)) :
    getTop d .other = .error .valueError ∧
    ∀ k, (k ∈ dkeys d → ∃ v, getTop d (.str k) = .ok (some v) ∧ (k, v) ∈ d) ∧ (k ∉ dkeys d → getTop d (.str k) = .ok none) := by
  refine ⟨rfl, fun k => ?_⟩
  simp only [getTop, Except.ok.injEq]
  induction d with
  | nil => simp [dkeys, dget]
  | cons p d ih =>
    obtain ⟨k', v'⟩ := p
    by_cases hk : k' = k
    · subst hk
      simp [dkeys, dget]
    · simp only [dkeys, List.map_cons, List.mem_cons] at ih ⊢
      have hg : dget ((k', v') :: d) k = dget d k := by simp [dget, hk]
      rw [hg]
      refine ⟨?_, fun h => ih.2 fun hm => h (Or.inr hm)⟩
      rintro (h | h)
      · exact absurd h.symm hk
      · obtain ⟨v, h1, h2⟩ := ih.1 h
        exact ⟨v, h1, Or.inr h2⟩

/-! ### examples -/

/-- Two parameters, one of which is set twice, with a failure in between. -/
example : getTop (setAllTop [("a", 1), ("b", 2)] [(.str "a", .proper 3), (.str "a", .other), (.other, .proper 5), (.str "c", .proper 4)])
    (.str "a") = .ok (some 3) :=
  (C95_last _ _ "a").1 [] [(.str "a", .other), (.other, .proper 5), (.str "c", .proper 4)] 3 rfl (by simp)

example : initTop (some 1) (some [(.str "a", .proper 1), (.str "b", .proper 2)]) = .ok [("a", 1), ("b", 2)] :=
  C95_constructed 1 [("a", 1), ("b", 2)] (by decide)

end BB.Props
