import Verif.Model.Select
import Verif.Spec.Select
import Mathlib.Data.List.Forall2
import Mathlib.Tactic.Linarith

/-!
# Lemmas on indexing
-/

namespace BB.Lemmas

open BB BB.Spec

variable {α : Type}

theorem pyAt_means {xs : List α} {i : ℤ} {d : ℕ} (h : Means xs.length i d) :
    ∃ x, pyAt xs i = .ok x ∧ xs[d]? = some x := by
  obtain ⟨hd, h⟩ := h
  have hj : (if i < 0 then i + (xs.length : ℤ) else i) = d := by
    rcases h with h | h
    · rw [if_neg (by omega), h]
    · rw [if_pos (by omega), h]; omega
  refine ⟨xs[d], ?_, List.getElem?_eq_getElem hd⟩
  unfold pyAt
  simp only [hj]
  rw [if_neg (by omega)]
  simp [List.getElem?_eq_getElem hd]

theorem pyAt_not_means {xs : List α} {i : ℤ} (h : ∀ d, ¬ Means xs.length i d) : pyAt xs i = .error .indexError := by
  unfold pyAt
  by_cases hi : i < 0
  · simp only [if_pos hi]
    by_cases hj : i + (xs.length : ℤ) < 0
    · rw [if_pos hj]
    · exact absurd ⟨by omega, Or.inr (by omega)⟩ (h (i + xs.length).toNat)
  · simp only [if_neg hi]
    have hn : xs.length ≤ i.toNat := by
      by_contra hc
      exact h i.toNat ⟨by omega, Or.inl (by omega)⟩
    rw [List.getElem?_eq_none hn]

theorem pyTake_nil (xs : List α) : pyTake xs [] = .ok [] := rfl

theorem pyTake_cons (xs : List α) (i : ℤ) (idx : List ℤ) : pyTake xs (i :: idx) =
    match pyAt xs i with
    | .error e => .error e
    | .ok x =>
      match pyTake xs idx with
      | .error e => .error e
      | .ok ys => .ok (x :: ys) := by
  unfold pyTake
  rw [List.mapM_cons]
  cases pyAt xs i with
  | error e => rfl
  | ok x =>
    change (List.mapM (pyAt xs) idx >>= fun ys => pure (x :: ys)) = _
    cases List.mapM (pyAt xs) idx <;> rfl

theorem pyTake_means {xs : List α} {idx : List ℤ} {ds : List ℕ} (h : List.Forall₂ (Means xs.length) idx ds) :
    ∃ ys, pyTake xs idx = .ok ys ∧ ys.length = ds.length ∧ ∀ j d : ℕ, ds[j]? = some d → ys[j]? = xs[d]? := by
  induction h with
  | nil => exact ⟨[], rfl, rfl, by simp⟩
  | cons h1 _ ih =>
    obtain ⟨ys, h2, h3, h4⟩ := ih
    obtain ⟨x, h5, h6⟩ := pyAt_means h1
    refine ⟨x :: ys, by rw [pyTake_cons, h5, h2], by simp [h3], ?_⟩
    intro j d hj
    match j with
    | 0 =>
      rw [List.getElem?_cons_zero, Option.some.injEq] at hj
      rw [← hj, h6, List.getElem?_cons_zero]
    | j + 1 =>
      rw [List.getElem?_cons_succ] at hj ⊢
      exact h4 j d hj

theorem pyTake_not_means {xs : List α} {idx : List ℤ} {i : ℤ} (hi : i ∈ idx) (h : ∀ d, ¬ Means xs.length i d) :
    pyTake xs idx = .error .indexError := by
  induction idx with
  | nil => simp at hi
  | cons a idx ih =>
    rw [pyTake_cons]
    by_cases ha : ∃ d, Means xs.length a d
    · obtain ⟨d, hd⟩ := ha
      obtain ⟨x, hx, -⟩ := pyAt_means hd
      rcases List.mem_cons.1 hi with rfl | hi
      · exact absurd hd (h d)
      · rw [hx, ih hi]
    · rw [pyAt_not_means (not_exists.1 ha)]

/-- One parameter. -/
theorem at_means {v : PVal} {n : ℕ} {idx : List ℤ} {ds : List ℕ} (hv : v.len = n) (h : List.Forall₂ (Means n) idx ds) :
    ∃ v', v.at (.ints idx) = .ok v' ∧ SameKind v v' ∧ v'.len = ds.length ∧ (dimEntries v').length = ds.length ∧
      ∀ j d : ℕ, ds[j]? = some d → (dimEntries v')[j]? = (dimEntries v)[d]? := by
  subst hv
  match v with
  | .arr (.vec xs) =>
    obtain ⟨ys, h1, h2, h3⟩ := pyTake_means (xs := xs) h
    refine ⟨.arr (.vec ys), ?_, .vec _ _, h2, by simp [dimEntries, h2], fun j d hj => by simp [dimEntries, h3 j d hj]⟩
    simp only [PVal.at, arrayAt, h1]; rfl
  | .arr (.pts xs) =>
    obtain ⟨ys, h1, h2, h3⟩ := pyTake_means (xs := xs) h
    refine ⟨.arr (.pts ys), ?_, .pts _ _, h2, by simp [dimEntries, h2], fun j d hj => by simp [dimEntries, h3 j d hj]⟩
    simp only [PVal.at, arrayAt, h1]; rfl
  | .objs xs =>
    obtain ⟨ys, h1, h2, h3⟩ := pyTake_means (xs := xs) h
    refine ⟨.objs ys, ?_, .objs _ _, h2, by simp [dimEntries, h2], fun j d hj => by simp [dimEntries, h3 j d hj]⟩
    simp only [PVal.at, arrayAt, h1]; rfl
  | .states xs =>
    obtain ⟨ys, h1, h2, h3⟩ := pyTake_means (xs := xs) h
    refine ⟨.states ys, ?_, .states _ _, h2, by simp [dimEntries, h2], fun j d hj => by simp [dimEntries, h3 j d hj]⟩
    simp only [PVal.at, listAt, h1]; rfl

theorem at_not_means {v : PVal} {idx : List ℤ} {i : ℤ} (hi : i ∈ idx) (h : ∀ d, ¬ Means v.len i d) :
    v.at (.ints idx) = .error .indexError := by
  match v with
  | .arr (.vec xs) => simp only [PVal.at, arrayAt, pyTake_not_means (xs := xs) hi h]; rfl
  | .arr (.pts xs) => simp only [PVal.at, arrayAt, pyTake_not_means (xs := xs) hi h]; rfl
  | .objs xs => simp only [PVal.at, arrayAt, pyTake_not_means (xs := xs) hi h]; rfl
  | .states xs => simp only [PVal.at, listAt, pyTake_not_means (xs := xs) hi h]; rfl

theorem valsAt_cons (idx : Idx) (k : String) (v : PVal) (rest : List (String × PVal)) : valsAt idx ((k, v) :: rest) =
    match v.at idx with
    | .error e => .error e
    | .ok v' =>
      match valsAt idx rest with
      | .error e => .error e
      | .ok r => .ok ((k, v') :: r) := by
  rw [valsAt]
  cases v.at idx with
  | error e => rfl
  | ok v' =>
    change (valsAt idx rest >>= fun r => pure ((k, v') :: r)) = _
    cases valsAt idx rest <;> rfl

theorem valsAt_means {vals : List (String × PVal)} {n : ℕ} {idx : List ℤ} {ds : List ℕ} (hv : ∀ kv ∈ vals, kv.2.len = n)
    (h : List.Forall₂ (Means n) idx ds) :
    ∃ vals', valsAt (.ints idx) vals = .ok vals' ∧ (∀ kv ∈ vals', kv.2.len = ds.length) ∧
      List.Forall₂ (fun (kv kv' : String × PVal) => kv'.1 = kv.1 ∧ SameKind kv.2 kv'.2 ∧ (dimEntries kv'.2).length = ds.length ∧
        ∀ j d : ℕ, ds[j]? = some d → (dimEntries kv'.2)[j]? = (dimEntries kv.2)[d]?) vals vals' := by
  induction vals with
  | nil => exact ⟨[], rfl, by simp, .nil⟩
  | cons kv vals ih =>
    obtain ⟨k, v⟩ := kv
    obtain ⟨v', a1, a2, a3, a4, a5⟩ := at_means (hv (k, v) (List.mem_cons_self ..)) h
    obtain ⟨r, b1, b2, b3⟩ := ih fun kv hkv => hv kv (List.mem_cons_of_mem _ hkv)
    refine ⟨(k, v') :: r, by rw [valsAt_cons, a1, b1], ?_, .cons ⟨rfl, a2, a4, a5⟩ b3⟩
    intro kv hkv
    rcases List.mem_cons.1 hkv with rfl | hkv
    · exact a3
    · exact b2 kv hkv

/-- An error of the loop is one of a parameter. -/
theorem valsAt_error {vals : List (String × PVal)} {idx : Idx} {e : PyErr} (h : ∃ kv ∈ vals, ∃ e, kv.2.at idx = .error e)
    (he : ∀ kv ∈ vals, ∀ e', kv.2.at idx = .error e' → e' = e) : valsAt idx vals = .error e := by
  induction vals with
  | nil => simp at h
  | cons kv vals ih =>
    obtain ⟨k, v⟩ := kv
    rw [valsAt_cons]
    cases hv : v.at idx with
    | error e' => rw [he (k, v) (List.mem_cons_self ..) e' hv]
    | ok v' =>
      obtain ⟨kv, hkv, e', hk⟩ := h
      rcases List.mem_cons.1 hkv with rfl | hkv
      · rw [hv] at hk; simp at hk
      · rw [ih ⟨kv, hkv, e', hk⟩ fun kv hkv => he kv (List.mem_cons_of_mem _ hkv)]

/-- The checks of the constructor. -/
theorem checkVals_step (n : ℕ) (k : String) (v : PVal) (rest : List (String × PVal)) : checkVals n ((k, v) :: rest) =
    if v.len ≠ n then .error .valueError else
      match checkVal v with
      | .error e => .error e
      | .ok _ => checkVals n rest := by
  rw [checkVals]
  split
  · rfl
  · cases checkVal v <;> rfl

theorem checkVal_nonempty {v : PVal} (h : v ≠ .states []) : checkVal v = .ok () := by
  match v with
  | .states [] => exact absurd rfl h
  | .states (_ :: _) => rfl
  | .arr _ => rfl
  | .objs _ => rfl

theorem checkSelected_ok {n : ℕ} {vals : List (String × PVal)} :
    checkVals n vals = .ok () ↔ ∀ kv ∈ vals, kv.2.len = n ∧ kv.2 ≠ .states [] := by
  induction vals with
  | nil => simp [checkVals]
  | cons kv vals ih =>
    obtain ⟨k, v⟩ := kv
    rw [List.forall_mem_cons]
    by_cases hs : v = .states []
    · subst hs
      by_cases hv : (PVal.states []).len = n
      · simp [checkVals_step, checkVal, hv]
      · simp [checkVals_step, checkVal, hv]
    · have hc : checkVals n ((k, v) :: vals) = if v.len ≠ n then .error .valueError else checkVals n vals := by
        rw [checkVals_step, checkVal_nonempty hs]
      rw [hc]
      by_cases hv : v.len = n
      · rw [if_neg (by simpa using hv), ih]
        exact ⟨fun g => ⟨⟨hv, hs⟩, g⟩, fun g => g.2⟩
      · rw [if_pos hv]
        simp [hv]

theorem checkSelected_error {n : ℕ} {vals : List (String × PVal)} (hl : ∀ kv ∈ vals, kv.2.len = n)
    (h : ∃ kv ∈ vals, kv.2 = .states []) : checkVals n vals = .error .indexError := by
  induction vals with
  | nil => simp at h
  | cons kv vals ih =>
    obtain ⟨k, v⟩ := kv
    have hv := hl (k, v) (List.mem_cons_self ..)
    by_cases hs : v = .states []
    · subst hs
      simp only at hv
      simp [checkVals_step, checkVal, hv]
    · have hc : checkVals n ((k, v) :: vals) = if v.len ≠ n then .error .valueError else checkVals n vals := by
        rw [checkVals_step, checkVal_nonempty hs]
      rw [hc, if_neg (by simpa using hv)]
      refine ih (fun kv hkv => hl kv (List.mem_cons_of_mem _ hkv)) ?_
      obtain ⟨kv, hkv, he⟩ := h
      rcases List.mem_cons.1 hkv with rfl | hkv
      · exact absurd he hs
      · exact ⟨kv, hkv, he⟩

theorem select_ints (s : PSState) (idx : List ℤ) : s.select (.ints idx) =
    match valsAt (.ints idx) s.vals with
    | .error e => .error e
    | .ok vals =>
      match checkVals idx.length vals with
      | .error e => .error e
      | .ok _ => .ok (.mk idx.length vals none) := by
  change (valsAt (.ints idx) s.vals >>= fun vals => checkVals idx.length vals >>= fun _ => pure (PSState.mk idx.length vals none)) = _
  cases valsAt (.ints idx) s.vals with
  | error e => rfl
  | ok vals =>
    change (checkVals idx.length vals >>= fun _ => pure (PSState.mk idx.length vals none)) = _
    cases h : checkVals idx.length vals <;> simp only [h] <;> rfl

theorem select_bools (s : PSState) (m : List Bool) : s.select (.bools m) =
    match valsAt (.bools m) s.vals with
    | .error e => .error e
    | .ok vals =>
      match checkVals m.length vals with
      | .error e => .error e
      | .ok _ => .ok (.mk m.length vals none) := by
  change (valsAt (.bools m) s.vals >>= fun vals => checkVals m.length vals >>= fun _ => pure (PSState.mk m.length vals none)) = _
  cases valsAt (.bools m) s.vals with
  | error e => rfl
  | ok vals =>
    change (checkVals m.length vals >>= fun _ => pure (PSState.mk m.length vals none)) = _
    cases h : checkVals m.length vals <;> simp only [h] <;> rfl

theorem valsAt_mem {vals vals' : List (String × PVal)} {idx : Idx} (h : valsAt idx vals = .ok vals') {kv : String × PVal}
    (hkv : kv ∈ vals) : ∃ v', kv.2.at idx = .ok v' ∧ (kv.1, v') ∈ vals' := by
  induction vals generalizing vals' with
  | nil => simp at hkv
  | cons kv0 vals ih =>
    obtain ⟨k, v⟩ := kv0
    rw [valsAt_cons] at h
    cases hv : v.at idx with
    | error e => rw [hv] at h; simp at h
    | ok v' =>
      rw [hv] at h
      cases hr : valsAt idx vals with
      | error e => rw [hr] at h; simp at h
      | ok r =>
        rw [hr] at h
        simp only [Except.ok.injEq] at h
        subst h
        rcases List.mem_cons.1 hkv with rfl | hkv
        · exact ⟨v', hv, List.mem_cons_self ..⟩
        · obtain ⟨w, h1, h2⟩ := ih hr hkv
          exact ⟨w, h1, List.mem_cons_of_mem _ h2⟩

theorem mask_length (xs : List α) (m : List Bool) (h : m.length = xs.length) :
    ((xs.zip m).filterMap fun p => if p.2 then some p.1 else none).length = m.count true := by
  induction xs generalizing m with
  | nil => simp at h; simp [h]
  | cons x xs ih =>
    match m with
    | [] => simp at h
    | true :: m => simp [ih m (by simpa using h)]
    | false :: m => simp [ih m (by simpa using h)]

theorem pyMask_ok {xs ys : List α} {m : List Bool} (h : pyMask xs m = .ok ys) :
    m.length = xs.length ∧ ys.length = m.count true := by
  unfold pyMask at h
  by_cases hl : m.length = xs.length
  · rw [if_pos hl] at h
    simp only [Except.ok.injEq] at h
    exact ⟨hl, by rw [← h, mask_length xs m hl]⟩
  · rw [if_neg hl] at h
    simp at h

theorem at_bools {v v' : PVal} {m : List Bool} (hv : ∀ l, v ≠ .states l) (h : v.at (.bools m) = .ok v') :
    m.length = v.len ∧ v'.len = m.count true := by
  match v with
  | .arr (.vec xs) =>
    simp only [PVal.at, arrayAt] at h
    cases hm : pyMask xs m with
    | error e => rw [hm] at h; cases h
    | ok ys => rw [hm] at h; cases h; exact pyMask_ok hm
  | .arr (.pts xs) =>
    simp only [PVal.at, arrayAt] at h
    cases hm : pyMask xs m with
    | error e => rw [hm] at h; cases h
    | ok ys => rw [hm] at h; cases h; exact pyMask_ok hm
  | .objs xs =>
    simp only [PVal.at, arrayAt] at h
    cases hm : pyMask xs m with
    | error e => rw [hm] at h; cases h
    | ok ys => rw [hm] at h; cases h; exact pyMask_ok hm
  | .states l => exact absurd rfl (hv l)

theorem entries_inj {v a b : PVal} (ha : SameKind v a) (hb : SameKind v b) (h : dimEntries a = dimEntries b) : a = b := by
  have i1 : Function.Injective DimEntry.num := fun _ _ h => by cases h; rfl
  have i2 : Function.Injective DimEntry.point := fun _ _ h => by cases h; rfl
  have i3 : Function.Injective DimEntry.state := fun _ _ h => by cases h; rfl
  cases ha <;> cases hb <;> simp only [dimEntries] at h
  · rw [List.map_injective_iff.2 i1 h]
  · rw [List.map_injective_iff.2 i2 h]
  · rw [List.map_injective_iff.2 i3 h]
  · rw [List.map_injective_iff.2 i3 h]

end BB.Lemmas
