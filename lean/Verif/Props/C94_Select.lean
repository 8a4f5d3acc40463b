import Verif.Lemmas.Select
import Mathlib.Tactic.NormNum

/-!
# C94: selecting dimensions of a parameter-space state
-/

namespace BB.Props

open BB BB.Spec BB.Lemmas

/-- C94, selections: a list of indices within range, not empty if there is a list of nested states, gives the state with these dimensions. -/
theorem C94_select (s : PSState) (hs : ∀ kv ∈ s.vals, kv.2.len = s.n) (idx : List ℤ) (ds : List ℕ)
    (h : List.Forall₂ (Means s.n) idx ds) (hne : idx ≠ [] ∨ ∀ kv ∈ s.vals, ∀ l, kv.2 ≠ .states l) :
    ∃ s', s.select (.ints idx) = .ok s' ∧ SelectedDims ds s s' := by
  obtain ⟨vals', h1, h2, h3⟩ := valsAt_means hs h
  have hlen := h.length_eq
  have hc : checkVals idx.length vals' = .ok () := by
    rw [checkSelected_ok]
    intro kv hkv
    refine ⟨by rw [h2 kv hkv, hlen], ?_⟩
    intro he
    rcases hne with hne | hne
    · have := h2 kv hkv
      rw [he] at this
      have h0 : idx.length = 0 := by rw [hlen, ← this]; rfl
      exact hne (List.length_eq_zero_iff.1 h0)
    · have key : ∀ (a b : List (String × PVal)), List.Forall₂ (fun (kv kv' : String × PVal) => kv'.1 = kv.1 ∧
          SameKind kv.2 kv'.2 ∧ (dimEntries kv'.2).length = ds.length ∧
          ∀ j d : ℕ, ds[j]? = some d → (dimEntries kv'.2)[j]? = (dimEntries kv.2)[d]?) a b → ∀ y ∈ b, ∃ x ∈ a, SameKind x.2 y.2 := by
        intro a b hab
        induction hab with
        | nil => simp
        | cons g _ ih =>
          intro y hy
          rcases List.mem_cons.1 hy with rfl | hy
          · exact ⟨_, List.mem_cons_self .., g.2.1⟩
          · obtain ⟨x, hx, hk⟩ := ih y hy
            exact ⟨x, List.mem_cons_of_mem _ hx, hk⟩
      obtain ⟨x, hx, hk⟩ := key _ _ h3 kv hkv
      rw [he] at hk
      cases hxx : x.2 with
      | states l => exact hne x hx l hxx
      | arr a => rw [hxx] at hk; cases hk
      | objs l => rw [hxx] at hk; cases hk
  refine ⟨.mk idx.length vals' none, by rw [select_ints, h1]; simp only [hc], ⟨hlen, h3, rfl⟩⟩

/-- C94, what is selected is determined by the dimensions. -/
theorem C94_unique (ds : List ℕ) (s s1 s2 : PSState) (h1 : SelectedDims ds s s1) (h2 : SelectedDims ds s s2) : s1 = s2 := by
  obtain ⟨n1, v1, k1⟩ := s1
  obtain ⟨n2, v2, k2⟩ := s2
  have e1 : n1 = n2 := h1.n.trans h2.n.symm
  have e2 : k1 = k2 := h1.fresh.trans h2.fresh.symm
  have key : ∀ (a b c : List (String × PVal)), List.Forall₂ (fun (kv kv' : String × PVal) => kv'.1 = kv.1 ∧
      SameKind kv.2 kv'.2 ∧ (dimEntries kv'.2).length = ds.length ∧
      ∀ j d : ℕ, ds[j]? = some d → (dimEntries kv'.2)[j]? = (dimEntries kv.2)[d]?) a b →
      List.Forall₂ (fun (kv kv' : String × PVal) => kv'.1 = kv.1 ∧
      SameKind kv.2 kv'.2 ∧ (dimEntries kv'.2).length = ds.length ∧
      ∀ j d : ℕ, ds[j]? = some d → (dimEntries kv'.2)[j]? = (dimEntries kv.2)[d]?) a c → b = c := by
    intro a b c hb
    induction hb generalizing c with
    | nil => intro hc; cases hc; rfl
    | @cons x y a b g _ ih =>
      intro hc
      cases hc with
      | @cons _ z _ c' g' hc' =>
        rw [ih c' hc']
        have he : dimEntries y.2 = dimEntries z.2 := by
          apply List.ext_getElem?
          intro j
          by_cases hj : j < ds.length
          · have hd : ds[j]? = some ds[j] := List.getElem?_eq_getElem hj
            rw [g.2.2.2 j _ hd, g'.2.2.2 j _ hd]
          · rw [List.getElem?_eq_none (by rw [g.2.2.1]; omega), List.getElem?_eq_none (by rw [g'.2.2.1]; omega)]
        rw [show y = z from Prod.ext (g.1.trans g'.1.symm) (entries_inj g.2.1 g'.2.1 he)]
  have e3 : v1 = v2 := key _ _ _ h1.vals h2.vals
  rw [e1, e2, e3]

/-- C94, selecting all dimensions gives the same values, without the cached tree. -/
theorem C94_all (s : PSState) (hs : ∀ kv ∈ s.vals, kv.2.len = s.n)
    (hne : s.n ≠ 0 ∨ ∀ kv ∈ s.vals, ∀ l, kv.2 ≠ .states l) :
    s.select (.ints ((List.range s.n).map fun d : ℕ => (d : ℤ))) = .ok (.mk s.n s.vals none) := by
  have hm : List.Forall₂ (Means s.n) ((List.range s.n).map fun d : ℕ => (d : ℤ)) (List.range s.n) := by
    rw [List.forall₂_map_left_iff, List.forall₂_same]
    exact fun d hd => ⟨List.mem_range.1 hd, Or.inl rfl⟩
  obtain ⟨s', h1, h2⟩ := C94_select s hs _ _ hm (hne.imp (fun h he => h (by simpa using congrArg List.length he)) id)
  rw [h1]
  congr 1
  refine C94_unique _ s _ _ h2 ⟨by simp [PSState.n], ?_, rfl⟩
  change List.Forall₂ _ s.vals s.vals
  rw [List.forall₂_same]
  intro kv hkv
  have hlen : (dimEntries kv.2).length = s.n := by
    rw [← hs kv hkv]
    match kv.2 with
    | .arr (.vec xs) => simp [dimEntries, PVal.len, Arr.len]
    | .arr (.pts xs) => simp [dimEntries, PVal.len, Arr.len]
    | .states l => simp [dimEntries, PVal.len]
    | .objs l => simp [dimEntries, PVal.len]
  refine ⟨rfl, ?_, by rw [hlen, List.length_range], ?_⟩
  · match kv.2 with
    | .arr (.vec xs) => exact .vec _ _
    | .arr (.pts xs) => exact .pts _ _
    | .states l => exact .states _ _
    | .objs l => exact .objs _ _
  · intro j d hj
    obtain ⟨hj', he⟩ := List.getElem?_eq_some_iff.1 hj
    rw [List.getElem_range] at he
    rw [he]

/-- C94, selections from selections: the dimensions are those selected at the selected places. -/
theorem C94_twice (ds es : List ℕ) (s s1 s2 : PSState) (h1 : SelectedDims ds s s1) (h2 : SelectedDims es s1 s2)
    (fs : List ℕ) (hf : List.Forall₂ (fun e f => ds[e]? = some f) es fs) : SelectedDims fs s s2 := by
  refine ⟨by rw [h2.n, hf.length_eq], ?_, h2.fresh⟩
  have hfs : ∀ j f : ℕ, fs[j]? = some f → ∃ e, es[j]? = some e ∧ ds[e]? = some f := by
    intro j f hj
    obtain ⟨hj', he⟩ := List.getElem?_eq_some_iff.1 hj
    have hl : j < es.length := by rw [hf.length_eq]; exact hj'
    refine ⟨es[j], List.getElem?_eq_getElem hl, ?_⟩
    have := hf.get hl hj'
    simpa [he] using this
  have key : ∀ (a b c : List (String × PVal)), List.Forall₂ (fun (kv kv' : String × PVal) => kv'.1 = kv.1 ∧
      SameKind kv.2 kv'.2 ∧ (dimEntries kv'.2).length = ds.length ∧
      ∀ j d : ℕ, ds[j]? = some d → (dimEntries kv'.2)[j]? = (dimEntries kv.2)[d]?) a b →
      List.Forall₂ (fun (kv kv' : String × PVal) => kv'.1 = kv.1 ∧
      SameKind kv.2 kv'.2 ∧ (dimEntries kv'.2).length = es.length ∧
      ∀ j d : ℕ, es[j]? = some d → (dimEntries kv'.2)[j]? = (dimEntries kv.2)[d]?) b c →
      List.Forall₂ (fun (kv kv' : String × PVal) => kv'.1 = kv.1 ∧
      SameKind kv.2 kv'.2 ∧ (dimEntries kv'.2).length = fs.length ∧
      ∀ j d : ℕ, fs[j]? = some d → (dimEntries kv'.2)[j]? = (dimEntries kv.2)[d]?) a c := by
    intro a b c hb
    induction hb generalizing c with
    | nil => intro hc; cases hc; exact .nil
    | cons g _ ih =>
      intro hc
      cases hc with
      | cons g' hc' =>
        refine .cons ⟨g'.1.trans g.1, ?_, by rw [g'.2.2.1, hf.length_eq], ?_⟩ (ih _ hc')
        · have k1 := g.2.1
          have k2 := g'.2.1
          revert k1 k2
          generalize Prod.snd _ = x
          generalize Prod.snd _ = y
          generalize Prod.snd _ = z
          intro k1 k2
          cases k1 <;> cases k2 <;> constructor
        · intro j f hj
          obtain ⟨e, he, hd⟩ := hfs j f hj
          rw [g'.2.2.2 j e he, g.2.2.2 e f hd]
  exact key _ _ _ h1.vals h2.vals

/-- C94, indices out of range raise `IndexError`, if there is a parameter. -/
theorem C94_range (s : PSState) (hs : ∀ kv ∈ s.vals, kv.2.len = s.n) (hv : s.vals ≠ []) (idx : List ℤ) (i : ℤ) (hi : i ∈ idx)
    (hr : i < -s.n ∨ (s.n : ℤ) ≤ i) : s.select (.ints idx) = .error .indexError := by
  have hm : ∀ d, ¬ Means s.n i d := by
    rintro d ⟨h1, h2⟩
    omega
  have he : ∀ kv ∈ s.vals, kv.2.at (.ints idx) = .error .indexError := by
    intro kv hkv
    refine at_not_means hi ?_
    rw [hs kv hkv]
    exact hm
  obtain ⟨kv, hkv⟩ := List.exists_mem_of_ne_nil _ hv
  have := valsAt_error (e := .indexError) ⟨kv, hkv, _, he kv hkv⟩ fun kv hkv e' h => by rw [he kv hkv] at h; cases h; rfl
  rw [select_ints, this]

/-- C94, indices within range mean exactly one dimension. -/
theorem C94_means (n : ℕ) (i : ℤ) : (∃! d, Means n i d) ↔ -(n : ℤ) ≤ i ∧ i < n := by
  constructor
  · rintro ⟨d, ⟨h1, h2⟩, -⟩
    omega
  · rintro ⟨h1, h2⟩
    by_cases hi : i < 0
    · refine ⟨(i + n).toNat, ⟨by omega, Or.inr (by omega)⟩, ?_⟩
      rintro d ⟨g1, g2⟩
      omega
    · refine ⟨i.toNat, ⟨by omega, Or.inl (by omega)⟩, ?_⟩
      rintro d ⟨g1, g2⟩
      omega

/-- C94, the empty selection of a state with a list of nested states raises `IndexError`. -/
theorem C94_empty_counterexample (s : PSState) (hs : ∀ kv ∈ s.vals, kv.2.len = s.n) (k : String) (l : List PSState)
    (hk : (k, PVal.states l) ∈ s.vals) : s.select (.ints []) = .error .indexError := by
  obtain ⟨vals', h1, h2, h3⟩ := valsAt_means hs (.nil : List.Forall₂ (Means s.n) [] [])
  obtain ⟨v', g1, g2⟩ := valsAt_mem h1 hk
  have hv : v' = .states [] := by
    simp only [PVal.at, listAt, pyTake_nil] at g1
    cases g1
    rfl
  have := checkSelected_error (n := 0) h2 ⟨_, g2, hv⟩
  rw [select_ints, h1]
  simp only [List.length_nil, this]

/-- C94, masks: a list of Booleans is not a mask; if there is an array, it is only accepted if all of them are true. -/
theorem C94_mask_counterexample (s s' : PSState) (m : List Bool) (k : String) (v : PVal) (hk : (k, v) ∈ s.vals)
    (hv : ∀ l, v ≠ .states l) (h : s.select (.bools m) = .ok s') : m.length = v.len ∧ ∀ b ∈ m, b = true := by
  rw [select_bools] at h
  cases h1 : valsAt (.bools m) s.vals with
  | error e => rw [h1] at h; simp at h
  | ok vals =>
    rw [h1] at h
    simp only at h
    cases h2 : checkVals m.length vals with
    | error e => rw [h2] at h; simp at h
    | ok u =>
      obtain ⟨v', g1, g2⟩ := valsAt_mem h1 hk
      obtain ⟨g3, g4⟩ := at_bools hv g1
      have g5 := (checkSelected_ok.1 h2 _ g2).1
      refine ⟨g3, ?_⟩
      have : m.count true = m.length := by rw [← g4, g5]
      intro b hb
      exact (List.count_eq_length.1 this b hb).symm

/-- C94, masks for lists of nested states: true and false select the second and the first state. -/
theorem C94_mask_list (a b : PSState) (k : String) (kd : Option (List (ℝ × ℝ))) :
    (PSState.mk 2 [(k, .states [a, b])] kd).select (.bools [true, false]) = .ok (.mk 2 [(k, .states [b, a])] none) := rfl

/-- C94, anything else raises `TypeError`. -/
theorem C94_type (s : PSState) : s.select .other = .error .typeError := rfl

/-! ### examples -/

/-- A state with three sites and values. -/
def ex94 : PSState := .mk 3 [("discretization", .arr (.vec [1, 2, 4])), ("vs", .arr (.vec [10, 20, 40]))] none

theorem ex94_lengths : ∀ kv ∈ ex94.vals, kv.2.len = ex94.n := by
  simp [ex94, PSState.vals, PSState.n, PVal.len, Arr.len]

/-- The last dimension and the first one. -/
example : List.Forall₂ (Means ex94.n) [-1, 0] [2, 0] ∧
    ex94.select (.ints [-1, 0]) = .ok (.mk 2 [("discretization", .arr (.vec [4, 1])), ("vs", .arr (.vec [40, 10]))] none) := by
  refine ⟨.cons ⟨by decide, Or.inr (by decide)⟩ (.cons ⟨by decide, Or.inl rfl⟩ .nil), rfl⟩

/-- Selecting from this selection. -/
example : List.Forall₂ (fun e f => ([2, 0] : List ℕ)[e]? = some f) [1, 1, 0] [0, 0, 2] :=
  .cons rfl (.cons rfl (.cons rfl .nil))

/-- Out of range. -/
example : ex94.select (.ints [0, 3]) = .error .indexError :=
  C94_range ex94 ex94_lengths (by simp [ex94, PSState.vals]) [0, 3] 3 (by simp) (Or.inr (le_refl _))

/-- A mask with all dimEntries true is accepted, one with false dimEntries is not. -/
example : ex94.select (.bools [true, true, true]) = .ok ex94 ∧ ex94.select (.bools [true, false, true]) = .error .valueError :=
  ⟨rfl, rfl⟩

end BB.Props
