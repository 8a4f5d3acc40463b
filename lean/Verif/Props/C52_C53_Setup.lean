import Verif.Lemmas.SetPerturbations

/-!
# C52, C53 — setting the perturbations and the chains of an inversion
-/

namespace BB.Props

open BB Spec Lemmas

section
variable {F V : Type} (cls : ℕ → PClass) (fresh : ℕ) (inv : InvPerts F V) (m : Mem) (fs : List (UF F V))
  (w : Option ℕ)

/-- C52: `set_perturbation_funcs` succeeds exactly if all functions can be interpreted, there are as many weights, and each
space with a birth or a death has exactly one of each (and no function is `None`, if there are chains already). -/
theorem C52_accepts :
    (setPerturbationFuncs cls fresh inv m fs w).1 = none ↔
      (∀ f ∈ fs, Describes f) ∧ (givenWeights m fs w).length = fs.length ∧ Paired (fs.map (classOf cls)) ∧
        (UF.none ∈ fs → inv.chains = none ∨ inv.chains = some []) := by
  by_cases hd : ∀ f ∈ fs, Describes f
  · obtain ⟨ps, h1, h2, h3, h4⟩ := (preprocessAll_cases cls fs).1 hd
    rw [set_eq cls fresh inv m fs w h1 h2.length_eq.symm]
    simp only [h3]
    split
    · next hl =>
      simp only [reduceCtorEq, false_iff]
      exact fun h => hl h.2.1.symm
    · next hl =>
      have hl := (not_not.1 hl).symm
      cases he : (equalizePairs (fs.map (classOf cls)) (birthDeathPairs (fs.map (classOf cls)) 0 [])
          (givenWeights m fs w)).1 with
      | some e =>
        simp only [reduceCtorEq, false_iff]
        rintro ⟨_, _, hp, _⟩
        rw [equalize_none.2 (onePairs_iff.2 hp)] at he
        cases he
      | none =>
        have hp := onePairs_iff.1 (equalize_none.1 he)
        simp only
        cases hc : inv.chains with
        | none => simpa [hl, hp] using hd
        | some chains =>
          simp only [hl, hp, reduceCtorEq, Option.some.injEq, false_or, true_and]
          by_cases hn : UF.none ∈ fs
          · cases chains with
            | nil => simpa [setChains] using hd
            | cons c cs =>
              rw [setChains_error (h4.2 hn)]
              simp [hn]
          · rw [setChains_ok (by rw [← Bool.not_eq_true, h4]; exact hn)]
            simpa [hn] using hd
  · push Not at hd
    have he : (setPerturbationFuncs cls fresh inv m fs w).1 ≠ none := by
      unfold setPerturbationFuncs
      rcases (preprocessAll_cases cls fs).2 hd with h | h <;> rw [h] <;> simp
    obtain ⟨f, hf, hn⟩ := hd
    exact ⟨fun h => absurd h he, fun h => absurd (h.1 f hf) hn⟩

/-- C52: after success the perturbations given are in force, in the inversion and in all chains; the list of weights that was
given is, and in it the weight of each death has become that of the birth of the same space, the other weights have not changed;
no other list has changed. -/
theorem C52_in_force (h : (setPerturbationFuncs cls fresh inv m fs w).1 = none) :
    ∃ ps, List.Forall₂ (fun f p => preprocess f = .ok p) fs ps ∧
      (setPerturbationFuncs cls fresh inv m fs w).2.1 =
        { funcs := ps, weights := w.getD fresh,
          chains := inv.chains.map (·.map fun _ => { funcs := ps, types := ps, weights := w.getD fresh }) } ∧
      ∃ ws, (setPerturbationFuncs cls fresh inv m fs w).2.2 (w.getD fresh) = ws ∧
        ws.length = fs.length ∧
        (∀ (k : ℕ) (f : UF F V), fs[k]? = some f → (∀ n, classOf cls f ≠ .death n) → ws[k]? = (givenWeights m fs w)[k]?) ∧
        (∀ (n : String) (i j : ℕ) (f g : UF F V), fs[i]? = some f → classOf cls f = .birth n → fs[j]? = some g → classOf cls g = .death n →
          ws[j]? = (givenWeights m fs w)[i]?) ∧
        ∀ b, b ≠ w.getD fresh → (setPerturbationFuncs cls fresh inv m fs w).2.2 b = m b := by
  obtain ⟨hd, hl, hp, hn⟩ := (C52_accepts cls fresh inv m fs w).1 h
  obtain ⟨ps, h1, h2, h3, h4⟩ := (preprocessAll_cases cls fs).1 hd
  have hother : ∀ b, b ≠ w.getD fresh → baseMem fresh m fs w b = m b := fun b hb => baseMem_other hb
  have he := (equalize_none (ws := givenWeights m fs w)).2 (onePairs_iff.2 hp)
  refine ⟨ps, h2, ?_⟩
  rw [set_eq cls fresh inv m fs w h1 h2.length_eq.symm]
  simp only [h3, hl, ne_eq, not_true_eq_false, if_false, he]
  have hws : ∀ ws, (equalizePairs (fs.map (classOf cls)) (birthDeathPairs (fs.map (classOf cls)) 0 [])
      (givenWeights m fs w)).2 = ws → ws.length = fs.length ∧
        (∀ (k : ℕ) (f : UF F V), fs[k]? = some f → (∀ n, classOf cls f ≠ .death n) → ws[k]? = (givenWeights m fs w)[k]?) ∧
        (∀ (n : String) (i j : ℕ) (f g : UF F V), fs[i]? = some f → classOf cls f = .birth n → fs[j]? = some g → classOf cls g = .death n →
          ws[j]? = (givenWeights m fs w)[i]?) := by
    rintro ws rfl
    refine ⟨by rw [equalize_length, hl], fun k f hk hf => ?_, fun n i j f g hi hf hj hgj => ?_⟩
    · refine equalize_other fun e _ _ => ?_
      unfold isDeath
      rw [List.getElem?_map, hk]
      simp only [Option.map_some]
      split
      · next n hc => injection hc with hc; exact absurd hc (hf n)
      · rfl
    · have hci : (fs.map (classOf cls))[i]? = some (.birth n) := by rw [List.getElem?_map, hi, ← hf]; rfl
      have hcj : (fs.map (classOf cls))[j]? = some (.death n) := by rw [List.getElem?_map, hj, ← hgj]; rfl
      have hmem : (n, idxOf (ofSpace n) (fs.map (classOf cls)) 0) ∈
          birthDeathPairs (fs.map (classOf cls)) 0 [] := by
        refine mem_pairs.2 ⟨rfl, List.ne_nil_of_mem (a := i) (mem_idxOf.2 ⟨Nat.zero_le _, _, hci, ?_⟩)⟩
        simp [ofSpace]
      obtain ⟨⟨b, hb⟩, ⟨d, hd'⟩⟩ := onePairs_iff.2 hp _ hmem
      have hbi : i = b := by
        have : i ∈ [b] := by
          rw [← hb]
          rw [filter_births]
          exact mem_idxOf.2 ⟨Nat.zero_le _, _, hci, by simp⟩
        simpa using this
      have hdj : j = d := by
        have : j ∈ [d] := by
          rw [← hd']
          rw [filter_deaths]
          exact mem_idxOf.2 ⟨Nat.zero_le _, _, hcj, by simp⟩
        simpa using this
      subst hbi hdj
      refine equalize_pair hb hd' hmem ?_ (nodup_pairs (by simp [dkeys])) (by rw [List.length_map, hl]) he
      rintro ⟨n', is'⟩ hm' k hk hdk
      obtain ⟨rfl, _⟩ := mem_pairs.1 hm'
      obtain ⟨_, c, hc, ho⟩ := mem_idxOf.1 hk
      rw [Nat.sub_zero] at hc
      unfold isDeath at hdk
      rw [hc] at hdk
      rw [hc]
      cases c with
      | death n'' => simpa [ofSpace] using ho
      | birth _ => cases hdk
      | other => cases hdk
  cases hc : inv.chains with
  | none =>
    refine ⟨rfl, _, rfl, ?_, ?_, ?_, fun b hb => ?_⟩
    · simpa [Mem.write] using (hws _ rfl).1
    · simpa [Mem.write] using (hws _ rfl).2.1
    · simpa [Mem.write] using (hws _ rfl).2.2
    · simp only [Mem.write, if_neg hb]
      exact hother b hb
  | some chains =>
    refine ⟨?_, _, rfl, ?_, ?_, ?_, fun b hb => ?_⟩
    · have : setChains ps (w.getD fresh) chains =
          (none, chains.map fun _ => { funcs := ps, types := ps, weights := w.getD fresh }) := by
        by_cases hnf : UF.none ∈ fs
        · rcases hn hnf with h' | h'
          · rw [h'] at hc; cases hc
          · rw [h'] at hc
            injection hc with hc
            subst hc
            rfl
        · exact setChains_ok (by rw [← Bool.not_eq_true, h4]; exact hnf) _
      simp only [this]
      rfl
    · simpa [Mem.write] using (hws _ rfl).1
    · simpa [Mem.write] using (hws _ rfl).2.1
    · simpa [Mem.write] using (hws _ rfl).2.2
    · simp only [Mem.write, if_neg hb]
      exact hother b hb

/-- C52: what is raised, and that the previous perturbations stay in force then.

What is missing: the list of weights that was given may have been modified before the exception, which matters
if it is the one in force (`C52_alias`); and with a function `None` the exception comes too late (`C52_none`). -/
theorem C52_rejects_partial (e : PyErr) (h : (setPerturbationFuncs cls fresh inv m fs w).1 = some e)
    (hnone : UF.none ∉ fs) :
    (setPerturbationFuncs cls fresh inv m fs w).2.1 = inv ∧
      (∀ b, b ≠ w.getD fresh → (setPerturbationFuncs cls fresh inv m fs w).2.2 b = m b) ∧
      ((∃ f ∈ fs, ¬ Describes f) ∧ (e = .typeError ∨ e = .indexError) ∨
        (∀ f ∈ fs, Describes f) ∧ (givenWeights m fs w).length ≠ fs.length ∧ e = .assertionError ∨
        (∀ f ∈ fs, Describes f) ∧ (givenWeights m fs w).length = fs.length ∧ ¬ Paired (fs.map (classOf cls)) ∧
          e = .valueError) := by
  by_cases hd : ∀ f ∈ fs, Describes f
  · obtain ⟨ps, h1, h2, h3, h4⟩ := (preprocessAll_cases cls fs).1 hd
    have hother : ∀ b, b ≠ w.getD fresh → baseMem fresh m fs w b = m b := fun b hb => baseMem_other hb
    rw [set_eq cls fresh inv m fs w h1 h2.length_eq.symm] at h ⊢
    simp only [h3] at h ⊢
    by_cases hl : fs.length ≠ (givenWeights m fs w).length
    · rw [if_pos hl] at h ⊢
      injection h with h
      exact ⟨rfl, hother, .inr (.inl ⟨hd, hl.symm, h.symm⟩)⟩
    · rw [if_neg hl] at h ⊢
      have hl := (not_not.1 hl).symm
      cases he : (equalizePairs (fs.map (classOf cls)) (birthDeathPairs (fs.map (classOf cls)) 0 [])
          (givenWeights m fs w)).1 with
      | some e' =>
        simp only [he] at h ⊢
        injection h with h
        subst h
        refine ⟨trivial, fun b hb => ?_, .inr (.inr ⟨hd, hl, fun hp => ?_, equalize_error he⟩)⟩
        · simp only [Mem.write, if_neg hb]
          exact hother b hb
        · rw [equalize_none.2 (onePairs_iff.2 hp)] at he
          cases he
      | none =>
        exfalso
        simp only [he] at h
        cases hc : inv.chains with
        | none => simp [hc] at h
        | some chains =>
          rw [hc] at h
          simp only at h
          rw [setChains_ok (by rw [← Bool.not_eq_true, h4]; exact hnone)] at h
          cases h
  · push Not at hd
    unfold setPerturbationFuncs at h ⊢
    rcases (preprocessAll_cases cls fs).2 hd with h' | h' <;> rw [h'] at h ⊢ <;> injection h with h
    · exact ⟨rfl, fun b _ => rfl, .inl ⟨hd, .inl h.symm⟩⟩
    · exact ⟨rfl, fun b _ => rfl, .inl ⟨hd, .inr h.symm⟩⟩

end

/-- Instances: 0 and 1 are the birth and death of the space `a`, 2 is the birth of `b`. -/
def exCls : ℕ → PClass
  | 0 => .birth "a"
  | 1 => .death "a"
  | 2 => .birth "b"
  | _ => .other

/-- An inversion with one chain whose weights are the list at address 0. -/
def exInv : InvPerts Unit Unit :=
  { funcs := [.instance_ 3, .instance_ 4, .instance_ 5], weights := 0,
    chains := some [{ funcs := [.instance_ 3, .instance_ 4, .instance_ 5],
                      types := [.instance_ 3, .instance_ 4, .instance_ 5], weights := 0 }] }

/-- The lists of weights: 1, 2, 3 at every address. -/
def exMem : Mem := fun _ => [1, 2, 3]

/-- C52 as stated does not hold: if the list of weights in force is given again (with functions among which the birth of
`b` has no death), the exception leaves it modified: the weights in force have changed from 1, 2, 3 to 1, 1, 3. -/
theorem C52_alias :
    let r := setPerturbationFuncs (F := Unit) (V := Unit) exCls 9 exInv exMem [.instance_ 0, .instance_ 1, .instance_ 2]
      (some exInv.weights)
    r.1 = some .valueError ∧ r.2.1 = exInv ∧ exMem exInv.weights = [1, 2, 3] ∧ r.2.2 r.2.1.weights = [1, 1, 3] := by
  have hp : birthDeathPairs [.birth "a", .death "a", .birth "b"] 0 [] = [("a", [0, 1]), ("b", [2])] := by decide +kernel
  have h12 : (1 : ℝ) ≠ 2 := by norm_num
  refine ⟨?_, ?_, rfl, ?_⟩ <;>
  simp [setPerturbationFuncs, preprocessAll, preprocess, Pre.cls, exCls, exMem, exInv, hp, equalizePairs, isBirth, isDeath,
    Mem.write, bind, Except.bind, pure, Except.pure]

/-- C52 as stated does not hold: with a function `None` there is an exception, but only after the perturbations have
been replaced, in the first chain even without their weights. -/
theorem C52_none :
    let r := setPerturbationFuncs (F := Unit) (V := Unit) exCls 9 exInv exMem [.none] none
    r.1 = some .attributeError ∧ r.2.1.funcs = [.none] ∧
      r.2.1.chains = some [{ funcs := [.none], types := [.instance_ 3, .instance_ 4, .instance_ 5], weights := 0 }] := by
  have hp : birthDeathPairs [.other] 0 [] = [] := by decide +kernel
  refine ⟨?_, ?_, ?_⟩ <;>
  simp [setPerturbationFuncs, preprocessAll, preprocess, Pre.cls, exInv, hp, equalizePairs, setChains, ChainPerts.set,
    Pre.isNone, Mem.write, bind, Except.bind, pure, Except.pure]

/-- A birth and a death of `a` with different weights, and another function. -/
example : Paired ([UF.instance_ 0, .instance_ 3, .instance_ 1].map (classOf (F := Unit) (V := Unit) exCls)) := by
  intro n hn
  have : n = "a" := by
    rcases hn with h | h <;> simpa [classOf, exCls] using h
  subst this
  decide

/-- These are accepted, and the weight of the death becomes 1. -/
example : (setPerturbationFuncs (F := Unit) (V := Unit) exCls 9 exInv exMem
    [.instance_ 0, .instance_ 3, .instance_ 1] (some 5)).1 = none := by
  refine (C52_accepts ..).2 ⟨by simp [Describes], rfl, ?_, by simp⟩
  intro n hn
  have : n = "a" := by
    rcases hn with h | h <;> simpa [classOf, exCls] using h
  subst this
  decide

/-! ### C53 -/

/-- C53 as stated does not hold: a list of chains is rejected (also the empty one), whatever the inversion. -/
theorem C53_rejects_chains (inv : InvChains) (ids : List ℕ) :
    inv.assign (.list (ids.map some)) = .error .typeError := by
  exact if_pos (by simp)

/-- C53 as stated does not hold: a list with something that is not a chain is accepted. -/
theorem C53_accepts_others (inv : InvChains) (l : List (Option ℕ)) (h : none ∈ l) :
    inv.assign (.list l) = .ok { chains := l, nChains := l.length } := by
  refine if_neg ?_
  simp only [List.all_eq_true, not_forall]
  exact ⟨none, h, by simp⟩

/-- C53: what is not a list is rejected with a `TypeError`; if anything is accepted then it is a list, and the number
of chains is its length.

What is missing: lists of chains are rejected and other lists are accepted (`C53_rejects_chains`,
`C53_accepts_others`). -/
theorem C53_assign_partial (inv : InvChains) (x : Assigned) :
    ((∀ l, x ≠ .list l) → inv.assign x = .error .typeError) ∧
      ∀ inv', inv.assign x = .ok inv' → ∃ l, x = .list l ∧ inv'.chains = l ∧ inv'.nChains = l.length := by
  constructor
  · intro h
    cases x with
    | other => rfl
    | list l => exact absurd rfl (h l)
  · intro inv' h
    cases x with
    | other => cases h
    | list l =>
      change (if (l.all fun c => c.isSome) = true then Except.error PyErr.typeError
        else Except.ok { chains := l, nChains := l.length }) = Except.ok inv' at h
      split at h
      · cases h
      · injection h with h
        subst h
        exact ⟨l, rfl, rfl, rfl⟩

/-- Assigning a list with one chain to an inversion with one chain. -/
example : ({ chains := [some 0], nChains := 1 } : InvChains).assign (.list [some 1]) = .error .typeError :=
  C53_rejects_chains _ [1]

example : ({ chains := [some 0], nChains := 1 } : InvChains).assign (.list [some 1, none]) =
    .ok { chains := [some 1, none], nChains := 2 } := C53_accepts_others _ _ (by simp)

end BB.Props
