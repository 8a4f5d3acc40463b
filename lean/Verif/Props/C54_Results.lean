import Verif.Lemmas.Results
import Mathlib.Data.List.Forall2
import Mathlib.Data.Nat.Notation

/-!
# C54 — the results of the chains
-/

namespace BB.Props

open BB Lemmas

section
variable {V : Type} [DecidableEq V] (ofKey : String → V) (hashable : V → Bool) (asPair : V → Except PyErr (V × V))

/-- Whether a key is requested: all are by `None`. -/
def Requested : Keys → String → Prop
  | .all, _ => True
  | .str k, k' => k' = k
  | .list ks, k' => k' ∈ ks

theorem has_iff (keys : Keys) (k : String) : keys.has k = true ↔ Requested keys k := by
  cases keys <;> simp [Keys.has, Requested]

/-- C54: concatenated, the results have the requested keys that have been saved by some chain, each with the
concatenation in the order of the chains of what these have saved under the key. -/
theorem C54_concatenated (d : List (String × List V)) (ds : List (List (String × List V))) (keys : Keys)
    (hnd : ∀ d' ∈ d :: ds, (dkeys d').Nodup) :
    ∃ res, getResults ofKey hashable asPair (.list ((d :: ds).map fun x => some (.dict x))) keys true = .ok (.named res) ∧
      ∀ k,
        (Requested keys k ∧ (∃ d' ∈ d :: ds, k ∈ dkeys d') →
          dget res k = some (((d :: ds).flatMap fun x => (dget x k).getD []).map .one)) ∧
        (¬ (Requested keys k ∧ ∃ d' ∈ d :: ds, k ∈ dkeys d') → dget res k = none) := by
  obtain ⟨res, h1, _⟩ := addChains_dicts keys true "" (d :: ds) [] hnd
  refine ⟨res, ?_, fun k => ?_⟩
  · unfold getResults
    have : (((d :: ds).map fun x => some (SavedStates.dict x)).mapM id) = some ((d :: ds).map .dict) := by
      rw [← mapM_id_map ((d :: ds).map SavedStates.dict), List.map_map]
      rfl
    simp only [this]
    simp only [List.map_cons] at h1 ⊢
    rw [h1]
  · obtain ⟨res', h1', h2⟩ := addChains_dicts keys true k (d :: ds) [] hnd
    have : res' = res := by
      rw [h1] at h1'
      injection h1' with h
      exact h.symm
    subst this
    rw [← has_iff, h2]
    constructor
    · intro h
      rw [if_pos h]
      congr 1
      simp only [dget, Option.getD_none, List.nil_append]
      generalize d :: ds = es
      clear h h1 h1' h2 hnd
      induction es with
      | nil => rfl
      | cons e es ih =>
        rw [List.filterMap_cons]
        cases he : dget e k with
        | none => simpa [he] using ih
        | some saved => simp only [List.flatMap_cons, ih, he, Option.getD_some, List.map_append, contribution, if_true]
    · intro h
      rw [if_neg h]
      rfl

/-- C54: not concatenated, there is one entry, the list of what the chain has saved, for each chain that has saved
something under the key, in the order of the chains. -/
theorem C54_separate_partial (d : List (String × List V)) (ds : List (List (String × List V))) (keys : Keys)
    (hnd : ∀ d' ∈ d :: ds, (dkeys d').Nodup) :
    ∃ res, getResults ofKey hashable asPair (.list ((d :: ds).map fun x => some (.dict x))) keys false = .ok (.named res) ∧
      ∀ k,
        (Requested keys k ∧ (∃ d' ∈ d :: ds, k ∈ dkeys d') →
          dget res k = some (((d :: ds).filterMap (dget · k)).map .list)) ∧
        (¬ (Requested keys k ∧ ∃ d' ∈ d :: ds, k ∈ dkeys d') → dget res k = none) ∧
        -- in particular one entry per chain if all chains have saved something under the key
        (Requested keys k → (∀ d' ∈ d :: ds, k ∈ dkeys d') → ∃ l, dget res k = some l ∧ l.length = (d :: ds).length) := by
  obtain ⟨res, h1, _⟩ := addChains_dicts keys false "" (d :: ds) [] hnd
  refine ⟨res, ?_, fun k => ?_⟩
  · unfold getResults
    have : (((d :: ds).map fun x => some (SavedStates.dict x)).mapM id) = some ((d :: ds).map .dict) := by
      rw [← mapM_id_map ((d :: ds).map SavedStates.dict), List.map_map]
      rfl
    simp only [this]
    simp only [List.map_cons] at h1 ⊢
    rw [h1]
  · obtain ⟨res', h1', h2⟩ := addChains_dicts keys false k (d :: ds) [] hnd
    have : res' = res := by
      rw [h1] at h1'
      injection h1' with h
      exact h.symm
    subst this
    have hc : ∀ l : List (List V), l.flatMap (contribution false) = l.map .list := by
      intro l
      induction l with
      | nil => rfl
      | cons a l ih => simp [List.flatMap_cons, ih, contribution]
    have hyes : Requested keys k ∧ (∃ d' ∈ d :: ds, k ∈ dkeys d') →
          dget res' k = some (((d :: ds).filterMap (dget · k)).map .list) := by
      intro h
      rw [← has_iff] at h
      rw [h2, if_pos h, hc]
      rfl
    refine ⟨hyes, fun h => ?_, fun hr h => ?_⟩
    · rw [← has_iff] at h
      rw [h2, if_neg h]
      rfl
    · refine ⟨_, hyes ⟨hr, d, List.mem_cons_self, h d List.mem_cons_self⟩, ?_⟩
      rw [List.length_map]
      clear h1 h1' h2 hyes hnd
      generalize d :: ds = es at h
      induction es with
      | nil => rfl
      | cons e es ih =>
        have he := h e List.mem_cons_self
        cases hg : dget e k with
        | none => exact absurd he (dget_none_iff.1 hg)
        | some v =>
          rw [List.filterMap_cons, hg]
          simp only [List.length_cons]
          rw [ih fun d' hd' => h d' (List.mem_cons_of_mem _ hd')]

/-- C54: what is not a chain, or a list not only of chains, is rejected; a single chain is as a list of one; the empty list
raises an `IndexError`. -/
theorem C54_argument (keys : Keys) (concat : Bool) :
    getResults ofKey hashable asPair (.single none) keys concat = .error .typeError ∧
      (∀ l, none ∈ l → getResults ofKey hashable asPair (.list l) keys concat = .error .typeError) ∧
      (∀ c, getResults ofKey hashable asPair (.single c) keys concat =
        getResults ofKey hashable asPair (.list [c]) keys concat) ∧
      getResults ofKey hashable asPair (.list []) keys concat = .error .indexError := by
  refine ⟨rfl, fun l h => ?_, fun c => rfl, rfl⟩
  unfold getResults
  simp only
  rw [mapM_id_none h]

/-- C54 as stated does not hold for states that are neither `State` nor `dict`: if they are not iterable (numbers, for
instance), then the call raises a `TypeError` as soon as a sample has been saved. -/
theorem C54_other_states (l : List V) (ls : List (List V)) (keys : Keys)
    (hit : ∀ v, asPair v = .error .typeError) (hne : ∃ x ∈ l :: ls, x ≠ []) :
    getResults ofKey hashable asPair (.list ((l :: ls).map fun x => some (.list x))) keys true = .error .typeError := by
  unfold getResults
  have : (((l :: ls).map fun x => some (SavedStates.list x)).mapM id) = some ((l :: ls).map .list) := by
    rw [← mapM_id_map ((l :: ls).map SavedStates.list), List.map_map]
    rfl
  simp only [this]
  simp only [List.map_cons]
  rw [show (SavedStates.list l :: ls.map SavedStates.list) = (l :: ls).map .list from rfl,
    addLists_lists ofKey true (l :: ls) []]
  have hc : (l :: ls).flatMap (contribution true) = ((l :: ls).flatten).map Entry.one := by
    rw [List.map_flatten]
    rfl
  rw [hc, List.nil_append]
  cases hf : (l :: ls).flatten with
  | nil =>
    obtain ⟨x, hx, hx'⟩ := hne
    exact absurd (List.flatten_eq_nil_iff.1 hf x hx) hx'
  | cons v vs =>
    rw [List.map_cons, dictOfList, Entry.asPair, hit v]

/-- C54 as stated does not hold for such states: whatever they are, the list of the saved states is never
returned: if anything is, it is a dictionary made of the saved states taken as pairs. -/
theorem C54_never_list (l : List V) (ls : List (List V)) (keys : Keys) (concat : Bool) (r : Results V)
    (h : getResults ofKey hashable asPair (.list ((l :: ls).map fun x => some (.list x))) keys concat = .ok r) :
    ∃ d, r = .pairs d := by
  unfold getResults at h
  have : (((l :: ls).map fun x => some (SavedStates.list x)).mapM id) = some ((l :: ls).map .list) := by
    rw [← mapM_id_map ((l :: ls).map SavedStates.list), List.map_map]
    rfl
  simp only [this] at h
  simp only [List.map_cons] at h
  split at h
  · injection h with h
    exact ⟨_, h.symm⟩
  · cases h

/-- A dictionary made of pairs: no key occurs twice, and each has the value of the last pair with this key. -/
def MadeOf (ps d : List (V × V)) : Prop :=
  (d.map Prod.fst).Nodup ∧ ∀ k v, (k, v) ∈ d ↔ ∃ before after, ps = before ++ (k, v) :: after ∧ ∀ p ∈ after, p.1 ≠ k

theorem vset_keys (d : List (V × V)) (k v x : V) : x ∈ (vset d k v).map Prod.fst ↔ x = k ∨ x ∈ d.map Prod.fst := by
  induction d with
  | nil => simp [vset]
  | cons p d ih =>
    obtain ⟨k', v'⟩ := p
    rw [vset]
    split
    · next h =>
      subst h
      simp
    · rw [List.map_cons, List.mem_cons, ih, List.map_cons, List.mem_cons]
      tauto

theorem vset_mem (d : List (V × V)) (k v k1 v1 : V) (hd : (d.map Prod.fst).Nodup) :
    ((vset d k v).map Prod.fst).Nodup ∧ ((k1, v1) ∈ vset d k v ↔ (k1 = k ∧ v1 = v) ∨ (k1 ≠ k ∧ (k1, v1) ∈ d)) := by
  induction d with
  | nil => simp [vset]
  | cons p d ih =>
    obtain ⟨k', v'⟩ := p
    rw [List.map_cons, List.nodup_cons] at hd
    obtain ⟨ih1, ih2⟩ := ih hd.2
    rw [vset]
    split
    · next h =>
      subst h
      refine ⟨by rw [List.map_cons, List.nodup_cons]; exact hd, ?_⟩
      simp only [List.mem_cons, Prod.mk.injEq]
      constructor
      · rintro (h | h)
        · exact Or.inl h
        · refine Or.inr ⟨fun he => hd.1 ?_, Or.inr h⟩
          rw [← he]
          exact List.mem_map.2 ⟨_, h, rfl⟩
      · rintro (h | ⟨h, ⟨h', -⟩ | h'⟩)
        · exact Or.inl h
        · exact absurd h' h
        · exact Or.inr h'
    · next h =>
      refine ⟨?_, ?_⟩
      · rw [List.map_cons, List.nodup_cons, vset_keys]
        refine ⟨?_, ih1⟩
        rintro (h' | h')
        · exact h h'
        · exact hd.1 h'
      · simp only [List.mem_cons, Prod.mk.injEq]
        rw [ih2]
        constructor
        · rintro (⟨h1, h2⟩ | h' | ⟨h1, h2⟩)
          · exact Or.inr ⟨by rw [h1]; exact h, Or.inl ⟨h1, h2⟩⟩
          · exact Or.inl h'
          · exact Or.inr ⟨h1, Or.inr h2⟩
        · rintro (h' | ⟨h1, h2 | h2⟩)
          · exact Or.inr (Or.inl h')
          · exact Or.inl h2
          · exact Or.inr (Or.inr ⟨h1, h2⟩)

theorem madeOf_snoc {ps d : List (V × V)} (h : MadeOf ps d) (k v : V) : MadeOf (ps ++ [(k, v)]) (vset d k v) := by
  refine ⟨(vset_mem d k v k v h.1).1, fun k1 v1 => ?_⟩
  rw [(vset_mem d k v k1 v1 h.1).2, h.2]
  constructor
  · rintro (⟨rfl, rfl⟩ | ⟨hk, b, a, rfl, ha⟩)
    · exact ⟨ps, [], rfl, by simp⟩
    · refine ⟨b, a ++ [(k, v)], by simp, ?_⟩
      intro p hp
      rcases List.mem_append.1 hp with hp | hp
      · exact ha p hp
      · rw [List.mem_singleton.1 hp]
        exact Ne.symm hk
  · rintro ⟨b, a, he, ha⟩
    rcases List.eq_nil_or_concat a with rfl | ⟨a', x, rfl⟩
    · have := List.append_inj_right' he rfl
      simp only [List.cons.injEq, Prod.mk.injEq, and_true] at this
      exact Or.inl ⟨this.1.symm, this.2.symm⟩
    · rw [List.concat_eq_append] at he ha
      rw [← List.cons_append, ← List.append_assoc] at he
      have h1 := List.append_inj_left' he rfl
      have h2 := List.append_inj_right' he rfl
      simp only [List.cons.injEq, and_true] at h2
      refine Or.inr ⟨?_, b, a', h1, fun p hp => ha p (List.mem_append_left _ hp)⟩
      have := ha x (by simp)
      rw [← h2] at this
      exact Ne.symm this

theorem dictOfList_madeOf {es : List (Entry V)} {qs : List (V × V)}
    (h : List.Forall₂ (fun (e : Entry V) q => e.asPair ofKey hashable asPair = .ok q) es qs) {ps d : List (V × V)} (hd : MadeOf ps d) :
    ∃ d', dictOfList ofKey hashable asPair es d = .ok d' ∧ MadeOf (ps ++ qs) d' := by
  induction h generalizing ps d with
  | nil => exact ⟨d, rfl, by rw [List.append_nil]; exact hd⟩
  | @cons e q es qs h1 _ ih =>
    obtain ⟨k, v⟩ := q
    obtain ⟨d', g1, g2⟩ := ih (madeOf_snoc hd k v)
    refine ⟨d', by rw [dictOfList, h1]; exact g1, ?_⟩
    rw [List.append_assoc] at g2
    exact g2

/-- C54, states that are pairs: all saved states together make a dictionary, in which later ones replace earlier ones. -/
theorem C54_pairs (l : List V) (ls : List (List V)) (keys : Keys) (qs : List (V × V))
    (h : List.Forall₂ (fun v q => asPair v = .ok q) (l :: ls).flatten qs) :
    ∃ d, getResults ofKey hashable asPair (.list ((l :: ls).map fun x => some (.list x))) keys true = .ok (.pairs d) ∧ MadeOf qs d := by
  have hm : (((l :: ls).map fun x => some (SavedStates.list x)).mapM id) = some ((l :: ls).map .list) := by
    rw [← mapM_id_map ((l :: ls).map SavedStates.list), List.map_map]
    rfl
  have hc : (l :: ls).flatMap (contribution true) = ((l :: ls).flatten).map Entry.one := by
    rw [List.map_flatten]
    rfl
  obtain ⟨d, h1, h2⟩ := dictOfList_madeOf ofKey hashable asPair (es := ((l :: ls).flatten).map Entry.one)
    (List.forall₂_map_left_iff.2 h) (ps := []) (d := []) ⟨by simp, by simp⟩
  refine ⟨d, ?_, h2⟩
  unfold getResults
  simp only [hm]
  simp only [List.map_cons]
  rw [show (SavedStates.list l :: ls.map SavedStates.list) = (l :: ls).map .list from rfl,
    addLists_lists ofKey true (l :: ls) [], hc, List.nil_append, h1]

/-- What is in a chain that has saved two states, or values under two keys. -/
inductive SavedTwo : SavedStates V → V × V → Prop
  | list (a b : V) (h : hashable a = true) : SavedTwo (.list [a, b]) (a, b)
  | dict (a b : String) (x y : List V) : SavedTwo (.dict [(a, x), (b, y)]) (ofKey a, ofKey b)

omit [DecidableEq V] in
theorem addLists_two {cs : List (SavedStates V)} {qs : List (V × V)} (h : List.Forall₂ (SavedTwo ofKey hashable) cs qs)
    (res : List (Entry V)) : ∃ es, addLists ofKey false cs res = res ++ es ∧
      List.Forall₂ (fun (e : Entry V) q => e.asPair ofKey hashable asPair = .ok q) es qs := by
  induction h generalizing res with
  | nil => exact ⟨[], by simp [addLists], .nil⟩
  | cons h1 _ ih =>
    cases h1 with
    | list a b hh =>
      obtain ⟨es, g1, g2⟩ := ih (res ++ [.list [a, b]])
      refine ⟨.list [a, b] :: es, ?_, .cons (by simp [Entry.asPair, hh]) g2⟩
      rw [addLists]
      simpa using g1
    | dict a b x y =>
      obtain ⟨es, g1, g2⟩ := ih (res ++ [.dict [(a, x), (b, y)]])
      refine ⟨.dict [(a, x), (b, y)] :: es, ?_, .cons (by simp [Entry.asPair]) g2⟩
      rw [addLists]
      simpa using g1

/-- C54, not concatenated: if every chain happens to have saved two states or values under two keys, and the first one has saved states, then these
become keys and values. -/
theorem C54_pairs_separate (l : List V) (cs : List (SavedStates V)) (keys : Keys) (qs : List (V × V))
    (h : List.Forall₂ (SavedTwo ofKey hashable) (.list l :: cs) qs) :
    ∃ d, getResults ofKey hashable asPair (.list ((.list l :: cs).map some)) keys false = .ok (.pairs d) ∧ MadeOf qs d := by
  obtain ⟨es, h1, h2⟩ := addLists_two ofKey hashable asPair h []
  obtain ⟨d, h3, h4⟩ := dictOfList_madeOf ofKey hashable asPair h2 (ps := []) (d := []) ⟨by simp, by simp⟩
  refine ⟨d, ?_, h4⟩
  unfold getResults
  simp only [mapM_id_map]
  rw [h1, List.nil_append, h3]

end

/-- Three states that are pairs, two of them with the same first element. -/
example : getResults (fun _ => 0) (fun _ => true) (fun v => .ok (v / 10, v % 10))
    (.list [some (.list [12, 34]), some (.list [15])]) .all true = .ok (.pairs [(1, 5), (3, 4)]) ∧
    List.Forall₂ (fun (v : ℕ) q => (Except.ok (v / 10, v % 10) : Except PyErr (ℕ × ℕ)) = .ok q) [12, 34, 15] [(1, 2), (3, 4), (1, 5)] :=
  ⟨rfl, .cons rfl (.cons rfl (.cons rfl .nil))⟩

/-- Two chains with two states each. -/
example : List.Forall₂ (SavedTwo (fun _ => 0) (fun _ => true)) [SavedStates.list [1, 2], .list [3, 4]] [(1, 2), (3, 4)] :=
  .cons (.list 1 2 rfl) (.cons (.list 3 4 rfl) .nil)

/-- Two chains, of which the second has saved nothing under `b`. -/
example : (dkeys [("a", [1, 2]), ("b", [3])]).Nodup ∧ (dkeys [("a", [4])]).Nodup := by decide

/-- Not concatenated, there is one entry only for `b` although there are two chains. -/
example : getResults (fun _ => 0) (fun _ => true) (fun _ => .error .typeError)
    (.list [some (.dict [("a", [1, 2]), ("b", [3])]), some (.dict [("a", [4])])]) .all false =
    .ok (.named [("a", [.list [1, 2], .list [4]]), ("b", [.list [3]])]) := rfl

/-- Concatenated. -/
example : getResults (fun _ => 0) (fun _ => true) (fun _ => .error .typeError)
    (.list [some (.dict [("a", [1, 2]), ("b", [3])]), some (.dict [("a", [4])])]) (.str "a") true =
    .ok (.named [("a", [.one 1, .one 2, .one 4])]) := rfl

/-- States that are numbers. -/
example : getResults (fun _ => 0) (fun _ => true) (fun _ => .error .typeError)
    (.list [some (.list [1, 2]), some (.list [4])]) .all true = .error .typeError :=
  C54_other_states _ _ _ [1, 2] [[4]] .all (fun _ => rfl) ⟨[4], by simp, by simp⟩

end BB.Props
