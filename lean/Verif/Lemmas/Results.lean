import Verif.Model.Results
import Verif.Lemmas.Dict

/-!
# Lemmas about `get_results_from_chains`
-/

namespace BB.Lemmas

open BB

/-- What a list of saved values adds to the results. -/
def contribution {V : Type} (concat : Bool) (saved : List V) : List (Entry V) :=
  if concat then saved.map .one else [.list saved]

theorem dget_addItems {V : Type} (keys : Keys) (concat : Bool) (k : String) :
    ∀ (d : List (String × List V)) (res : List (String × List (Entry V))), (dkeys d).Nodup →
    dget (addItems keys concat d res) k =
      if keys.has k then
        match dget d k with
        | none => dget res k
        | some saved => some ((dget res k).getD [] ++ contribution concat saved)
      else dget res k
  | [], res, _ => by simp [addItems, dget]
  | (key, saved) :: rest, res, hnd => by
    have hnd' : key ∉ dkeys rest ∧ (dkeys rest).Nodup := by simpa [dkeys] using hnd
    rw [addItems]
    by_cases hh : keys.has key
    · rw [if_pos hh]
      simp only
      rw [dget_addItems keys concat k rest _ hnd'.2]
      by_cases hk : key = k
      · subst hk
        rw [if_pos hh, if_pos hh, dget_none_iff.2 hnd'.1]
        simp only [dget, if_true]
        rw [dget_dset_same]
        rfl
      · rw [dget_dset_ne _ _ _ _ (Ne.symm hk)]
        simp only [dget, if_neg hk]
    · rw [if_neg hh, dget_addItems keys concat k rest _ hnd'.2]
      by_cases hk : key = k
      · subst hk
        rw [if_neg hh, if_neg hh]
      · simp only [dget, if_neg hk]

theorem addChains_dicts {V : Type} (keys : Keys) (concat : Bool) (k : String) :
    ∀ (ds : List (List (String × List V))) (res : List (String × List (Entry V))), (∀ d ∈ ds, (dkeys d).Nodup) →
    ∃ res', addChains keys concat (ds.map .dict) res = .ok res' ∧
      dget res' k =
        if keys.has k ∧ ∃ d ∈ ds, k ∈ dkeys d then
          some ((dget res k).getD [] ++ (ds.filterMap (dget · k)).flatMap (contribution concat))
        else dget res k
  | [], res, _ => ⟨res, rfl, by simp⟩
  | d :: ds, res, h => by
    obtain ⟨res', h1, h2⟩ := addChains_dicts keys concat k ds (addItems keys concat d res)
      (fun d' hd => h d' (List.mem_cons_of_mem _ hd))
    refine ⟨res', h1, ?_⟩
    rw [h2, dget_addItems keys concat k d res (h d List.mem_cons_self)]
    by_cases hk : keys.has k
    · simp only [hk, true_and, if_true, List.exists_mem_cons_iff]
      cases hd : dget d k with
      | none =>
        have : k ∉ dkeys d := dget_none_iff.1 hd
        simp [this, hd]
      | some saved =>
        have hin : k ∈ dkeys d := by
          by_contra hc
          rw [dget_none_iff.2 hc] at hd
          cases hd
        simp only [hin, true_or, if_true, List.filterMap_cons, hd, List.flatMap_cons, Option.getD_some]
        split
        · rw [List.append_assoc]
        · next hno =>
          have : ds.filterMap (dget · k) = [] := by
            rw [List.filterMap_eq_nil_iff]
            intro d' hd'
            exact dget_none_iff.2 fun hc => hno ⟨d', hd', hc⟩
          rw [this]
          simp
    · simp only [hk, false_and, if_false, Bool.false_eq_true]

/-- All keys in the results are requested and saved by some chain. -/
theorem addChains_mixed {V : Type} (keys : Keys) (concat : Bool) :
    ∀ (cs : List (SavedStates V)) (res : List (String × List (Entry V))),
    (∃ l, SavedStates.list l ∈ cs) → addChains keys concat cs res = .error .attributeError
  | [], _, h => by simp at h
  | .list _ :: _, _, _ => rfl
  | .dict d :: cs, res, h => by
    rw [addChains]
    refine addChains_mixed keys concat cs _ ?_
    obtain ⟨l, hl⟩ := h
    rcases List.mem_cons.1 hl with h | h
    · cases h
    · exact ⟨l, h⟩

theorem addLists_lists {V : Type} (ofKey : String → V) (concat : Bool) :
    ∀ (ls : List (List V)) (res : List (Entry V)),
    addLists ofKey concat (ls.map .list) res = res ++ ls.flatMap (contribution concat)
  | [], res => by simp [addLists]
  | l :: ls, res => by
    rw [List.map_cons, addLists, addLists_lists ofKey concat ls]
    simp [contribution]

theorem mapM_id_map {α : Type} : ∀ (l : List α), (l.map some).mapM id = some l
  | [] => rfl
  | a :: l => by
    rw [List.map_cons, List.mapM_cons, mapM_id_map l]
    rfl

theorem mapM_id_none {α : Type} : ∀ {l : List (Option α)}, none ∈ l → l.mapM id = none
  | [], h => by cases h
  | none :: l, _ => rfl
  | some a :: l, h => by
    rw [List.mapM_cons, mapM_id_none (l := l) (by simpa using h)]
    rfl

end BB.Lemmas
