import Verif.Spec.Saved
import Verif.Lemmas.Dict

/-!
# Saving
-/

namespace BB.Lemmas

open BB BB.Spec

variable {α : Type}

theorem nodup_dupdate (d e : List (String × α)) (h : (dkeys d).Nodup) :
    (dkeys (dupdate d e)).Nodup := by
  unfold dupdate
  induction e generalizing d with
  | nil => exact h
  | cons kv e ih => exact ih _ (nodup_dset _ _ _ h)

theorem nodup_vars (s : State) : (dkeys s.vars).Nodup := by
  unfold State.vars
  apply nodup_dupdate
  have : ∀ (l : Params) (d : List (String × SVal)), (dkeys d).Nodup →
      (dkeys (l.foldl (fun d kv => dupdate d (kv.2.todict kv.1)) d)).Nodup := by
    intro l
    induction l with
    | nil => intro d h; exact h
    | cons kv l ih => intro d h; exact ih _ (nodup_dupdate _ _ h)
  exact this _ _ (by simp [dkeys])

theorem savedUnder_append (d : Store) (k k' : String) (v : SVal) :
    savedUnder k (d.append k' v) = savedUnder k d ++ (if k' = k then [v] else []) := by
  unfold savedUnder Store.append
  by_cases h : k' = k
  · subst h; rw [dget_dset_same]; simp
  · rw [dget_dset_ne _ _ _ _ (fun e => h e.symm)]; simp [h]

/-- What the loop over the variables adds. -/
def addVars (spaces : Option (List (String × Bool))) (k : String) (l : List (String × SVal)) :
    List SVal :=
  match dget l k, skipKey spaces k with
    | some v, .ok false => [v]
    | _, _ => []

theorem saveVars_prefix (spaces : Option (List (String × Bool))) (l : List (String × SVal))
    (d : Store) (k : String) : savedUnder k d <+: savedUnder k (saveVars spaces l d).2 := by
  induction l generalizing d with
  | nil => exact List.prefix_refl _
  | cons kv l ih =>
    obtain ⟨k', v⟩ := kv
    unfold saveVars
    split
    · exact List.prefix_refl _
    · exact ih d
    · refine List.IsPrefix.trans ?_ (ih _)
      rw [savedUnder_append]
      exact List.prefix_append _ _

theorem saveVars_ok (spaces : Option (List (String × Bool))) (l : List (String × SVal))
    (hl : (dkeys l).Nodup) (d d' : Store) (h : saveVars spaces l d = (.ok (), d')) (k : String) :
    savedUnder k d' = savedUnder k d ++ addVars spaces k l := by
  induction l generalizing d with
  | nil =>
    simp only [saveVars, Prod.mk.injEq, true_and] at h
    subst h; simp [addVars]
  | cons kv l ih =>
    obtain ⟨k', v⟩ := kv
    have hnd : k' ∉ dkeys l ∧ (dkeys l).Nodup := by
      simpa [dkeys, List.nodup_cons] using hl
    unfold saveVars at h
    by_cases hk : k' = k
    · subst hk
      have hnone : dget l k' = none := dget_none_iff.2 hnd.1
      split at h
      · simp at h
      · rename_i hs
        rw [ih hnd.2 d h]
        simp [addVars, dget, hs, hnone]
      · rename_i hs
        rw [ih hnd.2 _ h, savedUnder_append]
        simp [addVars, dget, hs, hnone]
    · have hsame : addVars spaces k ((k', v) :: l) = addVars spaces k l := by
        simp [addVars, dget, hk]
      rw [hsame]
      split at h
      · simp at h
      · exact ih hnd.2 d h
      · rw [ih hnd.2 _ h, savedUnder_append]; simp [hk]

theorem saveCache_eq (l : List (String × CVal)) (d : Store) (k : String) :
    savedUnder k (saveCache l d) = savedUnder k d ++ (if substr "dpred" k then
      (l.filter (fun kv => kv.1 = k)).map (fun kv => cacheVal kv.2) else []) := by
  induction l generalizing d with
  | nil => simp [saveCache]
  | cons kv l ih =>
    obtain ⟨k', v⟩ := kv
    unfold saveCache
    by_cases hk : k' = k
    · subst hk
      by_cases hs : substr "dpred" k' = true
      · rw [if_pos hs]
        cases v with
        | dpred x => simp only [ih, savedUnder_append]; simp [hs, cacheVal]
        | stats x => simp only [ih, savedUnder_append]; simp [hs, cacheVal]
      · rw [if_neg hs, ih]; simp [hs]
    · have : ((k', v) :: l).filter (fun kv => decide (kv.1 = k)) =
          l.filter (fun kv => decide (kv.1 = k)) := by simp [hk]
      rw [this]
      split
      · cases v with
        | dpred x => simp only [ih, savedUnder_append]; simp [hk]
        | stats x => simp only [ih, savedUnder_append]; simp [hk]
      · exact ih d

theorem saveState_ok (spaces : Option (List (String × Bool))) (sd : Bool) (s : State)
    (d d' : Store) (h : saveState spaces sd s d = (.ok (), d')) (k : String) :
    savedUnder k d' = savedUnder k d ++ contribution spaces sd k s := by
  unfold saveState at h
  split at h
  · simp at h
  · rename_i d1 h1
    have h2 := saveVars_ok spaces s.vars (nodup_vars s) d d1 h1 k
    simp only [Prod.mk.injEq, true_and] at h
    subst h
    unfold contribution
    cases sd with
    | false => simp only [Bool.false_eq_true, if_false, false_and, List.append_nil]; exact h2
    | true =>
      simp only [if_true, true_and]
      rw [saveCache_eq, h2, List.append_assoc]
      rfl

theorem saveState_prefix (spaces : Option (List (String × Bool))) (sd : Bool) (s : State)
    (d : Store) (k : String) : savedUnder k d <+: savedUnder k (saveState spaces sd s d).2 := by
  unfold saveState
  have h := saveVars_prefix spaces s.vars d k
  split
  · rename_i h1; rw [h1] at h; exact h
  · rename_i d1 h1
    rw [h1] at h
    simp only
    split
    · rw [saveCache_eq]; exact h.trans (List.prefix_append _ _)
    · exact h

/-! ### The expansion of a state -/

theorem dset_new {d : List (String × α)} {k : String} {v : α} (h : k ∉ dkeys d) :
    dset d k v = d ++ [(k, v)] := by
  induction d with
  | nil => rfl
  | cons kv d ih =>
    obtain ⟨k', v'⟩ := kv
    have h' : k' ≠ k ∧ k ∉ dkeys d := by
      simp only [dkeys, List.map_cons, List.mem_cons, not_or] at h
      exact ⟨fun e => h.1 e.symm, h.2⟩
    simp only [dset, h'.1, if_false, ih h'.2, List.cons_append]

theorem dupdate_new (d e : List (String × α)) (h : (dkeys (d ++ e)).Nodup) :
    dupdate d e = d ++ e := by
  unfold dupdate
  induction e generalizing d with
  | nil => simp
  | cons kv e ih =>
    obtain ⟨k, v⟩ := kv
    have hk : k ∉ dkeys d := by
      simp only [dkeys, List.map_append, List.map_cons] at h
      intro hk
      exact (List.nodup_append.1 h).2.2 k hk k (by simp) rfl
    rw [List.foldl_cons, dset_new hk, ih _ (by simpa using h)]
    simp

theorem dotted_inj {name a b : String} (h : name ++ "." ++ a = name ++ "." ++ b) : a = b := by
  have := congrArg String.toList h
  simp only [String.toList_append] at this
  exact String.toList_inj.1 (List.append_cancel_left this)

mutual
theorem todict_eq (name : String) : ∀ ps, DistinctPS ps → PSState.todict name ps = expandPS name ps
  | .mk n vals kd, h => by
    rw [PSState.todict, expandPS]
    rw [DistinctPS] at h
    refine todictVals_eq name vals _ ["n_dimensions"] ?_ h.1 h.2
    simp [dkeys, String.append_assoc]
theorem todictVals_eq (name : String) : ∀ (vals : List (String × PVal)) (res : List (String × SVal))
    (ps : List String), dkeys res = ps.map (fun p => name ++ "." ++ p) →
    (ps ++ vals.map (·.1)).Nodup → DistinctVals vals →
    todictVals name res vals = res ++ expandVals name vals
  | [], res, ps, _, _, _ => by simp [todictVals, expandVals]
  | (p, .arr a) :: rest, res, ps, h1, h2, h3 => by
    rw [DistinctVals] at h3
    have hp : p ∉ ps := fun h => (List.nodup_append.1 h2).2.2 p h p (by simp) rfl
    have hk : name ++ "." ++ p ∉ dkeys res := by
      rw [h1]
      intro h
      obtain ⟨q, hq, e⟩ := List.mem_map.1 h
      exact hp (dotted_inj e ▸ hq)
    rw [todictVals, PVal.tosval, dset_new hk, todictVals_eq name rest _ (ps ++ [p])
      (by simp [dkeys, ← h1]) (by simpa using h2) h3, expandVals]
    simp
  | (p, .states l) :: rest, res, ps, h1, h2, h3 => by
    rw [DistinctVals] at h3
    have hp : p ∉ ps := fun h => (List.nodup_append.1 h2).2.2 p h p (by simp) rfl
    have hk : name ++ "." ++ p ∉ dkeys res := by
      rw [h1]
      intro h
      obtain ⟨q, hq, e⟩ := List.mem_map.1 h
      exact hp (dotted_inj e ▸ hq)
    rw [todictVals, PVal.tosval, dset_new hk, todictVals_eq name rest _ (ps ++ [p])
      (by simp [dkeys, ← h1]) (by simpa using h2) h3.2, expandVals, todictList_eq _ l h3.1]
    simp
  | (p, .objs l) :: rest, res, ps, h1, h2, h3 => by
    rw [DistinctVals] at h3
    have hp : p ∉ ps := fun h => (List.nodup_append.1 h2).2.2 p h p (by simp) rfl
    have hk : name ++ "." ++ p ∉ dkeys res := by
      rw [h1]
      intro h
      obtain ⟨q, hq, e⟩ := List.mem_map.1 h
      exact hp (dotted_inj e ▸ hq)
    rw [todictVals, PVal.tosval, dset_new hk, todictVals_eq name rest _ (ps ++ [p])
      (by simp [dkeys, ← h1]) (by simpa using h2) h3, expandVals]
    simp
theorem todictList_eq (name : String) : ∀ l, DistinctList l → todictList name l = expandList name l
  | [], _ => by simp [todictList, expandList]
  | s :: rest, h => by
    rw [DistinctList] at h
    rw [todictList, expandList, todict_eq name s h.1, todictList_eq name rest h.2]
end

theorem vars_eq (s : State) (h : Distinct s) : s.vars = expand s := by
  have htop : ∀ kv ∈ s.params, kv.2.todict kv.1 = expandTop kv.1 kv.2 := by
    rintro ⟨name, v⟩ hkv
    cases v with
    | ps ps => exact todict_eq name ps (h.2 name ps hkv)
    | noise d =>
      obtain ⟨std, corr⟩ := d
      cases corr <;> rfl
  have hfold : ∀ (l : Params) (d : List (String × SVal)),
      (∀ kv ∈ l, kv.2.todict kv.1 = expandTop kv.1 kv.2) →
      (dkeys (d ++ l.flatMap (fun kv => expandTop kv.1 kv.2))).Nodup →
      l.foldl (fun d kv => dupdate d (kv.2.todict kv.1)) d =
        d ++ l.flatMap (fun kv => expandTop kv.1 kv.2) := by
    intro l
    induction l with
    | nil => intro d _ _; simp
    | cons kv l ih =>
      intro d h1 h2
      rw [List.foldl_cons, h1 kv (by simp), List.flatMap_cons]
      have h3 : (dkeys (d ++ expandTop kv.1 kv.2)).Nodup := by
        refine h2.sublist ?_
        simp only [dkeys, List.flatMap_cons]
        refine List.Sublist.map _ ?_
        rw [← List.append_assoc]
        exact List.sublist_append_left _ _
      rw [dupdate_new _ _ h3, ih _ (fun kv hkv => h1 kv (by simp [hkv]))
        (by simpa [List.flatMap_cons] using h2), List.append_assoc]
  unfold State.vars
  have hnd := h.1
  unfold expand at hnd ⊢
  rw [hfold s.params [] htop (by
    refine hnd.sublist ?_
    simp only [List.nil_append, dkeys]
    exact List.Sublist.map _ (List.sublist_append_left _ _)), List.nil_append]
  exact dupdate_new _ _ hnd

/-! ### The keys of numbers of dimensions -/

theorem substr_append (a b : String) : substr a (b ++ a) = true := by
  unfold substr
  rw [List.any_eq_true]
  refine ⟨a.toList, ?_, ?_⟩
  · rw [List.mem_tails, String.toList_append]
    exact List.suffix_append _ _
  · exact List.isPrefixOf_iff_prefix.2 (List.prefix_refl _)

theorem substr_n_dimensions (name : String) : substr "n_dimensions" (name ++ ".n_dimensions") = true := by
  have : name ++ ".n_dimensions" = (name ++ ".") ++ "n_dimensions" := by
    rw [String.append_assoc]; rfl
  rw [this]
  exact substr_append _ _

theorem dropSuffix_n_dimensions (name : String) : dropSuffix (name ++ ".n_dimensions") = name := by
  unfold dropSuffix
  have h : ".n_dimensions".toList.length = 13 := by decide +kernel
  rw [String.toList_append, List.length_append, h, Nat.add_sub_cancel, List.take_left,
    String.ofList_toList]

end BB.Lemmas
