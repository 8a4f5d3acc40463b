import Verif.Model.Construct
import Verif.Spec.Setup
import Verif.Lemmas.SetPerturbations

/-!
# C55, C57, C61 — what the constructors accept
-/

namespace BB.Props

open BB Spec Lemmas

/-! ### C55 -/

theorem hasDuplicates_iff (names : List String) : hasDuplicates names = false ↔ names.Nodup := by
  unfold hasDuplicates
  rw [bne_eq_false_iff_eq]
  constructor
  · intro h
    have := (List.dedup_sublist names).eq_of_length h.symm
    exact List.dedup_eq_self.1 this
  · intro h
    rw [List.dedup_eq_self.2 h]

theorem checkParamNames_iff : ∀ (spaces : List Space),
    (checkParamNames spaces = .ok () ↔ ∀ s ∈ spaces, (s.params.toList.map (·.1)).Nodup) ∧
      (checkParamNames spaces = .ok () ∨ checkParamNames spaces = .error .valueError)
  | [] => by simp [checkParamNames]
  | s :: rest => by
    obtain ⟨h1, h2⟩ := checkParamNames_iff rest
    rw [checkParamNames, List.forall_mem_cons, ← h1, ← hasDuplicates_iff]
    cases hasDuplicates (s.params.toList.map (·.1)) <;> simp [h2]

theorem build_keys : ∀ (spaces : List Space) (d : List (String × Space)),
    (dkeys d ++ spaces.map (·.info.name)).Nodup →
    spaces.foldl (fun d s => dset d s.info.name s) d = d ++ spaces.map fun s => (s.info.name, s)
  | [], d, _ => by simp
  | s :: spaces, d, h => by
    have hnew : s.info.name ∉ dkeys d := by
      intro hc
      have := List.nodup_append.1 h
      exact this.2.2 _ hc _ (by simp) rfl
    have hd : dset d s.info.name s = d ++ [(s.info.name, s)] := by
      clear h
      induction d with
      | nil => rfl
      | cons e d ih =>
        have : e.1 ≠ s.info.name ∧ s.info.name ∉ dkeys d := by
          simpa [dkeys, eq_comm] using hnew
        obtain ⟨k, v⟩ := e
        rw [dset, if_neg this.1, ih this.2]
        rfl
    rw [List.foldl_cons, hd, build_keys spaces]
    · simp
    · simpa [dkeys] using h

/-- C55: a parameterization is built exactly if the names of the spaces are distinct, and those in the dictionaries of
parameters; otherwise a `ValueError` is raised.  It consists of the spaces by their names. -/
theorem C55_spaces (spaces : List Space) :
    ((spaces.map (·.info.name)).Nodup ∧ (∀ s ∈ spaces, (s.params.toList.map (·.1)).Nodup) →
      Parameterization.build spaces = .ok (spaces.map fun s => (s.info.name, s))) ∧
    (¬ ((spaces.map (·.info.name)).Nodup ∧ ∀ s ∈ spaces, (s.params.toList.map (·.1)).Nodup) →
      Parameterization.build spaces = .error .valueError) := by
  obtain ⟨h1, h2⟩ := checkParamNames_iff spaces
  rw [← h1, ← hasDuplicates_iff]
  unfold Parameterization.build
  constructor
  · rintro ⟨ha, hb⟩
    rw [ha, hb]
    have := build_keys spaces [] (by simpa [dkeys] using (hasDuplicates_iff _).1 ha)
    change Except.ok _ = _
    rw [this]
    rfl
  · intro h
    cases ha : hasDuplicates (spaces.map (·.info.name)) with
    | true => rfl
    | false =>
      rcases h2 with hb | hb
      · exact absurd ⟨ha, hb⟩ h
      · rw [hb]
        rfl

theorem set_toList_keys (n : String) (p : Param) : ∀ (ps : ParamList),
    (ps.set n p).toList.map (·.1) = if n ∈ ps.toList.map (·.1) then ps.toList.map (·.1) else ps.toList.map (·.1) ++ [n]
  | .nil => by simp [ParamList.set, ParamList.toList]
  | .cons n' p' rest => by
    rw [ParamList.set]
    by_cases h : n' = n
    · subst h
      simp [ParamList.toList]
    · rw [if_neg h]
      simp only [ParamList.toList, List.map_cons, set_toList_keys n p rest, List.mem_cons, Ne.symm h, false_or]
      split <;> simp

theorem set_get (n : String) (p : Param) (k : String) : ∀ (ps : ParamList),
    (ps.set n p).get? k = if n = k then some p else ps.get? k
  | .nil => by simp [ParamList.set, ParamList.get?]
  | .cons n' p' rest => by
    rw [ParamList.set]
    by_cases h : n' = n
    · subst h
      rw [if_pos rfl]
      simp only [ParamList.get?]
      by_cases hk : n' = k <;> simp [hk]
    · rw [if_neg h]
      simp only [ParamList.get?, set_get n p k rest]
      by_cases hk : n' = k
      · subst hk
        simp [Ne.symm h]
      · simp [hk]

theorem foldl_nodup : ∀ (ps : List Param) (d : ParamList), (d.toList.map (·.1)).Nodup →
    ((ps.foldl (fun d p => d.set p.name p) d).toList.map (·.1)).Nodup
  | [], _, h => h
  | p :: ps, d, h => by
    rw [List.foldl_cons]
    refine foldl_nodup ps _ ?_
    rw [set_toList_keys]
    split
    · exact h
    · next hn => rw [← List.concat_eq_append]; exact h.concat hn

/-- C55 as stated does not hold: two parameters of the same name in a space are accepted silently: whatever the
parameters are, a space built from them passes the check of the parameterization. -/
theorem C55_duplicate_parameters (info : Info) (params : List Param) :
    Parameterization.build [Space.build info params] = .ok [(info.name, Space.build info params)] := by
  refine (C55_spaces [Space.build info params]).1 ⟨by simp, ?_⟩
  intro s hs
  rw [List.mem_singleton.1 hs]
  exact foldl_nodup params .nil (by simp [ParamList.toList])

/-- C55: a space built from parameters with distinct names has exactly these; with equal names, the last
one replaces the others.

What is missing: the `ValueError` that should be raised for equal names (`C55_duplicate_parameters`). -/
theorem C55_parameters_partial (info : Info) (params : List Param) :
    ((params.map Param.name).Nodup →
      (Space.build info params).params.toList = params.map fun p => (p.name, p)) ∧
    ∀ pre p post, params = pre ++ p :: post → (∀ q ∈ post, q.name ≠ p.name) →
      (Space.build info params).params.get? p.name = some p := by
  constructor
  · intro hnd
    have key : ∀ (ps : List Param) (d : ParamList), (d.toList.map (·.1) ++ ps.map Param.name).Nodup →
        (ps.foldl (fun d p => d.set p.name p) d).toList = d.toList ++ ps.map fun p => (p.name, p) := by
      intro ps
      induction ps with
      | nil => intro d _; simp
      | cons p ps ih =>
        intro d h
        have hnew : p.name ∉ d.toList.map (·.1) := by
          intro hc
          exact (List.nodup_append.1 h).2.2 _ hc _ (by simp) rfl
        have hset : ∀ d : ParamList, p.name ∉ d.toList.map (·.1) → (d.set p.name p).toList = d.toList ++ [(p.name, p)] := by
          intro d
          induction d using ParamList.rec (motive_1 := fun _ => True) (motive_2 := fun _ => True) with
          | prior => trivial
          | space => trivial
          | mk => trivial
          | nil => intro _; rfl
          | cons n' p' rest _ ih =>
            intro hn
            have hn' : n' ≠ p.name ∧ p.name ∉ rest.toList.map (·.1) := by
              simpa [ParamList.toList, eq_comm] using hn
            rw [ParamList.set, if_neg hn'.1]
            simp only [ParamList.toList, ih hn'.2, List.cons_append]
        rw [List.foldl_cons, ih, hset d hnew]
        · simp
        · rw [hset d hnew]
          simpa using h
    exact key params .nil (by simpa [ParamList.toList] using hnd)
  · rintro pre p post rfl hq
    have key : ∀ (ps : List Param) (d : ParamList), (∀ q ∈ ps, q.name ≠ p.name) → d.get? p.name = some p →
        (ps.foldl (fun d p => d.set p.name p) d).get? p.name = some p := by
      intro ps
      induction ps with
      | nil => intro d _ h; exact h
      | cons q ps ih =>
        intro d h hd
        rw [List.foldl_cons]
        refine ih _ (fun r hr => h r (List.mem_cons_of_mem _ hr)) ?_
        rw [set_get, if_neg (h q List.mem_cons_self), hd]
    change ((pre ++ p :: post).foldl (fun d p => d.set p.name p) ParamList.nil).get? p.name = some p
    rw [List.foldl_append, List.foldl_cons]
    refine key post _ hq ?_
    rw [set_get, if_pos rfl]

/-- Two priors with the same name. -/
noncomputable def exSame (vmax : ℝ) : Param :=
  .prior { name := "vs", dist := .uniform (.const 0) (.const vmax), std := .const 1, stdBirth := .const 1, hasPosition := false }

/-- They are accepted, and the second one is used. -/
example (info : Info) : ∃ d, Parameterization.build [Space.build info [exSame 1, exSame 2]] = .ok d ∧
    (Space.build info [exSame 1, exSame 2]).params.get? "vs" = some (exSame 2) :=
  ⟨_, C55_duplicate_parameters _ _, (C55_parameters_partial _ _).2 [exSame 1] (exSame 2) [] rfl (by simp)⟩

/-! ### C57 -/

section
variable {F V R : Type} (call : F → List V → List (String × V) → Except PyErr R)

/-- The supported ways of describing a call of a function: `f`, `(f, args)`, `(f, args, kwargs)` and
`(f, args, kwargs, name)`, with the arguments. -/
inductive Supported (f : F) : UF F V → List V → List (String × V) → Prop
  | alone : Supported f (.callable f) [] []
  | args (as : List V) : Supported f (.seq [.callable f, .seq as]) as []
  | kwargs (as : List V) (kw : List (String × V)) : Supported f (.seq [.callable f, .seq as, .dict kw]) as kw
  | name (as : List V) (kw : List (String × V)) (x : Item F V) :
      Supported f (.seq [.callable f, .seq as, .dict kw, x]) as kw

/-- C57: a function given in a supported way is called with the state, then its arguments; a failure becomes a
`UserFunctionException`, whatever it is.

What is missing: other descriptions are not rejected (`C57_not_rejected`). -/
theorem C57_called_partial (f : F) (u : UF F V) (as : List V) (kw : List (String × V)) (h : Supported f u as kw) :
    ∃ g as' kw', preprocess u = .ok (.wrapper g as' kw') ∧ ∀ state,
      (∀ r, call f (state :: as) kw = .ok r → Pre.call call g as' kw' [state] = .ok r) ∧
      ∀ e, call f (state :: as) kw = .error e → Pre.call call g as' kw' [state] = .error .userFunction := by
  have key : ∀ state, (∀ r, call f (state :: as) kw = .ok r → Pre.call call (.callable f) as kw [state] = .ok r) ∧
      ∀ e, call f (state :: as) kw = .error e →
        Pre.call call (Item.callable f : Item F V) as kw [state] = .error .userFunction := by
    intro state
    refine ⟨fun r hr => ?_, fun e he => ?_⟩ <;> unfold Pre.call <;> simp only [List.cons_append, List.nil_append]
    · rw [hr]
    · rw [he]
  cases h <;> exact ⟨_, _, _, rfl, key⟩

/-- C57 as stated does not hold: an object that is not callable is accepted, as is a tuple that starts with one;
the only exception is the one of the call, a `UserFunctionException`. -/
theorem C57_not_rejected :
    (∃ g as kw, preprocess (.other : UF F V) = .ok (.wrapper g as kw) ∧
      ∀ state, Pre.call call g as kw [state] = .error .userFunction) ∧
    (∀ as' : List V, ∃ g as kw, preprocess (.seq [.other, .seq as'] : UF F V) = .ok (.wrapper g as kw) ∧
      ∀ state, Pre.call call g as kw [state] = .error .userFunction) ∧
    -- `(f,)`, `(f, kwargs)` and `(f, args, something else)` are accepted, too; the latter ignores the third element
    ∀ f : F, (∃ p, preprocess (.seq [.callable f] : UF F V) = .ok p) ∧
      (∀ kw, preprocess (.seq [.callable f, .dict kw] : UF F V) = .ok (.wrapper (.callable f) [] kw)) ∧
      ∀ as x, (∀ kw, x ≠ Item.dict kw) →
        preprocess (.seq [.callable f, .seq as, x] : UF F V) = .ok (.wrapper (.callable f) as []) := by
  refine ⟨⟨_, _, _, rfl, fun _ => rfl⟩, fun as' => ⟨_, _, _, rfl, fun _ => rfl⟩, fun f => ⟨⟨_, rfl⟩, fun kw => rfl, ?_⟩⟩
  intro as x hx
  cases x with
  | dict kw => exact absurd rfl (hx kw)
  | callable g => rfl
  | seq l => rfl
  | other => rfl

/-- C57: what is rejected at setup: exactly a tuple or list that is empty (`IndexError`) or whose second element is
neither a sequence nor a dictionary (`TypeError`). -/
theorem C57_rejected (u : UF F V) (e : PyErr) :
    preprocess u = .error e ↔
      (u = .seq [] ∧ e = .indexError) ∨
      ((∃ f g rest, u = .seq (f :: .callable g :: rest)) ∨ ∃ f rest, u = .seq (f :: .other :: rest)) ∧ e = .typeError := by
  match u with
  | .none => simp [preprocess]
  | .instance_ l => simp [preprocess]
  | .callable g => simp [preprocess]
  | .other => simp [preprocess]
  | .seq [] => simpa [preprocess] using ⟨Eq.symm, Eq.symm⟩
  | .seq [x] => simp [preprocess]
  | .seq (x :: .callable _ :: rest) => simpa [preprocess] using ⟨Eq.symm, Eq.symm⟩
  | .seq (x :: .other :: rest) => simpa [preprocess] using ⟨Eq.symm, Eq.symm⟩
  | .seq (x :: .dict _ :: rest) => simp [preprocess]
  | .seq (x :: .seq _ :: []) => simp [preprocess]
  | .seq (x :: .seq _ :: .dict _ :: rest) => simp [preprocess]
  | .seq (x :: .seq _ :: .seq _ :: rest) => simp [preprocess]
  | .seq (x :: .seq _ :: .callable _ :: rest) => simp [preprocess]
  | .seq (x :: .seq _ :: .other :: rest) => simp [preprocess]

end

/-- A function that needs its extra argument and keyword. -/
example : Supported (F := Unit) (V := ℕ) () (.seq [.callable (), .seq [5], .dict [("scale", 2)]]) [5] [("scale", 2)] :=
  .kwargs _ _

/-! ### C61 -/

/-- The values that the property asks for: an array, or a list of parameter-space states. -/
def ProperValue : GivenObj → Prop
  | .array _ => True
  | .list l => ∀ x ∈ l, x = .psState
  | _ => False

/-- The length of an object that has one. -/
def HasLength : GivenObj → ℕ → Prop
  | .array (some m), n => m = n
  | .list l, n => l.length = n
  | .sized m, n => m = n
  | _, _ => False

theorem hasLength_iff (v : GivenObj) (n : ℕ) : v.len = .ok n ↔ HasLength v n := by
  match v with
  | .array (some m) => simp [GivenObj.len, HasLength]
  | .array none => simp [GivenObj.len, HasLength]
  | .list l => simp [GivenObj.len, HasLength]
  | .psState => simp [GivenObj.len, HasLength]
  | .sized m => simp [GivenObj.len, HasLength]
  | .unsized => simp [GivenObj.len, HasLength]

/-- What `set_param_values` really requires of values: in a list only the first element is looked at. -/
def AcceptedValue : GivenObj → Prop
  | .array _ => True
  | .list (x :: _) => x = .psState
  | _ => False

theorem setParamCheck_iff (k : Key) (v : GivenObj) :
    (setParamCheck k v = .ok () ↔ (∃ s, k = .str s) ∧ AcceptedValue v) ∧
      (∀ e, setParamCheck k v = .error e → e = .typeError ∨ e = .valueError ∨ (e = .indexError ∧ v = .list [])) := by
  match k, v with
  | .other, v => simp [setParamCheck]
  | .str s, .array l => simp [setParamCheck, AcceptedValue]
  | .str s, .list [] => simp [setParamCheck, AcceptedValue]
  | .str s, .list (.psState :: rest) => simp [setParamCheck, AcceptedValue]
  | .str s, .list (.array _ :: rest) => simp [setParamCheck, AcceptedValue]
  | .str s, .list (.list _ :: rest) => simp [setParamCheck, AcceptedValue]
  | .str s, .list (.sized _ :: rest) => simp [setParamCheck, AcceptedValue]
  | .str s, .list (.unsized :: rest) => simp [setParamCheck, AcceptedValue]
  | .str s, .psState => simp [setParamCheck, AcceptedValue]
  | .str s, .sized _ => simp [setParamCheck, AcceptedValue]
  | .str s, .unsized => simp [setParamCheck, AcceptedValue]

theorem postInitLoop_iff (n : ℤ) : ∀ (d : List (Key × GivenObj)),
    (postInitLoop n d = .ok () ↔
      ∀ kv ∈ d, (∃ s, kv.1 = .str s) ∧ AcceptedValue kv.2 ∧ ∃ m : ℕ, (m : ℤ) = n ∧ HasLength kv.2 m) ∧
    ∀ e, postInitLoop n d = .error e →
      e = .typeError ∨ e = .valueError ∨ (e = .indexError ∧ n = 0 ∧ ∃ k, (k, .list []) ∈ d)
  | [] => by simp [postInitLoop]
  | (k, v) :: rest => by
    obtain ⟨h1, h2⟩ := postInitLoop_iff n rest
    obtain ⟨h3, h4⟩ := setParamCheck_iff k v
    have hlen : ∀ m : ℕ, v.len = .ok m ↔ HasLength v m := hasLength_iff v
    rw [postInitLoop, List.forall_mem_cons]
    cases hv : v.len with
    | error e =>
      simp only [reduceCtorEq, false_iff, Except.error.injEq]
      constructor
      · rintro ⟨⟨_, _, m, _, hm⟩, _⟩
        rw [← hlen, hv] at hm
        cases hm
      · rintro e' rfl
        left
        match v with
        | .array none => cases hv; rfl
        | .psState => cases hv; rfl
        | .unsized => cases hv; rfl
    | ok l =>
      have hl : ∀ m : ℕ, HasLength v m ↔ m = l := by
        intro m
        rw [← hlen, hv]
        simp [eq_comm]
      simp only
      by_cases hn : (l : ℤ) ≠ n
      · rw [if_pos hn]
        constructor
        · simp only [reduceCtorEq, false_iff]
          rintro ⟨⟨_, _, m, hmn, hm⟩, _⟩
          rw [hl] at hm
          subst hm
          exact hn hmn
        · rintro e h
          injection h with h
          exact .inr (.inl h.symm)
      · rw [if_neg hn]
        have hn := not_not.1 hn
        cases hc : setParamCheck k v with
        | error e =>
          simp only [reduceCtorEq, false_iff, Except.error.injEq]
          constructor
          · rintro ⟨⟨hs, ha, _⟩, _⟩
            rw [h3.2 ⟨hs, ha⟩] at hc
            cases hc
          · rintro e' rfl
            rcases h4 _ hc with h | h | ⟨h, hv'⟩
            · exact .inl h
            · exact .inr (.inl h)
            · refine .inr (.inr ⟨h, ?_, k, by rw [hv']; simp⟩)
              subst hv'
              have : l = 0 := ((hl 0).1 rfl).symm
              omega
        | ok u =>
          simp only
          obtain ⟨hs, ha⟩ := h3.1 hc
          constructor
          · rw [h1]
            exact ⟨fun h => ⟨⟨hs, ha, l, hn, (hl l).2 rfl⟩, h⟩, fun h => h.2⟩
          · intro e he
            rcases h2 e he with h | h | ⟨h, h0, k', hk'⟩
            · exact .inl h
            · exact .inr (.inl h)
            · exact .inr (.inr ⟨h, h0, k', List.mem_cons_of_mem _ hk'⟩)

/-- C61: a state is constructed exactly if the number of dimensions is an integer, the values are in a
dictionary with strings as keys, and they are arrays, or lists that start with a parameter-space state, of that length; otherwise
a `TypeError` or a `ValueError` is raised, or an `IndexError` for an empty list and no dimensions.

What is missing: lists are only checked up to their first element (`C61_list_accepted`), and the exception for empty
lists (`C61_empty_list`). -/
theorem C61_constructed_partial (n : Option ℤ) (d : Option (List (Key × GivenObj))) :
    (postInit n d = .ok () ↔ ∃ m : ℕ, ∃ kvs, n ≠ none ∧ d = some kvs ∧ (kvs ≠ [] → n = some (m : ℤ)) ∧
      ∀ kv ∈ kvs, (∃ s, kv.1 = .str s) ∧ AcceptedValue kv.2 ∧ HasLength kv.2 m) ∧
    ∀ e, postInit n d = .error e → e = .typeError ∨ e = .valueError ∨
      (e = .indexError ∧ n = some 0 ∧ ∃ kvs k, d = some kvs ∧ (k, .list []) ∈ kvs) := by
  match n, d with
  | none, d => simp [postInit]
  | some n, none => simp [postInit]
  | some n, some kvs =>
    obtain ⟨h1, h2⟩ := postInitLoop_iff n kvs
    rw [postInit, h1]
    constructor
    · constructor
      · intro h
        cases kvs with
        | nil => exact ⟨0, [], by simp, rfl, by simp, by simp⟩
        | cons kv kvs =>
          obtain ⟨hs, ha, m, hm, hl⟩ := h kv List.mem_cons_self
          refine ⟨m, kv :: kvs, by simp, rfl, fun _ => by rw [hm], fun kv' hkv' => ?_⟩
          obtain ⟨hs', ha', m', hm', hl'⟩ := h kv' hkv'
          have : m' = m := by omega
          subst this
          exact ⟨hs', ha', hl'⟩
      · rintro ⟨m, kvs', _, hk, hn, h⟩ kv hkv
        injection hk with hk
        subst hk
        obtain ⟨hs, ha, hl⟩ := h kv hkv
        have := hn (List.ne_nil_of_mem hkv)
        injection this with this
        exact ⟨hs, ha, m, this.symm, hl⟩
    · intro e he
      rcases h2 e he with h | h | ⟨h, h0, k, hk⟩
      · exact .inl h
      · exact .inr (.inl h)
      · exact .inr (.inr ⟨h, by rw [h0], kvs, k, rfl, hk⟩)

/-- C61: all proper values of the right length are accepted, as long as there is a dimension. -/
theorem C61_accepts (n : ℕ) (hn : n ≠ 0) (kvs : List (String × GivenObj))
    (h : ∀ kv ∈ kvs, ProperValue kv.2 ∧ HasLength kv.2 n) :
    postInit (some n) (some (kvs.map fun kv => (.str kv.1, kv.2))) = .ok () := by
  rw [postInit, (postInitLoop_iff _ _).1]
  intro kv hkv
  obtain ⟨kv', hkv', rfl⟩ := List.mem_map.1 hkv
  obtain ⟨hp, hl⟩ := h kv' hkv'
  refine ⟨⟨_, rfl⟩, ?_, n, rfl, hl⟩
  obtain ⟨k, v⟩ := kv'
  match v with
  | .array _ => trivial
  | .list [] => exact absurd hl.symm hn
  | .list (x :: _) => exact hp x List.mem_cons_self

/-- C61: nothing but an array or a list is accepted, neither by the constructor nor by `set_param_values`. -/
theorem C61_set_types (k : Key) (v : GivenObj) (h : setParamCheck k v = .ok ()) :
    (∃ l, v = .array l) ∨ ∃ l, v = .list l := by
  obtain ⟨_, ha⟩ := (setParamCheck_iff k v).1.1 h
  match v with
  | .array l => exact .inl ⟨l, rfl⟩
  | .list l => exact .inr ⟨l, rfl⟩

/-- C61 as stated does not hold: a list is accepted whose first element only is a parameter-space state. -/
theorem C61_list_accepted (name : String) (rest : List GivenObj) :
    postInit (some ((rest.length + 1 : ℕ) : ℤ)) (some [(.str name, .list (.psState :: rest))]) = .ok () := by
  rw [postInit, (postInitLoop_iff _ _).1]
  intro kv hkv
  rw [List.mem_singleton.1 hkv]
  exact ⟨⟨_, rfl⟩, rfl, rest.length + 1, rfl, rfl⟩

/-- ... which need not be a list of parameter-space states. -/
example : ¬ ProperValue (.list [.psState, .unsized]) := by
  intro h
  have := h .unsized (by simp)
  cases this

/-- C61 as stated does not hold: an empty list raises an `IndexError`. -/
theorem C61_empty_list (name : String) :
    postInit (some 0) (some [(.str name, .list [])]) = .error .indexError := rfl

/-- A state with two dimensions, an array and a list of nested states. -/
example : postInit (some 2) (some [(.str "vs", .array (some 2)), (.str "inner", .list [.psState, .psState])]) = .ok () :=
  C61_accepts 2 (by norm_num) [("vs", .array (some 2)), ("inner", .list [.psState, .psState])]
    (by simp [ProperValue, HasLength])

end BB.Props
