import Verif.Lemmas.Names

/-!
# C90: names of parameters that hide attributes of the state

`C90_usable_iff`: a state of a parameter space is made with the right attributes and methods if and only if no parameter has a
reserved name.  `C90_copy_iff`: it can be copied if and only if no parameter is called `copy`, `n_dimensions` or `param_values`.
`C90_cache`, `C90_setter`: what fails otherwise.  `C90_last`: which names must be those of the last parameter.
`C90_refines`, `C90_refines_new`: without reserved names the objects behave like the states of the other models.
`C90_no_iteration`: with a state that cannot be copied no iteration of a chain is completed.
-/

namespace BB.Props

open BB.Spec BB.Lemmas

/-- For values that pass the checks and have different names: the object is made, with the given attributes, callable methods and the
parameters as attributes, exactly if no parameter has a reserved name. -/
theorem C90_usable_iff {n : ℕ} {vals : List (String × PVal)} (hc : checkVals n vals = .ok ()) (hn : (dkeys vals).Nodup) :
    (∃ o, newObj n vals = .ok o ∧ Proper o n vals) ↔ ∀ k ∈ dkeys vals, k ∉ reservedNames := by
  constructor
  · rintro ⟨o, ho, hp⟩ k hk hr
    obtain ⟨w, hw⟩ := fill_mem ho hk
    have hm : ∀ j ∈ psMethods, k ≠ j := by
      rintro j hj rfl
      have := method_ok.1 (hp.methods k hj)
      rw [hw] at this
      cases this
    have h1 := attr_ok.1 hp.dimensions
    have h2 := attr_ok.1 hp.values
    have h3 := attr_ok.1 hp.cache
    simp only [reservedNames, List.mem_cons, List.not_mem_nil, or_false] at hr
    rcases hr with rfl | rfl | rfl | hr
    · rw [hw] at h1; cases h1
    · rw [hw] at h2; cases h2
    · rw [hw] at h3; cases h3
    · exact hm k (by simpa [psMethods] using hr) rfl
  · intro h
    have hne : ∀ j ∈ reservedNames, j ∉ dkeys vals := fun j hj hk => h j hk hj
    obtain ⟨o, ho⟩ := fill_exists (o := [("n_dimensions", .int n), ("param_values", .dict vals), ("cache", .store [])])
      (d := vals) hc (by simp [dget]) (by simp [dget]) (by simp [dget]) (fun k hk =>
        ⟨fun e => h k hk (by simp [e, reservedNames]), fun e => h k hk (by simp [e, reservedNames]),
          fun e => h k hk (by simp [e, reservedNames])⟩)
    have hpv := hne "param_values" (by simp [reservedNames])
    refine ⟨o, ho, ⟨attr_ok.2 ?_, attr_ok.2 ?_, attr_ok.2 ?_, ?_, ?_⟩⟩
    · rw [fill_other ho (by decide) (hne _ (by simp [reservedNames]))]; simp [dget]
    · exact fill_values ho (fun k v hkv => dget_of_mem hn hkv) (by simp [dget]) hpv
    · rw [fill_other ho (by decide) (hne _ (by simp [reservedNames]))]; simp [dget]
    · intro j hj
      have hj' : j ∈ reservedNames := by
        simp only [psMethods, List.mem_cons, List.not_mem_nil, or_false] at hj
        rcases hj with rfl | rfl | rfl | rfl | rfl | rfl | rfl <;> simp [reservedNames]
      have hne3 : j ≠ "n_dimensions" ∧ j ≠ "param_values" ∧ j ≠ "cache" := by
        simp only [psMethods, List.mem_cons, List.not_mem_nil, or_false] at hj
        rcases hj with rfl | rfl | rfl | rfl | rfl | rfl | rfl <;> decide
      refine method_ok.2 ?_
      rw [fill_other ho hne3.2.1 (hne j hj')]
      simp [dget, Ne.symm hne3.1, Ne.symm hne3.2.1, Ne.symm hne3.2.2]
    · intro k v hkv
      exact attr_ok.2 (fill_param ho hn hpv hkv)

/-- An object that has been made can be copied exactly if no parameter is called `copy`, `n_dimensions` or `param_values`. -/
theorem C90_copy_iff {n : ℕ} {vals : List (String × PVal)} {o : PSObj} (hn : (dkeys vals).Nodup)
    (ho : newObj n vals = .ok o) :
    (∃ o', o.copy = .ok o') ↔ ∀ k ∈ dkeys vals, k ∉ ["copy", "n_dimensions", "param_values"] := by
  constructor
  · rintro ⟨o', hc⟩ k hk hr
    obtain ⟨w, hw⟩ := fill_mem ho hk
    unfold PSObj.copy at hc
    simp only [List.mem_cons, List.not_mem_nil, or_false] at hr
    rcases hr with rfl | rfl | rfl
    · simp [method_hidden hw, bind, Except.bind] at hc
    · cases hm : o.method "copy" with
      | error e => simp [hm, bind, Except.bind] at hc
      | ok u =>
        cases hp : o.attr "param_values" with
        | error e => simp [hm, hp, bind, Except.bind] at hc
        | ok a => cases a <;> simp [hm, hp, attr_ok.2 hw, bind, Except.bind] at hc
    · cases hm : o.method "copy" with
      | error e => simp [hm, bind, Except.bind] at hc
      | ok u => simp [hm, attr_ok.2 hw, bind, Except.bind] at hc
  · intro h
    have hne : ∀ j ∈ ["copy", "n_dimensions", "param_values"], j ∉ dkeys vals := fun j hj hk => h j hk hj
    have h1 : dget o "copy" = none := by
      rw [fill_other ho (by decide) (hne _ (by simp))]; simp [dget]
    have h2 : dget o "n_dimensions" = some (.int n) := by
      rw [fill_other ho (by decide) (hne _ (by simp))]; simp [dget]
    have h3 : dget o "param_values" = some (.dict vals) :=
      fill_values ho (fun k v hkv => dget_of_mem hn hkv) (by simp [dget]) (hne _ (by simp))
    have h4 : ∃ a, dget o "cache" = some a := by
      by_cases hk : "cache" ∈ dkeys vals
      · obtain ⟨w, hw⟩ := fill_mem ho hk
        exact ⟨_, hw⟩
      · exact ⟨.store [], by rw [fill_other ho (by decide) hk]; simp [dget]⟩
    obtain ⟨a, h4⟩ := h4
    exact ⟨dset o "cache" a, by
      simp [PSObj.copy, method_ok.2 h1, attr_ok.2 h2, attr_ok.2 h3, attr_ok.2 h4, ho, bind, Except.bind]⟩

/-- With a parameter called `cache` nothing can be saved to the cache. -/
theorem C90_cache {n : ℕ} {vals : List (String × PVal)} {o : PSObj} (ho : newObj n vals = .ok o)
    (hk : "cache" ∈ dkeys vals) (k : String) (v : List (ℝ × ℝ)) : ∃ e, o.save k v = .error e := by
  obtain ⟨w, hw⟩ := fill_mem ho hk
  cases hm : o.method "save_to_cache" with
  | error e => exact ⟨e, by simp [PSObj.save, hm, bind, Except.bind]⟩
  | ok u =>
    cases w with
    | arr a => exact ⟨.indexError, by simp [PSObj.save, hm, attr_ok.2 hw, bind, Except.bind]⟩
    | states l => exact ⟨.typeError, by simp [PSObj.save, hm, attr_ok.2 hw, bind, Except.bind]⟩
    | objs l => exact ⟨.indexError, by simp [PSObj.save, hm, attr_ok.2 hw, bind, Except.bind]⟩

/-- With a parameter called `set_param_values` or `get_param_values` no value can be set, or read by its name, afterwards. -/
theorem C90_setter {n : ℕ} {vals : List (String × PVal)} {o : PSObj} (ho : newObj n vals = .ok o) :
    ("set_param_values" ∈ dkeys vals → ∀ k v, o.set k v = .error .typeError) ∧
      ("get_param_values" ∈ dkeys vals → ∀ k, o.item k = .error .typeError) := by
  constructor
  · intro hk k v
    obtain ⟨w, hw⟩ := fill_mem ho hk
    simp [PSObj.set, method_hidden hw, bind, Except.bind]
  · intro hk k
    obtain ⟨w, hw⟩ := fill_mem ho hk
    simp [PSObj.item, method_hidden hw, bind, Except.bind]

/-- If the object is made, a parameter called `set_param_values` or `param_values` is the last one; so is a parameter called
`n_dimensions` that has two or more values. -/
theorem C90_last {n : ℕ} {pre post : List (String × PVal)} {k : String} {v : PVal} {o : PSObj}
    (ho : newObj n (pre ++ (k, v) :: post) = .ok o)
    (hk : k = "set_param_values" ∨ k = "param_values" ∨ (k = "n_dimensions" ∧ 2 ≤ v.len)) : post = [] := by
  cases post with
  | nil => rfl
  | cons x post =>
    exfalso
    obtain ⟨j, w⟩ := x
    obtain ⟨o1, -, h1⟩ := fill_append ho
    obtain ⟨a, d, -, -, -, -, -, h2⟩ := fill_cons.1 h1
    obtain ⟨b, d', hb, hl, hs, -, hd, -⟩ := fill_cons.1 h2
    rcases hk with rfl | rfl | ⟨rfl, h⟩
    · rw [dget_dset_same] at hs; cases hs
    · rw [dget_dset_same] at hd; cases hd
    · rw [dget_dset_same] at hb
      cases hb
      cases v with
      | arr a =>
        cases a with
        | vec xs =>
          match xs, h with
          | [], h => simp [PVal.len, Arr.len] at h
          | [_], h => simp [PVal.len, Arr.len] at h
          | _ :: _ :: _, _ => simp [lenDiffers] at hl
        | pts xs => simp [lenDiffers] at hl
      | states l => simp [lenDiffers] at hl
      | objs l =>
        match l, h with
        | [], h => simp [PVal.len] at h
        | [_], h => simp [PVal.len] at h
        | _ :: _ :: _, _ => simp [lenDiffers] at hl

/-- Without reserved names `ParameterSpaceState(n, vals)` returns, or raises, what the other models do. -/
theorem C90_refines_new {n : ℕ} {vals : List (String × PVal)} (hn : (dkeys vals).Nodup)
    (hk : ∀ k ∈ dkeys vals, k ∉ reservedNames) : SameResult (newObj n vals) (mkPS n vals) := by
  cases hc : checkVals n vals with
  | ok u =>
    obtain ⟨o, ho, hp⟩ := (C90_usable_iff hc hn).2 hk
    have hm : mkPS n vals = .ok (.mk n vals none) := by simp [mkPS, hc, bind, Except.bind, pure, Except.pure]
    rw [ho, hm]
    exact ⟨hp.dimensions, hp.values, ⟨[], hp.cache, rfl⟩, hp.methods, fun k v hv => hp.params k v (dget_some_mem hv)⟩
  | error e =>
    have hm : mkPS n vals = .error e := by simp [mkPS, hc, bind, Except.bind]
    have ho : newObj n vals = .error e := fill_error (d := vals) hc (by simp [dget]) (by simp [dget]) (by simp [dget])
      (fun k h => ⟨fun e => hk k h (by simp [e, reservedNames]), fun e => hk k h (by simp [e, reservedNames]),
        fun e => hk k h (by simp [e, reservedNames])⟩)
    rw [ho, hm]
    exact rfl

/-- An object that agrees with a state goes on doing so: reading, setting a parameter with a harmless name, caching a tree, and
copying (if the lengths are right, which `set_param_values` does not check) do the same to both. -/
theorem C90_refines {o : PSObj} {s : PSState} (h : Represents o s) :
    (∀ k, o.item k = .ok (s.get k)) ∧
      (∀ k v, k ∉ reservedNames → SameResult (o.set k v) (s.setVal k v)) ∧
      (∀ tree, SameResult (o.save "kdtree" tree) (.ok (.mk s.n s.vals (some tree)))) ∧
      ((dkeys s.vals).Nodup → checkVals s.n s.vals = .ok () → SameResult o.copy (.ok s)) := by
  have h1 := attr_ok.1 h.dimensions
  have h2 := attr_ok.1 h.values
  obtain ⟨c, h3, hkd⟩ := h.cache
  have hm := h.methods
  have hun := represents_unreserved h
  refine ⟨fun k => ?_, fun k v hk => ?_, fun tree => ?_, fun hn hc => ?_⟩
  · simp [PSObj.item, hm "get_param_values" (by simp [psMethods]), h.values, PSState.get, bind, Except.bind]
  · have hset := hm "set_param_values" (by simp [psMethods])
    cases hc : checkVal v with
    | error e =>
      simp [PSObj.set, PSObj.assign, PSState.setVal, hset, hc, SameResult, bind, Except.bind]
    | ok u =>
      have ho : o.set k v = .ok (dset (dset o "param_values" (.dict (dset s.vals k v))) k (.val v)) := by
        simp [PSObj.set, hset, assign_dict (k := k) hc h2, bind, Except.bind]
      have hs : s.setVal k v = .ok (.mk s.n (dset s.vals k v) s.kd) := by
        simp [PSState.setVal, hc, bind, Except.bind, pure, Except.pure]
      rw [ho, hs]
      have hne : ∀ j ∈ reservedNames, j ≠ k := fun j hj e => hk (e ▸ hj)
      refine ⟨attr_ok.2 ?_, attr_ok.2 ?_, ⟨c, attr_ok.2 ?_, hkd⟩, fun j hj => method_ok.2 ?_, fun j w hw => attr_ok.2 ?_⟩
      · rw [dget_dset_ne _ _ _ _ (hne _ (by simp [reservedNames])), dget_dset_ne _ _ _ _ (by decide), h1]; rfl
      · rw [dget_dset_ne _ _ _ _ (hne _ (by simp [reservedNames])), dget_dset_same]; rfl
      · rw [dget_dset_ne _ _ _ _ (hne _ (by simp [reservedNames])), dget_dset_ne _ _ _ _ (by decide), attr_ok.1 h3]
      · obtain ⟨hj1, -, hj2, -⟩ := mem_reserved_of_method hj
        rw [dget_dset_ne _ _ _ _ (hne j hj1), dget_dset_ne _ _ _ _ hj2, method_ok.1 (hm j hj)]
      · change dget (dset s.vals k v) j = some w at hw
        by_cases hjk : j = k
        · subst hjk
          rw [dget_dset_same] at hw ⊢
          cases hw
          rfl
        · rw [dget_dset_ne _ _ _ _ hjk] at hw
          have hj : j ≠ "param_values" := by
            rintro rfl
            have := attr_ok.1 (h.params _ w hw)
            rw [h2] at this
            cases this
          rw [dget_dset_ne _ _ _ _ hjk, dget_dset_ne _ _ _ _ hj, attr_ok.1 (h.params j w hw)]
  · have ho : o.save "kdtree" tree = .ok (dset o "cache" (.store (dset c "kdtree" tree))) := by
      simp [PSObj.save, hm "save_to_cache" (by simp [psMethods]), h3, bind, Except.bind]
    rw [ho]
    refine ⟨attr_ok.2 ?_, attr_ok.2 ?_, ⟨_, attr_ok.2 (dget_dset_same _ _ _), dget_dset_same _ _ _⟩,
      fun j hj => method_ok.2 ?_, fun j w hw => attr_ok.2 ?_⟩
    · rw [dget_dset_ne _ _ _ _ (by decide), h1]; rfl
    · rw [dget_dset_ne _ _ _ _ (by decide), h2]; rfl
    · rw [dget_dset_ne _ _ _ _ (mem_reserved_of_method hj).2.2.2, method_ok.1 (hm j hj)]
    · have hj : j ≠ "cache" := by
        rintro rfl
        have := attr_ok.1 (h.params _ w hw)
        rw [attr_ok.1 h3] at this
        cases this
      rw [dget_dset_ne _ _ _ _ hj, attr_ok.1 (h.params j w hw)]
  · obtain ⟨o', ho', hp⟩ := (C90_usable_iff hc hn).2 hun
    have hcp : o.copy = .ok (dset o' "cache" (.store c)) := by
      simp [PSObj.copy, hm "copy" (by simp [psMethods]), h.values, h.dimensions, h3, ho', bind, Except.bind]
    rw [hcp]
    refine ⟨attr_ok.2 ?_, attr_ok.2 ?_, ⟨c, attr_ok.2 (dget_dset_same _ _ _), hkd⟩, fun j hj => method_ok.2 ?_,
      fun j w hw => attr_ok.2 ?_⟩
    · rw [dget_dset_ne _ _ _ _ (by decide), attr_ok.1 hp.dimensions]
    · rw [dget_dset_ne _ _ _ _ (by decide), attr_ok.1 hp.values]
    · rw [dget_dset_ne _ _ _ _ (mem_reserved_of_method hj).2.2.2, method_ok.1 (hp.methods j hj)]
    · have hj : j ≠ "cache" := by
        rintro rfl
        have := attr_ok.1 (h.params _ w hw)
        rw [attr_ok.1 h3] at this
        cases this
      rw [dget_dset_ne _ _ _ _ hj, attr_ok.1 (hp.params j w (dget_some_mem hw))]

/-- A chain the perturbations of which copy the current state, in whatever way they go on: if a space of the current state has a
parameter called `copy`, `n_dimensions` or `param_values`, the next iteration raises, whatever is drawn, and neither the current state
nor what has been saved changes. -/
theorem C90_no_iteration {σ E : Type} (cfg : ChainCfg (List (String × PSObj)) σ)
    (hp : ∀ x ∈ cfg.perturbs, ∃ (α : Type) (before : List (String × PSObj) → M α)
      (after : α → List (String × PSObj) → M (List (String × PSObj) × PyF)), x.2 = copying before after)
    (c : Chain (List (String × PSObj)) σ E) {name : String} {o : PSObj} (hm : (name, o) ∈ c.cur) {n : ℕ}
    {vals : List (String × PVal)} (hn : (dkeys vals).Nodup) (ho : newObj n vals = .ok o) {k : String} (hk : k ∈ dkeys vals)
    (hr : k ∈ ["copy", "n_dimensions", "param_values"]) (t : List Draw) :
    ∃ e c' t', Chain.next cfg c t = (.error e, c', t') ∧ c'.cur = c.cur ∧ c'.saved = c.saved := by
  have hcopy : ∃ e, o.copy = .error e := by
    cases hc : o.copy with
    | error e => exact ⟨e, rfl⟩
    | ok o' => exact absurd hr ((C90_copy_iff hn ho).1 ⟨o', hc⟩ k hk)
  obtain ⟨e, he⟩ := hcopy
  obtain ⟨e', he'⟩ := copyAll_error hm he
  refine attempts_never cfg c.cur ?_ 500 c rfl t
  intro x hx t
  obtain ⟨α, before, after, hxe⟩ := hp x hx
  rw [hxe]
  unfold copying
  rcases before c.cur t with ⟨e2 | a, t1⟩
  · exact ⟨e2, t1, rfl⟩
  · exact ⟨e', t1, by simp [he']⟩

/-! ### Examples -/

/-- Velocities of two cells, and a second parameter. -/
noncomputable def ex90v (k : String) : List (String × PVal) := [("vs", .arr (.vec [1, 2])), (k, .arr (.vec [3, 4]))]

theorem ex90_check (k : String) : checkVals 2 (ex90v k) = .ok () := by
  simp [ex90v, checkVals, checkVal, PVal.len, Arr.len, bind, Except.bind]

theorem ex90_nodup {k : String} (h : k ≠ "vs") : (dkeys (ex90v k)).Nodup := by
  simp [ex90v, dkeys, Ne.symm h]

/-- An object with a usual name. -/
example : ∃ o, newObj 2 (ex90v "rho") = .ok o ∧ Proper o 2 (ex90v "rho") :=
  (C90_usable_iff (ex90_check _) (ex90_nodup (by decide))).2 (by simp [ex90v, dkeys, reservedNames])

/-- None with the name `cache`. -/
example : ¬ ∃ o, newObj 2 (ex90v "cache") = .ok o ∧ Proper o 2 (ex90v "cache") := fun h =>
  (C90_usable_iff (ex90_check _) (ex90_nodup (by decide))).1 h "cache" (by simp [ex90v, dkeys]) (by simp [reservedNames])

/-- An object that agrees with a state, and so does its copy. -/
example : ∃ o s, Represents o s ∧ s.vals = ex90v "rho" ∧ SameResult o.copy (.ok s) := by
  have h := C90_refines_new (n := 2) (ex90_nodup (k := "rho") (by decide)) (by simp [ex90v, dkeys, reservedNames])
  have hm : mkPS 2 (ex90v "rho") = .ok (.mk 2 (ex90v "rho") none) := by
    simp [mkPS, ex90_check, bind, Except.bind, pure, Except.pure]
  rw [hm] at h
  cases ho : newObj 2 (ex90v "rho") with
  | error e => rw [ho] at h; exact h.elim
  | ok o =>
    rw [ho] at h
    exact ⟨o, _, h, rfl, (C90_refines h).2.2.2 (ex90_nodup (by decide)) (ex90_check _)⟩

/-- The objects with hidden attributes are made, if the parameter is the last one. -/
theorem ex90_made (k : String) : ∃ o, newObj 2 (ex90v k) = .ok o := by
  refine ⟨_, fill_cons.2 ⟨.int 2, ex90v k, by simp [dget], by simp [lenDiffers, PVal.len, Arr.len], by simp [dget], rfl,
    by simp [dget], fill_cons.2 ⟨.int 2, ex90v k, ?_, by simp [lenDiffers, PVal.len, Arr.len], ?_, rfl, ?_, rfl⟩⟩⟩
  · simp [dget, dset, ex90v]
  · simp [dget, dset, ex90v]
  · simp [dget, dset, ex90v]

/-- A parameter called `copy`: the object is made and cannot be copied. -/
example : ∃ o, newObj 2 (ex90v "copy") = .ok o ∧ ¬ ∃ o', o.copy = .ok o' := by
  obtain ⟨o, ho⟩ := ex90_made "copy"
  exact ⟨o, ho, fun h => (C90_copy_iff (ex90_nodup (by decide)) ho).1 h "copy" (by simp [ex90v, dkeys]) (by simp)⟩

/-- A parameter called `cache`: the object is made and can be copied, but no tree can be cached. -/
example : ∃ o, newObj 2 (ex90v "cache") = .ok o ∧ (∃ o', o.copy = .ok o') ∧ ∃ e, o.save "kdtree" [(0, 1)] = .error e := by
  obtain ⟨o, ho⟩ := ex90_made "cache"
  exact ⟨o, ho, (C90_copy_iff (ex90_nodup (by decide)) ho).2 (by simp [ex90v, dkeys]),
    C90_cache ho (by simp [ex90v, dkeys]) _ _⟩

/-- In the other order `param_values` raises at once. -/
example : ¬ ∃ o, newObj 2 ([] ++ ("param_values", .arr (.vec [3, 4])) :: [("vs", .arr (.vec [1, 2]))]) = .ok o := by
  rintro ⟨o, ho⟩
  have := C90_last ho (Or.inr (Or.inl rfl))
  simp at this

/-- A chain that stands still. -/
example {σ : Type} (cfg : ChainCfg (List (String × PSObj)) σ) (after : Unit → List (String × PSObj) → M (List (String × PSObj) × PyF))
    (hp : cfg.perturbs = [("p", copying (fun _ => pure ()) after)]) (x : σ) (t : List Draw) :
    ∃ o, newObj 2 (ex90v "n_dimensions") = .ok o ∧
      ∃ e c' t', Chain.next cfg (E := Unit) ⟨[("voronoi", o)], 1, x, true, [], [], 0, 0, [], ()⟩ t = (.error e, c', t') ∧
        c'.cur = [("voronoi", o)] ∧ c'.saved = x := by
  obtain ⟨o, ho⟩ := ex90_made "n_dimensions"
  refine ⟨o, ho, C90_no_iteration cfg ?_ _ (List.mem_singleton.2 rfl) (ex90_nodup (by decide)) ho
    (k := "n_dimensions") (by simp [ex90v, dkeys]) (by simp) t⟩
  intro y hy
  rw [hp, List.mem_singleton] at hy
  exact ⟨Unit, _, after, by rw [hy]⟩

end BB.Props
