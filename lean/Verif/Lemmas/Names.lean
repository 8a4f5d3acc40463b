import Verif.Spec.Names
import Verif.Lemmas.Dict
import Verif.Lemmas.Chain

/-!
# Lemmas on the attributes of parameter-space states
-/

namespace BB.Lemmas

open BB.Spec

theorem attr_ok {o : PSObj} {k : String} {a : AVal} : o.attr k = .ok a ↔ dget o k = some a := by
  unfold PSObj.attr
  cases dget o k <;> simp

theorem method_ok {o : PSObj} {k : String} : o.method k = .ok () ↔ dget o k = none := by
  unfold PSObj.method
  cases dget o k <;> simp

theorem method_hidden {o : PSObj} {k : String} {a : AVal} (h : dget o k = some a) : o.method k = .error .typeError := by
  simp [PSObj.method, h]

theorem assign_ok {o o' : PSObj} {k : String} {v : PVal} (h : o.assign k v = .ok o') :
    checkVal v = .ok () ∧ ∃ d, dget o "param_values" = some (.dict d) ∧
      o' = dset (dset o "param_values" (.dict (dset d k v))) k (.val v) := by
  unfold PSObj.assign at h
  cases hc : checkVal v with
  | error e => simp [hc, bind, Except.bind] at h
  | ok u =>
    cases ha : o.attr "param_values" with
    | error e => simp [hc, ha, bind, Except.bind] at h
    | ok a =>
      simp only [hc, ha, bind, Except.bind] at h
      refine ⟨rfl, ?_⟩
      split at h <;> first | (simp at h; done) | skip
      rename_i d
      exact ⟨d, attr_ok.1 ha, (Except.ok.inj h).symm⟩

theorem assign_dict {o : PSObj} {k : String} {v : PVal} {d : List (String × PVal)} (hc : checkVal v = .ok ())
    (h : dget o "param_values" = some (.dict d)) :
    o.assign k v = .ok (dset (dset o "param_values" (.dict (dset d k v))) k (.val v)) := by
  have ha := attr_ok.2 h
  simp [PSObj.assign, hc, ha, bind, Except.bind]

theorem fill_cons {o o' : PSObj} {k : String} {v : PVal} {rest : List (String × PVal)} :
    PSObj.fill o ((k, v) :: rest) = .ok o' ↔
      ∃ a d, dget o "n_dimensions" = some a ∧ lenDiffers v.len a = .ok false ∧ dget o "set_param_values" = none ∧
        checkVal v = .ok () ∧ dget o "param_values" = some (.dict d) ∧
        PSObj.fill (dset (dset o "param_values" (.dict (dset d k v))) k (.val v)) rest = .ok o' := by
  constructor
  · intro h
    rw [PSObj.fill] at h
    cases ha : o.attr "n_dimensions" with
    | error e => simp [ha, bind, Except.bind] at h
    | ok a =>
      cases hl : lenDiffers v.len a with
      | error e => simp [ha, hl, bind, Except.bind] at h
      | ok b =>
        cases b with
        | true => simp [ha, hl, bind, Except.bind] at h
        | false =>
          cases hm : o.method "set_param_values" with
          | error e => simp [ha, hl, hm, PSObj.set, bind, Except.bind] at h
          | ok u =>
            cases hs : o.assign k v with
            | error e => simp [ha, hl, hm, hs, PSObj.set, bind, Except.bind] at h
            | ok o1 =>
              simp [ha, hl, hm, hs, PSObj.set, bind, Except.bind] at h
              obtain ⟨hc, d, hd, rfl⟩ := assign_ok hs
              exact ⟨a, d, attr_ok.1 ha, hl, method_ok.1 hm, hc, hd, h⟩
  · rintro ⟨a, d, ha, hl, hm, hc, hd, h⟩
    rw [PSObj.fill]
    simp [attr_ok.2 ha, hl, method_ok.2 hm, assign_dict (k := k) hc hd, PSObj.set, bind, Except.bind, h]

/-- An attribute that is the value of a parameter remains one. -/
theorem fill_val {o o' : PSObj} {rest : List (String × PVal)} (h : PSObj.fill o rest = .ok o') {k : String} {w : PVal}
    (hk : dget o k = some (.val w)) : ∃ w', dget o' k = some (.val w') := by
  induction rest generalizing o w with
  | nil => simp only [PSObj.fill, Except.ok.injEq] at h; subst h; exact ⟨w, hk⟩
  | cons x rest ih =>
    obtain ⟨j, v⟩ := x
    obtain ⟨a, d, -, -, -, -, hd, h⟩ := fill_cons.1 h
    by_cases hj : k = j
    · subst hj
      exact ih h (dget_dset_same _ _ _)
    · have hp : k ≠ "param_values" := by rintro rfl; rw [hk] at hd; cases hd
      exact ih h (w := w) (by rw [dget_dset_ne _ _ _ _ hj, dget_dset_ne _ _ _ _ hp, hk])

/-- So is the attribute with the name of a parameter. -/
theorem fill_mem {o o' : PSObj} {rest : List (String × PVal)} (h : PSObj.fill o rest = .ok o') {k : String}
    (hk : k ∈ dkeys rest) : ∃ w, dget o' k = some (.val w) := by
  induction rest generalizing o with
  | nil => simp [dkeys] at hk
  | cons x rest ih =>
    obtain ⟨j, v⟩ := x
    obtain ⟨a, d, -, -, -, -, hd, h⟩ := fill_cons.1 h
    simp only [dkeys, List.map_cons, List.mem_cons] at hk
    rcases hk with rfl | hk
    · exact fill_val h (dget_dset_same _ _ _)
    · exact ih h hk

/-- Other attributes are left alone. -/
theorem fill_other {o o' : PSObj} {rest : List (String × PVal)} (h : PSObj.fill o rest = .ok o') {k : String}
    (hp : k ≠ "param_values") (hk : k ∉ dkeys rest) : dget o' k = dget o k := by
  induction rest generalizing o with
  | nil => simp only [PSObj.fill, Except.ok.injEq] at h; rw [h]
  | cons x rest ih =>
    obtain ⟨j, v⟩ := x
    obtain ⟨a, d, -, -, -, -, hd, h⟩ := fill_cons.1 h
    simp only [dkeys, List.map_cons, List.mem_cons, not_or] at hk
    rw [ih h hk.2, dget_dset_ne _ _ _ _ hk.1, dget_dset_ne _ _ _ _ hp]

theorem fill_values {vals : List (String × PVal)} {o o' : PSObj} {rest : List (String × PVal)}
    (h : PSObj.fill o rest = .ok o') (hv : ∀ k v, (k, v) ∈ rest → dget vals k = some v)
    (ho : dget o "param_values" = some (.dict vals)) (hk : "param_values" ∉ dkeys rest) :
    dget o' "param_values" = some (.dict vals) := by
  induction rest generalizing o with
  | nil => simp only [PSObj.fill, Except.ok.injEq] at h; rw [← h, ho]
  | cons x rest ih =>
    obtain ⟨j, v⟩ := x
    obtain ⟨a, d, -, -, -, -, hd, h⟩ := fill_cons.1 h
    simp only [dkeys, List.map_cons, List.mem_cons, not_or] at hk
    rw [ho] at hd
    cases hd
    refine ih h (fun k v hkv => hv k v (List.mem_cons_of_mem _ hkv)) ?_ hk.2
    rw [dget_dset_ne _ _ _ _ hk.1, dget_dset_same, dset_eq_self (hv j v List.mem_cons_self)]

theorem fill_param {o o' : PSObj} {rest : List (String × PVal)} (h : PSObj.fill o rest = .ok o')
    (hn : (dkeys rest).Nodup) (hp : "param_values" ∉ dkeys rest) {k : String} {v : PVal} (hk : (k, v) ∈ rest) :
    dget o' k = some (.val v) := by
  induction rest generalizing o with
  | nil => simp at hk
  | cons x rest ih =>
    obtain ⟨j, w⟩ := x
    obtain ⟨a, d, -, -, -, -, hd, h⟩ := fill_cons.1 h
    simp only [dkeys, List.map_cons, List.mem_cons, not_or, List.nodup_cons] at hp hn
    rcases List.mem_cons.1 hk with hk | hk
    · cases hk
      rw [fill_other h (Ne.symm hp.1) hn.1, dget_dset_same]
    · exact ih h hn.2 hp.2 hk

theorem fill_exists {n : ℕ} {o : PSObj} {rest : List (String × PVal)} {d : List (String × PVal)}
    (hc : checkVals n rest = .ok ()) (h1 : dget o "n_dimensions" = some (.int n)) (h2 : dget o "set_param_values" = none)
    (h3 : dget o "param_values" = some (.dict d))
    (hk : ∀ k ∈ dkeys rest, k ≠ "n_dimensions" ∧ k ≠ "set_param_values" ∧ k ≠ "param_values") :
    ∃ o', PSObj.fill o rest = .ok o' := by
  induction rest generalizing o d with
  | nil => exact ⟨o, rfl⟩
  | cons x rest ih =>
    obtain ⟨j, v⟩ := x
    have hlen : v.len = n := by
      by_contra hne
      simp [checkVals, hne] at hc
    have hcv : checkVal v = .ok () := by
      cases hv : checkVal v with
      | ok u => rfl
      | error e => simp [checkVals, hlen, hv, bind, Except.bind] at hc
    have hcr : checkVals n rest = .ok () := by
      simpa [checkVals, hlen, hcv, bind, Except.bind] using hc
    have hj := hk j (by simp [dkeys])
    have hr : ∀ k ∈ dkeys rest, k ≠ "n_dimensions" ∧ k ≠ "set_param_values" ∧ k ≠ "param_values" :=
      fun k hkr => hk k (by simp only [dkeys, List.map_cons, List.mem_cons]; exact Or.inr hkr)
    obtain ⟨o', ho'⟩ := ih (o := dset (dset o "param_values" (.dict (dset d j v))) j (.val v)) (d := dset d j v) hcr
      (by rw [dget_dset_ne _ _ _ _ (Ne.symm hj.1), dget_dset_ne _ _ _ _ (by decide), h1])
      (by rw [dget_dset_ne _ _ _ _ (Ne.symm hj.2.1), dget_dset_ne _ _ _ _ (by decide), h2])
      (by rw [dget_dset_ne _ _ _ _ (Ne.symm hj.2.2), dget_dset_same]) hr
    exact ⟨o', fill_cons.2 ⟨.int n, d, h1, by simp [lenDiffers, hlen], h2, hcv, h3, ho'⟩⟩

/-- With harmless names the loop raises what the checks of the values raise. -/
theorem fill_error {n : ℕ} {o : PSObj} {rest : List (String × PVal)} {d : List (String × PVal)} {e : PyErr}
    (hc : checkVals n rest = .error e) (h1 : dget o "n_dimensions" = some (.int n)) (h2 : dget o "set_param_values" = none)
    (h3 : dget o "param_values" = some (.dict d))
    (hk : ∀ k ∈ dkeys rest, k ≠ "n_dimensions" ∧ k ≠ "set_param_values" ∧ k ≠ "param_values") :
    PSObj.fill o rest = .error e := by
  induction rest generalizing o d with
  | nil => simp [checkVals] at hc
  | cons x rest ih =>
    obtain ⟨j, v⟩ := x
    rw [PSObj.fill]
    by_cases hlen : v.len = n
    · cases hv : checkVal v with
      | error e' =>
        have he : e' = e := by simpa [checkVals, hlen, hv, bind, Except.bind] using hc
        simp [attr_ok.2 h1, lenDiffers, hlen, method_ok.2 h2, PSObj.set, PSObj.assign, hv, he, bind, Except.bind]
      | ok u =>
        have hcr : checkVals n rest = .error e := by simpa [checkVals, hlen, hv, bind, Except.bind] using hc
        have hj := hk j (by simp [dkeys])
        have hr : ∀ k ∈ dkeys rest, k ≠ "n_dimensions" ∧ k ≠ "set_param_values" ∧ k ≠ "param_values" :=
          fun k hkr => hk k (by simp only [dkeys, List.map_cons, List.mem_cons]; exact Or.inr hkr)
        have := ih (o := dset (dset o "param_values" (.dict (dset d j v))) j (.val v)) (d := dset d j v) hcr
          (by rw [dget_dset_ne _ _ _ _ (Ne.symm hj.1), dget_dset_ne _ _ _ _ (by decide), h1])
          (by rw [dget_dset_ne _ _ _ _ (Ne.symm hj.2.1), dget_dset_ne _ _ _ _ (by decide), h2])
          (by rw [dget_dset_ne _ _ _ _ (Ne.symm hj.2.2), dget_dset_same]) hr
        simp [attr_ok.2 h1, lenDiffers, hlen, method_ok.2 h2, PSObj.set, assign_dict (k := j) hv h3, bind, Except.bind, this]
    · have he : PyErr.valueError = e := by simpa [checkVals, hlen] using hc
      simp [attr_ok.2 h1, lenDiffers, hlen, he, bind, Except.bind]

theorem mem_reserved_of_method {k : String} (h : k ∈ psMethods) :
    k ∈ reservedNames ∧ k ≠ "n_dimensions" ∧ k ≠ "param_values" ∧ k ≠ "cache" := by
  simp only [psMethods, List.mem_cons, List.not_mem_nil, or_false] at h
  rcases h with rfl | rfl | rfl | rfl | rfl | rfl | rfl <;> simp [reservedNames]

/-- Objects that represent states have no parameters with reserved names. -/
theorem represents_unreserved {o : PSObj} {s : PSState} (h : Represents o s) :
    ∀ k ∈ dkeys s.vals, k ∉ reservedNames := by
  intro k hk hr
  obtain ⟨v, hv⟩ : ∃ v, dget s.vals k = some v := by
    cases hd : dget s.vals k with
    | some v => exact ⟨v, rfl⟩
    | none => exact absurd hk (dget_none_iff.1 hd)
  have hw := attr_ok.1 (h.params k v hv)
  have h1 := attr_ok.1 h.dimensions
  have h2 := attr_ok.1 h.values
  obtain ⟨c, h3, -⟩ := h.cache
  rw [attr_ok] at h3
  simp only [reservedNames, List.mem_cons, List.not_mem_nil, or_false] at hr
  rcases hr with rfl | rfl | rfl | hr
  · rw [hw] at h1; cases h1
  · rw [hw] at h2; cases h2
  · rw [hw] at h3; cases h3
  · have := method_ok.1 (h.methods k (by simpa [psMethods] using hr))
    rw [hw] at this
    cases this

/-- Nothing can be assigned after a parameter that hides what the loop uses. -/
theorem fill_append {o o' : PSObj} {pre rest : List (String × PVal)} (h : PSObj.fill o (pre ++ rest) = .ok o') :
    ∃ o1, PSObj.fill o pre = .ok o1 ∧ PSObj.fill o1 rest = .ok o' := by
  induction pre generalizing o with
  | nil => exact ⟨o, rfl, h⟩
  | cons x pre ih =>
    obtain ⟨j, v⟩ := x
    obtain ⟨a, d, h1, h2, h3, h4, h5, h⟩ := fill_cons.1 h
    obtain ⟨o1, h6, h7⟩ := ih h
    exact ⟨o1, fill_cons.2 ⟨a, d, h1, h2, h3, h4, h5, h6⟩, h7⟩

theorem copyAll_error {s : List (String × PSObj)} {k : String} {o : PSObj} {e : PyErr} (hk : (k, o) ∈ s)
    (ho : o.copy = .error e) : ∃ e', copyAll s = .error e' := by
  induction s with
  | nil => simp at hk
  | cons x s ih =>
    obtain ⟨j, w⟩ := x
    rw [copyAll]
    rcases List.mem_cons.1 hk with hk | hk
    · cases hk
      exact ⟨e, by simp [ho, bind, Except.bind]⟩
    · obtain ⟨e', he'⟩ := ih hk
      cases hw : w.copy with
      | error e2 => exact ⟨e2, by simp [bind, Except.bind]⟩
      | ok w' => exact ⟨e', by simp [he', bind, Except.bind]⟩

/-- If all perturbations raise at the current state, no number of attempts completes an iteration. -/
theorem attempts_never {S σ E : Type} (cfg : ChainCfg S σ) (s : S)
    (hs : ∀ x ∈ cfg.perturbs, ∀ t, ∃ e t', x.2 s t = (.error e, t')) (k : ℕ) (c : Chain S σ E) (hc : c.cur = s)
    (t : List Draw) : ∃ e c' t', Chain.attempts cfg k c t = (.error e, c', t') ∧ c'.cur = s ∧ c'.saved = c.saved := by
  induction k generalizing c t with
  | zero => exact ⟨_, c, t, rfl, hc, rfl⟩
  | succ k ih =>
    rw [attempts_succ, attempt_run]
    rcases hch : choices cfg.perturbs.length cfg.weights t with ⟨_ | i, t1⟩
    · exact ⟨_, c, t1, rfl, hc, rfl⟩
    · dsimp only
      rcases hi : cfg.perturbs[i]? with _ | ⟨name, f⟩
      · exact ⟨_, c, t1, rfl, hc, rfl⟩
      · obtain ⟨e, t', he⟩ := hs (name, f) (List.mem_of_getElem? hi) t1
        dsimp only at he ⊢
        rw [hc, he]
        cases e <;> first
          | exact ih (Chain.countException "UserFunctionException" c) hc t'
          | exact ⟨_, c, t', rfl, hc, rfl⟩

end BB.Lemmas
