import Verif.Model.LikelihoodSetup
import Verif.Lemmas.InsertDelete

/-!
# C34, C35: construction and extension of a likelihood
-/

namespace BB.Props

open BB BB.Utils1d

/-! ### C34 -/

/-- A description of a user function that can be interpreted: not an empty tuple, and if it has
further elements, the second one is a sequence of arguments or a dictionary. -/
def Interpretable {F V : Type} : UF F V → Prop
  | .seq [] => False
  | .seq (_ :: .callable _ :: _) => False
  | .seq (_ :: .other :: _) => False
  | _ => True

/-- The argument is given: not `None` (nor an empty tuple). -/
def Given {F V : Type} : UF F V → Prop
  | .none => False
  | .seq [] => False
  | _ => True

theorem preprocess_ok_iff {F V : Type} (f : UF F V) :
    (∃ p, preprocess f = .ok p) ↔ Interpretable f := by
  match f with
  | .none => simp [preprocess, Interpretable]
  | .instance_ l => simp [preprocess, Interpretable]
  | .callable g => simp [preprocess, Interpretable]
  | .other => simp [preprocess, Interpretable]
  | .seq [] => simp [preprocess, Interpretable]
  | .seq [x] => simp [preprocess, Interpretable]
  | .seq (x :: .callable _ :: rest) => simp [preprocess, Interpretable]
  | .seq (x :: .other :: rest) => simp [preprocess, Interpretable]
  | .seq (x :: .dict _ :: rest) => simp [preprocess, Interpretable]
  | .seq (x :: .seq _ :: []) => simp [preprocess, Interpretable]
  | .seq (x :: .seq _ :: .dict _ :: rest) => simp [preprocess, Interpretable]
  | .seq (x :: .seq _ :: .seq _ :: rest) => simp [preprocess, Interpretable]
  | .seq (x :: .seq _ :: .callable _ :: rest) => simp [preprocess, Interpretable]
  | .seq (x :: .seq _ :: .other :: rest) => simp [preprocess, Interpretable]

theorem checkTargets_ok_iff (ts : List TObj) (r : List Target) :
    checkTargets ts = .ok r ↔ ts = r.map .target := by
  induction ts generalizing r with
  | nil =>
    cases r with
    | nil => simp [checkTargets]
    | cons a r => simp [checkTargets]
  | cons x ts ih =>
    cases x with
    | other => cases r <;> simp [checkTargets]
    | target t =>
      simp only [checkTargets]
      match h : checkTargets ts with
      | .error e =>
        simp only [error_bind]
        constructor
        · intro h; simp at h
        · intro h2
          cases r with
          | nil => simp at h2
          | cons a r =>
            simp only [List.map_cons, List.cons.injEq] at h2
            have := (ih r).2 h2.2
            rw [h] at this; simp at this
      | .ok r' =>
        simp only [ok_bind]
        change Except.ok (t :: r') = Except.ok r ↔ _
        cases r with
        | nil => simp
        | cons a r =>
          have := (ih r)
          rw [h] at this
          simp only [Except.ok.injEq, List.cons.injEq, List.map_cons, TObj.target.injEq] at this ⊢
          rw [this]

theorem wrapFwds_ok_iff (fs : List FObj) :
    (∃ r, wrapFwds (fs.map Sum.inl) = .ok r) ↔ ∀ f ∈ fs, Interpretable f := by
  induction fs with
  | nil => simp [wrapFwds]
  | cons f fs ih =>
    rw [List.forall_mem_cons, ← ih, ← preprocess_ok_iff]
    simp only [List.map_cons, wrapFwds]
    match h : preprocess f with
    | .error e => simp
    | .ok p =>
      simp only [ok_bind]
      match h2 : wrapFwds (fs.map Sum.inl) with
      | .error e => simp
      | .ok r => simp only [ok_bind]; exact ⟨fun _ => ⟨⟨_, rfl⟩, ⟨_, rfl⟩⟩, fun _ => ⟨_, rfl⟩⟩

/-- What the property C34 asks for, apart from the last clause. -/
structure WellTyped (targets : Arg TObj) (fwds : Arg FObj) (ts : List Target) (fs : List FObj) :
    Prop where
  targets_eq : targets.toList?.getD [] = ts.map .target
  fwds_eq : fwds.toList?.getD [] = fs
  fwds_ok : ∀ f ∈ fs, isCallableOrTuple f = true
  names : (ts.map (·.name)).Nodup

/-- The way of computing the ratio that the documentation promises for the arguments. -/
inductive Selects (ts : List Target) (fs : List FObj) (ratio loglike : UF Unit ℝ) : Sel → Prop
  | targets (h1 : ts ≠ []) (h2 : fs ≠ []) (h3 : fs.length = ts.length)
      (h4 : ∀ f ∈ fs, Interpretable f) : Selects ts fs ratio loglike .targets
  | ratio (h1 : ts = [] ∨ fs = []) (h2 : Given ratio) (h3 : Interpretable ratio) :
      Selects ts fs ratio loglike .ratio
  | loglike (h1 : ts = [] ∨ fs = []) (h2 : ¬ Given ratio) (h3 : Given loglike)
      (h4 : Interpretable loglike) : Selects ts fs ratio loglike .loglike

theorem addTargets_init (targets : Arg TObj) (fwds : Arg FObj) (ll : LL) :
    LL.addTargets {} targets fwds = (.ok (), ll) ↔
      ∃ ts fs, WellTyped targets fwds ts fs ∧ ll.targets = ts ∧ ll.fwds = fs.map Sum.inl ∧
        ll.ratioFunc = none ∧ ll.loglikeFunc = none ∧ ll.sel = none ∧ ll.observers = 0 ∧
        ll.notified = [] ∧ ll.noise =
          (if (ts.filter (·.hierarchical)).isEmpty then none
            else some (ts.filter (·.hierarchical))) := by
  have fin : ∀ (ll0 : LL) (o : Option (List Target)), ll0.observers = 0 → ll0.notified = [] →
      (LL.finish ll0 o = (.ok (), ll) ↔ (ll0.targets.map (·.name)).Nodup ∧
        ll = { ll0 with noise := (if (ll0.targets.filter (·.hierarchical)).isEmpty then none
          else some (ll0.targets.filter (·.hierarchical))) }) := by
    intro ll0 o h0 h1
    unfold LL.finish
    by_cases hn : (ll0.targets.map (·.name)).Nodup
    · simp only [hn, if_true, true_and]
      cases o with
      | none => simp only [h0, if_true, Prod.mk.injEq, true_and]; exact eq_comm
      | some ts =>
        simp only [h0, h1, List.replicate_zero, List.append_nil, Prod.mk.injEq, true_and]
        exact eq_comm
    · simp [hn]
  unfold LL.addTargets
  -- targets
  have key : ∀ (ts : List Target) (o : Option (List Target)), o.getD [] = ts →
      targets.toList?.getD [] = ts.map .target →
      ((match fwds.toList? with
        | none => LL.finish { targets := [] ++ o.getD [] } o
        | some fs => if fs.all isCallableOrTuple then
            LL.finish { targets := [] ++ o.getD [], fwds := [] ++ fs.map Sum.inl } o
          else (.error .typeError, { targets := [] ++ o.getD [] })) = (.ok (), ll) ↔
      ∃ fs, WellTyped targets fwds ts fs ∧ ll.targets = ts ∧ ll.fwds = fs.map Sum.inl ∧
        ll.ratioFunc = none ∧ ll.loglikeFunc = none ∧ ll.sel = none ∧ ll.observers = 0 ∧
        ll.notified = [] ∧ ll.noise =
          (if (ts.filter (·.hierarchical)).isEmpty then none
            else some (ts.filter (·.hierarchical)))) := by
    intro ts o ho hts
    match hf : fwds.toList? with
    | none =>
      simp only
      rw [fin _ _ rfl rfl]
      simp only [List.nil_append, ho]
      constructor
      · rintro ⟨h1, rfl⟩
        exact ⟨[], ⟨hts, by rw [hf]; rfl, by simp, h1⟩, rfl, rfl, rfl, rfl, rfl, rfl, rfl, rfl⟩
      · rintro ⟨fs, hw, h1, h2, h3, h4, h5, h6, h7, h8⟩
        refine ⟨hw.names, ?_⟩
        have : fs = [] := by rw [← hw.fwds_eq, hf]; rfl
        subst this
        cases ll
        simp_all
    | some fs =>
      simp only
      by_cases hall : fs.all isCallableOrTuple
      · rw [if_pos hall, fin _ _ rfl rfl]
        simp only [List.nil_append, ho]
        constructor
        · rintro ⟨h1, rfl⟩
          exact ⟨fs, ⟨hts, by rw [hf]; rfl, by simpa using hall, h1⟩, rfl, rfl, rfl, rfl, rfl, rfl,
            rfl, rfl⟩
        · rintro ⟨fs', hw, h1, h2, h3, h4, h5, h6, h7, h8⟩
          refine ⟨hw.names, ?_⟩
          have : fs' = fs := by rw [← hw.fwds_eq, hf]; rfl
          subst this
          cases ll
          simp_all
      · rw [if_neg hall]
        constructor
        · intro h; simp at h
        · rintro ⟨fs', hw, _⟩
          exfalso
          apply hall
          have : fs' = fs := by rw [← hw.fwds_eq, hf]; rfl
          subst this
          simpa using hw.fwds_ok
  match ht : targets.toList? with
  | none =>
    constructor
    · intro h
      exact ⟨[], (key [] none rfl (by rw [ht]; rfl)).1 h⟩
    · rintro ⟨ts, h⟩
      have hts : ts = [] := by
        obtain ⟨fs, hw, _⟩ := h
        have := hw.targets_eq
        rw [ht] at this
        simpa using this.symm
      subst hts
      exact (key [] none rfl (by rw [ht]; rfl)).2 h
  | some ts0 =>
    simp only
    match hc : checkTargets ts0 with
    | .error e =>
      simp only [Except.map]
      constructor
      · intro h; simp at h
      · rintro ⟨ts, fs, hw, _⟩
        have := hw.targets_eq
        rw [ht] at this
        have := (checkTargets_ok_iff ts0 ts).2 this
        rw [hc] at this; simp at this
    | .ok ts =>
      have hts : ts0 = ts.map .target := (checkTargets_ok_iff ts0 ts).1 hc
      simp only [Except.map]
      constructor
      · intro h
        exact ⟨ts, (key ts (some ts) rfl (by rw [ht]; exact hts)).1 h⟩
      · rintro ⟨ts', h⟩
        have : ts' = ts := by
          obtain ⟨fs, hw, _⟩ := h
          have h2 := hw.targets_eq
          rw [ht] at h2
          have := (checkTargets_ok_iff ts0 ts').2 h2
          rw [hc] at this
          simpa using this.symm
        subst this
        exact (key ts' (some ts') rfl (by rw [ht]; exact hts)).2 h

theorem initRatio_iff (ll : LL) (ts : List Target) (fs : List FObj) (ht : ll.targets = ts)
    (hf : ll.fwds = fs.map Sum.inl) (ratio loglike : UF Unit ℝ) (s : Sel) :
    (∃ ll', ll.initRatio ratio loglike = .ok ll' ∧ ll'.sel = some s) ↔
      Selects ts fs ratio loglike s := by
  unfold LL.initRatio
  subst ht
  by_cases h : ll.targets ≠ [] ∧ ll.fwds ≠ []
  · rw [if_pos h]
    have hfs : fs ≠ [] := by intro h0; rw [h0] at hf; exact h.2 (by simpa using hf)
    by_cases hl : ll.fwds.length = ll.targets.length
    · rw [if_pos hl]
      have hl' : fs.length = ll.targets.length := by rw [← hl, hf]; simp
      match hw : wrapFwds ll.fwds with
      | .error e =>
        simp only [error_bind]
        constructor
        · rintro ⟨ll', h1, _⟩; simp at h1
        · intro hS
          cases hS with
          | targets _ _ _ h4 =>
            have := (wrapFwds_ok_iff fs).2 h4
            rw [← hf, hw] at this
            simp at this
          | ratio h1 _ _ => exact absurd h1 (by simp [h.1, hfs])
          | loglike h1 _ _ _ => exact absurd h1 (by simp [h.1, hfs])
      | .ok r =>
        simp only [ok_bind]
        have h4 : ∀ f ∈ fs, Interpretable f := by
          apply (wrapFwds_ok_iff fs).1
          rw [← hf]; exact ⟨r, hw⟩
        constructor
        · rintro ⟨ll', h1, h2⟩
          change Except.ok _ = Except.ok _ at h1
          injection h1 with h1
          subst h1
          simp only [Option.some.injEq] at h2
          subst h2
          exact .targets h.1 hfs hl' h4
        · intro hS
          cases hS with
          | targets _ _ _ _ => exact ⟨_, rfl, rfl⟩
          | ratio h1 _ _ => exact absurd h1 (by simp [h.1, hfs])
          | loglike h1 _ _ _ => exact absurd h1 (by simp [h.1, hfs])
    · rw [if_neg hl]
      constructor
      · rintro ⟨ll', h1, _⟩; simp at h1
      · intro hS
        cases hS with
        | targets _ _ h3 _ => exact absurd (by rw [hf]; simpa using h3) hl
        | ratio h1 _ _ => exact absurd h1 (by simp [h.1, hfs])
        | loglike h1 _ _ _ => exact absurd h1 (by simp [h.1, hfs])
  · rw [if_neg h]
    have h1 : ll.targets = [] ∨ fs = [] := by
      by_contra hc
      rw [not_or] at hc
      exact h ⟨hc.1, by rw [hf]; simpa using hc.2⟩
    have hnt : ¬ Selects ll.targets fs ratio loglike .targets := by
      intro hS
      cases hS with
      | targets a b _ _ => rcases h1 with h1 | h1 <;> contradiction
    -- the two remaining ways
    have hr : ∀ (x : UF Unit ℝ) (s' : Sel) (upd : Pre Unit ℝ → LL),
        (∀ p, (upd p).sel = some s') →
        ((∃ ll', (do let p ← preprocess x; return upd p : Except PyErr LL) = .ok ll' ∧
          ll'.sel = some s) ↔ Interpretable x ∧ s = s') := by
      intro x s' upd hupd
      rw [← preprocess_ok_iff]
      match hp : preprocess x with
      | .error e => simp
      | .ok p =>
        simp only [ok_bind]
        constructor
        · rintro ⟨ll', h2, h3⟩
          change Except.ok _ = Except.ok _ at h2
          injection h2 with h2
          subst h2
          rw [hupd] at h3
          exact ⟨⟨p, rfl⟩, by simpa using h3.symm⟩
        · rintro ⟨_, rfl⟩
          exact ⟨_, rfl, hupd p⟩
    have hsel_ratio : Given ratio → (Selects ll.targets fs ratio loglike s ↔
        Interpretable ratio ∧ s = .ratio) := by
      intro hg
      constructor
      · intro hS
        cases hS with
        | targets a b c d => exact absurd (.targets a b c d) hnt
        | ratio _ _ h3 => exact ⟨h3, rfl⟩
        | loglike _ h2 _ _ => exact absurd hg h2
      · rintro ⟨h3, rfl⟩; exact .ratio h1 hg h3
    have hsel_ll : ¬ Given ratio → (Selects ll.targets fs ratio loglike s ↔
        Given loglike ∧ Interpretable loglike ∧ s = .loglike) := by
      intro hg
      constructor
      · intro hS
        cases hS with
        | targets a b c d => exact absurd (.targets a b c d) hnt
        | ratio _ h2 _ => exact absurd h2 hg
        | loglike _ _ h3 h4 => exact ⟨h3, h4, rfl⟩
      · rintro ⟨h3, h4, rfl⟩; exact .loglike h1 hg h3 h4
    have hll : ¬ Given ratio → ((∃ ll', (match loglike with
      | .none | .seq [] => (.error .valueError : Except PyErr LL)
      | _ => do
        let p ← preprocess loglike
        return { ll with loglikeFunc := some p, sel := some .loglike }) = .ok ll' ∧
          ll'.sel = some s) ↔ Selects ll.targets fs ratio loglike s) := by
      intro hg
      rw [hsel_ll hg]
      match loglike with
      | .none => simp [Given]
      | .seq [] => simp [Given]
      | .instance_ l => rw [hr _ .loglike _ (fun _ => rfl)]; simp [Given]
      | .callable f => rw [hr _ .loglike _ (fun _ => rfl)]; simp [Given]
      | .other => rw [hr _ .loglike _ (fun _ => rfl)]; simp [Given]
      | .seq (a :: b) => rw [hr _ .loglike _ (fun _ => rfl)]; simp [Given]
    clear hnt hsel_ll
    rcases ratio with _ | l | f | (_ | ⟨a, b⟩) | _
    all_goals first
      | exact hll (by simp [Given])
      | (rw [hsel_ratio (by simp [Given])]; exact hr _ .ratio _ (fun _ => rfl))

/-- C34: construction succeeds with the way `s` of computing the ratio exactly when the arguments
are well typed, the target names are distinct, and the documented precedence selects `s`.  (So
`Selects` being a partial function of the arguments, exactly one way is in use after success.) -/
theorem C34_selection (targets : Arg TObj) (fwds : Arg FObj) (ratio loglike : UF Unit ℝ) (s : Sel) :
    (∃ ll, LL.init targets fwds ratio loglike = .ok ll ∧ ll.sel = some s) ↔
      ∃ ts fs, WellTyped targets fwds ts fs ∧ Selects ts fs ratio loglike s := by
  unfold LL.init
  match ha : LL.addTargets {} targets fwds with
  | (.error e, ll) =>
    simp only
    constructor
    · rintro ⟨_, h, _⟩; simp at h
    · rintro ⟨ts, fs, hw, _⟩
      obtain ⟨ll', hl'⟩ : ∃ ll', LL.addTargets {} targets fwds = (.ok (), ll') :=
        ⟨{ targets := ts, fwds := fs.map Sum.inl, noise :=
          (if (ts.filter (·.hierarchical)).isEmpty then none
            else some (ts.filter (·.hierarchical))) },
          (addTargets_init _ _ _).2 ⟨ts, fs, hw, rfl, rfl, rfl, rfl, rfl, rfl, rfl, rfl⟩⟩
      rw [ha] at hl'
      simp at hl'
  | (.ok (), ll) =>
    simp only
    obtain ⟨ts, fs, hw, h1, h2, _⟩ := (addTargets_init _ _ _).1 ha
    rw [initRatio_iff ll ts fs h1 h2]
    constructor
    · intro h; exact ⟨ts, fs, hw, h⟩
    · rintro ⟨ts', fs', hw', h⟩
      have e1 : fs' = fs := by rw [← hw.fwds_eq, ← hw'.fwds_eq]
      have e2 : ts' = ts := by
        have := hw.targets_eq.symm.trans hw'.targets_eq
        have h3 := (checkTargets_ok_iff (ts.map .target) ts').2 this
        have h4 := (checkTargets_ok_iff (ts.map .target) ts).2 rfl
        rw [h3] at h4
        simpa using h4
      rw [← e1, ← e2]; exact h

/-- C34: at most one way of computing the ratio is selected by given arguments. -/
theorem C34_unique (ts : List Target) (fs : List FObj) (ratio loglike : UF Unit ℝ) (s s' : Sel)
    (h : Selects ts fs ratio loglike s) (h' : Selects ts fs ratio loglike s') : s = s' := by
  cases h <;> cases h' <;> first | rfl | (exfalso; simp_all)

/-- C34: every successful construction has selected some way. -/
theorem C34_success_selects (targets : Arg TObj) (fwds : Arg FObj) (ratio loglike : UF Unit ℝ)
    (ll : LL) (h : LL.init targets fwds ratio loglike = .ok ll) : ∃ s, ll.sel = some s := by
  unfold LL.init at h
  match ha : LL.addTargets {} targets fwds with
  | (.error e, ll') => rw [ha] at h; simp at h
  | (.ok (), ll') =>
    rw [ha] at h
    simp only [LL.initRatio] at h
    split at h
    · split at h
      · match hw : wrapFwds ll'.fwds with
        | .error e => rw [hw] at h; simp at h
        | .ok r =>
          rw [hw] at h
          simp only [ok_bind] at h
          change Except.ok _ = Except.ok _ at h
          injection h with h
          subst h
          exact ⟨_, rfl⟩
      · simp at h
    · have aux : ∀ (x : UF Unit ℝ) (upd : Pre Unit ℝ → LL) (s : Sel),
          (∀ p, (upd p).sel = some s) →
          (do let p ← preprocess x; return upd p : Except PyErr LL) = .ok ll →
          ∃ s, ll.sel = some s := by
        intro x upd s hu hx
        match hp : preprocess x with
        | .error e => rw [hp] at hx; simp at hx
        | .ok p =>
          rw [hp] at hx
          simp only [ok_bind] at hx
          change Except.ok _ = Except.ok _ at hx
          injection hx with hx
          subst hx
          exact ⟨s, hu p⟩
      split at h
      · split at h
        · simp at h
        · simp at h
        · exact aux _ _ .loglike (fun _ => rfl) h
      · split at h
        · simp at h
        · simp at h
        · exact aux _ _ .loglike (fun _ => rfl) h
      · exact aux _ _ .ratio (fun _ => rfl) h

/-- C34: nothing usable given raises `ValueError`; a length mismatch raises `AssertionError`;
duplicate target names raise `ValueError`. -/
theorem C34_errors (targets : Arg TObj) (fwds : Arg FObj) (ratio loglike : UF Unit ℝ)
    (ts : List Target) (fs : List FObj) (h1 : targets.toList?.getD [] = ts.map .target)
    (h2 : fwds.toList?.getD [] = fs) (h3 : ∀ f ∈ fs, isCallableOrTuple f = true) :
    (¬ (ts.map (·.name)).Nodup → LL.init targets fwds ratio loglike = .error .valueError) ∧
    ((ts.map (·.name)).Nodup → (ts = [] ∨ fs = []) → ¬ Given ratio → ¬ Given loglike →
      LL.init targets fwds ratio loglike = .error .valueError) ∧
    ((ts.map (·.name)).Nodup → ts ≠ [] → fs ≠ [] → fs.length ≠ ts.length →
      LL.init targets fwds ratio loglike = .error .assertionError) := by
  refine ⟨?_, ?_, ?_⟩
  · intro hnd
    unfold LL.init LL.addTargets
    have hfin : ∀ (ll0 : LL) (o : Option (List Target)), ll0.targets = ts →
        LL.finish ll0 o = (.error .valueError, ll0) := by
      intro ll0 o h
      unfold LL.finish
      rw [h, if_neg hnd]
    have hall : fs.all isCallableOrTuple = true := by simpa using h3
    match ht : targets.toList? with
    | none =>
      exfalso
      rw [ht] at h1
      have : ts = [] := by simpa using h1.symm
      subst this
      exact hnd (by simp)
    | some ts0 =>
      rw [ht] at h1
      have hc : checkTargets ts0 = .ok ts := (checkTargets_ok_iff ts0 ts).2 h1
      simp only [hc, Except.map]
      match hf : fwds.toList? with
      | none => simp only; rw [hfin _ _ (by simp)]
      | some fs0 =>
        rw [hf] at h2
        have : fs0 = fs := h2
        subst this
        simp only [hall, if_true]
        rw [hfin _ _ (by simp)]
  · intro hnd he hr hl
    have hw : WellTyped targets fwds ts fs := ⟨h1, h2, h3, hnd⟩
    have hadd := (addTargets_init targets fwds { targets := ts, fwds := fs.map Sum.inl, noise :=
          (if (ts.filter (·.hierarchical)).isEmpty then none
            else some (ts.filter (·.hierarchical))) }).2
        ⟨ts, fs, hw, rfl, rfl, rfl, rfl, rfl, rfl, rfl, rfl⟩
    unfold LL.init
    rw [hadd]
    simp only [LL.initRatio]
    have hcond : ¬ (ts ≠ [] ∧ fs.map (Sum.inl : FObj → FObj ⊕ Pre Fwd ℝ) ≠ []) := by
      rcases he with he | he <;> simp [he]
    rw [if_neg hcond]
    match ratio, loglike with
    | .none, .none => rfl
    | .none, .seq [] => rfl
    | .seq [], .none => rfl
    | .seq [], .seq [] => rfl
    | .instance_ _, _ => simp [Given] at hr
    | .callable _, _ => simp [Given] at hr
    | .other, _ => simp [Given] at hr
    | .seq (_ :: _), _ => simp [Given] at hr
    | _, .instance_ _ => simp [Given] at hl
    | _, .callable _ => simp [Given] at hl
    | _, .other => simp [Given] at hl
    | _, .seq (_ :: _) => simp [Given] at hl
  · intro hnd ht hf hlen
    have hw : WellTyped targets fwds ts fs := ⟨h1, h2, h3, hnd⟩
    have hadd := (addTargets_init targets fwds { targets := ts, fwds := fs.map Sum.inl, noise :=
          (if (ts.filter (·.hierarchical)).isEmpty then none
            else some (ts.filter (·.hierarchical))) }).2
        ⟨ts, fs, hw, rfl, rfl, rfl, rfl, rfl, rfl, rfl, rfl⟩
    unfold LL.init
    rw [hadd]
    simp only [LL.initRatio]
    rw [if_pos ⟨ht, by simpa using hf⟩, if_neg (by simpa using hlen)]

/-- Two targets, two forward functions. -/
noncomputable def exTargets : List Target := [{ name := "a", dobs := [1] }, { name := "b", dobs := [2] }]

example : ∃ ll, LL.init (.list (exTargets.map .target))
    (.list [.callable fun _ => some [1], .callable fun _ => some [2]]) .none (.callable ()) = .ok ll ∧
    ll.sel = some .targets := by
  rw [C34_selection]
  refine ⟨exTargets, _, ⟨rfl, rfl, ?_, ?_⟩, .targets ?_ ?_ ?_ ?_⟩
  · intro f hf
    simp only [Arg.toList?, Option.getD, List.mem_cons, List.not_mem_nil, or_false] at hf
    rcases hf with rfl | rfl <;> rfl
  · simp [exTargets]
  · simp [exTargets]
  · simp [Arg.toList?]
  · rfl
  · intro f hf
    simp only [Arg.toList?, Option.getD, List.mem_cons, List.not_mem_nil, or_false] at hf
    rcases hf with rfl | rfl <;> simp [Interpretable]

/-! ### C35 -/

/-- C35 is false of the code: `add_targets` with a duplicate name raises `ValueError` and leaves the
duplicate target and its forward function in the likelihood. -/
theorem C35_duplicate_counterexample :
    ∃ (ll : LL) (t : Target) (f : FObj), (ll.targets.map (·.name)).Nodup ∧
      (ll.addTargets (.one (.target t)) (.one f)).1 = .error .valueError ∧
      (ll.addTargets (.one (.target t)) (.one f)).2.targets = ll.targets ++ [t] ∧
      (ll.addTargets (.one (.target t)) (.one f)).2.fwds = ll.fwds ++ [.inl f] := by
  refine ⟨{ targets := [{ name := "a", dobs := [1] }] }, { name := "a", dobs := [2] },
    .callable fun _ => some [2], by simp, ?_, ?_, ?_⟩ <;>
    simp [LL.addTargets, Arg.toList?, checkTargets, LL.finish, isCallableOrTuple, bind, Except.bind,
      pure, Except.pure, Except.map]

/-- C35 is false of the code: a bad forward function raises `TypeError` after the targets have
already been added. -/
theorem C35_bad_forward_counterexample (ll : LL) (t : Target) :
    (ll.addTargets (.one (.target t)) (.one .other)).1 = .error .typeError ∧
      (ll.addTargets (.one (.target t)) (.one .other)).2.targets = ll.targets ++ [t] := by
  constructor <;>
    simp [LL.addTargets, Arg.toList?, checkTargets, isCallableOrTuple, bind, Except.bind,
      pure, Except.pure, Except.map]

/-- C35, the part that holds: an object that is not a target is rejected before anything is
changed. -/
theorem C35_bad_target_partial (ll : LL) (targets : Arg TObj) (fwds : Arg FObj)
    (h : ∃ ts, targets.toList? = some ts ∧ TObj.other ∈ ts) :
    ll.addTargets targets fwds = (.error .typeError, ll) := by
  obtain ⟨ts, ht, hm⟩ := h
  have hc : checkTargets ts = .error .typeError := by
    clear ht
    induction ts with
    | nil => simp at hm
    | cons x ts ih =>
      cases x with
      | other => rfl
      | target t =>
        have hm' : TObj.other ∈ ts := by simpa using hm
        simp only [checkTargets, ih hm', error_bind]
  unfold LL.addTargets
  simp only [ht, hc, Except.map]

/-- C35, the part that holds: on success all targets and all forward functions have been added, the
noise perturbation covers all the targets with inferred noise, and every observer is notified once
of the added targets. -/
theorem C35_success_partial (ll : LL) (ts : List Target) (fs : List FObj) (ll' : LL)
    (h : ll.addTargets (.list (ts.map .target)) (.list fs) = (.ok (), ll')) :
    ll'.targets = ll.targets ++ ts ∧ ll'.fwds = ll.fwds ++ fs.map Sum.inl ∧
      (ll'.targets.map (·.name)).Nodup ∧
      ll'.noise.getD [] = ll'.targets.filter (·.hierarchical) ∧
      ll'.notified = ll.notified ++ List.replicate ll.observers ts ∧ ll'.sel = ll.sel := by
  unfold LL.addTargets at h
  have hc : checkTargets (ts.map .target) = .ok ts := (checkTargets_ok_iff _ ts).2 rfl
  simp only [Arg.toList?, hc, Except.map, Option.getD_some] at h
  split at h
  · unfold LL.finish at h
    split at h
    · rename_i hnd
      simp only [Prod.mk.injEq, true_and] at h
      subst h
      refine ⟨rfl, rfl, hnd, ?_, rfl, rfl⟩
      simp only
      split
      · rename_i he
        simp only [Option.getD_none]
        exact (List.isEmpty_iff.1 he).symm
      · rfl
    · simp at h
  · simp at h

/-- C35: a further disagreement.  The added forward functions are stored as given, so a function
described by a tuple `(f, args)` is never wrapped after the construction (it is a plain tuple that
will be called), and a likelihood built from a user function keeps ignoring the targets. -/
theorem C35_not_wrapped_counterexample (ll : LL) (t : Target) (items : List (Item Fwd ℝ)) (ll' : LL)
    (h : ll.addTargets (.one (.target t)) (.one (.seq items)) = (.ok (), ll')) :
    ll'.fwds = ll.fwds ++ [.inl (.seq items)] ∧ ll'.sel = ll.sel := by
  have := C35_success_partial ll [t] [.seq items] ll' h
  exact ⟨this.2.1, this.2.2.2.2.2⟩

/-- What is accepted as a forward function: functions, tuples and callable objects. -/
inductive AcceptedFwd : FObj → Prop
  | callable (f) : AcceptedFwd (.callable f)
  | seq (l) : AcceptedFwd (.seq l)
  | instance_ (n) : AcceptedFwd (.instance_ n)

theorem accepted_iff (f : FObj) : isCallableOrTuple f = true ↔ AcceptedFwd f := by
  constructor
  · intro h
    cases f <;> first | constructor | simp [isCallableOrTuple] at h
  · rintro (_ | _ | _) <;> rfl

/-- C35, the outcomes for lists of targets and of objects as forward functions: `TypeError` if one of the latter is not accepted, otherwise
`ValueError` if names coincide, otherwise success. -/
theorem C35_outcome (ll : LL) (ts : List Target) (fs : List FObj) :
    ((∃ f ∈ fs, ¬ AcceptedFwd f) → (ll.addTargets (.list (ts.map .target)) (.list fs)).1 = .error .typeError) ∧
    ((∀ f ∈ fs, AcceptedFwd f) → ¬ ((ll.targets ++ ts).map (·.name)).Nodup →
      (ll.addTargets (.list (ts.map .target)) (.list fs)).1 = .error .valueError) ∧
    ((∀ f ∈ fs, AcceptedFwd f) → ((ll.targets ++ ts).map (·.name)).Nodup →
      (ll.addTargets (.list (ts.map .target)) (.list fs)).1 = .ok ()) := by
  have hc : checkTargets (ts.map .target) = .ok ts := (checkTargets_ok_iff _ ts).2 rfl
  have hall : fs.all isCallableOrTuple = true ↔ ∀ f ∈ fs, AcceptedFwd f := by
    rw [List.all_eq_true]
    exact forall₂_congr fun f _ => accepted_iff f
  unfold LL.addTargets
  simp only [Arg.toList?, hc, Except.map, Option.getD_some]
  refine ⟨?_, fun h hn => ?_, fun h hn => ?_⟩
  · rintro ⟨f, hf, hn⟩
    rw [if_neg fun h => hn (hall.1 h f hf)]
  · rw [if_pos (hall.2 h)]
    unfold LL.finish
    simp only
    rw [if_neg hn]
  · rw [if_pos (hall.2 h)]
    unfold LL.finish
    simp only
    rw [if_pos hn]

/-- A tuple is accepted. -/
example : (({} : LL).addTargets (.list ([{ name := "a", dobs := [1] }].map .target)) (.list [.seq []])).1 = .ok () :=
  (C35_outcome {} [{ name := "a", dobs := [1] }] [.seq []]).2.2 (by simp only [List.mem_singleton]; rintro f rfl; exact .seq _) (by simp)

example : ∃ ll', ({ sel := some .loglike } : LL).addTargets
    (.list [.target { name := "a", dobs := [1] }]) (.list [.callable fun _ => some [1]])
      = (.ok (), ll') ∧ ll'.targets.length = 1 := by
  refine ⟨_, rfl, ?_⟩
  simp

end BB.Props
