import Verif.Model.Chain
import Verif.Lemmas.Rand
import Verif.Lemmas.Dict

/-!
# Reasoning about the chain
-/

namespace BB

namespace Act

variable {C α β : Type}

theorem pure_run (a : α) (c : C) (t : List Draw) : (pure a : Act C α) c t = (.ok a, c, t) := rfl

theorem bind_run (m : Act C α) (f : α → Act C β) (c : C) (t : List Draw) :
    (m >>= f) c t = match m c t with
      | (.ok a, c, t) => f a c t
      | (.error e, c, t) => (.error e, c, t) := rfl

theorem bind_ok {m : Act C α} {f : α → Act C β} {c c' : C} {t t' : List Draw} {b : β} :
    (m >>= f) c t = (.ok b, c', t') ↔
      ∃ a c1 t1, m c t = (.ok a, c1, t1) ∧ f a c1 t1 = (.ok b, c', t') := by
  rw [bind_run]
  match m c t with
  | (.ok a, c1, t1) => simp
  | (.error e, c1, t1) => simp

theorem throw_run (e : PyErr) (c : C) (t : List Draw) :
    (throw e : Act C α) c t = (.error e, c, t) := rfl

theorem ofM_ok {m : M α} {c c' : C} {t t' : List Draw} {a : α} :
    (ofM m : Act C α) c t = (.ok a, c', t') ↔ m t = (.ok a, t') ∧ c' = c := by
  unfold ofM
  match m t with
  | (r, t1) =>
    simp only [Prod.mk.injEq]
    constructor
    · rintro ⟨rfl, rfl, rfl⟩; exact ⟨⟨rfl, rfl⟩, rfl⟩
    · rintro ⟨⟨rfl, rfl⟩, rfl⟩; exact ⟨rfl, rfl, rfl⟩

/-- Whatever the outcome, the object afterwards is related to the object before. -/
def Keeps (m : Act C α) (R : C → C → Prop) : Prop := ∀ c t, R c (m c t).2.1

theorem Keeps.bind {m : Act C α} {f : α → Act C β} {R : C → C → Prop}
    (htrans : ∀ a b c, R a b → R b c → R a c) (hm : Keeps m R) (hf : ∀ a, Keeps (f a) R) :
    Keeps (m >>= f) R := by
  intro c t
  rw [bind_run]
  have := hm c t
  match h : m c t with
  | (.ok a, c1, t1) => rw [h] at this; exact htrans _ _ _ this (hf a c1 t1)
  | (.error e, c1, t1) => rw [h] at this; exact this

theorem Keeps.pure' {a : α} {R : C → C → Prop} (hrefl : ∀ a, R a a) :
    Keeps (pure a : Act C α) R := fun c _ => hrefl c

theorem Keeps.throw' {e : PyErr} {R : C → C → Prop} (hrefl : ∀ a, R a a) :
    Keeps (throw e : Act C α) R := fun c _ => hrefl c

theorem Keeps.ofM' {m : M α} {R : C → C → Prop} (hrefl : ∀ a, R a a) :
    Keeps (ofM m : Act C α) R := by
  intro c t
  exact hrefl c

theorem Keeps.ok {m : Act C α} {R : C → C → Prop} (h : Keeps m R) {c c' : C} {t t' : List Draw}
    {r : Except PyErr α} (e : m c t = (r, c', t')) : R c c' := by
  have := h c t; rw [e] at this; exact this

end Act

section

variable {S σ E : Type} (cfg : ChainCfg S σ)

/-- The new statistics dictionaries. -/
noncomputable def newStats (name : String) (acc : Bool) (new : S)
    (p a : List (String × Stat)) : Except PyErr (List (String × Stat) × List (String × Stat)) :=
  if name.startsWith "ParamSpacePerturbation" then do
      let st ← cfg.stats new
      bumpSubs name acc st p a
    else .ok (bumpCount name acc p a)

/-- The chain after acceptance test and statistics. -/
def afterStats (c : Chain S σ E) (new : S) (acc : Bool) (p a : List (String × Stat)) :
    Chain S σ E :=
  { c with cur := if acc then new else c.cur, proposed := p, accepted := a, total := c.total + 1,
           accTotal := c.accTotal + if acc then 1 else 0 }

open Classical in
/-- `finish`, as one equation. -/
theorem finish_run (name : String) (new : S) (lp : PyF) (c : Chain S σ E) (d : Draw)
    (t : List Draw) :
    Chain.finish cfg name new lp c (d :: t) =
      if d.u ≤ 0 then (.error .valueError, c, t)
      else
        match newStats cfg name (decide (lp.gtFin (Real.log d.u))) new c.proposed c.accepted with
        | .error e =>
          (.error e, { c with cur := if decide (lp.gtFin (Real.log d.u)) then new else c.cur }, t)
        | .ok (p, a) =>
          match Chain.saveIfDue cfg
              (afterStats c new (decide (lp.gtFin (Real.log d.u))) p a) t with
          | (.ok (), c', t') =>
            (.ok { name := name, temp := c.temp, prev := c.cur, new := new, logProb := lp,
                   acc := decide (lp.gtFin (Real.log d.u)) }, c', t')
          | (.error e, c', t') => (.error e, c', t') := by
  have h1 : (Act.ofM M.random : Act (Chain S σ E) ℝ) c (d :: t) = (.ok d.u, c, t) := rfl
  unfold Chain.finish
  rw [Act.bind_run, h1]
  by_cases hu : d.u ≤ 0
  · simp only [hu, if_true]; rfl
  · simp only [hu, if_false]
    have h2 : ∀ c : Chain S σ E, (Act.get : Act (Chain S σ E) _) c t = (.ok c, c, t) :=
      fun c => rfl
    rw [Act.bind_run, h2]
    simp only
    rw [Act.bind_run]
    generalize decide (lp.gtFin (Real.log d.u)) = acc
    have h3 : (Act.modify (fun c => if acc = true then { c with cur := new } else c) :
        Act (Chain S σ E) Unit) c t = (.ok (), { c with cur := if acc then new else c.cur }, t) := by
      cases acc <;> rfl
    rw [h3]
    simp only
    rw [Act.bind_run]
    have h4 : Chain.saveStatistics cfg name acc new
        { c with cur := if acc then new else c.cur } t =
        match newStats cfg name acc new c.proposed c.accepted with
        | .error e => (.error e, { c with cur := if acc then new else c.cur }, t)
        | .ok (p, a) => (.ok (), afterStats c new acc p a, t) := rfl
    rw [h4]
    match newStats cfg name acc new c.proposed c.accepted with
    | .error e => rfl
    | .ok (p, a) =>
      simp only
      rw [Act.bind_run]
      match Chain.saveIfDue cfg (afterStats c new acc p a) t with
      | (.ok (), c', t') => rfl
      | (.error e, c', t') => rfl

theorem finish_nil (name : String) (new : S) (lp : PyF) (c : Chain S σ E) :
    Chain.finish cfg name new lp c [] = (.error .tapeExhausted, c, []) := rfl

theorem saveIfDue_tape (c : Chain S σ E) (t : List Draw) :
    (Chain.saveIfDue cfg c t).2.2 = t := by
  unfold Chain.saveIfDue; split <;> rfl

open Classical in
theorem finish_ok {name : String} {new : S} {lp : PyF} {c c' : Chain S σ E} {t t' : List Draw}
    {ev : Event S} :
    Chain.finish cfg name new lp c t = (.ok ev, c', t') ↔
      ∃ d, t = d :: t' ∧ 0 < d.u ∧
        ev = { name := name, temp := c.temp, prev := c.cur, new := new, logProb := lp,
               acc := decide (lp.gtFin (Real.log d.u)) } ∧
        ∃ p a, newStats cfg name ev.acc new c.proposed c.accepted = .ok (p, a) ∧
          Chain.saveIfDue cfg (afterStats c new ev.acc p a) t' = (.ok (), c', t') := by
  cases t with
  | nil => rw [finish_nil]; simp
  | cons d t =>
    rw [finish_run]
    constructor
    · intro h
      split at h
      · simp at h
      · rename_i hu
        split at h
        · simp at h
        · rename_i p a hn
          have ht := saveIfDue_tape cfg (afterStats c new (decide (lp.gtFin (Real.log d.u))) p a) t
          split at h
          · rename_i c1 t1 hs
            rw [hs] at ht
            simp only [Prod.mk.injEq, Except.ok.injEq] at h
            obtain ⟨rfl, rfl, rfl⟩ := h
            simp only at ht
            subst ht
            exact ⟨d, rfl, lt_of_not_ge hu, rfl, p, a, hn, hs⟩
          · simp at h
    · rintro ⟨d', hd, hu, rfl, p, a, hn, hs⟩
      obtain ⟨rfl, rfl⟩ : d = d' ∧ t = t' := by simpa using hd
      simp only at hn hs
      rw [if_neg (not_le.2 hu), hn]
      simp only [hs]

/-- The end of an iteration does not raise when the statistics and the saving do not. -/
theorem finish_exists {name : String} {new : S} {lp : PyF} {c : Chain S σ E} {d : Draw}
    {t : List Draw} (hu : 0 < d.u) (hs : ∀ s l, (cfg.save s l).1 = .ok ())
    (hn : ∀ b, ∃ p a, newStats cfg name b new c.proposed c.accepted = .ok (p, a)) :
    ∃ ev c', Chain.finish cfg name new lp c (d :: t) = (.ok ev, c', t) := by
  classical
  obtain ⟨p, a, h⟩ := hn (decide (lp.gtFin (Real.log d.u)))
  have hsave : ∃ c', Chain.saveIfDue cfg
      (afterStats c new (decide (lp.gtFin (Real.log d.u))) p a) t = (.ok (), c', t) := by
    unfold Chain.saveIfDue
    split
    · have := hs (afterStats c new (decide (lp.gtFin (Real.log d.u))) p a).cur
        (afterStats c new (decide (lp.gtFin (Real.log d.u))) p a).saved
      match hm : cfg.save (afterStats c new (decide (lp.gtFin (Real.log d.u))) p a).cur
        (afterStats c new (decide (lp.gtFin (Real.log d.u))) p a).saved with
      | (r, s) => rw [hm] at this; simp only at this; subst this; exact ⟨_, rfl⟩
    · exact ⟨_, rfl⟩
  obtain ⟨c', hc'⟩ := hsave
  exact ⟨_, c', (finish_ok cfg).2 ⟨d, rfl, hu, rfl, p, a, h, hc'⟩⟩

/-! ### One attempt -/

/-- The outcome of one attempt, once perturbation `i` has been chosen. -/
theorem attempt_run (c : Chain S σ E) (t : List Draw) :
    Chain.attempt cfg c t =
      match choices cfg.perturbs.length cfg.weights t with
      | (.error e, t) => (.error e, c, t)
      | (.ok i, t) =>
        match cfg.perturbs[i]? with
        | none => (.error .indexError, c, t)
        | some (name, f) =>
          match f c.cur t with
          | (.error .userFunction, t) =>
            (.ok none, Chain.countException "UserFunctionException" c, t)
          | (.error e, t) => (.error e, c, t)
          | (.ok (new, lpr), t) =>
            if lpr.isInf then
              match Chain.finish cfg name new (lpr.add (.fin 0)) c t with
              | (.ok ev, c, t) => (.ok (some ev), c, t)
              | (.error e, c, t) => (.error e, c, t)
            else
              match cfg.llr c.cur new c.temp with
              | (.error .userFunction, cur, _) =>
                (.ok none, Chain.countException "UserFunctionException" { c with cur := cur }, t)
              | (.error .forward, cur, _) =>
                (.ok none, Chain.countException "ForwardException" { c with cur := cur }, t)
              | (.error e, cur, _) => (.error e, { c with cur := cur }, t)
              | (.ok r, cur, new) =>
                match Chain.finish cfg name new (lpr.add r) { c with cur := cur } t with
                | (.ok ev, c, t) => (.ok (some ev), c, t)
                | (.error e, c, t) => (.error e, c, t) := by
  unfold Chain.attempt
  rw [Act.bind_run]
  unfold Act.ofM
  match choices cfg.perturbs.length cfg.weights t with
  | (.error e, t) => rfl
  | (.ok i, t) =>
    simp only
    match cfg.perturbs[i]? with
    | none => rfl
    | some (name, f) =>
      simp only
      match f c.cur t with
      | (.error e, t) => cases e <;> rfl
      | (.ok (new, lpr), t) =>
        simp only
        cases lpr.isInf with
        | true =>
          simp only [if_true]
          rw [Act.bind_run]
          match Chain.finish cfg name new (lpr.add (.fin 0)) c t with
          | (.ok ev, c, t) => rfl
          | (.error e, c, t) => rfl
        | false =>
          simp only [Bool.false_eq_true, if_false]
          rw [Act.bind_run]
          unfold Chain.ratio
          match cfg.llr c.cur new c.temp with
          | (.error e, cur, _) => cases e <;> rfl
          | (.ok r, cur, new) =>
            simp only
            rw [Act.bind_run]
            match Chain.finish cfg name new (lpr.add r) { c with cur := cur } t with
            | (.ok ev, c, t) => rfl
            | (.error e, c, t) => rfl

/-- Perturbation `(name, f)` has been chosen on the tape `t`, leaving `t'`. -/
def Chosen (t : List Draw) (name : String) (f : S → M (S × PyF)) (t' : List Draw) : Prop :=
  ∃ i, choices cfg.perturbs.length cfg.weights t = (.ok i, t') ∧ cfg.perturbs[i]? = some (name, f)

theorem attempt_chosen {c : Chain S σ E} {t t1 : List Draw} {name : String}
    {f : S → M (S × PyF)} (h : Chosen cfg t name f t1) :
    Chain.attempt cfg c t =
          match f c.cur t1 with
          | (.error .userFunction, t) =>
            (.ok none, Chain.countException "UserFunctionException" c, t)
          | (.error e, t) => (.error e, c, t)
          | (.ok (new, lpr), t) =>
            if lpr.isInf then
              match Chain.finish cfg name new (lpr.add (.fin 0)) c t with
              | (.ok ev, c, t) => (.ok (some ev), c, t)
              | (.error e, c, t) => (.error e, c, t)
            else
              match cfg.llr c.cur new c.temp with
              | (.error .userFunction, cur, _) =>
                (.ok none, Chain.countException "UserFunctionException" { c with cur := cur }, t)
              | (.error .forward, cur, _) =>
                (.ok none, Chain.countException "ForwardException" { c with cur := cur }, t)
              | (.error e, cur, _) => (.error e, { c with cur := cur }, t)
              | (.ok r, cur, new) =>
                match Chain.finish cfg name new (lpr.add r) { c with cur := cur } t with
                | (.ok ev, c, t) => (.ok (some ev), c, t)
                | (.error e, c, t) => (.error e, c, t) := by
  obtain ⟨i, h1, h2⟩ := h
  rw [attempt_run, h1]
  simp only [h2]

theorem attempt_not_chosen {c : Chain S σ E} {t : List Draw}
    (h : ∀ name f t1, ¬ Chosen cfg t name f t1) :
    ∃ e t', Chain.attempt cfg c t = (.error e, c, t') := by
  rw [attempt_run]
  match h1 : choices cfg.perturbs.length cfg.weights t with
  | (.error e, t1) => exact ⟨e, t1, rfl⟩
  | (.ok i, t1) =>
    match h2 : cfg.perturbs[i]? with
    | none => exact ⟨.indexError, t1, by simp only [h2]⟩
    | some (name, f) => exact absurd ⟨i, h1, h2⟩ (h name f t1)

/-- Exactly when an attempt is abandoned (`continue`), and what it leaves behind. -/
theorem attempt_none {c c' : Chain S σ E} {t t' : List Draw} :
    Chain.attempt cfg c t = (.ok none, c', t') ↔
      ∃ name f t1, Chosen cfg t name f t1 ∧
        ((f c.cur t1 = (.error .userFunction, t') ∧
            c' = Chain.countException "UserFunctionException" c) ∨
         (∃ new lpr, f c.cur t1 = (.ok (new, lpr), t') ∧ lpr.isInf = false ∧
            (((cfg.llr c.cur new c.temp).1 = .error .userFunction ∧
                c' = Chain.countException "UserFunctionException"
                  { c with cur := (cfg.llr c.cur new c.temp).2.1 }) ∨
             ((cfg.llr c.cur new c.temp).1 = .error .forward ∧
                c' = Chain.countException "ForwardException"
                  { c with cur := (cfg.llr c.cur new c.temp).2.1 })))) := by
  by_cases hch : ∃ name f t1, Chosen cfg t name f t1
  · obtain ⟨name, f, t1, hch⟩ := hch
    have huniq : ∀ name' f' t1', Chosen cfg t name' f' t1' → name' = name ∧ f' = f ∧ t1' = t1 := by
      rintro name' f' t1' ⟨i, h1, h2⟩
      obtain ⟨j, h3, h4⟩ := hch
      rw [h3] at h1
      simp only [Prod.mk.injEq, Except.ok.injEq] at h1
      obtain ⟨rfl, rfl⟩ := h1
      rw [h4] at h2
      simp only [Option.some.injEq, Prod.mk.injEq] at h2
      exact ⟨h2.1.symm, h2.2.symm, rfl⟩
    rw [attempt_chosen cfg hch]
    constructor
    · intro h
      refine ⟨name, f, t1, hch, ?_⟩
      split at h
      · rename_i t2 hf
        simp only [Prod.mk.injEq, true_and] at h
        obtain ⟨rfl, rfl⟩ := h
        exact Or.inl ⟨hf, rfl⟩
      · simp at h
      · rename_i new lpr t2 hf
        right
        refine ⟨new, lpr, ?_⟩
        split at h
        · split at h <;> simp at h
        · rename_i hi
          have hi' : lpr.isInf = false := by simpa using hi
          split at h
          · rename_i cur x hl
            simp only [Prod.mk.injEq, true_and] at h
            obtain ⟨rfl, rfl⟩ := h
            refine ⟨hf, hi', Or.inl ?_⟩
            rw [hl]; exact ⟨rfl, rfl⟩
          · rename_i cur x hl
            simp only [Prod.mk.injEq, true_and] at h
            obtain ⟨rfl, rfl⟩ := h
            refine ⟨hf, hi', Or.inr ?_⟩
            rw [hl]; exact ⟨rfl, rfl⟩
          · simp at h
          · split at h <;> simp at h
    · rintro ⟨name', f', t1', hch', h⟩
      obtain ⟨rfl, rfl, rfl⟩ := huniq _ _ _ hch'
      rcases h with ⟨hf, rfl⟩ | ⟨new, lpr, hf, hi, ⟨hl, rfl⟩ | ⟨hl, rfl⟩⟩
      · rw [hf]
      · rw [hf]
        simp only [hi, Bool.false_eq_true, if_false]
        match hh : cfg.llr c.cur new c.temp, hl with
        | (.error .userFunction, cur, n), _ => rfl
      · rw [hf]
        simp only [hi, Bool.false_eq_true, if_false]
        match hh : cfg.llr c.cur new c.temp, hl with
        | (.error .forward, cur, n), _ => rfl
  · constructor
    · intro h
      obtain ⟨e, t2, he⟩ := attempt_not_chosen cfg (c := c) (t := t)
        (fun name f t1 hh => hch ⟨name, f, t1, hh⟩)
      rw [he] at h; simp at h
    · rintro ⟨name, f, t1, hh, -⟩
      exact absurd ⟨name, f, t1, hh⟩ hch

/-- Exactly when an attempt completes the iteration. -/
theorem attempt_some {c c' : Chain S σ E} {t t' : List Draw} {ev : Event S} :
    Chain.attempt cfg c t = (.ok (some ev), c', t') ↔
      ∃ name f t1 new lpr t2, Chosen cfg t name f t1 ∧ f c.cur t1 = (.ok (new, lpr), t2) ∧
        ((lpr.isInf = true ∧
            Chain.finish cfg name new (lpr.add (.fin 0)) c t2 = (.ok ev, c', t')) ∨
         (lpr.isInf = false ∧ ∃ r cur1 new1, cfg.llr c.cur new c.temp = (.ok r, cur1, new1) ∧
            Chain.finish cfg name new1 (lpr.add r) { c with cur := cur1 } t2 =
              (.ok ev, c', t'))) := by
  by_cases hch : ∃ name f t1, Chosen cfg t name f t1
  · obtain ⟨name, f, t1, hch⟩ := hch
    have huniq : ∀ name' f' t1', Chosen cfg t name' f' t1' → name' = name ∧ f' = f ∧ t1' = t1 := by
      rintro name' f' t1' ⟨i, h1, h2⟩
      obtain ⟨j, h3, h4⟩ := hch
      rw [h3] at h1
      simp only [Prod.mk.injEq, Except.ok.injEq] at h1
      obtain ⟨rfl, rfl⟩ := h1
      rw [h4] at h2
      simp only [Option.some.injEq, Prod.mk.injEq] at h2
      exact ⟨h2.1.symm, h2.2.symm, rfl⟩
    rw [attempt_chosen cfg hch]
    constructor
    · intro h
      split at h
      · simp at h
      · simp at h
      · rename_i new lpr t2 hf
        refine ⟨name, f, t1, new, lpr, t2, hch, hf, ?_⟩
        split at h
        · rename_i hi
          left
          refine ⟨hi, ?_⟩
          split at h
          · rename_i ev' c1 t3 hfin
            simp only [Prod.mk.injEq, Except.ok.injEq, Option.some.injEq] at h
            obtain ⟨rfl, rfl, rfl⟩ := h
            exact hfin
          · simp at h
        · rename_i hi
          right
          refine ⟨by simpa using hi, ?_⟩
          split at h
          · simp at h
          · simp at h
          · simp at h
          · rename_i r cur new1 hl
            refine ⟨r, cur, new1, hl, ?_⟩
            split at h
            · rename_i ev' c1 t3 hfin
              simp only [Prod.mk.injEq, Except.ok.injEq, Option.some.injEq] at h
              obtain ⟨rfl, rfl, rfl⟩ := h
              exact hfin
            · simp at h
    · rintro ⟨name', f', t1', new, lpr, t2, hch', hf, h⟩
      obtain ⟨rfl, rfl, rfl⟩ := huniq _ _ _ hch'
      rw [hf]
      rcases h with ⟨hi, hfin⟩ | ⟨hi, r, cur1, new1, hl, hfin⟩
      · simp only [hi, if_true, hfin]
      · simp only [hi, Bool.false_eq_true, if_false, hl, hfin]
  · constructor
    · intro h
      obtain ⟨e, t2, he⟩ := attempt_not_chosen cfg (c := c) (t := t)
        (fun name f t1 hh => hch ⟨name, f, t1, hh⟩)
      rw [he] at h; simp at h
    · rintro ⟨name, f, t1, _, _, _, hh, -⟩
      exact absurd ⟨name, f, t1, hh⟩ hch

/-! ### The loop over attempts -/

/-- `k` consecutive attempts are abandoned. -/
inductive Abandoned : ℕ → Chain S σ E → List Draw → Chain S σ E → List Draw → Prop where
  | zero (c t) : Abandoned 0 c t c t
  | succ {k c t c1 t1 c2 t2} : Chain.attempt cfg c t = (.ok none, c1, t1) →
      Abandoned k c1 t1 c2 t2 → Abandoned (k + 1) c t c2 t2

theorem attempts_succ (k : ℕ) (c : Chain S σ E) (t : List Draw) :
    Chain.attempts cfg (k + 1) c t =
      match Chain.attempt cfg c t with
      | (.ok (some ev), c, t) => (.ok ev, c, t)
      | (.ok none, c, t) => Chain.attempts cfg k c t
      | (.error e, c, t) => (.error e, c, t) := by
  change ((Chain.attempt cfg >>= fun o => match o with
    | some ev => (pure ev : Act (Chain S σ E) (Event S))
    | none => Chain.attempts cfg k) c t) = _
  rw [Act.bind_run]
  match Chain.attempt cfg c t with
  | (.ok (some ev), c, t) => rfl
  | (.ok none, c, t) => rfl
  | (.error e, c, t) => rfl

theorem attempts_abandoned {j : ℕ} {c c1 : Chain S σ E} {t t1 : List Draw}
    (h : Abandoned cfg j c t c1 t1) (k : ℕ) :
    Chain.attempts cfg (j + k) c t = Chain.attempts cfg k c1 t1 := by
  induction h with
  | zero c t => rw [Nat.zero_add]
  | succ h1 _ ih => rw [Nat.add_right_comm, attempts_succ, h1]; exact ih

theorem attempts_cases (k : ℕ) (c : Chain S σ E) (t : List Draw) :
    (∃ c1 t1, Abandoned cfg k c t c1 t1 ∧
        Chain.attempts cfg k c t = (.error .runtimeError, c1, t1)) ∨
    (∃ j, j < k ∧ ∃ c1 t1, Abandoned cfg j c t c1 t1 ∧
      ((∃ ev c2 t2, Chain.attempt cfg c1 t1 = (.ok (some ev), c2, t2) ∧
          Chain.attempts cfg k c t = (.ok ev, c2, t2)) ∨
       (∃ e c2 t2, Chain.attempt cfg c1 t1 = (.error e, c2, t2) ∧
          Chain.attempts cfg k c t = (.error e, c2, t2)))) := by
  induction k generalizing c t with
  | zero => exact Or.inl ⟨c, t, .zero c t, rfl⟩
  | succ k ih =>
    rw [attempts_succ]
    match h : Chain.attempt cfg c t with
    | (.ok (some ev), c2, t2) =>
      exact Or.inr ⟨0, Nat.succ_pos k, c, t, .zero c t, Or.inl ⟨ev, c2, t2, h, rfl⟩⟩
    | (.error e, c2, t2) =>
      exact Or.inr ⟨0, Nat.succ_pos k, c, t, .zero c t, Or.inr ⟨e, c2, t2, h, rfl⟩⟩
    | (.ok none, c1, t1) =>
      rcases ih c1 t1 with ⟨c2, t2, h1, h2⟩ | ⟨j, hj, c2, t2, h1, h2⟩
      · exact Or.inl ⟨c2, t2, .succ h h1, h2⟩
      · exact Or.inr ⟨j + 1, Nat.succ_lt_succ hj, c2, t2, .succ h h1, h2⟩

theorem attempts_ok {k : ℕ} {c c' : Chain S σ E} {t t' : List Draw} {ev : Event S} :
    Chain.attempts cfg k c t = (.ok ev, c', t') ↔
      ∃ j, j < k ∧ ∃ c1 t1, Abandoned cfg j c t c1 t1 ∧
        Chain.attempt cfg c1 t1 = (.ok (some ev), c', t') := by
  constructor
  · intro h
    rcases attempts_cases cfg k c t with ⟨c1, t1, h1, h2⟩ | ⟨j, hj, c1, t1, h1, h2⟩
    · rw [h] at h2; simp at h2
    · rcases h2 with ⟨ev', c2, t2, h3, h4⟩ | ⟨e, c2, t2, h3, h4⟩
      · rw [h] at h4
        simp only [Prod.mk.injEq, Except.ok.injEq] at h4
        obtain ⟨rfl, rfl, rfl⟩ := h4
        exact ⟨j, hj, c1, t1, h1, h3⟩
      · rw [h] at h4; simp at h4
  · rintro ⟨j, hj, c1, t1, h1, h2⟩
    obtain ⟨m, rfl⟩ : ∃ m, k = j + (m + 1) := ⟨k - j - 1, by omega⟩
    rw [attempts_abandoned cfg h1, attempts_succ, h2]

/-- The parts of the chain that an abandoned attempt leaves alone. -/
def Frame (c c' : Chain S σ E) : Prop :=
  c'.temp = c.temp ∧ c'.saved = c.saved ∧ c'.saveNow = c.saveNow ∧ c'.proposed = c.proposed ∧
    c'.accepted = c.accepted ∧ c'.total = c.total ∧ c'.accTotal = c.accTotal ∧ c'.world = c.world

theorem Frame.refl (c : Chain S σ E) : Frame c c := ⟨rfl, rfl, rfl, rfl, rfl, rfl, rfl, rfl⟩

theorem Frame.trans {a b c : Chain S σ E} (h1 : Frame a b) (h2 : Frame b c) : Frame a c := by
  obtain ⟨a1, a2, a3, a4, a5, a6, a7, a8⟩ := h1
  obtain ⟨b1, b2, b3, b4, b5, b6, b7, b8⟩ := h2
  exact ⟨b1.trans a1, b2.trans a2, b3.trans a3, b4.trans a4, b5.trans a5, b6.trans a6,
    b7.trans a7, b8.trans a8⟩

theorem attempt_none_frame {c c' : Chain S σ E} {t t' : List Draw}
    (h : Chain.attempt cfg c t = (.ok none, c', t')) : Frame c c' := by
  rw [attempt_none] at h
  obtain ⟨_, _, _, _, h⟩ := h
  rcases h with ⟨_, rfl⟩ | ⟨_, _, _, _, ⟨_, rfl⟩ | ⟨_, rfl⟩⟩ <;> exact Frame.refl _

theorem Abandoned.frame {k : ℕ} {c c' : Chain S σ E} {t t' : List Draw}
    (h : Abandoned cfg k c t c' t') : Frame c c' := by
  induction h with
  | zero => exact Frame.refl _
  | succ h1 _ ih => exact (attempt_none_frame cfg h1).trans ih

/-- Whatever is not affected by evaluating the likelihood survives abandoned attempts. -/
theorem attempt_none_obs {P : Type} (obs : S → P)
    (hobs : ∀ a b T, obs (cfg.llr a b T).2.1 = obs a) {c c' : Chain S σ E} {t t' : List Draw}
    (h : Chain.attempt cfg c t = (.ok none, c', t')) : obs c'.cur = obs c.cur := by
  rw [attempt_none] at h
  obtain ⟨_, _, _, _, h⟩ := h
  rcases h with ⟨_, rfl⟩ | ⟨_, _, _, _, ⟨_, rfl⟩ | ⟨_, rfl⟩⟩
  · rfl
  · exact hobs _ _ _
  · exact hobs _ _ _

theorem Abandoned.obs {P : Type} (obs : S → P)
    (hobs : ∀ a b T, obs (cfg.llr a b T).2.1 = obs a) {k : ℕ} {c c' : Chain S σ E}
    {t t' : List Draw} (h : Abandoned cfg k c t c' t') : obs c'.cur = obs c.cur := by
  induction h with
  | zero => rfl
  | succ h1 _ ih => exact ih.trans (attempt_none_obs cfg obs hobs h1)

/-- Anything preserved by the evaluation of the likelihood holds after abandoned attempts. -/
theorem Abandoned.inv (P : S → Prop) (hP : ∀ a b T, P a → P (cfg.llr a b T).2.1) {k : ℕ}
    {c c' : Chain S σ E} {t t' : List Draw} (h : Abandoned cfg k c t c' t') (hc : P c.cur) :
    P c'.cur := by
  induction h with
  | zero => exact hc
  | succ h1 _ ih =>
    apply ih
    rw [attempt_none] at h1
    obtain ⟨_, _, _, _, h⟩ := h1
    rcases h with ⟨_, rfl⟩ | ⟨_, _, _, _, ⟨_, rfl⟩ | ⟨_, rfl⟩⟩
    · exact hc
    · exact hP _ _ _ hc
    · exact hP _ _ _ hc

/-- Total number of recorded exceptions. -/
def sumCounts (d : List (String × ℕ)) : ℕ := (d.map (·.2)).sum

theorem sumCounts_dset (d : List (String × ℕ)) (k : String) :
    sumCounts (dset d k ((dget d k).getD 0 + 1)) = sumCounts d + 1 := by
  induction d with
  | nil => rfl
  | cons p d ih =>
    obtain ⟨k', v⟩ := p
    unfold dset dget
    by_cases h : k' = k
    · simp [sumCounts, h]; omega
    · simp only [sumCounts, h, if_false, List.map_cons, List.sum_cons] at ih ⊢
      rw [ih]; omega

theorem attempt_none_exceptions {c c' : Chain S σ E} {t t' : List Draw}
    (h : Chain.attempt cfg c t = (.ok none, c', t')) :
    sumCounts c'.exceptions = sumCounts c.exceptions + 1 := by
  rw [attempt_none] at h
  obtain ⟨_, _, _, _, h⟩ := h
  rcases h with ⟨_, rfl⟩ | ⟨_, _, _, _, ⟨_, rfl⟩ | ⟨_, rfl⟩⟩ <;> exact sumCounts_dset _ _

theorem Abandoned.exceptions {k : ℕ} {c c' : Chain S σ E} {t t' : List Draw}
    (h : Abandoned cfg k c t c' t') :
    sumCounts c'.exceptions = sumCounts c.exceptions + k := by
  induction h with
  | zero => rfl
  | succ h1 _ ih => rw [ih, attempt_none_exceptions cfg h1]; omega

/-! ### One iteration and many -/

/-- The state of the chain after the event. -/
def Event.result {S : Type} (ev : Event S) : S := if ev.acc then ev.new else ev.prev

open Classical in
/-- What a completed `_next_iteration` does to the chain. -/
structure NextEffect (c c' : Chain S σ E) (ev : Event S) : Prop where
  total : c'.total = c.total + 1
  accTotal : c'.accTotal = c.accTotal + if ev.acc then 1 else 0
  cur : c'.cur = ev.result
  temp : c'.temp = c.temp
  evTemp : ev.temp = c.temp
  saveNow : c'.saveNow = c.saveNow
  world : c'.world = c.world
  saved : if c.saveNow ∧ c.temp = 1 then cfg.save ev.result c.saved = (.ok (), c'.saved)
    else c'.saved = c.saved
  stats : newStats cfg ev.name ev.acc ev.new c.proposed c.accepted = .ok (c'.proposed, c'.accepted)

theorem finish_effect {name : String} {new : S} {lp : PyF} {c c' : Chain S σ E} {t t' : List Draw}
    {ev : Event S} (h : Chain.finish cfg name new lp c t = (.ok ev, c', t')) :
    NextEffect cfg c c' ev := by
  classical
  rw [finish_ok] at h
  obtain ⟨d, rfl, hu, rfl, p, a, hn, hs⟩ := h
  simp only at hn hs
  have hcur : (afterStats c new (decide (lp.gtFin (Real.log d.u))) p a).cur =
      Event.result ⟨name, c.temp, c.cur, new, lp, decide (lp.gtFin (Real.log d.u))⟩ := rfl
  unfold Chain.saveIfDue at hs
  split at hs
  · rename_i hsave
    rw [hcur] at hs
    match hm : cfg.save (Event.result ⟨name, c.temp, c.cur, new, lp,
        decide (lp.gtFin (Real.log d.u))⟩) c.saved with
    | (r, s) =>
      have e : (afterStats c new (decide (lp.gtFin (Real.log d.u))) p a).saved = c.saved := rfl
      rw [e, hm] at hs
      simp only [Prod.mk.injEq, and_true] at hs
      obtain ⟨rfl, rfl⟩ := hs
      refine ⟨rfl, rfl, rfl, rfl, rfl, rfl, rfl, ?_, hn⟩
      have hs' : c.saveNow = true ∧ c.temp = 1 := hsave
      rw [if_pos hs', hm]
  · rename_i hsave
    simp only [Prod.mk.injEq, and_true, true_and] at hs
    subst hs
    refine ⟨rfl, rfl, rfl, rfl, rfl, rfl, rfl, ?_, hn⟩
    have hs' : ¬ (c.saveNow = true ∧ c.temp = 1) := hsave
    rw [if_neg hs']
    rfl

theorem NextEffect.of_frame {c c1 c' : Chain S σ E} {ev : Event S} (hf : Frame c c1)
    (h : NextEffect cfg c1 c' ev) : NextEffect cfg c c' ev := by
  obtain ⟨f1, f2, f3, f4, f5, f6, f7, f8⟩ := hf
  obtain ⟨a1, a2, a3, a4, a5, a6, a7, a8, a9⟩ := h
  rw [f1, f2, f3] at a8
  rw [f4, f5] at a9
  exact ⟨by rw [a1, f6], by rw [a2, f7], a3, by rw [a4, f1], by rw [a5, f1], by rw [a6, f3],
    by rw [a7, f8], a8, a9⟩

theorem attempt_some_effect {c c' : Chain S σ E} {t t' : List Draw} {ev : Event S}
    (h : Chain.attempt cfg c t = (.ok (some ev), c', t')) : NextEffect cfg c c' ev := by
  rw [attempt_some] at h
  obtain ⟨name, f, t1, new, lpr, t2, -, -, h⟩ := h
  rcases h with ⟨-, h⟩ | ⟨-, r, cur1, new1, -, h⟩
  · exact finish_effect cfg h
  · have := finish_effect cfg h
    exact ⟨this.total, this.accTotal, this.cur, this.temp, this.evTemp, this.saveNow, this.world,
      this.saved, this.stats⟩

theorem next_effect {c c' : Chain S σ E} {t t' : List Draw} {ev : Event S}
    (h : Chain.next cfg c t = (.ok ev, c', t')) : NextEffect cfg c c' ev := by
  obtain ⟨j, -, c1, t1, h1, h2⟩ := (attempts_ok cfg).1 h
  exact (attempt_some_effect cfg h2).of_frame cfg (h1.frame cfg)

theorem setFlag_ok {b s : ℤ} {c c' : Chain S σ E} {t t' : List Draw} :
    Chain.setFlag b s c t = (.ok (), c', t') ↔
      (c.total + 1 ≤ b ∨ s ≠ 0) ∧ t' = t ∧
        c' = { c with saveNow := (decide (b < c.total + 1 ∧ s ∣ (c.total + 1 - b))) } := by
  unfold Chain.setFlag
  simp only
  by_cases h1 : (c.total : ℤ) + 1 ≤ b
  · simp only [h1, if_true]
    have : ¬ (b < (c.total : ℤ) + 1) := by omega
    simp only [this, false_and, decide_false, true_or, true_and, Prod.mk.injEq]
    exact ⟨fun h => ⟨h.2.symm, h.1.symm⟩, fun h => ⟨h.2.symm, h.1.symm⟩⟩
  · simp only [h1, if_false, false_or]
    by_cases h2 : s = 0
    · simp [h2]
    · simp only [h2, if_false, ne_eq, not_false_eq_true, true_and, Prod.mk.injEq]
      have h3 : b < (c.total : ℤ) + 1 := by omega
      simp only [h3, true_and, Int.dvd_iff_emod_eq_zero]
      exact ⟨fun h => ⟨h.2.symm, h.1.symm⟩, fun h => ⟨h.2.symm, h.1.symm⟩⟩

theorem iteration_ok {b s : ℤ} {bi ei : Act (Chain S σ E) Unit} {c c' : Chain S σ E}
    {t t' : List Draw} {ev : Event S} :
    Chain.iteration cfg b s bi ei c t = (.ok ev, c', t') ↔
      ∃ c1 c2 c3 t2 t3, Chain.setFlag b s c t = (.ok (), c1, t) ∧ bi c1 t = (.ok (), c2, t2) ∧
        Chain.next cfg c2 t2 = (.ok ev, c3, t3) ∧ ei c3 t3 = (.ok (), c', t') := by
  unfold Chain.iteration
  constructor
  · intro h
    obtain ⟨_, c1, t1, h1, h⟩ := Act.bind_ok.1 h
    obtain ⟨_, c2, t2, h2, h⟩ := Act.bind_ok.1 h
    obtain ⟨ev', c3, t3, h3, h⟩ := Act.bind_ok.1 h
    obtain ⟨_, c4, t4, h4, h⟩ := Act.bind_ok.1 h
    simp only [Act.pure_run, Prod.mk.injEq, Except.ok.injEq] at h
    obtain ⟨rfl, rfl, rfl⟩ := h
    obtain rfl := ((setFlag_ok).1 h1).2.1
    exact ⟨c1, c2, c3, t2, t3, h1, h2, h3, h4⟩
  · rintro ⟨c1, c2, c3, t2, t3, h1, h2, h3, h4⟩
    exact Act.bind_ok.2 ⟨(), c1, t, h1, Act.bind_ok.2 ⟨(), c2, t2, h2,
      Act.bind_ok.2 ⟨ev, c3, t3, h3, Act.bind_ok.2 ⟨(), c', t', h4, rfl⟩⟩⟩⟩

theorem advance_zero {b s : ℤ} {bi ei : Act (Chain S σ E) Unit} (c : Chain S σ E)
    (t : List Draw) : Chain.advance cfg b s bi ei 0 c t = (.ok [], c, t) := rfl

theorem advance_succ_ok {b s : ℤ} {bi ei : Act (Chain S σ E) Unit} {n : ℕ} {c c' : Chain S σ E}
    {t t' : List Draw} {evs : List (Event S)} :
    Chain.advance cfg b s bi ei (n + 1) c t = (.ok evs, c', t') ↔
      ∃ ev evs' c1 t1, evs = ev :: evs' ∧ Chain.iteration cfg b s bi ei c t = (.ok ev, c1, t1) ∧
        Chain.advance cfg b s bi ei n c1 t1 = (.ok evs', c', t') := by
  constructor
  · intro h
    obtain ⟨ev, c1, t1, h1, h⟩ := Act.bind_ok.1 h
    obtain ⟨evs', c2, t2, h2, h⟩ := Act.bind_ok.1 h
    simp only [Act.pure_run, Prod.mk.injEq, Except.ok.injEq] at h
    obtain ⟨rfl, rfl, rfl⟩ := h
    exact ⟨ev, evs', c1, t1, rfl, h1, h2⟩
  · rintro ⟨ev, evs', c1, t1, rfl, h1, h2⟩
    exact Act.bind_ok.2 ⟨ev, c1, t1, h1, Act.bind_ok.2 ⟨evs', c', t', h2, rfl⟩⟩

/-- A property of the chain preserved by the hooks, by setting the flag and by an iteration, whatever
the outcome, holds after any number of iterations, whatever the outcome. -/
theorem advance_inv {P : Chain S σ E → Prop} {b s : ℤ} {bi ei : Act (Chain S σ E) Unit}
    (hflag : ∀ c x, P c → P { c with saveNow := x })
    (hbi : Act.Keeps bi (fun c c' => P c → P c')) (hei : Act.Keeps ei (fun c c' => P c → P c'))
    (hnext : Act.Keeps (Chain.next cfg) (fun c c' => P c → P c')) (n : ℕ) :
    Act.Keeps (Chain.advance cfg b s bi ei n) (fun c c' => P c → P c') := by
  have htr : ∀ a b c : Chain S σ E, (P a → P b) → (P b → P c) → (P a → P c) :=
    fun _ _ _ h1 h2 h => h2 (h1 h)
  have hfl : Act.Keeps (Chain.setFlag b s) (fun c c' : Chain S σ E => P c → P c') := by
    intro c t hc
    unfold Chain.setFlag
    simp only
    split
    · exact hflag _ _ hc
    · split
      · exact hc
      · exact hflag _ _ hc
  have hit : Act.Keeps (Chain.iteration cfg b s bi ei) (fun c c' => P c → P c') :=
    Act.Keeps.bind htr hfl fun _ => Act.Keeps.bind htr hbi fun _ =>
      Act.Keeps.bind htr hnext fun _ => Act.Keeps.bind htr hei fun _ =>
        Act.Keeps.pure' fun _ h => h
  induction n with
  | zero => intro c t hc; exact hc
  | succ n ih =>
    exact Act.Keeps.bind htr hit fun _ => Act.Keeps.bind htr ih fun _ =>
      Act.Keeps.pure' fun _ h => h

/-- What an iteration can do, whatever the outcome. -/
theorem next_inv {P : Chain S σ E → Prop}
    (hattempt : Act.Keeps (Chain.attempt cfg) (fun c c' => P c → P c')) :
    Act.Keeps (Chain.next cfg) (fun c c' => P c → P c') := by
  have htr : ∀ a b c : Chain S σ E, (P a → P b) → (P b → P c) → (P a → P c) :=
    fun _ _ _ h1 h2 h => h2 (h1 h)
  have : ∀ k, Act.Keeps (Chain.attempts cfg k) (fun c c' => P c → P c') := by
    intro k
    induction k with
    | zero => exact Act.Keeps.throw' fun _ h => h
    | succ k ih =>
      refine Act.Keeps.bind htr hattempt fun o => ?_
      cases o with
      | none => exact ih
      | some ev => exact Act.Keeps.pure' fun _ h => h
  exact this 500

/-! ### Invariants of the current state -/

/-- The perturbations and the likelihood preserve the property `P` of states. -/
structure Preserves (P : S → Prop) : Prop where
  perturb : ∀ name f, (name, f) ∈ cfg.perturbs → ∀ s t new lpr t', P s →
    f s t = (.ok (new, lpr), t') → P new
  llr : ∀ a b T, P a → P b → P (cfg.llr a b T).2.1 ∧ P (cfg.llr a b T).2.2

theorem finish_cur (name : String) (new : S) (lp : PyF) (c : Chain S σ E) (t : List Draw) :
    (Chain.finish cfg name new lp c t).2.1.cur = new ∨
      (Chain.finish cfg name new lp c t).2.1.cur = c.cur := by
  classical
  cases t with
  | nil => right; rfl
  | cons d t =>
    rw [finish_run]
    split
    · right; rfl
    · split
      · by_cases h : (decide (lp.gtFin (Real.log d.u))) = true
        · left; simp [h]
        · right; simp [h]
      · rename_i p a hn
        have : ∀ c1 : Chain S σ E, (Chain.saveIfDue cfg c1 t).2.1.cur = c1.cur := by
          intro c1; unfold Chain.saveIfDue; split <;> rfl
        have h5 := this (afterStats c new (decide (lp.gtFin (Real.log d.u))) p a)
        have h6 : (afterStats c new (decide (lp.gtFin (Real.log d.u))) p a).cur = new ∨
            (afterStats c new (decide (lp.gtFin (Real.log d.u))) p a).cur = c.cur := by
          unfold afterStats
          by_cases h : (decide (lp.gtFin (Real.log d.u))) = true
          · left; simp [h]
          · right; simp [h]
        split
        · rename_i c1 t1 hs; rw [hs] at h5; simp only at h5 ⊢; rw [h5]; exact h6
        · rename_i e c1 t1 hs; rw [hs] at h5; simp only at h5 ⊢; rw [h5]; exact h6

theorem attempt_P {P : S → Prop} (hP : Preserves cfg P) :
    Act.Keeps (Chain.attempt cfg : Act (Chain S σ E) _) (fun c c' => P c.cur → P c'.cur) := by
  intro c t h
  by_cases hch : ∃ name f t1, Chosen cfg t name f t1
  · obtain ⟨name, f, t1, hch⟩ := hch
    have hmem : (name, f) ∈ cfg.perturbs := by
      obtain ⟨i, -, hi⟩ := hch
      exact List.mem_of_getElem? hi
    rw [attempt_chosen cfg hch]
    split
    · exact h
    · exact h
    · rename_i new lpr t2 hprop
      have hnew : P new := hP.perturb name f hmem _ _ _ _ _ h hprop
      split
      · have := finish_cur cfg name new (lpr.add (.fin 0)) c t2
        split
        · rename_i ev c1 t3 hs; rw [hs] at this
          rcases this with e | e <;> simp only at e ⊢ <;> rw [e] <;> assumption
        · rename_i ev c1 t3 hs; rw [hs] at this
          rcases this with e | e <;> simp only at e ⊢ <;> rw [e] <;> assumption
      · have hl2 := hP.llr c.cur new c.temp h hnew
        split
        · rename_i hl; rw [hl] at hl2; exact hl2.1
        · rename_i hl; rw [hl] at hl2; exact hl2.1
        · rename_i hl; rw [hl] at hl2; exact hl2.1
        · rename_i r cur new1 hl
          rw [hl] at hl2
          have := finish_cur cfg name new1 (lpr.add r) { c with cur := cur } t2
          split
          · rename_i ev c1 t3 hs; rw [hs] at this
            rcases this with e | e
            · simp only at e ⊢; rw [e]; exact hl2.2
            · simp only at e ⊢; rw [e]; exact hl2.1
          · rename_i ev c1 t3 hs; rw [hs] at this
            rcases this with e | e
            · simp only at e ⊢; rw [e]; exact hl2.2
            · simp only at e ⊢; rw [e]; exact hl2.1
  · obtain ⟨e, t', he⟩ := attempt_not_chosen cfg (c := c) (t := t)
      (fun name f t1 hh => hch ⟨name, f, t1, hh⟩)
    rw [he]; exact h

/-- A property of states preserved by the perturbations, the likelihood and the hooks is a property of
the current state of the chain for ever, whatever the outcome of the iterations. -/
theorem advance_P {P : S → Prop} (hP : Preserves cfg P) {b s : ℤ}
    {bi ei : Act (Chain S σ E) Unit}
    (hbi : Act.Keeps bi (fun c c' => P c.cur → P c'.cur))
    (hei : Act.Keeps ei (fun c c' => P c.cur → P c'.cur)) (n : ℕ) :
    Act.Keeps (Chain.advance cfg b s bi ei n) (fun c c' => P c.cur → P c'.cur) :=
  advance_inv cfg (P := fun c : Chain S σ E => P c.cur) (fun _ _ h => h) hbi hei
    (next_inv cfg (attempt_P cfg hP)) n

theorem Abandoned.P {P : S → Prop} (hP : Preserves cfg P) {j : ℕ} {c c1 : Chain S σ E}
    {t t1 : List Draw} (h1 : Abandoned cfg j c t c1 t1) (hc : P c.cur) : P c1.cur := by
  induction h1 with
  | zero => exact hc
  | succ h3 _ ih => exact ih ((attempt_P cfg hP).ok h3 hc)

theorem next_event_P {P : S → Prop} (hP : Preserves cfg P) {c c' : Chain S σ E}
    {t t' : List Draw} {ev : Event S} (h : Chain.next cfg c t = (.ok ev, c', t'))
    (hc : P c.cur) : P ev.prev ∧ P ev.new := by
  classical
  obtain ⟨j, -, c1, t1, h1, h2⟩ := (attempts_ok cfg).1 h
  have hc1 : P c1.cur := h1.P cfg hP hc
  rw [attempt_some] at h2
  obtain ⟨name, f, t2, new, lpr, t3, ⟨i, -, hi⟩, hp, h2⟩ := h2
  have hnew : P new := hP.perturb name f (List.mem_of_getElem? hi) _ _ _ _ _ hc1 hp
  rcases h2 with ⟨-, h2⟩ | ⟨-, r, cur1, new1, hl, h2⟩
  · obtain ⟨d, -, -, rfl, -⟩ := (finish_ok cfg).1 h2
    exact ⟨hc1, hnew⟩
  · obtain ⟨d, -, -, rfl, -⟩ := (finish_ok cfg).1 h2
    have := hP.llr c1.cur new c1.temp hc1 hnew
    rw [hl] at this
    exact this

/-- All states ever visited or proposed satisfy `P`. -/
theorem advance_events_P {P : S → Prop} (hP : Preserves cfg P) {b s : ℤ}
    {bi ei : Act (Chain S σ E) Unit}
    (hbi : Act.Keeps bi (fun c c' => P c.cur → P c'.cur))
    (hei : Act.Keeps ei (fun c c' => P c.cur → P c'.cur)) {n : ℕ} {c c' : Chain S σ E}
    {t t' : List Draw} {evs : List (Event S)}
    (h : Chain.advance cfg b s bi ei n c t = (.ok evs, c', t')) (hc : P c.cur) :
    (∀ ev ∈ evs, P ev.prev ∧ P ev.new) ∧ P c'.cur := by
  induction n generalizing c t evs with
  | zero =>
    rw [advance_zero] at h
    simp only [Prod.mk.injEq, Except.ok.injEq] at h
    obtain ⟨rfl, rfl, rfl⟩ := h
    exact ⟨by simp, hc⟩
  | succ n ih =>
    rw [advance_succ_ok] at h
    obtain ⟨ev, evs', c1, t1, rfl, h1, h2⟩ := h
    obtain ⟨c2, c3, c4, t2, t3, b1, b2, b3, b4⟩ := (iteration_ok cfg).1 h1
    have e1 := ((setFlag_ok).1 b1).2.2
    have hc3 : P c3.cur := hbi.ok b2 (by rw [e1]; exact hc)
    have hev := next_event_P cfg hP b3 hc3
    have hc4 : P c4.cur := by
      rw [(next_effect cfg b3).cur]
      unfold Event.result
      split
      · exact hev.2
      · exact hev.1
    obtain ⟨i1, i2⟩ := ih h2 (hei.ok b4 hc4)
    refine ⟨?_, i2⟩
    intro e he
    rcases List.mem_cons.1 he with rfl | he
    · exact hev
    · exact i1 e he

/-- A property established by every successful evaluation of the likelihood holds for the states of
events whose proposal had a ratio that is not infinite. -/
theorem next_event_evaluated {Q : S → Prop}
    (hQ : ∀ a b T r, (cfg.llr a b T).1 = .ok r → Q (cfg.llr a b T).2.1 ∧ Q (cfg.llr a b T).2.2)
    (hfin : ∀ name f, (name, f) ∈ cfg.perturbs → ∀ s t new lpr t',
      f s t = (.ok (new, lpr), t') → lpr.isInf = false)
    {c c' : Chain S σ E} {t t' : List Draw} {ev : Event S}
    (h : Chain.next cfg c t = (.ok ev, c', t')) : Q ev.prev ∧ Q ev.new := by
  classical
  obtain ⟨j, -, c1, t1, h1, h2⟩ := (attempts_ok cfg).1 h
  rw [attempt_some] at h2
  obtain ⟨name, f, t2, new, lpr, t3, ⟨i, -, hi⟩, hp, h2⟩ := h2
  have hf := hfin name f (List.mem_of_getElem? hi) _ _ _ _ _ hp
  rcases h2 with ⟨hf', -⟩ | ⟨-, r, cur1, new1, hl, h2⟩
  · rw [hf] at hf'; simp at hf'
  · obtain ⟨d, -, -, rfl, -⟩ := (finish_ok cfg).1 h2
    have := hQ c1.cur new c1.temp r (by rw [hl])
    rw [hl] at this
    exact this

theorem advance_events_all {Q : Event S → Prop}
    (hQ : ∀ c c' t t' ev, Chain.next cfg (E := E) c t = (.ok ev, c', t') → Q ev) {b s : ℤ}
    {bi ei : Act (Chain S σ E) Unit} {n : ℕ} {c c' : Chain S σ E}
    {t t' : List Draw} {evs : List (Event S)}
    (h : Chain.advance cfg b s bi ei n c t = (.ok evs, c', t')) :
    ∀ ev ∈ evs, Q ev := by
  induction n generalizing c t evs with
  | zero =>
    rw [advance_zero] at h
    simp only [Prod.mk.injEq, Except.ok.injEq] at h
    obtain ⟨rfl, rfl, rfl⟩ := h
    simp
  | succ n ih =>
    rw [advance_succ_ok] at h
    obtain ⟨ev, evs', c1, t1, rfl, h1, h2⟩ := h
    obtain ⟨c2, c3, c4, t2, t3, b1, b2, b3, b4⟩ := (iteration_ok cfg).1 h1
    intro e he
    rcases List.mem_cons.1 he with rfl | he
    · exact hQ _ _ _ _ _ b3
    · exact ih h2 e he

/-! ### Building runs -/

/-- An iteration that completes at the first attempt (used to build concrete runs). -/
theorem iteration_exists {b s : ℤ} (hs0 : s ≠ 0) {c : Chain S σ E} {t t1 t2 : List Draw}
    {name : String} {f : S → M (S × PyF)} {new : S} {lpr : PyF} {d : Draw}
    (hch : Chosen cfg t name f t1) (hp : f c.cur t1 = (.ok (new, lpr), d :: t2)) (hu : 0 < d.u)
    (hname : name.startsWith "ParamSpacePerturbation" = false)
    (hs : ∀ s l, (cfg.save s l).1 = .ok ()) {r : PyF} {cur1 new1 : S}
    (hr : (lpr.isInf = true ∧ r = .fin 0 ∧ cur1 = c.cur ∧ new1 = new) ∨
      (lpr.isInf = false ∧ cfg.llr c.cur new c.temp = (.ok r, cur1, new1))) :
    ∃ ev c', Chain.iteration cfg b s Act.skip Act.skip c t = (.ok ev, c', t2) ∧
      ev.prev = cur1 ∧ ev.new = new1 ∧ (ev.acc = true ↔ (lpr.add r).gtFin (Real.log d.u)) ∧
      ev.temp = c.temp ∧ c'.cur = ev.result ∧ c'.total = c.total + 1 ∧ c'.temp = c.temp := by
  classical
  have hn : ∀ b n p a, ∃ p' a', newStats cfg name b n p a = .ok (p', a') := by
    intro b n p a
    unfold newStats
    rw [hname]
    exact ⟨_, _, rfl⟩
  let c0 : Chain S σ E :=
    { c with saveNow := (decide (b < c.total + 1 ∧ s ∣ (c.total + 1 - b))) }
  have h0 : Chain.setFlag b s c t = (.ok (), c0, t) := (setFlag_ok).2 ⟨Or.inr hs0, rfl, rfl⟩
  rcases hr with ⟨hinf, rfl, rfl, rfl⟩ | ⟨hinf, hl⟩
  · obtain ⟨ev, c', h⟩ := finish_exists cfg (name := name) (new := new1) (lp := lpr.add (.fin 0))
      (c := c0) (d := d) (t := t2) hu hs (fun b => hn b _ _ _)
    have hatt : Chain.attempt cfg c0 t = (.ok (some ev), c', t2) :=
      (attempt_some cfg).2 ⟨name, f, t1, new1, lpr, d :: t2, hch, hp, Or.inl ⟨hinf, h⟩⟩
    have hnext : Chain.next cfg c0 t = (.ok ev, c', t2) :=
      (attempts_ok cfg).2 ⟨0, by omega, c0, t, .zero _ _, hatt⟩
    have he := next_effect cfg hnext
    obtain ⟨d', hd, -, rfl, -⟩ := (finish_ok cfg).1 h
    simp only [List.cons.injEq] at hd
    refine ⟨_, c', (iteration_ok cfg).2 ⟨c0, c0, c', t, t2, h0, rfl, hnext, rfl⟩, rfl, rfl, ?_,
      rfl, he.cur, he.total, he.temp⟩
    rw [hd.1]
    exact decide_eq_true_iff
  · obtain ⟨ev, c', h⟩ := finish_exists cfg (name := name) (new := new1) (lp := lpr.add r)
      (c := { c0 with cur := cur1 }) (d := d) (t := t2) hu hs (fun b => hn b _ _ _)
    have hatt : Chain.attempt cfg c0 t = (.ok (some ev), c', t2) :=
      (attempt_some cfg).2 ⟨name, f, t1, new, lpr, d :: t2, hch, hp,
        Or.inr ⟨hinf, r, cur1, new1, hl, h⟩⟩
    have hnext : Chain.next cfg c0 t = (.ok ev, c', t2) :=
      (attempts_ok cfg).2 ⟨0, by omega, c0, t, .zero _ _, hatt⟩
    have he := next_effect cfg hnext
    obtain ⟨d', hd, -, rfl, -⟩ := (finish_ok cfg).1 h
    simp only [List.cons.injEq] at hd
    refine ⟨_, c', (iteration_ok cfg).2 ⟨c0, c0, c', t, t2, h0, rfl, hnext, rfl⟩, rfl, rfl, ?_,
      rfl, he.cur, he.total, he.temp⟩
    rw [hd.1]
    exact decide_eq_true_iff

end

end BB
