import Verif.Lemmas.Chain
import Verif.Spec.Statistics
import Mathlib.Data.List.Forall2
import Mathlib.Tactic.Linarith
import Mathlib.Tactic.Ring
import Mathlib.Algebra.Order.BigOperators.Group.List

/-!
# Statistics
-/

namespace BB.Lemmas

open BB BB.Spec

section Parallel

variable {α β : Type}

/-- Two dictionaries with the same keys in the same order, related entry by entry. -/
def Par (R : String → α → β → Prop) (p : List (String × α)) (a : List (String × β)) : Prop :=
  List.Forall₂ (fun x y => x.1 = y.1 ∧ R x.1 x.2 y.2) p a

variable {R : String → α → β → Prop}

theorem Par.dset {p : List (String × α)} {a : List (String × β)} (h : Par R p a) {k : String}
    {v : α} {w : β} (hr : R k v w) : Par R (dset p k v) (dset a k w) := by
  induction h with
  | nil => exact .cons ⟨rfl, hr⟩ .nil
  | @cons x y p a hxy _ ih =>
    obtain ⟨k1, v1⟩ := x
    obtain ⟨k2, w1⟩ := y
    obtain ⟨h1, h2⟩ := hxy
    simp only at h1 h2
    subst h1
    unfold BB.dset
    by_cases hk : k1 = k
    · simp only [hk, if_true]; subst hk; exact .cons ⟨rfl, hr⟩ ‹_›
    · simp only [hk, if_false]; exact .cons ⟨rfl, h2⟩ ih

theorem Par.dget_none {p : List (String × α)} {a : List (String × β)} (h : Par R p a) {k : String}
    (hk : dget p k = none) : dget a k = none := by
  induction h with
  | nil => rfl
  | @cons x y p a hxy _ ih =>
    obtain ⟨k1, v1⟩ := x
    obtain ⟨k2, w1⟩ := y
    obtain ⟨h1, h2⟩ := hxy
    simp only at h1
    subst h1
    simp only [dget] at hk ⊢
    split_ifs at hk ⊢ with h3
    exact ih hk

theorem Par.dget_some {p : List (String × α)} {a : List (String × β)} (h : Par R p a) {k : String}
    {v : α} (hk : dget p k = some v) : ∃ w, dget a k = some w ∧ R k v w := by
  induction h with
  | nil => simp at hk
  | @cons x y p a hxy _ ih =>
    obtain ⟨k1, v1⟩ := x
    obtain ⟨k2, w1⟩ := y
    obtain ⟨h1, h2⟩ := hxy
    simp only at h1 h2
    subst h1
    simp only [dget] at hk ⊢
    split_ifs at hk ⊢ with h3
    · subst h3
      injection hk with hk
      subst hk
      exact ⟨w1, rfl, h2⟩
    · exact ih hk

end Parallel

theorem sum_dset {α : Type} (f : α → ℝ) (d : List (String × α)) (k : String) (v : α) :
    ((dset d k v).map (fun kv => f kv.2)).sum =
      (d.map (fun kv => f kv.2)).sum - (match dget d k with | none => 0 | some x => f x) + f v := by
  induction d with
  | nil => simp [dset]
  | cons x d ih =>
    obtain ⟨k1, v1⟩ := x
    unfold dset dget
    by_cases h : k1 = k
    · simp only [h, if_true, List.map_cons, List.sum_cons]; ring
    · simp only [h, if_false, List.map_cons, List.sum_cons]
      rw [ih]; ring

/-- Names of parameter-space perturbations. -/
def PS (name : String) : Prop := name.startsWith "ParamSpacePerturbation" = true

/-- Related entries of proposed and accepted models. -/
def Entry (name : String) : Stat → Stat → Prop
  | .count n, .count m => ¬ PS name ∧ m ≤ n
  | .sub d, .sub e => PS name ∧ Par (fun _ (v w : ℝ) => 0 ≤ w ∧ w ≤ v) d e
  | _, _ => False

/-- The invariant of the statistics. -/
structure StatsInv (p a : List (String × Stat)) (total accTotal : ℕ) : Prop where
  par : Par Entry p a
  total : weightAll p = total
  accTotal : weightAll a = accTotal

theorem StatsInv.init : StatsInv [] [] 0 0 :=
  ⟨.nil, by simp [weightAll], by simp [weightAll]⟩

theorem weightAll_dset (d : List (String × Stat)) (name : String) (s : Stat) :
    weightAll (dset d name s) = weightAll d - weightOf d name + weight s := by
  unfold weightAll weightOf
  rw [sum_dset weight d name s]
  cases dget d name <;> rfl

theorem weightOf_dset_same (d : List (String × Stat)) (name : String) (s : Stat) :
    weightOf (dset d name s) name = weight s := by
  unfold weightOf; rw [dget_dset_same]

theorem weightOf_dset_ne (d : List (String × Stat)) {name name' : String} (s : Stat)
    (h : name' ≠ name) : weightOf (dset d name s) name' = weightOf d name' := by
  unfold weightOf; rw [dget_dset_ne _ _ _ _ h]

theorem weight_sub_dset (m : List (String × ℝ)) (k : String) (v : ℝ) :
    weight (.sub (dset m k ((dget m k).getD 0 + v))) = weight (.sub m) + v := by
  unfold weight
  have := sum_dset (fun x : ℝ => x) m k ((dget m k).getD 0 + v)
  simp only at this ⊢
  rw [this]
  cases dget m k
  · simp
  · simp only [Option.getD_some]; ring

/-- Effect of `bumpSub` on parallel dictionaries. -/
theorem bumpSub_par {p a : List (String × Stat)} (h : Par Entry p a) {name k : String}
    (hn : PS name) {v w : ℝ} (hw : 0 ≤ w) (hvw : w ≤ v) :
    ∃ p' a', bumpSub p name k v = .ok p' ∧ bumpSub a name k w = .ok a' ∧ Par Entry p' a' ∧
      weightAll p' = weightAll p + v ∧ weightAll a' = weightAll a + w ∧
      weightOf p' name = weightOf p name + v ∧ weightOf a' name = weightOf a name + w ∧
      (∀ name', name' ≠ name → weightOf p' name' = weightOf p name' ∧
        weightOf a' name' = weightOf a name') := by
  match hp : dget p name with
  | none =>
    have ha := h.dget_none hp
    refine ⟨dset p name (.sub [(k, 0 + v)]), dset a name (.sub [(k, 0 + w)]), ?_, ?_, ?_, ?_, ?_,
      ?_, ?_, ?_⟩
    · unfold bumpSub; rw [hp]
    · unfold bumpSub; rw [ha]
    · refine h.dset ⟨hn, .cons ⟨rfl, ?_, ?_⟩ .nil⟩ <;> simp [hw, hvw]
    · rw [weightAll_dset]; unfold weightOf; rw [hp]; simp [weight]
    · rw [weightAll_dset]; unfold weightOf; rw [ha]; simp [weight]
    · rw [weightOf_dset_same]; unfold weightOf; rw [hp]; simp [weight]
    · rw [weightOf_dset_same]; unfold weightOf; rw [ha]; simp [weight]
    · intro n' hn'; exact ⟨weightOf_dset_ne _ _ hn', weightOf_dset_ne _ _ hn'⟩
  | some (.count n) =>
    obtain ⟨s, hs, he⟩ := h.dget_some hp
    cases s with
    | count m => exact absurd hn he.1
    | sub d => exact absurd he (fun h => h)
  | some (.sub d) =>
    obtain ⟨s, hs, he⟩ := h.dget_some hp
    cases s with
    | count m => exact absurd he (fun h => h)
    | sub e =>
      refine ⟨_, _, by unfold bumpSub; rw [hp], by unfold bumpSub; rw [hs], ?_, ?_, ?_, ?_, ?_, ?_⟩
      · refine h.dset ⟨hn, he.2.dset ?_⟩
        match hd : dget d k with
        | none =>
          rw [he.2.dget_none hd]
          simp [hw, hvw]
        | some x =>
          obtain ⟨y, hy, hy1, hy2⟩ := he.2.dget_some hd
          rw [hy]
          simp only [Option.getD_some]
          constructor <;> linarith
      · rw [weightAll_dset, weight_sub_dset]; unfold weightOf; rw [hp]; ring
      · rw [weightAll_dset, weight_sub_dset]; unfold weightOf; rw [hs]; ring
      · rw [weightOf_dset_same, weight_sub_dset]; unfold weightOf; rw [hp]
      · rw [weightOf_dset_same, weight_sub_dset]; unfold weightOf; rw [hs]
      · intro n' hn'; exact ⟨weightOf_dset_ne _ _ hn', weightOf_dset_ne _ _ hn'⟩

theorem bumpSubs_par {name : String} (hn : PS name) (acc : Bool) (st : List (String × ℝ))
    (hst : ∀ kv ∈ st, 0 ≤ kv.2) {p a : List (String × Stat)} (h : Par Entry p a) :
    ∃ p' a', bumpSubs name acc st p a = .ok (p', a') ∧ Par Entry p' a' ∧
      weightAll p' = weightAll p + (st.map (·.2)).sum ∧
      weightAll a' = weightAll a + (if acc then (st.map (·.2)).sum else 0) ∧
      weightOf p' name = weightOf p name + (st.map (·.2)).sum ∧
      weightOf a' name = weightOf a name + (if acc then (st.map (·.2)).sum else 0) ∧
      (∀ name', name' ≠ name → weightOf p' name' = weightOf p name' ∧
        weightOf a' name' = weightOf a name') := by
  induction st generalizing p a with
  | nil => exact ⟨p, a, rfl, h, by simp, by simp, by simp, by simp, fun _ _ => ⟨rfl, rfl⟩⟩
  | cons kv st ih =>
    obtain ⟨k, v⟩ := kv
    have hv : 0 ≤ v := hst (k, v) (by simp)
    obtain ⟨p1, a1, e1, e2, h1, w1, w2, w3, w4, w5⟩ := bumpSub_par h (k := k) hn
      (v := v) (w := if acc then v else 0) (by split <;> simp [hv]) (by split <;> simp [hv])
    obtain ⟨p2, a2, e3, h2, x1, x2, x3, x4, x5⟩ := ih (fun kv hkv => hst kv (by simp [hkv])) h1
    refine ⟨p2, a2, ?_, h2, ?_, ?_, ?_, ?_, ?_⟩
    · unfold bumpSubs; rw [e1]; simp only [Bind.bind, Except.bind]; rw [e2]; exact e3
    · rw [x1, w1]; simp; ring
    · rw [x2, w2]; cases acc <;> simp [add_assoc]
    · rw [x3, w3]; simp; ring
    · rw [x4, w4]; cases acc <;> simp [add_assoc]
    · intro n' hn'
      exact ⟨(x5 n' hn').1.trans (w5 n' hn').1, (x5 n' hn').2.trans (w5 n' hn').2⟩

theorem bumpCount_par {name : String} (hn : ¬ PS name) (acc : Bool) {p a : List (String × Stat)}
    (h : Par Entry p a) :
    Par Entry (bumpCount name acc p a).1 (bumpCount name acc p a).2 ∧
      weightAll (bumpCount name acc p a).1 = weightAll p + 1 ∧
      weightAll (bumpCount name acc p a).2 = weightAll a + (if acc then 1 else 0) ∧
      weightOf (bumpCount name acc p a).1 name = weightOf p name + 1 ∧
      weightOf (bumpCount name acc p a).2 name = weightOf a name + (if acc then 1 else 0) ∧
      (∀ name', name' ≠ name → weightOf (bumpCount name acc p a).1 name' = weightOf p name' ∧
        weightOf (bumpCount name acc p a).2 name' = weightOf a name') := by
  match hp : dget p name with
  | none =>
    have ha := h.dget_none hp
    have e : bumpCount name acc p a =
        (dset p name (.count 1), dset a name (.count (if acc then 1 else 0))) := by
      unfold bumpCount; rw [hp]
    rw [e]
    refine ⟨h.dset ⟨hn, by split <;> simp⟩, ?_, ?_, ?_, ?_, ?_⟩
    · rw [weightAll_dset]; unfold weightOf; rw [hp]; simp [weight]
    · rw [weightAll_dset]; unfold weightOf; rw [ha]; simp [weight]
    · rw [weightOf_dset_same]; unfold weightOf; rw [hp]; simp [weight]
    · rw [weightOf_dset_same]; unfold weightOf; rw [ha]; simp [weight]
    · intro n' hn'; exact ⟨weightOf_dset_ne _ _ hn', weightOf_dset_ne _ _ hn'⟩
  | some (.sub d) =>
    obtain ⟨s, hs, he⟩ := h.dget_some hp
    cases s with
    | count m => exact absurd he (fun h => h)
    | sub d => exact absurd he.1 hn
  | some (.count n) =>
    obtain ⟨s, hs, he⟩ := h.dget_some hp
    cases s with
    | sub d => exact absurd he (fun h => h)
    | count m =>
      have e : bumpCount name acc p a =
          (dset p name (.count (n + 1)), dset a name (.count (m + if acc then 1 else 0))) := by
        unfold bumpCount; rw [hp, hs]
      rw [e]
      refine ⟨h.dset ⟨hn, ?_⟩, ?_, ?_, ?_, ?_, ?_⟩
      · have := he.2; split <;> omega
      · rw [weightAll_dset]; unfold weightOf; rw [hp]; simp only [weight]; push_cast; ring
      · rw [weightAll_dset]; unfold weightOf; rw [hs]; simp only [weight]; push_cast; ring
      · rw [weightOf_dset_same]; unfold weightOf; rw [hp]; simp [weight]
      · rw [weightOf_dset_same]; unfold weightOf; rw [hs]; cases acc <;> simp [weight]
      · intro n' hn'; exact ⟨weightOf_dset_ne _ _ hn', weightOf_dset_ne _ _ hn'⟩

section

variable {S σ E : Type} (cfg : ChainCfg S σ)

/-- Effect of one proposal on the statistics. -/
theorem newStats_inv {name : String} {acc : Bool} {new : S} {p a p' a' : List (String × Stat)}
    (hst : PS name → ∀ st, cfg.stats new = .ok st → Shares st)
    (h : Par Entry p a) (he : newStats cfg name acc new p a = .ok (p', a')) :
    Par Entry p' a' ∧ weightAll p' = weightAll p + 1 ∧
      weightAll a' = weightAll a + (if acc then 1 else 0) ∧
      weightOf p' name = weightOf p name + 1 ∧
      weightOf a' name = weightOf a name + (if acc then 1 else 0) ∧
      (∀ name', name' ≠ name → weightOf p' name' = weightOf p name' ∧
        weightOf a' name' = weightOf a name') := by
  unfold newStats at he
  by_cases hn : name.startsWith "ParamSpacePerturbation" = true
  · rw [if_pos hn] at he
    match hs : cfg.stats new with
    | .error e => rw [hs] at he; simp [Bind.bind, Except.bind] at he
    | .ok st =>
      rw [hs] at he
      obtain ⟨h1, h2⟩ := hst hn st hs
      obtain ⟨p2, a2, e3, h3, x1, x2, x3, x4, x5⟩ := bumpSubs_par hn acc st h1 h
      have he' : bumpSubs name acc st p a = .ok (p', a') := he
      rw [e3] at he'
      simp only [Except.ok.injEq, Prod.mk.injEq] at he'
      obtain ⟨rfl, rfl⟩ := he'
      rw [h2] at x1 x2 x3 x4
      exact ⟨h3, x1, x2, x3, x4, x5⟩
  · rw [if_neg hn] at he
    have := bumpCount_par hn acc h
    simp only [Except.ok.injEq] at he
    rw [he] at this
    exact this

/-- The invariant of the statistics survives an attempt, whatever its outcome. -/
theorem attempt_stats {G : S → Prop}
    (hG : ∀ s, G s → ∀ st, cfg.stats s = .ok st → Shares st)
    (hf : ∀ nf ∈ cfg.perturbs, PS nf.1 → ∀ s t new lpr t', nf.2 s t = (.ok (new, lpr), t') → G new)
    (hllr : ∀ a b T, G b → G (cfg.llr a b T).2.2) :
    Act.Keeps (Chain.attempt cfg : Act (Chain S σ E) _) (fun c c' =>
      StatsInv c.proposed c.accepted c.total c.accTotal →
      StatsInv c'.proposed c'.accepted c'.total c'.accTotal) := by
  classical
  have hfin : ∀ (c : Chain S σ E) t name new lp, (PS name → G new) →
      StatsInv c.proposed c.accepted c.total c.accTotal →
      StatsInv (Chain.finish cfg name new lp c t).2.1.proposed
        (Chain.finish cfg name new lp c t).2.1.accepted
        (Chain.finish cfg name new lp c t).2.1.total
        (Chain.finish cfg name new lp c t).2.1.accTotal := by
    intro c t name new lp hg h
    cases t with
    | nil => exact h
    | cons d t =>
      rw [finish_run]
      split
      · exact h
      · split
        · exact h
        · rename_i p a hn
          have h2 := newStats_inv cfg (fun hps => hG new (hg hps)) h.par hn
          have h3 : StatsInv p a (c.total + 1)
              (c.accTotal + if decide (lp.gtFin (Real.log d.u)) then 1 else 0) := by
            refine ⟨h2.1, ?_, ?_⟩
            · rw [h2.2.1, h.total]; push_cast; rfl
            · rw [h2.2.2.1, h.accTotal]; push_cast; rfl
          have h4 : ∀ c1 : Chain S σ E,
              StatsInv c1.proposed c1.accepted c1.total c1.accTotal →
              StatsInv (Chain.saveIfDue cfg c1 t).2.1.proposed
                (Chain.saveIfDue cfg c1 t).2.1.accepted
                (Chain.saveIfDue cfg c1 t).2.1.total
                (Chain.saveIfDue cfg c1 t).2.1.accTotal := by
            intro c1 h
            unfold Chain.saveIfDue
            split
            · exact h
            · exact h
          have h5 := h4 (afterStats c new (decide (lp.gtFin (Real.log d.u))) p a) h3
          split
          · rename_i c1 t1 hs; rw [hs] at h5; exact h5
          · rename_i e c1 t1 hs; rw [hs] at h5; exact h5
  intro c t h
  by_cases hch : ∃ name f t1, Chosen cfg t name f t1
  · obtain ⟨name, f, t1, hch⟩ := hch
    have hmem : (name, f) ∈ cfg.perturbs := by
      obtain ⟨i, -, hi⟩ := hch
      exact List.mem_of_getElem? hi
    rw [attempt_chosen cfg hch]
    split
    · exact h
    · exact h
    · rename_i new lpr t2 hprop
      have hgood : PS name → G new := fun hps => hf _ hmem hps _ _ _ _ _ hprop
      split
      · have := hfin c t2 name new (lpr.add (.fin 0)) hgood h
        split
        · rename_i ev c1 t3 hs; rw [hs] at this; exact this
        · rename_i e c1 t3 hs; rw [hs] at this; exact this
      · split
        · exact h
        · exact h
        · exact h
        · rename_i r cur new1 hl
          have hgood1 : PS name → G new1 := by
            intro hps
            have := hllr c.cur new c.temp (hgood hps)
            rw [hl] at this; exact this
          have := hfin { c with cur := cur } t2 name new1 (lpr.add r) hgood1 h
          split
          · rename_i ev c1 t3 hs; rw [hs] at this; exact this
          · rename_i e c1 t3 hs; rw [hs] at this; exact this
  · obtain ⟨e, t', he⟩ := attempt_not_chosen cfg (c := c) (t := t)
      (fun name f t1 hh => hch ⟨name, f, t1, hh⟩)
    rw [he]; exact h

/-- Where the events of a chain come from. -/
theorem attempt_event {c c' : Chain S σ E} {t t' : List Draw} {ev : Event S}
    (h : Chain.attempt cfg c t = (.ok (some ev), c', t')) :
    ∃ f t1 new lpr t2, (ev.name, f) ∈ cfg.perturbs ∧ f c.cur t1 = (.ok (new, lpr), t2) ∧
      (ev.new = new ∧ ev.prev = c.cur ∨
        ev.new = (cfg.llr c.cur new c.temp).2.2 ∧ ev.prev = (cfg.llr c.cur new c.temp).2.1) := by
  classical
  rw [attempt_some] at h
  obtain ⟨name, f, t1, new, lpr, t2, ⟨i, -, hi⟩, hp, h⟩ := h
  rcases h with ⟨-, h⟩ | ⟨-, r, cur1, new1, hl, h⟩
  · obtain ⟨d, -, -, rfl, -⟩ := (finish_ok cfg).1 h
    exact ⟨f, t1, new, lpr, t2, List.mem_of_getElem? hi, hp, Or.inl ⟨rfl, rfl⟩⟩
  · obtain ⟨d, -, -, rfl, -⟩ := (finish_ok cfg).1 h
    refine ⟨f, t1, new, lpr, t2, List.mem_of_getElem? hi, hp, Or.inr ⟨?_, ?_⟩⟩
    · simp only [hl]
    · simp only [hl]

theorem next_event {c c' : Chain S σ E} {t t' : List Draw} {ev : Event S}
    (h : Chain.next cfg c t = (.ok ev, c', t')) :
    ∃ c1 f t1 new lpr t2, (ev.name, f) ∈ cfg.perturbs ∧
      f c1 t1 = (.ok (new, lpr), t2) ∧
      (ev.new = new ∧ ev.prev = c1 ∨
        ev.new = (cfg.llr c1 new c.temp).2.2 ∧ ev.prev = (cfg.llr c1 new c.temp).2.1) := by
  obtain ⟨j, -, c1, t1, h1, h2⟩ := (attempts_ok cfg).1 h
  obtain ⟨f, t2, new, lpr, t3, a1, a2, a3⟩ := attempt_event cfg h2
  have := (h1.frame cfg).1
  rw [this] at a3
  exact ⟨c1.cur, f, t2, new, lpr, t3, a1, a2, a3⟩

end

end BB.Lemmas
