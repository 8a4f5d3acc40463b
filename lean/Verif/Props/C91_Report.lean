import Verif.Spec.Report
import Verif.Lemmas.Report
import Verif.Props.C05_Statistics
import Verif.Props.C01_C04_Iteration

/-!
# C91: the progress that chains print

`C91_report`: at every point of every history with at least one proposal, `print_statistics` prints the acceptance rates, all of them
between 0 and 100; `C91_report_zero`: before the first proposal it raises.  `C91_verbose`: printing does not influence the chain.
`C91_print_every_zero`, `C91_no_begin`, `C91_no_end`: arguments of `advance_chain` (the default ones among them) with which it raises.
-/

namespace BB.Props

open BB.Spec BB.Lemmas

variable {S σ E : Type}

/-- No share of a sub-type is zero. -/
def PositiveShares (cfg : ChainCfg S σ) : Prop :=
  ∀ name f, (name, f) ∈ cfg.perturbs → name.startsWith "ParamSpacePerturbation" = true →
    ∀ s t new lpr t', f s t = (.ok (new, lpr), t') → ∀ st, cfg.stats new = .ok st → ∀ kv ∈ st, 0 < kv.2

theorem History.pos (cfg : ChainCfg S σ) (hg : GoodStats cfg) (hs : PositiveShares cfg) {c : Chain S σ E}
    (h : History cfg c) : PosStats c.proposed := by
  induction h with
  | init s store temp w => intro x hx; simp [Chain.init] at hx
  | @advance c b s bi ei n t hb he _ ih =>
    refine (advance_inv cfg (P := fun c : Chain S σ E => PosStats c.proposed) (fun c x h => h) ?_ ?_
      (next_inv cfg ?_) n) c t ih
    · intro c t h
      rw [(hb c t).1]; exact h
    · intro c t h
      rw [(he c t).1]; exact h
    · exact attempt_keeps_stats cfg (G := fun s => ∀ st, cfg.stats s = .ok st → ∀ kv ∈ st, 0 < kv.2)
        (fun name acc new p a p' a' hn hp he => newStats_pos cfg hn hp he)
        (fun nf hnf hps s t new lpr t' h => hs nf.1 nf.2 hnf hps s t new lpr t' h)
        (fun a b T h st hst => h st (by rw [← hg.llr a b T]; exact hst))
  | outside h1 _ _ _ _ ih => rw [h1]; exact ih

theorem typeLines_spec {c : Chain S σ E} (hpar : Par Entry c.proposed c.accepted) (hpos : PosStats c.proposed) {name : String}
    {s : Stat} (hs : dget c.proposed name = some s) :
    ∃ l, typeLines c.proposed c.accepted name = .ok l ∧
      (∀ y, y ∈ l ↔ y.name = name ∧ ExpectedRate c name y.rate y.sub) ∧ ∀ y ∈ l, 0 ≤ y.rate ∧ y.rate ≤ 100 := by
  have hbound : ∀ a e : ℝ, 0 ≤ a → a ≤ e → 0 < e → 0 ≤ a / e * 100 ∧ a / e * 100 ≤ 100 := by
    intro a e h1 h2 h3
    have h4 : a / e ≤ 1 := (div_le_one h3).2 h2
    have h5 : 0 ≤ a / e := div_nonneg h1 h3.le
    constructor <;> linarith
  obtain ⟨s', hs', hent⟩ := hpar.dget_some hs
  have hp : PosEntry s := hpos _ (dget_some_mem hs)
  match s, s', hent, hp with
  | .count n, .count m, hent, hp =>
    have hp : 1 ≤ n := hp
    have hn : (0 : ℝ) < n := by exact_mod_cast hp
    refine ⟨[⟨name, none, (m : ℝ) / n * 100⟩], ?_, ?_, ?_⟩
    · simp [typeLines, hs, hs', acceptanceRate_pos hn.ne', bind, Except.bind]
    · rintro ⟨nm, sub, x⟩
      simp only [List.mem_singleton, RateLine.mk.injEq]
      cases sub with
      | none =>
        simp only [ExpectedRate, weightOf, hs, hs', weight]
        constructor
        · rintro ⟨rfl, -, rfl⟩; exact ⟨rfl, ⟨n, rfl⟩, by ring⟩
        · rintro ⟨rfl, -, rfl⟩; exact ⟨rfl, trivial, by ring⟩
      | some k => simp [ExpectedRate, hs]
    · intro y hy
      simp only [List.mem_singleton] at hy
      rw [hy]
      exact hbound _ _ (Nat.cast_nonneg m) (by exact_mod_cast hent.2) hn
  | .sub d, .sub e, hent, hp =>
    have hp : ∀ x ∈ d, (0 : ℝ) < x.2 := hp
    have hline : ∀ k v, dget d k = some v →
        subLine name d (some (.sub e)) k = .ok [⟨name, some k, (dget e k).getD 0 / v * 100⟩] := by
      intro k v hv
      have hv0 : (0 : ℝ) < v := hp _ (dget_some_mem hv)
      simp [subLine, hv, acceptanceRate_pos hv0.ne', bind, Except.bind]
    obtain ⟨lines, h1, h2⟩ := collectLines_ok (f := subLine name d (some (.sub e))) (ks := sortedKeys d) (fun k hk => by
      obtain ⟨v, hv⟩ := mem_sortedKeys.1 hk
      exact ⟨_, hline k v hv⟩)
    have h3 : ∀ y, y ∈ lines ↔ ∃ k v, dget d k = some v ∧ y = ⟨name, some k, (dget e k).getD 0 / v * 100⟩ := by
      intro y
      rw [h2]
      constructor
      · rintro ⟨k, hk, l, hl, hy⟩
        obtain ⟨v, hv⟩ := mem_sortedKeys.1 hk
        rw [hline k v hv] at hl
        cases hl
        exact ⟨k, v, hv, List.mem_singleton.1 hy⟩
      · rintro ⟨k, v, hv, rfl⟩
        exact ⟨k, mem_sortedKeys.2 ⟨v, hv⟩, _, hline k v hv, List.mem_singleton.2 rfl⟩
    refine ⟨lines, by simp [typeLines, hs, hs', h1], ?_, ?_⟩
    · rintro ⟨nm, sub, x⟩
      rw [h3]
      simp only [RateLine.mk.injEq]
      cases sub with
      | none => simp [ExpectedRate, hs]
      | some j =>
        simp only [ExpectedRate, weightSub, hs, hs', Option.some.injEq, Stat.sub.injEq]
        constructor
        · rintro ⟨k, v, hv, rfl, rfl, rfl⟩
          exact ⟨rfl, ⟨d, v, rfl, hv⟩, by rw [hv, Option.getD_some]; ring⟩
        · rintro ⟨rfl, ⟨d', v, rfl, hv⟩, rfl⟩
          exact ⟨j, v, hv, rfl, rfl, by rw [hv, Option.getD_some]; ring⟩
    · intro y hy
      obtain ⟨k, v, hv, rfl⟩ := (h3 y).1 hy
      obtain ⟨w, hw, hw1, hw2⟩ := hent.2.dget_some hv
      dsimp only
      rw [hw, Option.getD_some]
      exact hbound _ _ hw1 hw2 (hp _ (dget_some_mem hv))

/-- At every point of every history at which something has been proposed, `print_statistics` prints the acceptance rate of all
proposals and exactly the partial ones; all of them are between 0 and 100. -/
theorem C91_report (cfg : ChainCfg S σ) (hg : GoodStats cfg) (hs : PositiveShares cfg) {c : Chain S σ E} (hist : History cfg c)
    (ht : 0 < c.total) :
    ∃ r lines, c.report = .ok (r, lines) ∧ r = 100 * (c.accTotal / c.total) ∧ 0 ≤ r ∧ r ≤ 100 ∧
      (∀ name sub x, ⟨name, sub, x⟩ ∈ lines ↔ ExpectedRate c name x sub) ∧ ∀ y ∈ lines, 0 ≤ y.rate ∧ y.rate ≤ 100 := by
  have inv := hist.inv cfg hg
  have hpos := hist.pos cfg hg hs
  have hle : (c.accTotal : ℝ) ≤ c.total := by
    rw [← inv.total, ← inv.accTotal]
    have : ∀ {p a : List (String × Stat)}, Par Entry p a → weightAll a ≤ weightAll p := by
      intro p a h
      induction h with
      | nil => simp [weightAll]
      | @cons x y p a hxy _ ih =>
        obtain ⟨k1, v1⟩ := x
        obtain ⟨k2, w1⟩ := y
        have hw : weight w1 ≤ weight v1 := by
          have he := hxy.2
          match v1, w1, he with
          | .count n, .count m, he => simp only [weight]; exact_mod_cast he.2
          | .sub d, .sub e, he =>
            have : ∀ {d e : List (String × ℝ)}, Par (fun _ (v w : ℝ) => 0 ≤ w ∧ w ≤ v) d e →
                (e.map (·.2)).sum ≤ (d.map (·.2)).sum := by
              intro d e h
              induction h with
              | nil => simp
              | cons h _ ih => simp only [List.map_cons, List.sum_cons]; linarith [h.2.2]
            exact this he.2
        simp only [weightAll, List.map_cons, List.sum_cons] at ih ⊢
        linarith
    exact this inv.par
  have ht' : (0 : ℝ) < c.total := by exact_mod_cast ht
  obtain ⟨lines, h1, h2⟩ := collectLines_ok (f := typeLines c.proposed c.accepted) (ks := sortedKeys c.proposed) (fun k hk => by
    obtain ⟨s, hs⟩ := mem_sortedKeys.1 hk
    obtain ⟨l, hl, -⟩ := typeLines_spec inv.par hpos hs
    exact ⟨l, hl⟩)
  refine ⟨c.accTotal / c.total * 100, lines, ?_, by ring, ?_, ?_, ?_, ?_⟩
  · simp [Chain.report, acceptanceRate_pos ht'.ne', h1, bind, Except.bind]
  · exact mul_nonneg (div_nonneg (Nat.cast_nonneg _) ht'.le) (by norm_num)
  · have := (div_le_one ht').2 hle
    linarith
  · intro name sub x
    rw [h2]
    constructor
    · rintro ⟨k, hk, l, hl, hx⟩
      obtain ⟨s, hs⟩ := mem_sortedKeys.1 hk
      obtain ⟨l', hl', hm, -⟩ := typeLines_spec inv.par hpos hs
      rw [hl] at hl'
      cases hl'
      obtain ⟨hk', he⟩ := (hm _).1 hx
      dsimp only at hk' he
      rw [hk']
      exact he
    · intro he
      have hs : ∃ s, dget c.proposed name = some s := by
        cases sub with
        | none => obtain ⟨⟨n, hn⟩, -⟩ := he; exact ⟨_, hn⟩
        | some k => obtain ⟨⟨d, v, hd, -⟩, -⟩ := he; exact ⟨_, hd⟩
      obtain ⟨s, hs⟩ := hs
      obtain ⟨l, hl, hm, -⟩ := typeLines_spec inv.par hpos hs
      exact ⟨name, mem_sortedKeys.2 ⟨s, hs⟩, l, hl, (hm _).2 ⟨rfl, he⟩⟩
  · intro y hy
    obtain ⟨k, hk, l, hl, hy⟩ := (h2 y).1 hy
    obtain ⟨s, hs⟩ := mem_sortedKeys.1 hk
    obtain ⟨l', hl', -, hb⟩ := typeLines_spec inv.par hpos hs
    rw [hl] at hl'
    cases hl'
    exact hb y hy

/-- Before the first proposal `print_statistics` raises. -/
theorem C91_report_zero {c : Chain S σ E} (h : c.total = 0) : c.report = .error .zeroDivisionError := by
  simp [Chain.report, acceptanceRate, h, bind, Except.bind]

theorem callHook_some (f : Act (Chain S σ E) Unit) : callHook (some f) = f := rfl

theorem iterationP_some (cfg : ChainCfg S σ) (b s : ℤ) (v : Bool) (p : ℤ) (bi ei : Act (Chain S σ E) Unit) (c : Chain S σ E)
    (t : List Draw) : Chain.iterationP cfg b s v p (some bi) (some ei) c t =
      match Chain.iteration cfg b s bi ei c t with
      | (.error e, c1, t1) => (.error e, c1, t1)
      | (.ok ev, c1, t1) =>
        match Chain.printIfDue v p (c.total + 1) c1 t1 with
        | (.error e, c2, t2) => (.error e, c2, t2)
        | (.ok _, c2, t2) => (.ok ev, c2, t2) := by
  unfold Chain.iterationP
  rw [Act.bind_run, callHook_some, callHook_some]
  rcases Chain.iteration cfg b s bi ei c t with ⟨e | ev, c1, t1⟩
  · rfl
  · dsimp only
    rw [Act.bind_run]
    rcases Chain.printIfDue v p (c.total + 1) c1 t1 with ⟨e | u, c2, t2⟩ <;> rfl

/-- Whether and how often the progress is printed (not with an interval of zero) makes no difference to the chain: the same models, the
same statistics, the same saved states, the same draws, and the same exceptions. -/
theorem C91_verbose (cfg : ChainCfg S σ) (hg : GoodStats cfg) (hs : PositiveShares cfg) {c : Chain S σ E} (hist : History cfg c)
    (b s : ℤ) {bi ei : Act (Chain S σ E) Unit} (hb : StatsHook bi) (he : StatsHook ei) (v : Bool) {p : ℤ} (hp : p ≠ 0) (n : ℕ)
    (t : List Draw) : Chain.advanceP cfg b s v p (some bi) (some ei) n c t = Chain.advance cfg b s bi ei n c t := by
  induction n generalizing c t with
  | zero => rfl
  | succ n ih =>
    have h1 : Chain.iterationP cfg b s v p (some bi) (some ei) c t = Chain.iteration cfg b s bi ei c t := by
      rw [iterationP_some]
      rcases hit : Chain.iteration cfg b s bi ei c t with ⟨e | ev, c1, t1⟩
      · rfl
      · have hadv : Chain.advance cfg b s bi ei 1 c t = (.ok [ev], c1, t1) :=
          (advance_succ_ok cfg).2 ⟨ev, [], c1, t1, rfl, hit, rfl⟩
        have hist1 : History cfg c1 := by
          have := History.advance (cfg := cfg) b s bi ei 1 t hb he hist
          rw [hadv] at this; exact this
        have htot := (C03_exactly_n cfg b s bi ei (fun c t => ⟨(hb c t).2.2.1, (hb c t).2.2.2⟩)
          (fun c t => ⟨(he c t).2.2.1, (he c t).2.2.2⟩) 1 c c1 t t1 [ev] hadv).2.1
        obtain ⟨r, lines, hr, -⟩ := C91_report cfg hg hs hist1 (by omega)
        have hpr : Chain.printIfDue v p (c.total + 1) c1 t1 = (.ok (), c1, t1) := by
          unfold Chain.printIfDue
          split_ifs <;> simp [hr]
        dsimp only
        rw [hpr]
    change (Chain.iterationP cfg b s v p (some bi) (some ei) >>= _) c t = (Chain.iteration cfg b s bi ei >>= _) c t
    rw [Act.bind_run, Act.bind_run, h1]
    rcases hit : Chain.iteration cfg b s bi ei c t with ⟨e | ev, c1, t1⟩
    · rfl
    · have hadv : Chain.advance cfg b s bi ei 1 c t = (.ok [ev], c1, t1) :=
        (advance_succ_ok cfg).2 ⟨ev, [], c1, t1, rfl, hit, rfl⟩
      have hist1 : History cfg c1 := by
        have := History.advance (cfg := cfg) b s bi ei 1 t hb he hist
        rw [hadv] at this; exact this
      dsimp only
      rw [Act.bind_run, Act.bind_run, ih hist1]

/-- Printing with an interval of zero raises after the first iteration, which stays done. -/
theorem C91_print_every_zero (cfg : ChainCfg S σ) (b s : ℤ) (bi ei : Act (Chain S σ E) Unit) (n : ℕ) {c c1 : Chain S σ E}
    {t t1 : List Draw} {ev : Event S} (h : Chain.iteration cfg b s bi ei c t = (.ok ev, c1, t1)) :
    Chain.advanceP cfg b s true 0 (some bi) (some ei) (n + 1) c t = (.error .zeroDivisionError, c1, t1) := by
  change (Chain.iterationP cfg b s true 0 (some bi) (some ei) >>= _) c t = _
  rw [Act.bind_run, iterationP_some, h]
  rfl

/-- Without `begin_iteration` (the default) nothing is proposed: `TypeError`, with no draw used and only the flag for saving set. -/
theorem C91_no_begin (cfg : ChainCfg S σ) {b s : ℤ} (v : Bool) (p : ℤ) (ei : Option (Act (Chain S σ E) Unit)) (n : ℕ)
    (c : Chain S σ E) (hs : s ≠ 0) (t : List Draw) :
    ∃ x, Chain.advanceP cfg b s v p none ei (n + 1) c t = (.error .typeError, { c with saveNow := x }, t) := by
  have hf : ∃ x, Chain.setFlag b s c t = (.ok (), { c with saveNow := x }, t) := by
    unfold Chain.setFlag
    dsimp only
    split_ifs
    · exact ⟨_, rfl⟩
    · exact ⟨_, rfl⟩
  obtain ⟨x, hf⟩ := hf
  refine ⟨x, ?_⟩
  change (Chain.iterationP cfg b s v p none ei >>= _) c t = _
  rw [Act.bind_run]
  have : Chain.iterationP cfg b s v p none ei c t = (.error .typeError, { c with saveNow := x }, t) := by
    unfold Chain.iterationP
    rw [Act.bind_run]
    have hi : Chain.iteration cfg b s (callHook none) (callHook ei) c t =
        (.error .typeError, { c with saveNow := x }, t) := by
      unfold Chain.iteration
      rw [Act.bind_run, hf]
      rfl
    rw [hi]
  rw [this]

/-- Without `end_iteration` (the default) one iteration is made and stays done, with its statistics and its saved state; then
`TypeError`. -/
theorem C91_no_end (cfg : ChainCfg S σ) {b s : ℤ} (v : Bool) (p : ℤ) (bi : Act (Chain S σ E) Unit) (n : ℕ)
    {c c1 : Chain S σ E} {t t1 : List Draw} {ev : Event S}
    (h : Chain.iteration cfg b s bi Act.skip c t = (.ok ev, c1, t1)) :
    Chain.advanceP cfg b s v p (some bi) none (n + 1) c t = (.error .typeError, c1, t1) := by
  obtain ⟨c2, c3, c4, t2, t3, b1, b2, b3, b4⟩ := (iteration_ok cfg).1 h
  have hskip : c4 = c1 ∧ t3 = t1 := by
    have : (Act.skip : Act (Chain S σ E) Unit) c4 t3 = (.ok (), c4, t3) := rfl
    rw [this] at b4
    simp only [Prod.mk.injEq, true_and] at b4
    exact b4
  obtain ⟨rfl, rfl⟩ := hskip
  change (Chain.iterationP cfg b s v p (some bi) none >>= _) c t = _
  rw [Act.bind_run]
  have : Chain.iterationP cfg b s v p (some bi) none c t = (.error .typeError, c4, t3) := by
    unfold Chain.iterationP
    rw [Act.bind_run]
    have hi : Chain.iteration cfg b s (callHook (some bi)) (callHook none) c t = (.error .typeError, c4, t3) := by
      unfold Chain.iteration
      rw [Act.bind_run, b1]
      dsimp only
      rw [Act.bind_run, callHook_some, b2]
      dsimp only
      rw [Act.bind_run, b3]
      rfl
    rw [hi]
  rw [this]

/-! ### Examples -/

theorem exCfg5_positive : PositiveShares exCfg5 := by
  intro name f _ _ s t new lpr t' _ st hst
  simp only [exCfg5] at hst
  split at hst
  · injection hst with hst; subst hst; simp
  · injection hst with hst; subst hst; simp

/-- The chain of the example of C05, verbose, with the default interval. -/
example (t : List Draw) (n : ℕ) : Chain.advanceP exCfg5 0 1 true 100 (some Act.skip) (some Act.skip) n (Chain.init 0 () 1 ()) t =
    Chain.advance exCfg5 0 1 Act.skip Act.skip n (Chain.init 0 () 1 ()) t :=
  C91_verbose exCfg5 exCfg5_good exCfg5_positive (.init 0 () 1 ()) 0 1 (fun _ _ => ⟨rfl, rfl, rfl, rfl⟩)
    (fun _ _ => ⟨rfl, rfl, rfl, rfl⟩) true (by norm_num) n t

/-- One perturbation, which is always accepted. -/
noncomputable def ex91 : ChainCfg ℕ Unit where
  perturbs := [("UserPerturbation", fun s t => (.ok (s + 2, .fin 0), t))]
  weights := [1]
  llr := fun a b _ => (.ok (.fin 0), a, b)
  stats := fun _ => .ok [("all", 1)]
  setTemp := fun s _ => s
  save := fun _ l => (.ok (), l)

theorem ex91_good : GoodStats ex91 where
  perturb := by
    intro name f _ _ s t new lpr t' _ st hst
    simp only [ex91, Except.ok.injEq] at hst
    subst hst
    constructor <;> simp
  llr := fun _ _ _ => rfl

theorem ex91_positive : PositiveShares ex91 := by
  intro name f _ _ s t new lpr t' _ st hst
  simp only [ex91, Except.ok.injEq] at hst
  subst hst
  simp

noncomputable def ex91d : Draw := ⟨0, 0, 1 / 2, by norm_num⟩

theorem ex91_choice : choices 1 [1] [ex91d, ex91d] = (.ok 0, [ex91d]) := by
  simp [choices, accumulate, M.random, M.draw, bisectRight, bind, pure, show ¬ ((1 : ℝ) ≤ 0) by norm_num]

theorem ex91_stats (name : String) (acc : Bool) (new : ℕ) : ∃ p a, newStats ex91 name acc new [] [] = .ok (p, a) := by
  unfold newStats
  split
  · exact ⟨_, _, by simp [ex91, bumpSubs, bumpSub, dget, bind, Except.bind]; exact ⟨rfl, rfl⟩⟩
  · exact ⟨_, _, rfl⟩

theorem ex91_iteration : ∃ ev c1, Chain.iteration ex91 0 1 Act.skip Act.skip (Chain.init 0 () 1 () : Chain ℕ Unit Unit)
    [ex91d, ex91d] = (.ok ev, c1, []) := by
  classical
  have hf : Chain.setFlag 0 1 (Chain.init 0 () 1 () : Chain ℕ Unit Unit) [ex91d, ex91d] =
      (.ok (), { (Chain.init 0 () 1 () : Chain ℕ Unit Unit) with saveNow := true }, [ex91d, ex91d]) := by
    simp [Chain.setFlag, Chain.init]
  have hn : ∃ ev c1, Chain.next ex91 { (Chain.init 0 () 1 () : Chain ℕ Unit Unit) with saveNow := true } [ex91d, ex91d] =
      (.ok ev, c1, []) := by
    have hc : choices ex91.perturbs.length ex91.weights [ex91d, ex91d] = (.ok 0, [ex91d]) := ex91_choice
    have hch : Chosen ex91 [ex91d, ex91d] "UserPerturbation" (fun s t => (.ok (s + 2, .fin 0), t)) [ex91d] := ⟨0, hc, rfl⟩
    have hfin : ∃ ev c1, Chain.finish ex91 "UserPerturbation" 2 ((PyF.fin 0).add (.fin 0))
        { (Chain.init 0 () 1 () : Chain ℕ Unit Unit) with saveNow := true } [ex91d] = (.ok ev, c1, []) := by
      rw [finish_run, if_neg (by norm_num [ex91d])]
      obtain ⟨p, a, hpa⟩ := ex91_stats "UserPerturbation"
        (decide (((PyF.fin 0).add (.fin 0)).gtFin (Real.log ex91d.u))) 2
      simp only [Chain.init]
      rw [hpa]
      dsimp only
      simp [Chain.saveIfDue, afterStats, ex91]
    obtain ⟨ev, c1, hfin⟩ := hfin
    refine ⟨ev, c1, ?_⟩
    unfold Chain.next
    rw [attempts_succ, attempt_chosen ex91 hch]
    simp [ex91, PyF.isInf, Chain.init] at hfin ⊢
    rw [hfin]
  obtain ⟨ev, c1, hn⟩ := hn
  exact ⟨ev, c1, (iteration_ok ex91).2 ⟨_, _, c1, _, _, hf, rfl, hn, rfl⟩⟩

/-- A chain that has made an iteration. -/
example : ∃ c : Chain ℕ Unit Unit, History ex91 c ∧ c.total = 1 ∧ ∃ r lines, c.report = .ok (r, lines) := by
  obtain ⟨ev, c1, h⟩ := ex91_iteration
  have hadv : Chain.advance ex91 0 1 Act.skip Act.skip 1 (Chain.init 0 () 1 ()) [ex91d, ex91d] = (.ok [ev], c1, []) :=
    (advance_succ_ok ex91).2 ⟨ev, [], c1, [], rfl, h, rfl⟩
  have hist : History ex91 c1 := by
    have := History.advance (cfg := ex91) 0 1 Act.skip Act.skip 1 [ex91d, ex91d] (fun _ _ => ⟨rfl, rfl, rfl, rfl⟩)
      (fun _ _ => ⟨rfl, rfl, rfl, rfl⟩) (.init 0 () 1 ())
    rw [hadv] at this; exact this
  have htot : c1.total = 1 := by
    have := (C03_exactly_n ex91 0 1 Act.skip Act.skip (fun _ _ => ⟨rfl, rfl⟩) (fun _ _ => ⟨rfl, rfl⟩) 1 _ c1 _ _ [ev] hadv).2.1
    simpa [Chain.init] using this
  obtain ⟨r, lines, hr, -⟩ := C91_report ex91 ex91_good ex91_positive hist (by omega)
  exact ⟨c1, hist, htot, r, lines, hr⟩

/-- The same chain with the interval zero, and without `end_iteration`. -/
example : ∃ c1, Chain.advanceP ex91 0 1 true 0 (some Act.skip) (some Act.skip) 5 (Chain.init 0 () 1 ()) [ex91d, ex91d] =
      (.error .zeroDivisionError, c1, []) ∧
    Chain.advanceP ex91 0 1 true 100 (some Act.skip) none 5 (Chain.init 0 () 1 ()) [ex91d, ex91d] = (.error .typeError, c1, []) := by
  obtain ⟨ev, c1, h⟩ := ex91_iteration
  exact ⟨c1, C91_print_every_zero ex91 0 1 _ _ 4 h, C91_no_end ex91 true 100 _ 4 h⟩

/-- A chain that has proposed four models, one of which was accepted. -/
def ex91c : Chain ℕ Unit Unit :=
  ⟨0, 1, (), true, [("UserPerturbation", .count 4)], [("UserPerturbation", .count 1)], 4, 1, [], ()⟩

example : ex91c.report = .ok (25, [⟨"UserPerturbation", none, 25⟩]) := by
  simp [ex91c, Chain.report, acceptanceRate, collectLines, sortedKeys, dkeys, typeLines, dget, bind, Except.bind]
  norm_num

/-- The default arguments: nothing is done. -/
example (t : List Draw) : ∃ x, Chain.advanceP exCfg5 0 100 true 100 none none 1000 (Chain.init 0 () 1 ()) t =
    (.error .typeError, { (Chain.init 0 () 1 () : Chain ℕ Unit Unit) with saveNow := x }, t) :=
  C91_no_begin exCfg5 true 100 none 999 _ (by norm_num) t

end BB.Props
