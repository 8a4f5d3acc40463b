import Verif.Lemmas.Chain
import Verif.Lemmas.Choices
import Mathlib.MeasureTheory.Measure.Lebesgue.Basic

/-!
# C01-C04: one iteration of a chain
-/

namespace BB.Props

open BB MeasureTheory

variable {S σ E : Type}

/-! ### C01 -/

/-- C01.  The iteration starts with `j < 500` abandoned attempts (reading the draws `pre`); the
following attempt chooses `(name, f)` with the draw `d0`; the perturbation, reading the draws `tp`,
proposes `new` with log probability ratio `b`; the log likelihood ratio is `r`.  Then, over the next
uniform draw `u`, the chain moves to the proposed state with probability `min(1, exp(b + r))`, and
otherwise stays where it is. -/
theorem C01_acceptance_probability (cfg : ChainCfg S σ) (c c1 : Chain S σ E)
    (pre tp rest : List Draw) (j : ℕ) (hj : j < 500)
    (hpre : ∀ t, Abandoned cfg j c (pre ++ t) c1 t)
    (d0 : Draw) (i : ℕ) (hi : choices cfg.perturbs.length cfg.weights [d0] = (.ok i, []))
    (name : String) (f : S → M (S × PyF)) (hf : cfg.perturbs[i]? = some (name, f))
    (new : S) (b : ℝ) (hprop : ∀ t, f c1.cur (tp ++ t) = (.ok (new, .fin b), t))
    (r : ℝ) (cur1 new1 : S) (hllr : cfg.llr c1.cur new c1.temp = (.ok (.fin r), cur1, new1))
    (hne : new1 ≠ cur1) (n : ℕ) (z : ℝ) :
    volume {u : ℝ | ∃ h, (Chain.next cfg c
        (pre ++ d0 :: tp ++ ⟨n, z, u, h⟩ :: rest)).2.1.cur = new1} =
      ENNReal.ofReal (min 1 (Real.exp (b + r))) ∧
    (∀ d : Draw, (Chain.next cfg c (pre ++ d0 :: tp ++ d :: rest)).2.1.cur = new1 ∨
      (Chain.next cfg c (pre ++ d0 :: tp ++ d :: rest)).2.1.cur = cur1) := by
  classical
  -- the first draw is consumed by `choices`
  have hchoose : ∀ t, choices cfg.perturbs.length cfg.weights (d0 :: t) = (.ok i, t) :=
    fun t => choices_cons hi t
  have hcur : ∀ d : Draw, (Chain.next cfg c (pre ++ d0 :: tp ++ d :: rest)).2.1.cur =
      if 0 < d.u ∧ Real.log d.u < b + r then new1 else cur1 := by
    intro d
    have e : pre ++ d0 :: tp ++ d :: rest = pre ++ (d0 :: (tp ++ d :: rest)) := by simp
    obtain ⟨m, hm⟩ : ∃ m, 500 = j + (m + 1) := ⟨500 - j - 1, by omega⟩
    rw [e]
    unfold Chain.next
    rw [hm, attempts_abandoned cfg (hpre _), attempts_succ,
      attempt_chosen cfg (t1 := tp ++ d :: rest) ⟨i, hchoose _, hf⟩, hprop]
    simp only [PyF.isInf, Bool.false_eq_true, if_false, hllr]
    rw [finish_run]
    by_cases hu : d.u ≤ 0
    · simp only [hu, if_true, not_lt.2 hu, false_and, if_false]
    · have hu' : 0 < d.u := lt_of_not_ge hu
      simp only [hu, if_false, hu', true_and]
      have hgt : (PyF.add (.fin b) (.fin r)).gtFin (Real.log d.u) ↔ Real.log d.u < b + r := Iff.rfl
      match newStats cfg name (decide ((PyF.add (.fin b) (.fin r)).gtFin (Real.log d.u))) new1
          c1.proposed c1.accepted with
      | .error err =>
        simp only [hgt, decide_eq_true_eq]
      | .ok (p, a) =>
        simp only
        have hs : ∀ acc, (Chain.saveIfDue cfg (afterStats { c1 with cur := cur1 } new1 acc p a)
            rest).2.1.cur = if acc then new1 else cur1 := by
          intro acc
          unfold Chain.saveIfDue
          split <;> rfl
        have hs' := hs (decide ((PyF.add (.fin b) (.fin r)).gtFin (Real.log d.u)))
        simp only [hgt, decide_eq_true_eq] at hs'
        match hm2 : Chain.saveIfDue cfg (afterStats { c1 with cur := cur1 } new1
            (decide ((PyF.add (.fin b) (.fin r)).gtFin (Real.log d.u))) p a) rest with
        | (.ok (), c2, t2) =>
          simp only [hgt] at hm2
          rw [hm2] at hs'; exact hs'
        | (.error err, c2, t2) =>
          simp only [hgt] at hm2
          rw [hm2] at hs'; exact hs'
  constructor
  · have hset : {u : ℝ | ∃ h, (Chain.next cfg c
        (pre ++ d0 :: tp ++ ⟨n, z, u, h⟩ :: rest)).2.1.cur = new1} =
        Set.Ioo 0 (min 1 (Real.exp (b + r))) := by
      ext u
      simp only [Set.mem_ofPred_eq, Set.mem_Ioo, lt_min_iff, hcur]
      constructor
      · rintro ⟨h, hc⟩
        split at hc
        · rename_i ha
          exact ⟨ha.1, h.2, (Real.log_lt_iff_lt_exp ha.1).1 ha.2⟩
        · exact absurd hc.symm hne
      · rintro ⟨h1, h2, h3⟩
        exact ⟨⟨h1.le, h2⟩, by rw [if_pos ⟨h1, (Real.log_lt_iff_lt_exp h1).2 h3⟩]⟩
    rw [hset, Real.volume_Ioo, sub_zero]
  · intro d
    rw [hcur]
    split
    · exact Or.inl rfl
    · exact Or.inr rfl

/-! ### C02 -/

/-- C02.  When the perturbation reports `-inf`, the attempt completes the iteration without consulting
the likelihood (its outcome is the same for every likelihood, including ones that always raise), the
current state is kept, and the proposal is counted as explored and not accepted.  (`0 < d.u`: for
`random.random() == 0` Python's `math.log` raises, see `C02_log_of_zero`.) -/
theorem C02_minus_infinity (cfg : ChainCfg S σ) (c : Chain S σ E) (t t1 : List Draw) (d : Draw)
    (t2 : List Draw) (hu : 0 < d.u) (name : String) (f : S → M (S × PyF))
    (hch : ∃ i, choices cfg.perturbs.length cfg.weights t = (.ok i, t1) ∧
      cfg.perturbs[i]? = some (name, f))
    (new : S) (hprop : f c.cur t1 = (.ok (new, .ninf), d :: t2)) :
    -- independence of the likelihood
    (∀ llr', Chain.attempt { cfg with llr := llr' } c t = Chain.attempt cfg c t) ∧
    -- the state is kept in every case
    (Chain.attempt cfg c t).2.1.cur = c.cur ∧
    -- the attempt is not abandoned
    (∀ c' t', Chain.attempt cfg c t ≠ (.ok none, c', t')) ∧
    -- and if it completes, the counters
    (∀ ev c' t', Chain.attempt cfg c t = (.ok (some ev), c', t') →
      c'.total = c.total + 1 ∧ c'.accTotal = c.accTotal ∧ c'.temp = c.temp ∧ ev.acc = false ∧
        t' = t2) := by
  classical
  have hch' : Chosen cfg t name f t1 := hch
  have key : ∀ llr', Chain.attempt { cfg with llr := llr' } c t =
      match Chain.finish cfg name new .ninf c (d :: t2) with
      | (.ok ev, c, t) => (.ok (some ev), c, t)
      | (.error e, c, t) => (.error e, c, t) := by
    intro llr'
    have hch'' : Chosen { cfg with llr := llr' } t name f t1 := hch
    rw [attempt_chosen _ hch'', hprop]
    rfl
  have key0 := key cfg.llr
  have key0' : Chain.attempt cfg c t = match Chain.finish cfg name new .ninf c (d :: t2) with
      | (.ok ev, c, t) => (.ok (some ev), c, t)
      | (.error e, c, t) => (.error e, c, t) := key0
  have hdec : decide (PyF.gtFin PyF.ninf (Real.log d.u)) = false :=
    decide_eq_false fun h => h
  refine ⟨fun llr' => by rw [key llr', key0'], ?_, ?_, ?_⟩
  · rw [key0', finish_run, if_neg (not_le.2 hu), hdec]
    match newStats cfg name false new c.proposed c.accepted with
    | .error e => rfl
    | .ok (p, a) =>
      simp only
      have hs : (Chain.saveIfDue cfg (afterStats c new false p a) t2).2.1.cur = c.cur := by
        unfold Chain.saveIfDue; split <;> rfl
      match hm : Chain.saveIfDue cfg (afterStats c new false p a) t2 with
      | (.ok (), c', t') => rw [hm] at hs; exact hs
      | (.error e, c', t') => rw [hm] at hs; exact hs
  · intro c' t' h
    rw [key0'] at h
    split at h <;> simp at h
  · intro ev c' t' h
    rw [key0'] at h
    split at h
    · rename_i ev' c1 t3 hfin
      simp only [Prod.mk.injEq, Except.ok.injEq, Option.some.injEq] at h
      obtain ⟨rfl, rfl, rfl⟩ := h
      have heff := finish_effect cfg hfin
      obtain ⟨d', hd, hu', hev, -⟩ := (finish_ok cfg).1 hfin
      simp only [List.cons.injEq] at hd
      have hacc : ev'.acc = false := by
        rw [hev]; exact decide_eq_false fun h => h
      refine ⟨heff.total, ?_, heff.temp, hacc, hd.2.symm⟩
      have := heff.accTotal
      rw [hacc] at this
      simpa using this
    · simp at h

/-- The boundary case: a draw equal to 0 makes every acceptance test raise `ValueError`. -/
theorem C02_log_of_zero (cfg : ChainCfg S σ) (c : Chain S σ E) (name : String) (new : S) (lp : PyF)
    (d : Draw) (hd : d.u = 0) (t : List Draw) :
    Chain.finish cfg name new lp c (d :: t) = (.error .valueError, c, t) := by
  rw [finish_run, if_pos hd.le]

/-! ### C03 -/

/-- C03.  The hooks are only required not to change the counters themselves. -/
theorem C03_exactly_n (cfg : ChainCfg S σ) (burnin saveEvery : ℤ)
    (beginIt endIt : Act (Chain S σ E) Unit)
    (hb : Act.Keeps beginIt fun c c' => c'.total = c.total ∧ c'.accTotal = c.accTotal)
    (he : Act.Keeps endIt fun c c' => c'.total = c.total ∧ c'.accTotal = c.accTotal)
    (n : ℕ) (c c' : Chain S σ E) (t t' : List Draw) (evs : List (Event S))
    (h : Chain.advance cfg burnin saveEvery beginIt endIt n c t = (.ok evs, c', t')) :
    evs.length = n ∧ c'.total = c.total + n ∧
      c'.accTotal = c.accTotal + (evs.filter (·.acc)).length ∧
      c'.accTotal ≤ c.accTotal + n := by
  have main : evs.length = n ∧ c'.total = c.total + n ∧
      c'.accTotal = c.accTotal + (evs.filter (·.acc)).length := by
    induction n generalizing c t evs with
    | zero =>
      rw [advance_zero] at h
      simp only [Prod.mk.injEq, Except.ok.injEq] at h
      obtain ⟨rfl, rfl, rfl⟩ := h
      exact ⟨rfl, rfl, rfl⟩
    | succ n ih =>
      rw [advance_succ_ok] at h
      obtain ⟨ev, evs', c1, t1, rfl, h1, h2⟩ := h
      obtain ⟨a1, a2, a3⟩ := ih c1 t1 evs' h2
      obtain ⟨c2, c3, c4, t2, t3, b1, b2, b3, b4⟩ := (iteration_ok cfg).1 h1
      have e1 := ((setFlag_ok).1 b1).2.2
      have e2 := hb.ok b2
      have e3 := next_effect cfg b3
      have e4 := he.ok b4
      refine ⟨by simp [a1], ?_, ?_⟩
      · rw [a2, e4.1, e3.total, e2.1, e1]; simp only; omega
      · rw [a3, e4.2, e3.accTotal, e2.2, e1]
        cases hacc : ev.acc
        · simp [hacc]
        · simp [hacc]; omega
  refine ⟨main.1, main.2.1, main.2.2, ?_⟩
  rw [main.2.2]
  have := List.length_filter_le (fun e : Event S => e.acc) evs
  omega

/-! ### C04 -/

/-- C04, what a failed attempt is: the chosen perturbation raises `UserFunctionException`, or it
returns a ratio that is not infinite and the likelihood raises `UserFunctionException` or
`ForwardException`. -/
theorem C04_failure_iff (cfg : ChainCfg S σ) (c : Chain S σ E) (t : List Draw) :
    (∃ c' t', Chain.attempt cfg c t = (.ok none, c', t')) ↔
      ∃ i name f t1, choices cfg.perturbs.length cfg.weights t = (.ok i, t1) ∧
        cfg.perturbs[i]? = some (name, f) ∧
        ((f c.cur t1).1 = .error .userFunction ∨
          ∃ new lpr, (f c.cur t1).1 = .ok (new, lpr) ∧ lpr.isInf = false ∧
            ((cfg.llr c.cur new c.temp).1 = .error .userFunction ∨
              (cfg.llr c.cur new c.temp).1 = .error .forward)) := by
  constructor
  · rintro ⟨c', t', h⟩
    rw [attempt_none] at h
    obtain ⟨name, f, t1, ⟨i, h1, h2⟩, h⟩ := h
    refine ⟨i, name, f, t1, h1, h2, ?_⟩
    rcases h with ⟨h, -⟩ | ⟨new, lpr, h, hi, hh⟩
    · left; rw [h]
    · right
      refine ⟨new, lpr, by rw [h], hi, ?_⟩
      rcases hh with ⟨h, -⟩ | ⟨h, -⟩
      · exact Or.inl h
      · exact Or.inr h
  · rintro ⟨i, name, f, t1, h1, h2, h⟩
    rcases h with h | ⟨new, lpr, h, hi, hh⟩
    · exact ⟨_, (f c.cur t1).2, (attempt_none cfg).2 ⟨name, f, t1, ⟨i, h1, h2⟩,
        Or.inl ⟨Prod.ext h rfl, rfl⟩⟩⟩
    · rcases hh with hh | hh
      · exact ⟨_, (f c.cur t1).2, (attempt_none cfg).2 ⟨name, f, t1, ⟨i, h1, h2⟩,
          Or.inr ⟨new, lpr, Prod.ext h rfl, hi, Or.inl ⟨hh, rfl⟩⟩⟩⟩
      · exact ⟨_, (f c.cur t1).2, (attempt_none cfg).2 ⟨name, f, t1, ⟨i, h1, h2⟩,
          Or.inr ⟨new, lpr, Prod.ext h rfl, hi, Or.inr ⟨hh, rfl⟩⟩⟩⟩

/-- C04, the retries: an iteration ends normally iff one of its first 500 attempts does, all the
attempts before it having failed. -/
theorem C04_normal_end (cfg : ChainCfg S σ) (c c' : Chain S σ E) (t t' : List Draw)
    (ev : Event S) :
    Chain.next cfg c t = (.ok ev, c', t') ↔
      ∃ j < 500, ∃ c1 t1, Abandoned cfg j c t c1 t1 ∧
        Chain.attempt cfg c1 t1 = (.ok (some ev), c', t') := by
  unfold Chain.next
  rw [attempts_ok]

/-- C04, after 500 failures `RuntimeError` is raised. -/
theorem C04_runtime_error (cfg : ChainCfg S σ) (c c1 : Chain S σ E) (t t1 : List Draw)
    (h : Abandoned cfg 500 c t c1 t1) :
    Chain.next cfg c t = (.error .runtimeError, c1, t1) := by
  exact attempts_abandoned cfg h 0

/-- C04, any other exception propagates at once. -/
theorem C04_other_exceptions (cfg : ChainCfg S σ) (c c1 c2 : Chain S σ E) (t t1 t2 : List Draw)
    (j : ℕ) (hj : j < 500) (h : Abandoned cfg j c t c1 t1) (e : PyErr)
    (he : Chain.attempt cfg c1 t1 = (.error e, c2, t2)) :
    Chain.next cfg c t = (.error e, c2, t2) := by
  obtain ⟨m, hm⟩ : ∃ m, 500 = j + (m + 1) := ⟨500 - j - 1, by omega⟩
  unfold Chain.next
  rw [hm, attempts_abandoned cfg h, attempts_succ, he]

/-- C04, there is no other way for an iteration to end. -/
theorem C04_exhaustive (cfg : ChainCfg S σ) (c : Chain S σ E) (t : List Draw) :
    (∃ c1 t1, Abandoned cfg 500 c t c1 t1) ∨
    ∃ j < 500, ∃ c1 t1, Abandoned cfg j c t c1 t1 ∧
      ((∃ ev c2 t2, Chain.attempt cfg c1 t1 = (.ok (some ev), c2, t2)) ∨
       (∃ e c2 t2, Chain.attempt cfg c1 t1 = (.error e, c2, t2))) := by
  rcases attempts_cases cfg 500 c t with ⟨c1, t1, h, -⟩ | ⟨j, hj, c1, t1, h, h2⟩
  · exact Or.inl ⟨c1, t1, h⟩
  · refine Or.inr ⟨j, hj, c1, t1, h, ?_⟩
    rcases h2 with ⟨ev, c2, t2, h, -⟩ | ⟨e, c2, t2, h, -⟩
    · exact Or.inl ⟨ev, c2, t2, h⟩
    · exact Or.inr ⟨e, c2, t2, h⟩

/-- C04, failures leave no trace: whatever the likelihood does not touch in a state (`obs`: for the
library's states the parameters, see `C32`) is unchanged, and so are the counters, the temperature
and the saved samples; the exception counters grow by one for each failure. -/
theorem C04_no_trace {P : Type} (cfg : ChainCfg S σ) (obs : S → P)
    (hobs : ∀ a b T, obs (cfg.llr a b T).2.1 = obs a) (j : ℕ) (c c1 : Chain S σ E)
    (t t1 : List Draw) (h : Abandoned cfg j c t c1 t1) :
    obs c1.cur = obs c.cur ∧ c1.total = c.total ∧ c1.accTotal = c.accTotal ∧
      c1.proposed = c.proposed ∧ c1.accepted = c.accepted ∧ c1.saved = c.saved ∧
      c1.temp = c.temp ∧
      (c1.exceptions.map (·.2)).sum = (c.exceptions.map (·.2)).sum + j := by
  obtain ⟨f1, f2, f3, f4, f5, f6, f7, f8⟩ := h.frame cfg
  exact ⟨h.obs cfg obs hobs, f6, f7, f4, f5, f2, f1, h.exceptions cfg⟩

/-- C04, the counters of exceptions: a failed attempt adds one to the counter of the class of its exception, and leaves the
other counters as they are. -/
theorem C04_counted (cfg : ChainCfg S σ) (c c' : Chain S σ E) (t t' : List Draw)
    (h : Chain.attempt cfg c t = (.ok none, c', t')) :
    ∃ i name f t1 cls, choices cfg.perturbs.length cfg.weights t = (.ok i, t1) ∧ cfg.perturbs[i]? = some (name, f) ∧
      (∀ k, (dget c'.exceptions k).getD 0 = (dget c.exceptions k).getD 0 + if k = cls then 1 else 0) ∧
      ((cls = "UserFunctionException" ∧ ((f c.cur t1).1 = .error .userFunction ∨
          ∃ new lpr, (f c.cur t1).1 = .ok (new, lpr) ∧ (cfg.llr c.cur new c.temp).1 = .error .userFunction)) ∨
        (cls = "ForwardException" ∧
          ∃ new lpr, (f c.cur t1).1 = .ok (new, lpr) ∧ (cfg.llr c.cur new c.temp).1 = .error .forward)) := by
  have count : ∀ (cls : String) (x : Chain S σ E), x.exceptions = c.exceptions → ∀ k,
      (dget (Chain.countException cls x).exceptions k).getD 0 = (dget c.exceptions k).getD 0 + if k = cls then 1 else 0 := by
    intro cls x hx k
    unfold Chain.countException
    rw [hx]
    by_cases hk : k = cls
    · subst hk
      simp [Lemmas.dget_dset_same]
    · simp [Lemmas.dget_dset_ne _ _ _ _ hk, hk]
  rw [attempt_none] at h
  obtain ⟨name, f, t1, ⟨i, h1, h2⟩, h⟩ := h
  rcases h with ⟨h, rfl⟩ | ⟨new, lpr, h, -, ⟨hl, rfl⟩ | ⟨hl, rfl⟩⟩
  · exact ⟨i, name, f, t1, _, h1, h2, count _ _ rfl, Or.inl ⟨rfl, Or.inl (by rw [h])⟩⟩
  · exact ⟨i, name, f, t1, _, h1, h2, count _ _ rfl, Or.inl ⟨rfl, Or.inr ⟨new, lpr, by rw [h], hl⟩⟩⟩
  · exact ⟨i, name, f, t1, _, h1, h2, count _ _ rfl, Or.inr ⟨rfl, new, lpr, by rw [h], hl⟩⟩

/-! ### Non-trivial instances -/

section Examples

/-- A configuration with integer states: one perturbation that adds one with log ratio `-1`,
one that fails whenever the state is even, one that reports `-inf`. -/
noncomputable def exCfg : ChainCfg ℤ (List ℤ) where
  perturbs := [("plus", fun s t => (.ok (s + 1, .fin (-1)), t)),
    ("odd", fun s t => if s % 2 = 0 then (.error .userFunction, t) else (.ok (s + 1, .fin 0), t)),
    ("out", fun s t => (.ok (s + 1, .ninf), t))]
  weights := [1, 1, 2]
  llr := fun a b _ => (.ok (.fin (-1)), a, b)
  stats := fun _ => .ok []
  setTemp := fun s _ => s
  save := fun s l => (.ok (), l ++ [s])

noncomputable def exDraw (x : ℝ) (h : 0 ≤ x ∧ x < 1) : Draw := ⟨0, 0, x, h⟩

theorem exChoice (x : ℝ) (h : 0 ≤ x ∧ x < 1) (i : ℕ) (hi : i < 3)
    (h1 : (([1, 1, 2] : List ℝ).take i).sum ≤ x * 4)
    (h2 : x * 4 < (([1, 1, 2] : List ℝ).take (i + 1)).sum) (t : List Draw) :
    choices exCfg.perturbs.length exCfg.weights (exDraw x h :: t) = (.ok i, t) := by
  have hs : ([1, 1, 2] : List ℝ).sum = 4 := by norm_num
  have := (choices_iff [1, 1, 2] (by simp) (by norm_num) (exDraw x h) t t i).2
    ⟨rfl, hi, by rw [hs]; exact h1, by rw [hs]; exact h2⟩
  exact this

/-- C01 applies, with one abandoned attempt before the proposal: the acceptance probability of the
example is `exp(-2)`. -/
example : volume {u : ℝ | ∃ h, (Chain.next exCfg (Chain.init (0 : ℤ) [] 1 ())
      ([exDraw (1/4) (by norm_num)] ++ exDraw 0 (by norm_num) :: [] ++ ⟨0, 0, u, h⟩ :: [])).2.1.cur
        = 1} = ENNReal.ofReal (min 1 (Real.exp (-1 + -1))) := by
  refine (C01_acceptance_probability exCfg (Chain.init (0 : ℤ) [] 1 ())
    (Chain.countException "UserFunctionException" (Chain.init (0 : ℤ) [] 1 ()))
    [exDraw (1/4) (by norm_num)] [] [] 1 (by norm_num) ?_ (exDraw 0 (by norm_num)) 0 ?_ "plus"
    (fun s t => (.ok (s + 1, .fin (-1)), t)) rfl 1 (-1) ?_ (-1) 0 1 rfl (by norm_num) 0 0).1
  · intro t
    refine .succ ?_ (.zero _ _)
    rw [attempt_none]
    exact ⟨"odd", _, t, ⟨1, exChoice (1/4) (by norm_num) 1 (by norm_num) (by norm_num)
      (by norm_num) t, rfl⟩, Or.inl ⟨rfl, rfl⟩⟩
  · exact exChoice 0 (by norm_num) 0 (by norm_num) (by norm_num) (by norm_num) []
  · intro t; rfl

/-- C02 applies. -/
example : (Chain.attempt exCfg (Chain.init (0 : ℤ) [] 1 ())
    [exDraw (1/2) (by norm_num), exDraw (1/2) (by norm_num)]).2.1.cur = 0 :=
  (C02_minus_infinity exCfg (Chain.init (0 : ℤ) [] 1 ()) _ _ (exDraw (1/2) (by norm_num)) []
    (by norm_num [exDraw]) "out" _
    ⟨2, exChoice (1/2) (by norm_num) 2 (by norm_num) (by norm_num) (by norm_num) _, rfl⟩ 1 rfl).2.1

/-- An iteration that completes (hypothesis of C03 with `n = 1`). -/
theorem exRun : ∃ evs c' t', Chain.advance exCfg 0 1 Act.skip Act.skip 1 (Chain.init (0 : ℤ) [] 1 ())
    [exDraw (1/2) (by norm_num), exDraw (1/2) (by norm_num)] = (.ok evs, c', t') := by
  have hn : ∀ b p a, ∃ p' a', newStats exCfg "out" b 1 p a = .ok (p', a') := by
    intro b p a
    have : ("out".startsWith "ParamSpacePerturbation") = false := by decide +kernel
    unfold newStats
    rw [this]
    exact ⟨_, _, rfl⟩
  have h : ∃ ev c' t', Chain.attempt exCfg
      { Chain.init (0 : ℤ) ([] : List ℤ) 1 () with saveNow := true }
      [exDraw (1/2) (by norm_num), exDraw (1/2) (by norm_num)] = (.ok (some ev), c', t') := by
    obtain ⟨ev, c', h⟩ := finish_exists exCfg (name := "out") (new := 1) (lp := .ninf)
      (c := { Chain.init (0 : ℤ) ([] : List ℤ) 1 () with saveNow := true })
      (d := exDraw (1/2) (by norm_num)) (t := []) (by norm_num [exDraw]) (fun _ _ => rfl)
      (fun b => hn b _ _)
    exact ⟨ev, c', [], (attempt_some exCfg).2 ⟨"out", fun s t => (.ok (s + 1, .ninf), t), _, 1,
      .ninf, _, ⟨2, exChoice (1/2) (by norm_num) 2 (by norm_num) (by norm_num) (by norm_num) _,
      rfl⟩, rfl, Or.inl ⟨rfl, h⟩⟩⟩
  obtain ⟨ev, c', t', h⟩ := h
  have hnext := (C04_normal_end exCfg _ _ _ _ _).2 ⟨0, by norm_num, _, _, .zero _ _, h⟩
  refine ⟨_, _, _, (advance_succ_ok exCfg).2 ⟨_, _, _, _, rfl, (iteration_ok exCfg).2
    ⟨_, _, _, _, _, ?_, rfl, hnext, rfl⟩, advance_zero _ _ _⟩⟩
  rw [setFlag_ok]
  simp [Chain.init]

end Examples

end BB.Props
