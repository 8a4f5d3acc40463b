import Verif.Lemmas.ProgressChain
import Verif.Props.C10_C17_Conformance

/-!
# C63: births near the neighbour; C66: safe inversions raise no exceptions
-/

namespace BB.Props

open BB BB.Spec BB.Lemmas

/-! ### C63 -/

theorem fromNeighbour_never (old : PSState) (inear : ℕ) (pos : Pos) (k : String) (sp1 : Space)
    (h1 : sp1.info.kind.isDisc = false) : ∀ (ps : List (String × Param)) (acc : PyF), (k, Param.space sp1) ∈ ps →
    Post (newbornFromNeighbour old inear pos ps acc) (fun _ => False)
  | [], _, hk => by simp at hk
  | (k', p) :: rest, acc, hk => by
    rw [newbornFromNeighbour.eq_def]
    simp only
    rcases List.mem_cons.1 hk with e | hk
    · injection e with e1 e2
      subst e2
      refine Post.bind' (Q := fun _ => False) ?_ fun _ h => h.elim
      simp only [h1, Bool.false_eq_true, if_false]
      exact Post.bind_any fun _ => Post.throw'
    · refine Post.bind_any fun x => ?_
      refine Post.bind' (fromNeighbour_never old inear pos k sp1 h1 rest _ hk) fun _ h => h.elim

/-- C63 is false of the code: in a discretization with `birth_from="neighbour"` one of the parameters of which is
a plain `ParameterSpace`, no birth ever succeeds, whatever the state (below the maximum number of
dimensions) and whatever is drawn. -/
theorem C63_plain_never (sp : Space) (hd : sp.info.kind.isDisc = true) (hb : sp.info.fromPrior = false)
    (k : String) (sp1 : Space) (hk : (k, Param.space sp1) ∈ sp.params.toList) (h1 : sp1.info.kind.isDisc = false)
    (s : PSState) (hn : s.n ≠ sp.info.hi) (t t' : List Draw) (r : PSState × PyF) :
    sp.birth s t ≠ (.ok r, t') := by
  have hnb : ∀ pos, Post (sp.newborn pos s) (fun _ => False) := by
    intro pos
    rw [Space.newborn, if_neg (by simp [hb])]
    exact Post.bind_any fun inear => fromNeighbour_never s inear pos k sp1 h1 _ _ hk
  have : Post (sp.birth s) (fun _ => False) := by
    rw [Space.birth, if_pos hd, if_neg hn]
    refine Post.bind' (Q := fun _ => False) ?_ fun _ h => h.elim
    unfold vorBirth
    split
    · exact Post.throw'
    · exact Post.bind_any fun x => Post.bind' (hnb _) fun _ h => h.elim
    · exact Post.bind_any fun x => Post.bind' (hnb _) fun _ h => h.elim
  exact this t r t'

/-- C63, the part that holds: in an inversion that meets the requirements of `ProblemSafe` — among which that no
plain `ParameterSpace` is a parameter of a discretization with `birth_from="neighbour"` — no birth in any space of any
state that can be visited raises an exception. -/
theorem C63_births_partial (p : Problem) (h : ProblemSafe p) (s : State) (hs : Visits p s) (sp : Space)
    (ho : Occurs p sp) (x : PSState) (hx : StateOf p s.params sp x) : NoRaise (sp.birth x) :=
  (birth_runs (h.space ho) (stateOf_conf h.good (visits_inv h.ok h.good hs) hx).2).noRaise

/-! ### C66 -/

/-- C66, starting states: the construction of the starting state of a chain raises no exception. -/
theorem C66_start (p : Problem) (h : ProblemSafe p) : NoRaise p.start :=
  (start_runs h).noRaise

/-- C66, perturbations: none of the perturbations of positive weight raises an exception in any state that
can be visited. -/
theorem C66_perturb (p : Problem) (h : ProblemSafe p) (s : State) (hs : Visits p s) (i : ℕ) (name : String)
    (f : State → M (State × PyF)) (w : ℝ) (hf : p.perturbs[i]? = some (name, f)) (hw : p.weights[i]? = some w)
    (hpos : 0 < w) : NoRaise (f s) := by
  have hinv := visits_inv h.ok h.good hs
  unfold Problem.perturbs at hf
  unfold Problem.weights at hw
  by_cases hi : i < p.spaces.perts.length
  · rw [List.getElem?_append_left (by simpa using hi), List.getElem?_map, List.getElem?_eq_getElem hi] at hf hw
    simp only [Option.map_some, Option.some.injEq, Prod.mk.injEq] at hf hw
    obtain ⟨-, rfl⟩ := hf
    exact (perturb_runs h (List.getElem_mem hi) (hw ▸ hpos) hinv).noRaise
  · rw [List.getElem?_append_right (by simpa using hi)] at hf
    have hm := List.mem_of_getElem? hf
    unfold Problem.noisePerturbs at hm
    split at hm
    · simp at hm
    · simp only [List.mem_singleton, Prod.mk.injEq] at hm
      obtain ⟨-, rfl⟩ := hm
      refine (noisePerturb_runs fun tg htg => ?_).noRaise
      obtain ⟨h1, h2⟩ := List.mem_filter.1 htg
      exact C16_visited p h.targets h.checked s hs tg h1 h2

/-- C66, chains: a chain just made of a starting state is among those considered below. -/
theorem C66_fresh {E : Type} (p : Problem) (s : State) (hs : Start p s) (store : Store) (T : ℝ) (hT : T ≠ 0) (w : E) :
    RunInv p (Chain.init s store T w) where
  cur := .start hs
  temp := hT
  proposed := by intro name n _ h; simp [Chain.init, dget] at h
  accepted := by intro name n _ h; simp [Chain.init, dget] at h

/-- C66, hooks that do nothing are safe, and so is the assignment of a temperature. -/
theorem C66_hooks {E : Type} (p : Problem) : HookSafe p (Act.skip : Act (Chain State Store E) Unit) ∧
    ∀ T : ℝ, T ≠ 0 → HookSafe p (Act.modify fun c : Chain State Store E => c.setTemp p.cfg T) :=
  ⟨fun c t h => ⟨c, t, rfl, h, List.suffix_refl _⟩, fun T hT c t h =>
    ⟨c.setTemp p.cfg T, t, rfl, ⟨.temp T h.cur, hT, h.proposed, h.accepted⟩, List.suffix_refl _⟩⟩

/-- C66, runs: whatever the number of iterations, the burn-in and the draws, a run of `advance_chain` completes all its
iterations, leaving the chain as considered, or is ended by one of three exceptions: the draws supplied
have been used up (which does not happen to Python); one of the draws was exactly 0, so that the logarithm in
the acceptance test raised `ValueError`; functions of the user failed 500 times in a row (`RuntimeError`), which does not
happen if they never fail. -/
theorem C66_advance {E : Type} (p : Problem) (h : RunSafe p) (burnin saveEvery : ℤ) (hs : saveEvery ≠ 0)
    (bi ei : Act (Chain State Store E) Unit) (hbi : HookSafe p bi) (hei : HookSafe p ei) (n : ℕ)
    (c : Chain State Store E) (hc : RunInv p c) (t : List Draw) :
    (∃ evs c' t', Chain.advance p.cfg burnin saveEvery bi ei n c t = (.ok evs, c', t') ∧ evs.length = n ∧ RunInv p c' ∧
      t' <:+ t) ∨
    ∃ e c' t', Chain.advance p.cfg burnin saveEvery bi ei n c t = (.error e, c', t') ∧ Expected p t e := by
  have := advance_goes h (kept_visits h.base) (b := burnin) hs hbi hei n c hc t
  unfold Goes at this
  match ha : Chain.advance p.cfg burnin saveEvery bi ei n c t with
  | (.ok evs, c', t') => rw [ha] at this; exact Or.inl ⟨evs, c', t', rfl, this.2.2, this.1, this.2.1⟩
  | (.error e, c', t') => rw [ha] at this; exact Or.inr ⟨e, c', t', rfl, this⟩

/-- C66 without the qualification is false of the code: a draw of exactly 0 (which `random.random()` can return) in the
acceptance test raises `ValueError`, in every chain and whatever the ratio. -/
theorem C66_zero_draw {S σ E : Type} (cfg : ChainCfg S σ) (name : String) (new : S) (lp : PyF) (c : Chain S σ E) (d : Draw)
    (hd : d.u = 0) (t : List Draw) : Chain.finish cfg name new lp c (d :: t) = (.error .valueError, c, t) := by
  rw [finish_run]
  exact if_pos hd.le

/-- C66, saving with a period of 0 raises `ZeroDivisionError` as soon as the burn-in is over; the
requirement on `save_every` is needed. -/
theorem C66_period_zero {S σ E : Type} (cfg : ChainCfg S σ) (burnin : ℤ) (bi ei : Act (Chain S σ E) Unit) (n : ℕ)
    (c : Chain S σ E) (hb : burnin < c.total + 1) (t : List Draw) :
    Chain.advance cfg burnin 0 bi ei (n + 1) c t = (.error .zeroDivisionError, c, t) := by
  have hf : Chain.setFlag burnin 0 c t = (.error .zeroDivisionError, c, t) := by
    unfold Chain.setFlag
    simp only
    rw [if_neg (by omega)]
    rfl
  rw [Chain.advance, Act.bind_run]
  have hi : Chain.iteration cfg burnin 0 bi ei c t = (.error .zeroDivisionError, c, t) := by
    unfold Chain.iteration
    rw [Act.bind_run, hf]
  rw [hi]

/-! ### examples -/

/-- Data with unknown standard deviation and correlation. -/
noncomputable def exTarget66 : Target :=
  { name := "d", dobs := [1, 2, 3], stdMin := 1, stdMax := 4, correlated := true, corrMax := 1 / 2 }

/-- The nested tessellations of C10 with these data. -/
noncomputable def exRun66 : Problem :=
  { exNested with tf := [(exTarget66, fun _ => some [2, 2, 2])] }

theorem exPrior_wide : PriorSafe (.vor1 exLine) exWide where
  dist := by
    rintro pos ⟨x, rfl, -, -⟩
    obtain ⟨v, e1, e2, _⟩ := C47_range [0, 1] [1, 2] (by simp) rfl x (1 : ℝ) 2 (by norm_num)
    exact ⟨0, v, rfl, e1, by linarith⟩
  std := fun pos _ => ⟨1, rfl⟩
  birth := fun _ pos _ => ⟨1, rfl, one_pos⟩
  init := by simp [exWide]

theorem exPrior_unit : PriorSafe (.vor2 exSquare) exUnit where
  dist := fun pos _ => ⟨0, 1, rfl, rfl, one_pos⟩
  std := fun pos _ => ⟨1, rfl⟩
  birth := fun _ pos _ => ⟨1, rfl, one_pos⟩
  init := by simp [exUnit]

theorem exOuter_safe : SpaceSafe exOuter where
  dims := by simp [exOuter, Space.info, Info.lo]
  priors := by
    intro k q hq
    simp only [exOuter, Space.params, ParamList.toList, List.mem_cons, Prod.mk.injEq, Param.prior.injEq,
      reduceCtorEq, and_false, List.not_mem_nil, or_false] at hq
    rw [hq.2]
    exact exPrior_wide
  neighbours := by simp [exOuter, Space.info]
  nested := by
    intro k sp1 hk hd
    simp only [exOuter, Space.params, ParamList.toList, List.mem_cons, Prod.mk.injEq, reduceCtorEq, and_false,
      Param.space.injEq, List.not_mem_nil, or_false, false_or] at hk
    rw [hk.2] at hd
    simp [exInner, Space.info, Kind.isDisc] at hd
  plane := by simp [exOuter, Space.info]

theorem exInner_safe : SpaceSafe exInner where
  dims := by simp [exInner, Space.info, Info.lo]
  priors := by
    intro k q hq
    simp only [exInner, Space.params, ParamList.toList, List.mem_cons, Prod.mk.injEq, Param.prior.injEq,
      List.not_mem_nil, or_false] at hq
    rw [hq.2]
    exact exPrior_unit
  neighbours := by simp [exInner, Space.info]
  nested := by
    intro k sp1 hk
    simp [exInner, Space.params, ParamList.toList] at hk
  plane := by
    intro v hv
    simp only [exInner, Space.info, Kind.vor2.injEq] at hv
    subst hv
    simp [exSquare]

theorem exRun66_occurs {sp : Space} (h : Occurs exRun66 sp) : Occurs exNested sp := h

/-- The hypotheses are met by a trans-dimensional inversion with nested tessellations and hierarchical noise. -/
theorem exRun66_safe : RunSafe exRun66 where
  base := {
    ok := {
      key := exNested_ok.key
      nodup := exNested_ok.nodup
      ok := fun sp h => exNested_ok.ok sp h
      names := fun sp sp' h h' => exNested_ok.names sp sp' h h'
      targets := by simp [exRun66, Problem.targets, exTarget66, exNested] }
    safe := by
      intro sp h
      rcases exNested_occurs (exRun66_occurs h) with rfl | rfl
      · exact exOuter_safe
      · exact exInner_safe
    targets := by simp [exRun66, Problem.targets]
    checked := by
      intro tg htg
      simp only [exRun66, Problem.targets, List.map_cons, List.map_nil, List.mem_singleton] at htg
      subst htg
      unfold Target.check
      rw [if_pos]
      norm_num [exTarget66] }
  moves := Or.inr ⟨exTarget66, by simp [exRun66, Problem.targets], rfl⟩
  likelihood := by
    change ∀ x ∈ exRun66.tf, TargetSafe x
    intro x hx
    simp only [exRun66, List.mem_singleton] at hx
    subst hx
    refine ⟨?_, by simp [exTarget66], by simp [exTarget66], by simp [exTarget66], by norm_num [exTarget66]⟩
    intro q d hd
    injection hd with hd
    subst hd
    rfl
  spaces := by
    intro k sp hk
    simp only [exRun66, exNested, List.mem_singleton, Prod.mk.injEq] at hk
    obtain ⟨rfl, rfl⟩ := hk
    refine ⟨plain_of (by decide +kernel), ?_⟩
    intro k' q hq
    simp only [exOuter, Space.params, ParamList.toList, List.mem_cons, Prod.mk.injEq, List.not_mem_nil, or_false] at hq
    rcases hq with ⟨rfl, -⟩ | ⟨rfl, -⟩
    · exact plain_of (by decide +kernel)
    · exact plain_of (by decide +kernel)
  names := by
    intro tg htg
    simp only [exRun66, Problem.targets, List.map_cons, List.map_nil, List.mem_singleton] at htg
    subst htg
    exact plain_of (by decide +kernel)

example : NeverFails exRun66 := by
  change ∀ x ∈ exRun66.tf, ∀ q, x.2 q ≠ none
  intro x hx q
  simp only [exRun66, List.mem_singleton] at hx
  subst hx
  simp

/-- So a run of any number of iterations ends with one of the first two exceptions or not at all. -/
example (s : State) (hs : Start exRun66 s) (n : ℕ) (t : List Draw) (ht : ∀ d ∈ t, d.u ≠ 0) (e : PyErr)
    (c' : Chain State Store Unit) (t' : List Draw)
    (h : Chain.advance exRun66.cfg 0 1 Act.skip Act.skip n (Chain.init s [] 1 ()) t = (.error e, c', t')) :
    e = .tapeExhausted := by
  rcases C66_advance exRun66 exRun66_safe 0 1 one_ne_zero Act.skip Act.skip (C66_hooks _).1 (C66_hooks _).1 n _
    (C66_fresh exRun66 s hs [] 1 one_ne_zero ()) t with ⟨evs, c, t1, h1, -⟩ | ⟨e', c, t1, h1, he⟩
  · rw [h] at h1; cases h1
  · rw [h] at h1
    simp only [Prod.mk.injEq, Except.error.injEq] at h1
    rw [h1.1]
    rcases he with he | ⟨-, d, hd, hu⟩ | ⟨-, hn⟩
    · exact he
    · exact absurd hu (ht d hd)
    · refine absurd ?_ hn
      change ∀ x ∈ exRun66.tf, ∀ q, x.2 q ≠ none
      intro x hx q
      simp only [exRun66, List.mem_singleton] at hx
      subst hx
      simp

/-- A tessellation of the interval with births near the neighbour and a plain space as parameter: C63. -/
noncomputable def exPlain63 : Space :=
  .mk { name := "v", nMin := 1, nMax := 2, initRange := 0, kind := .vor1 exLine, fromPrior := false }
    (.cons "q" (.space (.mk { name := "q", nMin := 1, nMax := 1, initRange := 0, kind := .plain, fromPrior := false }
      (.cons "b" (.prior exUnit) .nil))) .nil)

example (s : PSState) (hs : s.n = 1) (t t' : List Draw) (r : PSState × PyF) : exPlain63.birth s t ≠ (.ok r, t') := by
  refine C63_plain_never exPlain63 rfl rfl "q" _ (by simp [exPlain63, Space.params, ParamList.toList]; rfl) rfl s ?_ t t' r
  rw [hs]
  simp [exPlain63, Space.info, Info.hi]

end BB.Props
