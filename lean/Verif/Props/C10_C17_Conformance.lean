import Verif.Lemmas.ConformProps
import Verif.Props.C45_InsertDelete
import Verif.Props.C46_C48_Interpolation

/-!
# C10, C11, C12, C13, C15, C17, C62: the states of all (nested) spaces are as declared
-/

namespace BB.Props

open BB BB.Spec BB.Lemmas

/-- C10.  In every state that a chain can visit, the number of dimensions of every (nested) space is within its
bounds, or is the fixed one. -/
theorem C10_dimensions (p : Problem) (hp : ProblemOk p) (s : State) (hs : Visits p s) (sp : Space) (x : PSState)
    (hx : StateOf p s.params sp x) : DimsOk sp.info x.n :=
  have hg := good_problem hp (fun _ _ q _ _ => anyVal_ok q) (fun _ _ _ _ _ => Or.inl trivial)
  conf_dims (stateOf_conf hg (visits_inv hp hg hs) hx).2

/-- C11.  In every state that a chain can visit, the values of every (nested) space are those of its parameters and
have as many entries as there are dimensions. -/
theorem C11_arrays (p : Problem) (hp : ProblemOk p) (s : State) (hs : Visits p s) (sp : Space) (x : PSState)
    (hx : StateOf p s.params sp x) : ArraysOk sp x :=
  have hg := good_problem hp (fun _ _ q _ _ => anyVal_ok q) (fun _ _ _ _ _ => Or.inl trivial)
  have h := stateOf_conf hg (visits_inv hp hg hs) hx
  conf_arrays h.1 h.2

/-- C12.  In every state that a chain can visit, the sites of every (nested) `Voronoi1D` are sorted and in the
domain. -/
theorem C12_sorted_in_domain (p : Problem) (hp : ProblemOk p) (s : State) (hs : Visits p s) (sp : Space)
    (x : PSState) (hx : StateOf p s.params sp x) (v : Vor1) (hv : sp.info.kind = .vor1 v) : LineOk v x :=
  have hg := good_problem hp (fun _ _ q _ _ => anyVal_ok q) (fun _ _ _ _ _ => Or.inl trivial)
  conf_line (stateOf_conf hg (visits_inv hp hg hs) hx).2 hv

/-- C13.  In every state that a chain can visit, the sites of every (nested) `Voronoi2D` are in the rectangle, and in
the polygon if there is one. -/
theorem C13_in_domain (p : Problem) (hp : ProblemOk p) (s : State) (hs : Visits p s) (sp : Space)
    (x : PSState) (hx : StateOf p s.params sp x) (v : Vor2) (hv : sp.info.kind = .vor2 v) : PlaneOk v x :=
  have hg := good_problem hp (fun _ _ q _ _ => anyVal_ok q) (fun _ _ _ _ _ => Or.inl trivial)
  (conf_plane (stateOf_conf hg (visits_inv hp hg hs) hx).2 hv).1

/-- C15.  In every state that a chain can visit, the values of every uniform parameter of every (nested) space are
within the bounds, evaluated at the position of the site. -/
theorem C15_within_bounds (p : Problem) (hp : ProblemOk p)
    (hu : ∀ sp k q vmin vmax, Occurs p sp → (k, Param.prior q) ∈ sp.params.toList →
      q.dist = .uniform vmin vmax → UniformOk q vmin vmax)
    (s : State) (hs : Visits p s) (sp : Space) (x : PSState) (hx : StateOf p s.params sp x)
    (k : String) (q : Prior) (hq : (k, Param.prior q) ∈ sp.params.toList) (vmin vmax : Hyper)
    (hd : q.dist = .uniform vmin vmax) : UniformWithin q vmin vmax x :=
  have hg := good_problem (vs := bounds) hp
    (fun sp k q h1 h2 => bounds_ok fun vmin vmax h3 => hu sp k q vmin vmax h1 h2 h3) (fun _ _ _ _ _ => Or.inl trivial)
  have h := stateOf_conf hg (visits_inv hp hg hs) hx
  conf_uniform h.1 h.2 hq hd

/-- C17.  Every starting state has states of all (nested) spaces that are as declared: dimensions, arrays, sites,
bounds of uniform parameters. -/
theorem C17_start (p : Problem) (hp : ProblemOk p)
    (hu : ∀ sp k q vmin vmax, Occurs p sp → (k, Param.prior q) ∈ sp.params.toList →
      q.dist = .uniform vmin vmax → UniformOk q vmin vmax)
    (s : State) (hs : Start p s) :
    (∀ k sp, (k, sp) ∈ p.spaces → ∃ x, dget s.params k = some (.ps x)) ∧
    ∀ sp x, StateOf p s.params sp x →
      DimsOk sp.info x.n ∧ ArraysOk sp x ∧ (∀ v, sp.info.kind = .vor1 v → LineOk v x) ∧
      (∀ v, sp.info.kind = .vor2 v → PlaneOk v x) ∧
      ∀ k q vmin vmax, (k, Param.prior q) ∈ sp.params.toList → q.dist = .uniform vmin vmax →
        UniformWithin q vmin vmax x := by
  have hg := good_problem (vs := bounds) hp
    (fun sp k q h1 h2 => bounds_ok fun vmin vmax h3 => hu sp k q vmin vmax h1 h2 h3) (fun _ _ _ _ _ => Or.inl trivial)
  obtain ⟨t, t', hs⟩ := hs
  have hinv := start_inv hp hg _ _ _ hs
  refine ⟨fun k sp hk => ?_, fun sp x hx => ?_⟩
  · obtain ⟨x, hx, _⟩ := hinv.2.1 k sp hk
    exact ⟨x, hx⟩
  · have h := stateOf_conf hg hinv hx
    exact ⟨conf_dims h.2, conf_arrays h.1 h.2, fun v hv => conf_line h.2 hv,
      fun v hv => (conf_plane h.2 hv).1, fun k q vmin vmax hq hd => conf_uniform h.1 h.2 hq hd⟩

/-- C62, what holds: a cached tree has always been built from exactly the current sites, in all (nested) spaces;
and every state of a top-level `Voronoi2D` with `compute_kdtree` offers one.  Missing: states of nested spaces that offer none,
see `C62_newborn_without_tree`. -/
theorem C62_tree_partial (p : Problem) (hp : ProblemOk p) (s : State) (hs : Visits p s) :
    (∀ sp x v ks, StateOf p s.params sp x → sp.info.kind = .vor2 v → x.kd = some ks →
      x.get "discretization" = some (.arr (.pts ks))) ∧
    (∀ k sp v x, (k, sp) ∈ p.spaces → sp.info.kind = .vor2 v → v.kdtree = true →
      dget s.params k = some (.ps x) →
      ∃ ks, x.kd = some ks ∧ x.get "discretization" = some (.arr (.pts ks))) := by
  have hg := good_problem hp (fun _ _ q _ _ => anyVal_ok q) (fun _ _ _ _ _ => Or.inl trivial)
  have hinv := visits_inv hp hg hs
  have h1 : ∀ sp x v ks, StateOf p s.params sp x → sp.info.kind = .vor2 v → x.kd = some ks →
      x.get "discretization" = some (.arr (.pts ks)) :=
    fun sp x v ks hx hv hk => (conf_plane (stateOf_conf hg hinv hx).2 hv).2 ks hk
  refine ⟨h1, fun k sp v x hk hv hkd hx => ?_⟩
  obtain ⟨x', e1, e2, e3⟩ := hinv.2.1 k sp hk
  rw [hx] at e1
  injection e1 with e1
  injection e1 with e1
  subst e1
  obtain ⟨ks, hks⟩ := Option.isSome_iff_exists.1 (e3 v hv hkd)
  exact ⟨ks, hks, h1 sp x v ks ⟨k, sp, x, hk, hx, .refl⟩ hv hks⟩

/-- C62 is false of the code for nested spaces: *every* successful birth in a discretization leaves it with a state of
every nested space that has no cached tree, whether `compute_kdtree` is set or not, and whether newborns are drawn from the
prior or near the neighbour (`sample` and `_sample_from_neighbour` do not build a tree). -/
theorem C62_newborn_without_tree (sp : Space) (hok : SpaceOk sp) (s new : PSState) (lpr : PyF) (t t' : List Draw)
    (hd : sp.info.kind.isDisc = true) (hn : s.n ≠ sp.info.hi) (k : String) (sp1 : Space)
    (hk : (k, Param.space sp1) ∈ sp.params.toList) (h : sp.birth s t = (.ok (new, lpr), t')) :
    ∃ l x, (new.get k = some (.states l) ∨ new.get k = some (.objs l)) ∧ x ∈ l ∧ x.kd = none :=
  birth_kd hok hd hn hk t (new, lpr) t' h

/-! ### Non-trivial instances -/

section Examples

open Classical in
/-- A stable sort. -/
noncomputable def stableSort : ArgSort where
  f := fun xs => (List.range xs.length).insertionSort (fun i j => xs.getD i 0 ≤ xs.getD j 0)
  perm := fun xs => List.perm_insertionSort _ _
  sorted := fun xs => by
    rw [List.pairwise_map]
    have : Std.Total (fun i j : ℕ => xs.getD i 0 ≤ xs.getD j 0) := ⟨fun i j => le_total _ _⟩
    have : IsTrans ℕ (fun i j : ℕ => xs.getD i 0 ≤ xs.getD j 0) := ⟨fun _ _ _ h h' => le_trans h h'⟩
    exact List.pairwise_insertionSort _ _

/-- The unit square with a cached tree. -/
def exSquare : Vor2 where
  vmin := (0, 0)
  vmax := (1, 1)
  std := (1, 1)
  polygon := none
  bounds := by simp
  kdtree := true

/-- The unit interval. -/
noncomputable def exLine : Vor1 := ⟨0, 1, 1, stableSort⟩

/-- A parameter with uniform prior over an interval that gets wider with the position: `[0, 1 + x]`. -/
noncomputable def exWide : Prior :=
  { name := "a", dist := .uniform (.const 0) (.line [0, 1] [1, 2]), std := .const 1, stdBirth := .const 1,
    hasPosition := true }

/-- A parameter with uniform prior over `[0, 1]`. -/
noncomputable def exUnit : Prior :=
  { name := "b", dist := .uniform (.const 0) (.const 1), std := .const 1, stdBirth := .const 1,
    hasPosition := false }

/-- A tessellation of the square with one or two cells and one parameter. -/
noncomputable def exInner : Space :=
  .mk { name := "w", nMin := 1, nMax := 2, initRange := 1, kind := .vor2 exSquare, fromPrior := true }
    (.cons "b" (.prior exUnit) .nil)

/-- A tessellation of the interval, each of the one or two cells of which has a tessellation of the
square. -/
noncomputable def exOuter : Space :=
  .mk { name := "v", nMin := 1, nMax := 2, initRange := 0, kind := .vor1 exLine, fromPrior := true }
    (.cons "a" (.prior exWide) (.cons "w" (.space exInner) .nil))

noncomputable def exNested : Problem :=
  { spaces := [("v", exOuter)], kind := .targets, tf := [] }

theorem exInner_sub {sp : Space} (h : SubSpace exInner sp) : sp = exInner := by
  cases h with
  | refl => rfl
  | step hk _ => simp [exInner, Space.params, ParamList.toList] at hk

theorem exOuter_sub {sp : Space} (h : SubSpace exOuter sp) : sp = exOuter ∨ sp = exInner := by
  cases h with
  | refl => exact Or.inl rfl
  | step hk h =>
    simp only [exOuter, Space.params, ParamList.toList, List.mem_cons, Prod.mk.injEq, reduceCtorEq, and_false,
      Param.space.injEq, List.not_mem_nil, or_false, false_or] at hk
    rw [hk.2] at h
    exact Or.inr (exInner_sub h)

theorem exNested_occurs {sp : Space} (h : Occurs exNested sp) : sp = exOuter ∨ sp = exInner := by
  obtain ⟨k, top, hk, h⟩ := h
  simp only [exNested, List.mem_singleton, Prod.mk.injEq] at hk
  rw [hk.2] at h
  exact exOuter_sub h

theorem exInner_ok : SpaceOk exInner where
  nodup := by simp [exInner, Space.params, ParamList.toList]
  disc := by simp [exInner, Space.params, ParamList.toList]
  key := by simp [exInner, Space.params, ParamList.toList, Param.name, exUnit]
  dims := by simp [exInner, Space.info]
  line := by simp [exInner, Space.info]
  plane := by
    intro v hv
    simp only [exInner, Space.info, Kind.vor2.injEq] at hv
    subst hv
    simp [exSquare]

theorem exOuter_ok : SpaceOk exOuter where
  nodup := by simp [exOuter, Space.params, ParamList.toList]
  disc := by simp [exOuter, Space.params, ParamList.toList]
  key := by
    intro k p hk
    simp only [exOuter, Space.params, ParamList.toList, List.mem_cons, Prod.mk.injEq, List.not_mem_nil,
      or_false] at hk
    rcases hk with ⟨rfl, rfl⟩ | ⟨rfl, rfl⟩ <;> rfl
  dims := by simp [exOuter, Space.info]
  line := by
    intro v hv
    simp only [exOuter, Space.info, Kind.vor1.injEq] at hv
    subst hv
    simp [exLine]
  plane := by simp [exOuter, Space.info]

theorem exNested_ok : ProblemOk exNested where
  key := by simp [exNested, exOuter, Space.info]
  nodup := by simp [exNested]
  ok := by
    intro sp h
    rcases exNested_occurs h with rfl | rfl
    · exact exOuter_ok
    · exact exInner_ok
  names := by
    intro sp sp' h h' hn
    rcases exNested_occurs h with rfl | rfl <;> rcases exNested_occurs h' with rfl | rfl
    · rfl
    · simp [exOuter, exInner, Space.info] at hn
    · simp [exOuter, exInner, Space.info] at hn
    · rfl
  targets := by simp [exNested, Problem.targets]

theorem exNested_uniform : ∀ sp k q vmin vmax, Occurs exNested sp → (k, Param.prior q) ∈ sp.params.toList →
    q.dist = .uniform vmin vmax → UniformOk q vmin vmax := by
  intro sp k q vmin vmax h hq hd
  rcases exNested_occurs h with rfl | rfl
  · simp only [exOuter, Space.params, ParamList.toList, List.mem_cons, Prod.mk.injEq, Param.prior.injEq,
      reduceCtorEq, and_false, List.not_mem_nil, or_false] at hq
    rw [hq.2] at hd ⊢
    simp only [exWide, Dist.uniform.injEq] at hd
    obtain ⟨rfl, rfl⟩ := hd
    refine ⟨?_, by simp [exWide], by simp [exWide]⟩
    intro pos lo hi h1 h2
    cases pos with
    | none => cases h2
    | two q => cases h2
    | one x =>
      obtain ⟨v, e1, e2, _⟩ := C47_range [0, 1] [1, 2] (by simp) rfl x (1 : ℝ) 2 (by norm_num)
      have e3 : Except.ok v = Except.ok hi := e1.symm.trans h2
      injection e3 with e3
      injection h1 with h1
      linarith
  · simp only [exInner, Space.params, ParamList.toList, List.mem_cons, Prod.mk.injEq, Param.prior.injEq,
      List.not_mem_nil, or_false] at hq
    rw [hq.2] at hd ⊢
    simp only [exUnit, Dist.uniform.injEq] at hd
    obtain ⟨rfl, rfl⟩ := hd
    refine ⟨?_, fun _ => ⟨0, 1, rfl, rfl⟩, by simp [exUnit]⟩
    intro pos lo hi h1 h2
    injection h1 with h1
    injection h2 with h2
    linarith

/-- A draw. -/
noncomputable def exD : Draw := ⟨0, 0, 1 / 2, by norm_num⟩

/-- A state of the inner space. -/
noncomputable def exIn : PSState :=
  .mk 1 [("discretization", .arr (.pts [(1 / 2, 1 / 2)])), ("b", .arr (.vec [1 / 2]))] (some [(1 / 2, 1 / 2)])

/-- A state of the outer space. -/
noncomputable def exOut : PSState :=
  .mk 1 [("discretization", .arr (.vec [1 / 2])), ("a", .arr (.vec [3 / 4])), ("w", .states [exIn])] none

theorem exD_u : exD.u = 1 / 2 := rfl

theorem exD_n : exD.n = 0 := rfl

theorem exInner_sites (t : List Draw) : (Kind.vor2 exSquare).sampleSites 1 (exD :: exD :: t) =
    (.ok (some (.pts [(1 / 2, 1 / 2)])), t) := by
  have h : exSquare.sampleSite (exD :: exD :: t) = (.ok (1 / 2, 1 / 2), t) := by
    refine (M.bind_of (M.uniform_run _ _ _ _)).trans ((M.bind_of (M.uniform_run _ _ _ _)).trans ?_)
    simp [exSquare, exD_u, M.pure_run]
  refine (M.bind_of (a := [(1 / 2, 1 / 2)]) (t1 := t) ?_).trans rfl
  exact (M.bind_of h).trans rfl

theorem exIn_run (t : List Draw) : exInner.initialize (exD :: exD :: exD :: exD :: t) = (.ok exIn, t) := by
  have hmax : Info.initMax { name := "w", nMin := 1, nMax := 2, initRange := 1, kind := .vor2 exSquare, fromPrior := true } = 2 := by
    norm_num [Info.initMax, pyInt]
  have hdim : Info.initDim { name := "w", nMin := 1, nMax := 2, initRange := 1, kind := .vor2 exSquare, fromPrior := true }
      (exD :: exD :: exD :: exD :: t) = (.ok 1, exD :: exD :: exD :: t) := by
    simp only [Info.initDim, hmax]
    rw [if_neg (by norm_num)]
    exact M.randint_run (by norm_num) _ _
  have hb : exUnit.initialize [.two (1 / 2, 1 / 2)] (exD :: t) = (.ok (.vec [1 / 2]), t) := by
    refine (M.bind_of (a := [(0, 1)]) (t1 := exD :: t) rfl).trans ?_
    rw [if_neg (by simp)]
    refine (M.bind_of ((M.bind_of (M.uniform_run _ _ _ _)).trans rfl)).trans ?_
    simp [exD_u, M.pure_run]
  rw [exInner, Space.initialize]
  refine (M.bind_of hdim).trans ((M.bind_of (exInner_sites _)).trans ?_)
  simp only [ParamList.initAt, Param.initialize, Arr.positions, List.map_cons, List.map_nil]
  simp only [M.bind_run, hb, M.pure_run]
  simp [M.lift_run, dset, mkPS, checkVals, checkVal, PVal.len, Arr.len, bind, pure, Except.bind, Except.pure,
    Kind.withKd, exSquare, addKd, PSState.get, PSState.vals, PSState.n, dget, exIn]

theorem exWide_at : Hyper.get (.line [0, 1] [1, 2]) (.one (1 / 2)) = .ok (3 / 2) := by
  have := C47_piecewise_linear [0, 1] [1, 2] rfl (by simp [StrictlyAscending]) (1 / 2 : ℝ) 0 (by simp) (by norm_num)
    (by norm_num)
  change Utils1d.interpLinear _ _ _ = _
  rw [this]
  norm_num [line]

theorem exOut_run (t : List Draw) :
    exOuter.initialize (exD :: exD :: exD :: exD :: exD :: exD :: exD :: t) = (.ok exOut, t) := by
  have hmax : Info.initMax { name := "v", nMin := 1, nMax := 2, initRange := 0, kind := .vor1 exLine, fromPrior := true } = 1 := by
    norm_num [Info.initMax, pyInt]
  have h2 : exWide.initialize [.one (1 / 2)] (exD :: exD :: exD :: exD :: exD :: t) =
      (.ok (.vec [3 / 4]), exD :: exD :: exD :: exD :: t) := by
    refine (M.bind_of (a := [(0, 3 / 2)]) (t1 := exD :: exD :: exD :: exD :: exD :: t) ?_).trans ?_
    · simp only [List.mapM_cons, exWide_at, M.lift_run]
      rfl
    · rw [if_neg (by simp)]
      refine (M.bind_of ((M.bind_of (M.uniform_run _ _ _ _)).trans rfl)).trans ?_
      norm_num [exD_u, M.pure_run]
  have hdim : Info.initDim { name := "v", nMin := 1, nMax := 2, initRange := 0, kind := .vor1 exLine, fromPrior := true }
      (exD :: exD :: exD :: exD :: exD :: exD :: exD :: t) =
      (.ok 1, exD :: exD :: exD :: exD :: exD :: exD :: t) := by
    simp only [Info.initDim, hmax]
    rw [if_neg (by norm_num)]
    exact M.randint_run (by norm_num) _ _
  have hsite : (Kind.vor1 exLine).sampleSites 1 (exD :: exD :: exD :: exD :: exD :: exD :: t) =
      (.ok (some (.vec [1 / 2])), exD :: exD :: exD :: exD :: exD :: t) := by
    refine (M.bind_of ((M.bind_of (M.uniform_run _ _ _ _)).trans rfl)).trans ?_
    simp [exLine, exD_u, M.pure_run, npSort]
  rw [exOuter, Space.initialize]
  refine (M.bind_of hdim).trans ((M.bind_of hsite).trans ?_)
  simp only [ParamList.initAt, Param.initialize, Arr.positions, List.map_cons, List.map_nil]
  simp only [M.bind_run, h2, M.pure_run, M.forEach, exIn_run]
  simp [M.lift_run, dset, mkPS, checkVals, checkVal, PVal.len, Arr.len, bind, pure, Except.bind, Except.pure,
    Kind.withKd, exOut]

/-- The hypotheses of the theorems above are met: the problem is as asked, and there is a starting
state, with states of both spaces. -/
theorem exNested_start : ∃ s, Start exNested s ∧ dget s.params "v" = some (.ps exOut) := by
  refine ⟨{ params := [("v", .ps exOut)], temperature := 1, cache := [], extra := [] },
    ⟨[exD, exD, exD, exD, exD, exD, exD], [], ?_⟩, ?_⟩
  · simp only [Problem.start, exNested, Spaces.initialize, Spaces.initValues, M.bind_run, exOut_run, M.pure_run,
      Problem.targets, List.map_nil, initTargets]
  · simp [dget]

example : ∃ s, Visits exNested s ∧ StateOf exNested s.params exOuter exOut ∧
    StateOf exNested s.params exInner exIn := by
  obtain ⟨s, h1, h2⟩ := exNested_start
  have hm : ("v", exOuter) ∈ exNested.spaces := by simp [exNested]
  refine ⟨s, .start h1, ⟨"v", exOuter, exOut, hm, h2, .refl⟩, "v", exOuter, exOut, hm, h2, ?_⟩
  refine .step (k := "w") (sp1 := exInner) (x := exIn) (l := [exIn]) ?_ (Or.inl ?_) (by simp) .refl
  · simp [exOuter, Space.params, ParamList.toList]
  · simp [exOut, PSState.get, PSState.vals, dget]

/-- A birth that succeeds: afterwards the first cell has a tree and the newborn one has none. -/
theorem exOut_birth : exOuter.birth exOut [exD, exD, exD, exD, exD, exD] =
    (.ok (.mk 2 [("discretization", .arr (.vec [1 / 2, 1 / 2])), ("a", .arr (.vec [3 / 4, 3 / 4])),
      ("w", .states [.mk 1 [("discretization", .arr (.pts [(1 / 2, 1 / 2)])), ("b", .arr (.vec [1 / 2]))] none,
        exIn])] none, .fin 0), []) := by
  have hs1 : exWide.sample (.one (1 / 2)) [exD, exD, exD, exD, exD] = (.ok (3 / 4), [exD, exD, exD, exD]) := by
    unfold Prior.sample
    simp only [exWide, exWide_at]
    norm_num [bind, pure, M.lift, Hyper.get, M.uniform, M.draw, exD]
  have hs2 : exInner.sample [exD, exD, exD, exD] = (.ok (.mk 1 [("discretization", .arr (.pts [(1 / 2, 1 / 2)])),
      ("b", .arr (.vec [1 / 2]))] none), []) := by
    have hb : exUnit.sample (.two (1 / 2, 1 / 2)) [exD] = (.ok (1 / 2), []) := by
      refine (M.bind_of (a := 0) (t1 := [exD]) rfl).trans ((M.bind_of (a := 1) (t1 := [exD]) rfl).trans ?_)
      simp [M.uniform_run, exD_u]
    rw [exInner, Space.sample]
    refine (M.bind_of (M.randint_run (by norm_num) _ _)).trans ((M.bind_of (exInner_sites _)).trans ?_)
    refine (M.bind_of (a := .mk 1 [("discretization", .arr (.pts [(1 / 2, 1 / 2)]))] none) (t1 := [exD]) ?_).trans ?_
    · simp [M.lift, mkPS, checkVals, checkVal, PVal.len, Arr.len, bind, pure, Except.bind, Except.pure, exD_n]
    · simp only [ParamList.sampleAt, Param.sampleMany, Arr.positions, List.map_cons, List.map_nil, M.bind_run,
        M.forEach, hb, M.pure_run]
      simp [M.lift_run, PSState.setVal, checkVal, bind, pure, Except.bind, Except.pure, dset, PSState.vals,
        PSState.n, PSState.kd]
  have hsite : exLine.sampleSite [exD, exD, exD, exD, exD, exD] = (.ok (1 / 2), [exD, exD, exD, exD, exD]) := by
    norm_num [Vor1.sampleSite, exLine, M.uniform, M.draw, bind, pure, exD]
  have hnew : exOuter.newborn (.one (1 / 2)) exOut [exD, exD, exD, exD, exD] =
      (.ok ([("a", .num (3 / 4)), ("w", .ps (.mk 1 [("discretization", .arr (.pts [(1 / 2, 1 / 2)])),
        ("b", .arr (.vec [1 / 2]))] none))], .fin 0), []) := by
    unfold Space.newborn
    have hf : exOuter.info.fromPrior = true := rfl
    rw [if_pos hf]
    simp only [exOuter, Space.params, ParamList.toList, newbornFromPrior, M.bind_run, hs1, M.pure_run, hs2]
  unfold Space.birth
  have hk : exOuter.info.kind = .vor1 exLine := rfl
  have hd : exOuter.info.kind.isDisc = true := rfl
  have hn : ¬ exOut.n = exOuter.info.hi := by
    change ¬ (1 = 2)
    norm_num
  rw [if_pos hd, if_neg hn]
  have hg : exOut.get "discretization" = some (.arr (.vec [1 / 2])) := by
    simp [exOut, PSState.get, PSState.vals, dget]
  have hbis : bisectLeft [(1 / 2 : ℝ)] (1 / 2) 0 1 = 0 := by
    rw [bisectLeft, if_pos (by norm_num), if_neg (by norm_num), bisectLeft, if_neg (by norm_num)]
  simp only [M.bind_run, vorBirth, hk, hsite, hnew, hg, List.length_cons, List.length_nil, Nat.zero_add, hbis,
    M.lift_run]
  have hi1 : Utils1d.insert1d 0 [(1 / 2 : ℝ)] 0 (1 / 2) = .ok [1 / 2, 1 / 2] := by
    rw [C45_insert, if_pos (by simp)]; rfl
  have hi2 : Utils1d.insert1d 0 [(3 / 4 : ℝ)] 0 (3 / 4) = .ok [3 / 4, 3 / 4] := by
    rw [C45_insert, if_pos (by simp)]; rfl
  have ha : exOut.get "a" = some (.arr (.vec [3 / 4])) := by simp [exOut, PSState.get, PSState.vals, dget]
  have hw : exOut.get "w" = some (.states [exIn]) := by simp [exOut, PSState.get, PSState.vals, dget]
  simp only [Nat.cast_zero, hi1, addNewborn, ha, hw, PVal.insertAt, hi2, bind, Except.bind, pure, Except.pure]
  simp [dset, mkPS, checkVals, checkVal, PVal.len, Arr.len, listInsert, bind, Except.bind, pure, Except.pure,
    Kind.withKd, PSState.n, exOut]

end Examples

end BB.Props
