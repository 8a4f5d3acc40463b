import Verif.Lemmas.Undo
import Verif.Props.C14_C65_Rows

/-!
# C21 — birth and death undo one another; C22 — births from the nearest neighbour report prior over proposal density
-/

namespace BB.Props

open BB Spec Lemmas

/-- The cached tree of the state of a `Voronoi2D` that is to have one holds its sites; other states have none. -/
def TreeOk (sp : Space) (s : PSState) : Prop :=
  match sp.info.kind with
  | .vor2 v => if v.kdtree then ∃ ps, s.get "discretization" = some (.arr (.pts ps)) ∧ s.kd = some ps else s.kd = none
  | _ => s.kd = none

/-- C21: a birth below the maximal number of dimensions creates a row; the death that draws its index restores the
state and reports minus the ratio of the birth, for all kinds of spaces, births from the prior and from the neighbour
alike. -/
theorem C21_undo (sp : Space) (hok : ∀ sp', SubSpace sp sp' → SpaceOk sp') (s : PSState) (ha : ArraysOk sp s)
    (hlo : sp.info.lo ≤ s.n) (h0 : s.n = 0 → ∀ k v, (k, v) ∈ s.vals → ∃ xs, v = .arr (.vec xs)) (htree : TreeOk sp s)
    (hne : s.n ≠ sp.info.hi) (new : PSState) (lpr : PyF) (t t' : List Draw)
    (h : (PSFunc.birth sp).run s t = (.ok (new, lpr), t')) :
    ∃ i r, i ≤ s.n ∧ rows new = (rows s).take i ++ r :: (rows s).drop i ∧
      ∀ d t1, d.n % (s.n + 1) = i → (PSFunc.death sp).run new (d :: t1) = (.ok (s, lpr.neg), t1) := by
  have hok1 := hok sp .refl
  have hn : s.n = 0 → ∀ kv ∈ s.vals, ∃ xs, kv.2 = .arr (.vec xs) := fun e kv hkv => h0 e kv.1 kv.2 hkv
  cases hd : sp.info.kind.isDisc with
  | true =>
    rcases birth_form hok1 hd s t _ t' h with ⟨h1, _⟩ | ⟨_, new0, i, pos, nv, h1, h2, h3⟩
    · exact absurd h1 hne
    · have hidx := h1.index ha
      simp only at h1 h2 h3
      have hrow : Lemmas.Rel (Ins s.n i) s.vals new.vals := by
        rw [h3]
        exact h1.rel hok1 ha hd (fun v v' h1 h2 => addSite_ins h2 (ha.2.1 _ _ (dget_some_mem h1)))
          fun k v x v' _ h2 h3 h4 => addOp_ins h2 h3 h4 hidx.2
      refine ⟨i, _, hidx.1, rows_insert rfl (by rw [h2, h1.n]) hidx.1 hrow, fun d t1 hdi => ?_⟩
      obtain ⟨kd, h4, h5⟩ := undo hok hd ha hn hlo h1 h2 h3 d t1 hdi
      change sp.death new (d :: t1) = _
      rw [h4]
      have : PSState.mk s.n s.vals kd = s := by
        obtain ⟨n, vals, kd0⟩ := s
        change PSState.mk n vals kd = _
        congr 1
        unfold TreeOk at htree
        unfold Kind.withKd at h5
        cases hk : sp.info.kind with
        | plain => rw [hk] at htree h5; injection h5 with h5; injection h5 with _ _ h5; exact h5.symm.trans htree.symm
        | vor1 v => rw [hk] at htree h5; injection h5 with h5; injection h5 with _ _ h5; exact h5.symm.trans htree.symm
        | vor2 v =>
          rw [hk] at htree h5
          simp only at htree h5
          split at h5
          · next hkd =>
            rw [if_pos hkd] at htree
            obtain ⟨ps, h6, h7⟩ := htree
            unfold addKd at h5
            have h8 : (PSState.mk n vals none).get "discretization" = some (.arr (.pts ps)) := h6
            have h9 : (PSState.mk (PSState.mk n vals kd0).n (PSState.mk n vals kd0).vals none).get "discretization" =
              some (.arr (.pts ps)) := h6
            rw [h9] at h5
            injection h5 with h5
            injection h5 with _ _ h5
            exact h5.symm.trans h7.symm
          · next hkd =>
            rw [if_neg hkd] at htree
            injection h5 with h5
            injection h5 with _ _ h5
            exact h5.symm.trans htree.symm
      rw [this]
  | false =>
    have hk : sp.info.kind = .plain := by
      cases hk : sp.info.kind with
      | plain => rfl
      | vor1 v => rw [hk] at hd; cases hd
      | vor2 v => rw [hk] at hd; cases hd
    have h' : plainBirth sp.info sp.params s t = (.ok (new, lpr), t') := by
      change sp.birth s t = _ at h
      unfold Space.birth at h
      rwa [if_neg (by rw [hd]; simp)] at h
    have hlen : ∀ kv ∈ s.vals, HasLen kv.2 s.n := fun kv hkv => ha.2.1 kv.1 kv.2 hkv
    rcases plainBirth_form sp.info sp.params s t _ t' h' with ⟨h1, _⟩ | ⟨_, h1, i, h2, h3, _, _, h4⟩
    · exact absurd h1 hne
    · simp only at h1 h3 h4
      refine ⟨i, _, h2, rows_insert rfl h3 h2 (h4.mono fun kv hkv kv' hkv' ⟨x, hx⟩ =>
        ⟨entries_len (hlen kv hkv), _, insertAt_entries hx⟩), fun d t1 hdi => ?_⟩
      change sp.death new (d :: t1) = _
      unfold Space.death
      rw [if_neg (by rw [hd]; simp), undo_plain hlo hn hlen h2 h3 h4 d t1 hdi, h1]
      have : PSState.mk s.n s.vals none = s := by
        obtain ⟨n, vals, kd0⟩ := s
        unfold TreeOk at htree
        rw [hk] at htree
        change PSState.mk n vals none = PSState.mk n vals kd0
        congr 1
        exact htree.symm
      rw [this]
      simp [PyF.neg]

/-- C22: the newborn cell is at a site `pos` of the new state; the ratio of a birth from the neighbour is the sum over all
parameters (and, for nested tessellations, over all their sites) of the log prior of the new value minus the logarithm
of the density of the normal distribution centred at the value of the nearest existing cell. -/
theorem C22_neighbour_ratio (sp : Space) (hok : ∀ sp', SubSpace sp sp' → SpaceOk sp') (s : PSState)
    (ha : ArraysOk sp s)
    (hs : ∀ sp' s', SubState sp s sp' s' → ∀ v, sp'.info.kind = .vor1 v → LineOk v s')
    (hd : sp.info.kind.isDisc = true) (hp : sp.info.fromPrior = false) (hne : s.n ≠ sp.info.hi)
    (new : PSState) (lpr : PyF) (t t' : List Draw) (h : (PSFunc.birth sp).run s t = (.ok (new, lpr), t')) :
    ∃ i j pos r, i ≤ s.n ∧ rows new = (rows s).take i ++ r :: (rows s).drop i ∧ SiteAt new i pos ∧
      Nearest (s.get "discretization") pos j ∧ PointRatio byDistance sp.params s new i j pos lpr := by
  have hok1 := hok sp .refl
  rcases birth_form hok1 hd s t _ t' h with ⟨h1, _⟩ | ⟨_, new0, i, pos, nv, h1, h2, h3⟩
  · exact absurd h1 hne
  · have hidx := h1.index ha
    simp only at h1 h2 h3
    have hrow : Lemmas.Rel (Ins s.n i) s.vals new.vals := by
      rw [h3]
      exact h1.rel hok1 ha hd (fun v v' h1 h2 => addSite_ins h2 (ha.2.1 _ _ (dget_some_mem h1)))
        fun k v x v' _ h2 h3 h4 => addOp_ins h2 h3 h4 hidx.2
    obtain ⟨j, h4, h5⟩ := h1.ratio hok ha hp
    refine ⟨i, j, pos, _, hidx.1, rows_insert rfl (by rw [h2, h1.n]) hidx.1 hrow, ?_,
      nearOf_nearest h4 (hs _ _ .refl), ?_⟩
    · obtain ⟨a, h6, h7⟩ := h1.site
      have h8 : new.get "discretization" = some (.arr a) := by
        unfold PSState.get at *
        rw [h3, h6]
      cases a with
      | vec xs =>
        rw [Arr.positions, List.getElem?_map, Option.map_eq_some_iff] at h7
        obtain ⟨x, h9, rfl⟩ := h7
        exact .inl ⟨xs, x, h8, h9, rfl⟩
      | pts ps =>
        rw [Arr.positions, List.getElem?_map, Option.map_eq_some_iff] at h7
        obtain ⟨x, h9, rfl⟩ := h7
        exact .inr (.inl ⟨ps, x, h8, h9, rfl⟩)
    · refine pointRatio_near sp.params s new i j pos lpr ?_ (pointRatio_old h5 rfl h3)
      intro k sp1 hk x hx sp' s' hsub
      obtain ⟨l, h7, h8⟩ := hx
      exact hs sp' s' (.step hk h7 h8 hsub)

/-- C22, the proposal: the site is drawn first; then one standard normal variate is drawn for each parameter, and
the new value is that of the nearest cell plus the variate times the standard deviation for births at the new site. -/
theorem C22_draws (sp : Space) (hok : ∀ sp', SubSpace sp sp' → SpaceOk sp') (s : PSState)
    (ha : ArraysOk sp s) (hs : ∀ v, sp.info.kind = .vor1 v → LineOk v s)
    (hd : sp.info.kind.isDisc = true) (hp : sp.info.fromPrior = false) (hne : s.n ≠ sp.info.hi)
    (hprior : ∀ k p, (k, p) ∈ sp.params.toList → ∃ q, p = Param.prior q)
    (new : PSState) (lpr : PyF) (t t' : List Draw) (h : (PSFunc.birth sp).run s t = (.ok (new, lpr), t')) :
    ∃ i j pos ds, i ≤ s.n ∧ SiteAt new i pos ∧ Nearest (s.get "discretization") pos j ∧
      ds.length = sp.params.toList.length ∧ drawSite sp.info.kind t = (.ok pos, ds ++ t') ∧
      ∀ (m : ℕ) k q d, sp.params.toList[m]? = some (k, .prior q) → ds[m]? = some d →
        ∃ nb std, Num (s.get k) j nb ∧ q.stdBirth.get pos = .ok std ∧ Num (new.get k) i (nb + d.z * std) := by
  have hok1 := hok sp .refl
  obtain ⟨new0, i, pos, nv, t1, h1, h2, h3, h4, h5⟩ := birth_tape hok1 hd hne h
  simp only at h1 h2 h3 h5
  unfold Space.newborn at h5
  rw [if_neg (by rw [hp]; simp)] at h5
  obtain ⟨j, t2, h6, h7⟩ := M.bind_ok.1 h5
  rw [lift_ok] at h6
  obtain ⟨h6, rfl⟩ := h6
  obtain ⟨ds, rfl, h9, h10, h11⟩ := newbornFromNeighbour_draws s j pos _ hprior _ _ _ _ h7
  refine ⟨i, j, pos, ds, (h1.index ha).1, ?_, nearOf_nearest h6 hs, h9, h4, fun m k q d hm hd' => ?_⟩
  · obtain ⟨a, h6, h7⟩ := h1.site
    have h8 : new.get "discretization" = some (.arr a) := by
      unfold PSState.get at *
      rw [h3, h6]
    cases a with
    | vec xs =>
      rw [Arr.positions, List.getElem?_map, Option.map_eq_some_iff] at h7
      obtain ⟨x, h9, rfl⟩ := h7
      exact .inl ⟨xs, x, h8, h9, rfl⟩
    | pts ps =>
      rw [Arr.positions, List.getElem?_map, Option.map_eq_some_iff] at h7
      obtain ⟨x, h9, rfl⟩ := h7
      exact .inr (.inl ⟨ps, x, h8, h9, rfl⟩)
  · obtain ⟨nb, std, h12, h13, h14⟩ := h11 m k q d hm hd'
    have h15 := h1.has hok1 ha k _ (List.mem_of_getElem? h14)
    refine ⟨nb, std, h12, h13, ?_⟩
    have g : new.get k = new0.get k := by unfold PSState.get; rw [h3]
    rw [g]
    exact h15

/-- C22, the proposal of a single value, which is the one of nested tessellations, too: a normal variate with the standard
deviation for births, centred at the value of the neighbour. -/
theorem C22_value_draw (p : Prior) (nb : ℝ) (pos : Pos) (x : ℝ) (r : PyF) (t t' : List Draw)
    (h : p.fromNeighbour nb pos t = (.ok (x, r), t')) :
    ∃ d std lp, t = d :: t' ∧ p.stdBirth.get pos = .ok std ∧ x = nb + d.z * std ∧ p.logPrior x pos = .ok lp ∧
      r = lp.sub (.fin (Real.log (normalPDF nb std x))) := by
  obtain ⟨d, std, h1, h2, h3⟩ := fromNeighbour_draw h
  obtain ⟨std', lp, h4, _, h5, h6⟩ := fromNeighbour_ok p nb pos t _ t' h
  rw [h2] at h4
  injection h4 with h4
  subst h4
  exact ⟨d, std, lp, h1, h2, h3, h5, h6⟩

/-! ### Non-trivial instances -/

section Examples

/-- Cells on the unit interval, born from the nearest neighbour, with a number and a tessellation of the square
in each cell. -/
noncomputable def exNear : Space :=
  .mk { name := "v", nMin := 1, nMax := 2, initRange := 0, kind := .vor1 exLine, fromPrior := false }
    (.cons "b" (.prior exUnit) (.cons "w" (.space exInner) .nil))

/-- One cell. -/
noncomputable def exNearOne : PSState :=
  .mk 1 [("discretization", .arr (.vec [1 / 2])), ("b", .arr (.vec [1 / 2])), ("w", .states [exIn])] none

/-- The nested state of the newborn cell; it has no tree. -/
noncomputable def exInNew : PSState :=
  .mk 1 [("discretization", .arr (.pts [(1 / 2, 1 / 2)])), ("b", .arr (.vec [1 / 2]))] none

theorem exNear_ok : ∀ sp', SubSpace exNear sp' → SpaceOk sp' := by
  intro sp' h
  have h1 : sp' = exNear ∨ sp' = exInner := by
    cases h with
    | refl => exact Or.inl rfl
    | step hk h =>
      simp only [exNear, Space.params, ParamList.toList, List.mem_cons, Prod.mk.injEq, reduceCtorEq, and_false,
        Param.space.injEq, List.not_mem_nil, or_false, false_or] at hk
      rw [hk.2] at h
      exact Or.inr (exInner_sub h)
  rcases h1 with rfl | rfl
  · constructor
    · simp [exNear, Space.params, ParamList.toList]
    · simp [exNear, Space.params, ParamList.toList]
    · intro k p hk
      simp only [exNear, Space.params, ParamList.toList, List.mem_cons, Prod.mk.injEq, List.not_mem_nil,
        or_false] at hk
      rcases hk with ⟨rfl, rfl⟩ | ⟨rfl, rfl⟩ <;> rfl
    · simp [exNear, Space.info]
    · intro v hv
      simp only [exNear, Space.info, Kind.vor1.injEq] at hv
      subst hv
      simp [exLine]
    · simp [exNear, Space.info]
  · exact exInner_ok

theorem exNearOne_disc : exNearOne.get "discretization" = some (.arr (.vec [1 / 2])) := by
  simp [exNearOne, PSState.get, PSState.vals, dget]

theorem exNearOne_b : exNearOne.get "b" = some (.arr (.vec [1 / 2])) := by
  simp [exNearOne, PSState.get, PSState.vals, dget]

theorem exNearOne_w : exNearOne.get "w" = some (.states [exIn]) := by
  simp [exNearOne, PSState.get, PSState.vals, dget]

theorem exNearOne_arrays : ArraysOk exNear exNearOne := by
  refine ⟨rfl, ?_, ?_, ?_⟩
  · intro k v hv
    simp only [exNearOne, PSState.vals, List.mem_cons, List.not_mem_nil, or_false, Prod.mk.injEq] at hv
    rcases hv with ⟨rfl, rfl⟩ | ⟨rfl, rfl⟩ | ⟨rfl, rfl⟩ <;> rfl
  · intro k q hq
    simp only [exNear, Space.params, ParamList.toList, List.mem_cons, List.not_mem_nil, or_false, Prod.mk.injEq,
      reduceCtorEq, and_false] at hq
    obtain ⟨rfl, _⟩ := hq
    exact ⟨_, exNearOne_b⟩
  · intro k q hq
    simp only [exNear, Space.params, ParamList.toList, List.mem_cons, List.not_mem_nil, or_false, Prod.mk.injEq,
      reduceCtorEq, and_false, false_or] at hq
    obtain ⟨rfl, _⟩ := hq
    exact ⟨_, .inl exNearOne_w⟩

theorem exNearOne_sorted : ∀ sp' s', SubState exNear exNearOne sp' s' → ∀ v, sp'.info.kind = .vor1 v → LineOk v s' := by
  intro sp' s' h v hv
  cases h with
  | refl =>
    simp only [exNear, Space.info, Kind.vor1.injEq] at hv
    subst hv
    exact ⟨[1 / 2], exNearOne_disc, rfl, by simp, by norm_num [exLine]⟩
  | step hk _ _ h =>
    simp only [exNear, Space.params, ParamList.toList, List.mem_cons, Prod.mk.injEq, reduceCtorEq, and_false,
      Param.space.injEq, List.not_mem_nil, or_false, false_or] at hk
    obtain ⟨rfl, rfl⟩ := hk
    cases h with
    | refl => simp [exInner, Space.info] at hv
    | step hk2 _ _ _ => simp [exInner, Space.params, ParamList.toList] at hk2

theorem exUnit_near (pos : Pos) (t : List Draw) : exUnit.fromNeighbour (1 / 2) pos (exD :: t) =
    (.ok (1 / 2, .fin (Real.log (Real.sqrt (2 * Real.pi)))), t) := by
  have h1 : exUnit.perturbValue (1 / 2) pos true (exD :: t) = (.ok (1 / 2, .fin 0), t) := by
    refine (perturbValue_uniform (vmin := .const 0) (vmax := .const 1) rfl).2 ⟨1, 0, 1, exD, rfl, rfl, rfl, rfl, ?_, ?_⟩
    · norm_num [exD]
    · left; norm_num
  have h2 : exUnit.logPrior (1 / 2) pos = .ok (.fin 0) := by
    unfold Prior.logPrior
    have h0 : Hyper.get (.const 0) pos = .ok 0 := rfl
    have h1 : Hyper.get (.const 1) pos = .ok 1 := rfl
    simp only [exUnit, h0, h1, bind, Except.bind, pure, Except.pure]
    rw [if_pos (by norm_num)]
    norm_num [pyLog]
  have h3 : negLogGauss 1 (1 / 2) (1 / 2) = .ok (Real.log (Real.sqrt (2 * Real.pi))) := by
    have h : 0 < Real.sqrt (2 * Real.pi) := Real.sqrt_pos.2 (by positivity)
    unfold negLogGauss pyLog
    rw [one_mul, if_pos h]
    norm_num [bind, Except.bind, pure, Except.pure]
  have h4 : exUnit.getStd true pos = .ok 1 := rfl
  unfold Prior.fromNeighbour
  simp only [M.bind_run, h1, M.lift_run, h4, h2, h3, M.pure_run, PyF.add, zero_add]

theorem exIn_near (t : List Draw) : exInner.sampleFromNeighbour exIn
    (.mk 1 [("discretization", .arr (.pts [(1 / 2, 1 / 2)]))] none) (exD :: t) =
    (.ok (exInNew, .fin (Real.log (Real.sqrt (2 * Real.pi)))), t) := by
  have hne : ("discretization" : String) ≠ "b" := by decide +kernel
  have hfill : fillInitial (ParamList.cons "b" (.prior exUnit) .nil).toList
      (.mk 1 [("discretization", .arr (.pts [(1 / 2, 1 / 2)]))] none) (exD :: t) =
      (.ok (.mk 1 [("discretization", .arr (.pts [(1 / 2, 1 / 2)])), ("b", .arr (.vec [0]))] none), exD :: t) := by
    simp only [ParamList.toList, fillInitial, M.bind_run, M.pure_run, M.lift_run]
    simp [PSState.setVal, PSState.n, PSState.vals, PVal.len, Arr.len, dset, checkVal, bind, Except.bind, pure, Except.pure]
    rfl
  have hnear : nearest (.vor2 exSquare) (exIn.get "discretization") (.two (1 / 2, 1 / 2)) = .ok 0 := by
    have : exIn.get "discretization" = some (.arr (.pts [(1 / 2, 1 / 2)])) := by
      simp [exIn, PSState.get, PSState.vals, dget]
    rw [this]
    simp [nearest, argmin]
  have hb : exIn.get "b" = some (.arr (.vec [1 / 2])) := by
    simp [exIn, PSState.get, PSState.vals, dget]
  have hsites : (PSState.mk 1 [("discretization", .arr (.pts [(1 / 2, 1 / 2)])), ("b", .arr (.vec [0]))] none).sites =
      .ok [.two (1 / 2, 1 / 2)] := by
    simp [PSState.sites, PSState.get, PSState.vals, dget, Arr.positions]
  have hset : (PSState.mk 1 [("discretization", .arr (.pts [(1 / 2, 1 / 2)])), ("b", .arr (.vec [0]))] none).setNumAt
      "b" 0 (1 / 2) = .ok exInNew := by
    simp [PSState.setNumAt, PSState.get, PSState.vals, PSState.n, PSState.kd, dget, dset, exInNew]
  have hnum : numAt (some (.arr (.vec [1 / 2]))) 0 = .ok (1 / 2 : ℝ) := rfl
  rw [exInner, Space.sampleFromNeighbour]
  simp only [M.bind_run, hfill, M.lift_run, hsites, forSites, hnear, ParamList.fillPoint, Param.fillPoint, hb, hnum,
    exUnit_near, hset, M.pure_run, PyF.add, zero_add]

theorem exInner_disc (t : List Draw) : exInner.sampleDisc (exD :: exD :: exD :: t) =
    (.ok (.mk 1 [("discretization", .arr (.pts [(1 / 2, 1 / 2)]))] none), t) := by
  have hdim : exInner.info.sampleDim (exD :: exD :: exD :: t) = (.ok 1, exD :: exD :: t) := by
    unfold Info.sampleDim
    exact M.randint_run (by change 1 ≤ 2; norm_num) _ _
  have hk : exInner.info.kind = .vor2 exSquare := rfl
  unfold Space.sampleDisc
  simp only [M.bind_run, hdim, hk, exInner_sites, M.lift_run]
  rfl

/-- The state after the birth. -/
noncomputable def exNearTwo : PSState :=
  .mk 2 [("discretization", .arr (.vec [1 / 2, 1 / 2])), ("b", .arr (.vec [1 / 2, 1 / 2])),
    ("w", .states [exInNew, exIn])] none

/-- A birth from the neighbour with a nested tessellation. -/
theorem exNear_birth : (PSFunc.birth exNear).run exNearOne [exD, exD, exD, exD, exD, exD] =
    (.ok (exNearTwo, .fin (Real.log (Real.sqrt (2 * Real.pi)) + Real.log (Real.sqrt (2 * Real.pi)))), []) := by
  have hsite : exLine.sampleSite [exD, exD, exD, exD, exD, exD] = (.ok (1 / 2), [exD, exD, exD, exD, exD]) := by
    norm_num [Vor1.sampleSite, exLine, M.uniform, M.draw, bind, pure, exD]
  have hnear : nearest (.vor1 exLine) (some (.arr (.vec [1 / 2]))) (.one (1 / 2)) = .ok 0 := by
    have hup : Spec.Ascending [(1 / 2 : ℝ)] := by simp [Spec.Ascending]
    obtain ⟨i, h1, h2, _⟩ := C46_nearest [(1 / 2 : ℝ)] (by simp) hup (1 / 2)
    have h3 : i = 0 := by simpa using h2
    rw [h3] at h1
    exact h1
  have hk : exNear.info.kind = .vor1 exLine := rfl
  have hnum : numAt (some (.arr (.vec [1 / 2]))) 0 = .ok (1 / 2 : ℝ) := rfl
  have hst : stateAt (some (.states [exIn])) 0 = .ok exIn := rfl
  have hname : exInner.info.name = "w" := rfl
  have hdisc : exInner.info.kind.isDisc = true := rfl
  have hnew : exNear.newborn (.one (1 / 2)) exNearOne [exD, exD, exD, exD, exD] =
      (.ok ([("b", .num (1 / 2)), ("w", .ps exInNew)],
        .fin (Real.log (Real.sqrt (2 * Real.pi)) + Real.log (Real.sqrt (2 * Real.pi)))), []) := by
    unfold Space.newborn
    have hf : ¬ exNear.info.fromPrior = true := by
      change ¬ (false = true)
      simp
    rw [if_neg hf]
    have hpar : exNear.params.toList = [("b", .prior exUnit), ("w", .space exInner)] := rfl
    simp only [M.bind_run, hk, exNearOne_disc, hnear, M.lift_run, hpar, newbornFromNeighbour, exNearOne_b, hnum, exUnit_near,
      M.pure_run, hname, exNearOne_w, if_pos hdisc, hst, exInner_disc, exIn_near, PyF.add, zero_add]
  change exNear.birth exNearOne _ = _
  unfold Space.birth
  have hd : exNear.info.kind.isDisc = true := rfl
  have hn : ¬ exNearOne.n = exNear.info.hi := by
    change ¬ (1 = 2)
    norm_num
  rw [if_pos hd, if_neg hn]
  have hbis : bisectLeft [(1 / 2 : ℝ)] (1 / 2) 0 1 = 0 := by
    rw [bisectLeft, if_pos (by norm_num), if_neg (by norm_num), bisectLeft, if_neg (by norm_num)]
  have hi1 : Utils1d.insert1d 0 [(1 / 2 : ℝ)] 0 (1 / 2) = .ok [1 / 2, 1 / 2] := by
    rw [C45_insert, if_pos (by simp)]; rfl
  have hi2 : PVal.insertAt (some (.arr (.vec [1 / 2]))) 0 (.num (1 / 2)) = .ok (.arr (.vec [1 / 2, 1 / 2])) := by
    simp only [PVal.insertAt, hi1]
    rfl
  have hi3 : PVal.insertAt (some (.states [exIn])) 0 (.ps exInNew) = .ok (.states [exInNew, exIn]) := rfl
  have hadd : addNewborn exNearOne (fun v y => PVal.insertAt v 0 y) [("b", .num (1 / 2)), ("w", .ps exInNew)]
      [("discretization", .arr (.vec [1 / 2, 1 / 2]))] =
      .ok [("discretization", .arr (.vec [1 / 2, 1 / 2])), ("b", .arr (.vec [1 / 2, 1 / 2])),
        ("w", .states [exInNew, exIn])] := by
    have hne : ("discretization" : String) ≠ "b" := by decide +kernel
    have hne2 : ("discretization" : String) ≠ "w" := by decide +kernel
    have hne3 : ("b" : String) ≠ "w" := by decide +kernel
    simp only [addNewborn, exNearOne_b, exNearOne_w, hi2, hi3, bind, Except.bind, dset, if_neg hne, if_neg hne2, if_neg hne3]
  have hmk : mkPS (exNearOne.n + 1) [("discretization", .arr (.vec [1 / 2, 1 / 2])), ("b", .arr (.vec [1 / 2, 1 / 2])),
      ("w", .states [exInNew, exIn])] = .ok (.mk 2 [("discretization", .arr (.vec [1 / 2, 1 / 2])),
      ("b", .arr (.vec [1 / 2, 1 / 2])), ("w", .states [exInNew, exIn])] none) := rfl
  simp only [M.bind_run, vorBirth, hk, hsite, hnew, exNearOne_disc, List.length_cons, List.length_nil, Nat.zero_add, hbis,
    M.lift_run, hi1, hadd, hmk, M.pure_run]
  rfl

/-- The death of the newborn cell. -/
example : ∃ i r, i ≤ 1 ∧ rows exNearTwo = (rows exNearOne).take i ++ r :: (rows exNearOne).drop i ∧
    ∀ d t1, d.n % (1 + 1) = i → (PSFunc.death exNear).run exNearTwo (d :: t1) =
      (.ok (exNearOne, (PyF.fin (Real.log (Real.sqrt (2 * Real.pi)) + Real.log (Real.sqrt (2 * Real.pi)))).neg), t1) :=
  C21_undo exNear exNear_ok exNearOne exNearOne_arrays (by simp [exNear, Space.info, Info.lo, exNearOne, PSState.n])
    (by intro h; cases h) rfl (by simp [exNear, Space.info, Info.hi, exNearOne, PSState.n]) _ _ _ _ exNear_birth

/-- The ratio of the birth. -/
example : ∃ i j pos r, i ≤ 1 ∧ rows exNearTwo = (rows exNearOne).take i ++ r :: (rows exNearOne).drop i ∧
      SiteAt exNearTwo i pos ∧ Nearest (exNearOne.get "discretization") pos j ∧
      PointRatio byDistance exNear.params exNearOne exNearTwo i j pos
        (.fin (Real.log (Real.sqrt (2 * Real.pi)) + Real.log (Real.sqrt (2 * Real.pi)))) :=
  C22_neighbour_ratio exNear exNear_ok exNearOne exNearOne_arrays exNearOne_sorted rfl rfl
    (by simp [exNear, Space.info, Info.hi, exNearOne, PSState.n]) _ _ _ _ exNear_birth

/-- The draw of a value. -/
example : ∃ d std lp, [exD] = d :: [] ∧ exUnit.stdBirth.get .none = .ok std ∧ (1 / 2 : ℝ) = 1 / 2 + d.z * std ∧
    exUnit.logPrior (1 / 2) .none = .ok lp ∧
    PyF.fin (Real.log (Real.sqrt (2 * Real.pi))) = lp.sub (.fin (Real.log (normalPDF (1 / 2) std (1 / 2)))) :=
  C22_value_draw exUnit (1 / 2) .none (1 / 2) _ _ _ (exUnit_near .none [])

/-- The same cells without nested tessellations. -/
noncomputable def exFlat : Space :=
  .mk { name := "v", nMin := 1, nMax := 2, initRange := 0, kind := .vor1 exLine, fromPrior := false }
    (.cons "b" (.prior exUnit) .nil)

theorem exFlat_ok : ∀ sp', SubSpace exFlat sp' → SpaceOk sp' := by
  intro sp' h
  have h1 : sp' = exFlat := by
    cases h with
    | refl => rfl
    | step hk h => simp [exFlat, Space.params, ParamList.toList] at hk
  subst h1
  constructor
  · simp [exFlat, Space.params, ParamList.toList]
  · simp [exFlat, Space.params, ParamList.toList]
  · intro k p hk
    simp only [exFlat, Space.params, ParamList.toList, List.mem_cons, Prod.mk.injEq, List.not_mem_nil, or_false] at hk
    obtain ⟨rfl, rfl⟩ := hk
    rfl
  · simp [exFlat, Space.info]
  · intro v hv
    simp only [exFlat, Space.info, Kind.vor1.injEq] at hv
    subst hv
    simp [exLine]
  · simp [exFlat, Space.info]

/-- One cell. -/
noncomputable def exFlatOne : PSState :=
  .mk 1 [("discretization", .arr (.vec [1 / 2])), ("b", .arr (.vec [1 / 2]))] none

theorem exFlatOne_disc : exFlatOne.get "discretization" = some (.arr (.vec [1 / 2])) := by
  simp [exFlatOne, PSState.get, PSState.vals, dget]

theorem exFlatOne_b : exFlatOne.get "b" = some (.arr (.vec [1 / 2])) := by
  simp [exFlatOne, PSState.get, PSState.vals, dget]

theorem exFlatOne_arrays : ArraysOk exFlat exFlatOne := by
  refine ⟨rfl, ?_, ?_, ?_⟩
  · intro k v hv
    simp only [exFlatOne, PSState.vals, List.mem_cons, List.not_mem_nil, or_false, Prod.mk.injEq] at hv
    rcases hv with ⟨rfl, rfl⟩ | ⟨rfl, rfl⟩ <;> rfl
  · intro k q hq
    simp only [exFlat, Space.params, ParamList.toList, List.mem_cons, List.not_mem_nil, or_false, Prod.mk.injEq] at hq
    obtain ⟨rfl, _⟩ := hq
    exact ⟨_, exFlatOne_b⟩
  · intro k q hq
    simp [exFlat, Space.params, ParamList.toList] at hq

/-- A birth. -/
theorem exFlat_birth : (PSFunc.birth exFlat).run exFlatOne [exD, exD] =
    (.ok (.mk 2 [("discretization", .arr (.vec [1 / 2, 1 / 2])), ("b", .arr (.vec [1 / 2, 1 / 2]))] none,
      .fin (Real.log (Real.sqrt (2 * Real.pi)))), []) := by
  have hsite : exLine.sampleSite [exD, exD] = (.ok (1 / 2), [exD]) := by
    norm_num [Vor1.sampleSite, exLine, M.uniform, M.draw, bind, pure, exD]
  have hnear : nearest (.vor1 exLine) (some (.arr (.vec [1 / 2]))) (.one (1 / 2)) = .ok 0 := by
    have hup : Spec.Ascending [(1 / 2 : ℝ)] := by simp [Spec.Ascending]
    obtain ⟨i, h1, h2, _⟩ := C46_nearest [(1 / 2 : ℝ)] (by simp) hup (1 / 2)
    have h3 : i = 0 := by simpa using h2
    rw [h3] at h1
    exact h1
  have hk : exFlat.info.kind = .vor1 exLine := rfl
  have hnum : numAt (some (.arr (.vec [1 / 2]))) 0 = .ok (1 / 2 : ℝ) := rfl
  have hnew : exFlat.newborn (.one (1 / 2)) exFlatOne [exD] =
      (.ok ([("b", .num (1 / 2))], .fin (Real.log (Real.sqrt (2 * Real.pi)))), []) := by
    unfold Space.newborn
    have hf : ¬ exFlat.info.fromPrior = true := by
      change ¬ (false = true)
      simp
    rw [if_neg hf]
    have hpar : exFlat.params.toList = [("b", .prior exUnit)] := rfl
    simp only [M.bind_run, hk, exFlatOne_disc, hnear, M.lift_run, hpar, newbornFromNeighbour, exFlatOne_b, hnum, exUnit_near,
      M.pure_run, PyF.add, zero_add]
  change exFlat.birth exFlatOne _ = _
  unfold Space.birth
  have hd : exFlat.info.kind.isDisc = true := rfl
  have hn : ¬ exFlatOne.n = exFlat.info.hi := by
    change ¬ (1 = 2)
    norm_num
  rw [if_pos hd, if_neg hn]
  have hbis : bisectLeft [(1 / 2 : ℝ)] (1 / 2) 0 1 = 0 := by
    rw [bisectLeft, if_pos (by norm_num), if_neg (by norm_num), bisectLeft, if_neg (by norm_num)]
  simp only [M.bind_run, vorBirth, hk, hsite, hnew, exFlatOne_disc, List.length_cons, List.length_nil, Nat.zero_add, hbis]
  rfl

/-- The draws of the birth. -/
example := C22_draws exFlat exFlat_ok exFlatOne exFlatOne_arrays
  (by intro v hv
      simp only [exFlat, Space.info, Kind.vor1.injEq] at hv
      subst hv
      exact ⟨[1 / 2], exFlatOne_disc, rfl, by simp, by norm_num [exLine]⟩) rfl rfl
  (by simp [exFlat, Space.info, Info.hi, exFlatOne, PSState.n])
  (by intro k p hk
      simp only [exFlat, Space.params, ParamList.toList, List.mem_cons, Prod.mk.injEq, List.not_mem_nil, or_false] at hk
      obtain ⟨rfl, rfl⟩ := hk
      exact ⟨_, rfl⟩) _ _ _ _ exFlat_birth

end Examples

end BB.Props
