import Verif.Lemmas.Rows
import Verif.Props.C10_C17_Conformance

/-!
# C14 — values stay attached to their sites; C65 — a site move reports the prior ratio of the moved cell

The state is seen as a table of rows (`rows`): the site of a cell with the values of all parameters there.
-/

namespace BB.Props

open BB Spec Lemmas

/-- C14, births: one row is added, the others are kept in order; at the maximal number of dimensions nothing
changes and the proposal is to be rejected. -/
theorem C14_birth (sp : Space) (hok : SpaceOk sp) (s : PSState) (ha : ArraysOk sp s) (new : PSState) (lpr : PyF)
    (t t' : List Draw) (h : (PSFunc.birth sp).run s t = (.ok (new, lpr), t')) :
    (s.n = sp.info.hi ∧ lpr = .ninf ∧ rows new = rows s) ∨
    (s.n ≠ sp.info.hi ∧ ∃ i r, i ≤ s.n ∧ rows new = (rows s).take i ++ r :: (rows s).drop i) := by
  rcases birth_rows hok ha t _ t' h with ⟨h1, h2, h3, h4⟩ | ⟨h1, i, h2, h3, h4⟩
  · refine .inl ⟨h1, h2, ?_⟩
    unfold rows row
    rw [h3, h4]
  · exact .inr ⟨h1, i, _, h2, rows_insert rfl h3 h2 h4⟩

/-- C14, deaths: one row is removed, the others are kept in order; at the minimal number of dimensions nothing
changes and the proposal is to be rejected. -/
theorem C14_death (sp : Space) (s : PSState) (new : PSState) (lpr : PyF)
    (t t' : List Draw) (h : (PSFunc.death sp).run s t = (.ok (new, lpr), t')) :
    (s.n = sp.info.lo ∧ lpr = .ninf ∧ rows new = rows s) ∨
    (s.n ≠ sp.info.lo ∧ ∃ i, i < s.n ∧ rows new = (rows s).eraseIdx i) := by
  rcases death_form sp s t _ t' h with ⟨h1, h2, h3, h4⟩ | ⟨h1, i, h2, h3, h4⟩
  · refine .inl ⟨h1, h2, ?_⟩
    unfold rows row
    rw [h3, h4]
  · refine .inr ⟨h1, i, h2, rows_delete (n := s.n - 1) (by omega) h3 (by omega) ?_⟩
    exact h4.mono fun kv _ kv' _ hd => delOp_entries hd

/-- C14, moves: the rows are the old ones, one of them with another site of the domain; only their order may change. -/
theorem C14_move (sp : Space) (hok : SpaceOk sp) (s : PSState) (ha : ArraysOk sp s) (new : PSState) (lpr : PyF)
    (t t' : List Draw) (h : (PSFunc.site sp).run s t = (.ok (new, lpr), t')) :
    ∃ i e, i < s.n ∧ SiteIn sp.info.kind e ∧
      (rows new).Perm ((rows s).set i (withSite (row s i) e)) := by
  obtain ⟨i, t1, h1, h2⟩ := M.bind_ok.1 h
  obtain ⟨h3, _, e, h4, h5, _⟩ := perturbSite_rows hok ha i t1 _ t' h2
  exact ⟨i, e, h3, h4, h5⟩

/-- C65: the ratio reported for a move is the change of the sum of the log priors of the values in the moved cell whose
priors depend on the position: minus infinity if one of the values is impossible at the new site. -/
theorem C65_site_ratio (sp : Space) (hok : SpaceOk sp) (s : PSState) (ha : ArraysOk sp s) (new : PSState) (lpr : PyF)
    (t t' : List Draw) (h : (PSFunc.site sp).run s t = (.ok (new, lpr), t')) :
    ∃ i e, i < s.n ∧ (rows new).Perm ((rows s).set i (withSite (row s i) e)) ∧
      ∀ (old : Pos) (a : String → ℝ) (b : String → LogP), posAt s i = .ok old →
        (∀ k p, (k, Param.prior p) ∈ sp.params.toList → p.hasPosition = true → ∃ x,
          numAt (s.get k) i = .ok x ∧ p.logPrior x old = .ok (.fin (a k)) ∧ p.logPrior x e.pos = .ok (b k).num) →
        lpr = (total ((sp.params.toList.filter positional).map fun kp => change (a kp.1) (b kp.1))).num := by
  obtain ⟨i, t1, h1, h2⟩ := M.bind_ok.1 h
  obtain ⟨h3, _, e, h4, h5, h6⟩ := perturbSite_rows hok ha i t1 _ t' h2
  exact ⟨i, e, h3, h5, h6⟩

/-! ### Non-trivial instances -/

section Examples

/-- One to three cells on the unit interval, with a parameter the prior of which depends on the position. -/
noncomputable def exCells : Space :=
  .mk { name := "v", nMin := 1, nMax := 3, initRange := 1, kind := .vor1 exLine, fromPrior := true }
    (.cons "a" (.prior exWide) .nil)

theorem exCells_ok : SpaceOk exCells where
  nodup := by simp [exCells, Space.params, ParamList.toList]
  disc := by
    have h : ("discretization" : String) ≠ "a" := by decide +kernel
    simpa [exCells, Space.params, ParamList.toList] using h
  key := by
    intro k p h
    simp only [exCells, Space.params, ParamList.toList, List.mem_cons, List.not_mem_nil, or_false, Prod.mk.injEq] at h
    obtain ⟨rfl, rfl⟩ := h
    rfl
  dims := fun _ => by simp [exCells, Space.info]
  line := by
    intro v h
    injection h with h
    subst h
    simp [exLine]
  plane := by intro v h; cases h

/-- Two cells. -/
noncomputable def exTwo : PSState :=
  .mk 2 [("discretization", .arr (.vec [1 / 4, 1 / 2])), ("a", .arr (.vec [1, 1 / 3]))] none

theorem exTwo_ok : ArraysOk exCells exTwo := by
  have h : ("a" : String) ≠ "discretization" := by decide +kernel
  refine ⟨rfl, ?_, ?_, ?_⟩
  · intro k v hv
    simp only [exTwo, PSState.vals, List.mem_cons, List.not_mem_nil, or_false, Prod.mk.injEq] at hv
    rcases hv with ⟨rfl, rfl⟩ | ⟨rfl, rfl⟩ <;> rfl
  · intro k q hq
    simp only [exCells, Space.params, ParamList.toList, List.mem_cons, List.not_mem_nil, or_false, Prod.mk.injEq] at hq
    obtain ⟨rfl, _⟩ := hq
    exact ⟨.vec [1, 1 / 3], by simp [exTwo, PSState.get, PSState.vals, dget]⟩
  · intro k q hq
    simp [exCells, Space.params, ParamList.toList] at hq

/-- A move of the first site past the second one: the rows are sorted again. -/
theorem exTwo_move : (PSFunc.site exCells).run exTwo [⟨0, 0, 1 / 2, by norm_num⟩, ⟨0, 1 / 2, 1 / 2, by norm_num⟩] =
    (.ok (.mk 2 [("discretization", .arr (.vec [1 / 2, 3 / 4])), ("a", .arr (.vec [1 / 3, 1]))] none,
      .fin (-Real.log (7 / 4) - -Real.log (5 / 4))), []) := by
  have hp1 : exWide.logPrior 1 (.one (1 / 4)) = .ok (.fin (-Real.log (5 / 4))) := by
    have h : Hyper.get (.line [0, 1] [1, 2]) (.one (1 / 4)) = .ok (5 / 4) := by
      have := C47_piecewise_linear [0, 1] [1, 2] rfl (by simp [StrictlyAscending]) (1 / 4 : ℝ) 0 (by simp)
        (by norm_num) (by norm_num)
      change Utils1d.interpLinear _ _ _ = _
      rw [this]
      norm_num [line]
    unfold Prior.logPrior
    have h0 : Hyper.get (.const 0) (.one (1 / 4)) = .ok 0 := rfl
    simp only [exWide, h, h0, bind, Except.bind, pure, Except.pure]
    rw [if_pos (by norm_num)]
    norm_num [pyLog]
  have hp2 : exWide.logPrior 1 (.one (3 / 4)) = .ok (.fin (-Real.log (7 / 4))) := by
    have h : Hyper.get (.line [0, 1] [1, 2]) (.one (3 / 4)) = .ok (7 / 4) := by
      have := C47_piecewise_linear [0, 1] [1, 2] rfl (by simp [StrictlyAscending]) (3 / 4 : ℝ) 0 (by simp)
        (by norm_num) (by norm_num)
      change Utils1d.interpLinear _ _ _ = _
      rw [this]
      norm_num [line]
    unfold Prior.logPrior
    have h0 : Hyper.get (.const 0) (.one (3 / 4)) = .ok 0 := rfl
    simp only [exWide, h, h0, bind, Except.bind, pure, Except.pure]
    rw [if_pos (by norm_num)]
    norm_num [pyLog]
  have hsort : stableSort.f [3 / 4, 1 / 2] = [1, 0] := by
    have h1 := stableSort.perm [3 / 4, 1 / 2]
    have h2 := stableSort.sorted [3 / 4, 1 / 2]
    have h3 : stableSort.f [3 / 4, 1 / 2] ∈ [[0, 1], [1, 0]] := by
      exact List.mem_permutations'.2 h1
    simp only [List.mem_cons, List.not_mem_nil, or_false] at h3
    rcases h3 with h3 | h3
    · rw [h3] at h2
      norm_num at h2
    · exact h3
  have hsite : exLine.perturbSite (1 / 4) [⟨0, 1 / 2, 1 / 2, by norm_num⟩] = (.ok (3 / 4), []) := by
    refine (M.bind_of (a := some (3 / 4)) (t1 := []) ?_).trans rfl
    refine (M.bind_of (M.normalvariate_run _ _ _ _)).trans ?_
    norm_num [exLine, M.pure_run]
  refine (M.bind_of (M.randIdx_run (by simp [exTwo, PSState.n]) _ _)).trans ?_
  refine (M.bind_of (a := (.mk 2 [("discretization", .arr (.vec [1 / 2, 3 / 4])), ("a", .arr (.vec [1 / 3, 1]))] none,
      .fin (-Real.log (7 / 4) - -Real.log (5 / 4)))) (t1 := []) ?_).trans rfl
  have hg : exTwo.get "discretization" = some (.arr (.vec [1 / 4, 1 / 2])) := by
    simp [exTwo, PSState.get, PSState.vals, dget]
  have hga : exTwo.get "a" = some (.arr (.vec [1, 1 / 3])) := by
    simp [exTwo, PSState.get, PSState.vals, dget]
  have hk : exCells.info.kind = .vor1 exLine := rfl
  have hi : (0 : ℕ) % exTwo.n = 0 := rfl
  have ha : exLine.argsort = stableSort := rfl
  have hpos : exWide.hasPosition = true := rfl
  have hn : numAt (some (.arr (.vec [1, 1 / 3]))) 0 = .ok 1 := rfl
  have hgs : gather [(3 / 4 : ℝ), 1 / 2] [1, 0] = .ok [1 / 2, 3 / 4] := rfl
  have hgv : PVal.gather (.arr (.vec [1, 1 / 3])) [1, 0] = .ok (.arr (.vec [1 / 3, 1])) := rfl
  have hmv : moveValues exTwo 0 (.one (1 / 4)) (.one (3 / 4)) (fun v => v.gather [1, 0]) exCells.params.toList
      [("discretization", .arr (.vec [1 / 2, 3 / 4]))] (.fin 0) =
      .ok ([("discretization", .arr (.vec [1 / 2, 3 / 4])), ("a", .arr (.vec [1 / 3, 1]))],
        .fin (-Real.log (7 / 4) - -Real.log (5 / 4))) := by
    have hne : ("discretization" : String) ≠ "a" := by decide +kernel
    simp only [exCells, Space.params, ParamList.toList, moveValues, hga, hn, hp1, hp2, hgv, bind, Except.bind, pure,
      Except.pure]
    rw [if_pos hpos]
    simp only [dset, if_neg hne, PyF.sub, PyF.neg, PyF.add, zero_add, sub_eq_add_neg]
  have hmk : mkPS exTwo.n [("discretization", .arr (.vec [1 / 2, 3 / 4])), ("a", .arr (.vec [1 / 3, 1]))] =
      .ok (.mk 2 [("discretization", .arr (.vec [1 / 2, 3 / 4])), ("a", .arr (.vec [1 / 3, 1]))] none) := rfl
  simp only [vorMove, hk, hg, hi, List.getElem?_cons_zero, M.bind_run, hsite, List.set_cons_zero, ha, hsort, M.lift_run,
    hgs, hmv, hmk, M.pure_run]

theorem exTwo_disc : exTwo.get "discretization" = some (.arr (.vec [1 / 4, 1 / 2])) := by
  simp [exTwo, PSState.get, PSState.vals, dget]

theorem exTwo_a : exTwo.get "a" = some (.arr (.vec [1, 1 / 3])) := by
  simp [exTwo, PSState.get, PSState.vals, dget]

/-- A birth between the two cells. -/
theorem exTwo_birth : (PSFunc.birth exCells).run exTwo [exD, exD] =
    (.ok (.mk 3 [("discretization", .arr (.vec [1 / 4, 1 / 2, 1 / 2])), ("a", .arr (.vec [1, 3 / 4, 1 / 3]))] none,
      .fin 0), []) := by
  have hs1 : exWide.sample (.one (1 / 2)) [exD] = (.ok (3 / 4), []) := by
    unfold Prior.sample
    simp only [exWide, exWide_at]
    norm_num [bind, pure, M.lift, Hyper.get, M.uniform, M.draw, exD]
  have hsite : exLine.sampleSite [exD, exD] = (.ok (1 / 2), [exD]) := by
    norm_num [Vor1.sampleSite, exLine, M.uniform, M.draw, bind, pure, exD]
  have hnew : exCells.newborn (.one (1 / 2)) exTwo [exD] = (.ok ([("a", .num (3 / 4))], .fin 0), []) := by
    unfold Space.newborn
    have hf : exCells.info.fromPrior = true := rfl
    rw [if_pos hf]
    simp only [exCells, Space.params, ParamList.toList, newbornFromPrior, M.bind_run, hs1, M.pure_run]
  change exCells.birth exTwo _ = _
  unfold Space.birth
  have hk : exCells.info.kind = .vor1 exLine := rfl
  have hd : exCells.info.kind.isDisc = true := rfl
  have hn : ¬ exTwo.n = exCells.info.hi := by
    change ¬ (2 = 3)
    norm_num
  rw [if_pos hd, if_neg hn]
  have hbis : bisectLeft [(1 / 4 : ℝ), 1 / 2] (1 / 2) 0 2 = 1 := by
    rw [bisectLeft, if_pos (by norm_num), if_neg (by norm_num), bisectLeft, if_pos (by norm_num),
      if_pos (by norm_num), bisectLeft, if_neg (by norm_num)]
  have hi1 : Utils1d.insert1d 0 [(1 / 4 : ℝ), 1 / 2] 1 (1 / 2) = .ok [1 / 4, 1 / 2, 1 / 2] := by
    rw [C45_insert, if_pos (by simp)]; rfl
  have hi2 : PVal.insertAt (some (.arr (.vec [1, 1 / 3]))) 1 (.num (3 / 4)) = .ok (.arr (.vec [1, 3 / 4, 1 / 3])) := by
    have : Utils1d.insert1d 0 [(1 : ℝ), 1 / 3] 1 (3 / 4) = .ok [1, 3 / 4, 1 / 3] := by
      rw [C45_insert, if_pos (by simp)]; rfl
    simp only [PVal.insertAt, this]
    rfl
  have hadd : addNewborn exTwo (fun v y => PVal.insertAt v 1 y) [("a", .num (3 / 4))]
      [("discretization", .arr (.vec [1 / 4, 1 / 2, 1 / 2]))] =
      .ok [("discretization", .arr (.vec [1 / 4, 1 / 2, 1 / 2])), ("a", .arr (.vec [1, 3 / 4, 1 / 3]))] := by
    have hne : ("discretization" : String) ≠ "a" := by decide +kernel
    simp only [addNewborn, exTwo_a, hi2, bind, Except.bind, dset, if_neg hne]
  have hmk : mkPS (exTwo.n + 1) [("discretization", .arr (.vec [1 / 4, 1 / 2, 1 / 2])),
      ("a", .arr (.vec [1, 3 / 4, 1 / 3]))] = .ok (.mk 3 [("discretization", .arr (.vec [1 / 4, 1 / 2, 1 / 2])),
      ("a", .arr (.vec [1, 3 / 4, 1 / 3]))] none) := rfl
  simp only [M.bind_run, vorBirth, hk, hsite, hnew, exTwo_disc, List.length_cons, List.length_nil, Nat.zero_add, hbis,
    M.lift_run, Nat.reduceAdd, hi1, hadd, hmk, M.pure_run]
  rfl

/-- The death of the first cell. -/
theorem exTwo_death : (PSFunc.death exCells).run exTwo [exD] =
    (.ok (.mk 1 [("discretization", .arr (.vec [1 / 2])), ("a", .arr (.vec [1 / 3]))] none, .fin 0), []) := by
  change exCells.death exTwo _ = _
  unfold Space.death
  have hk : exCells.info.kind = .vor1 exLine := rfl
  have hd : exCells.info.kind.isDisc = true := rfl
  have hn : ¬ exTwo.n = exCells.info.lo := by
    change ¬ (2 = 1)
    norm_num
  rw [if_pos hd, if_neg hn]
  have hv : exTwo.vals = [("discretization", .arr (.vec [1 / 4, 1 / 2])), ("a", .arr (.vec [1, 1 / 3]))] := rfl
  have hdel : ∀ x y : ℝ, PVal.deleteAt (.arr (.vec [x, y])) 0 = .ok (.arr (.vec [y])) := by
    intro x y
    have : Utils1d.delete1d 0 [x, y] (0 : ℕ) = .ok [y] := by
      rw [C45_delete, if_neg (by simp), if_pos (by simp)]; rfl
    simp only [PVal.deleteAt, this]
    rfl
  have hm : mapVals (fun v => v.deleteAt 0) exTwo.vals =
      .ok [("discretization", .arr (.vec [1 / 2])), ("a", .arr (.vec [1 / 3]))] := by
    rw [hv]
    simp only [mapVals, hdel, bind, Except.bind, pure, Except.pure]
  have hmk : mkPS (exTwo.n - 1) [("discretization", .arr (.vec [1 / 2])), ("a", .arr (.vec [1 / 3]))] =
      .ok (.mk 1 [("discretization", .arr (.vec [1 / 2])), ("a", .arr (.vec [1 / 3]))] none) := rfl
  have hr : M.randIdx exTwo.n [exD] = (.ok 0, []) := M.randIdx_run (by simp [exTwo, PSState.n]) _ _
  have hf : exCells.info.fromPrior = true := rfl
  simp only [M.bind_run, vorDeath, hk, hr, M.lift_run, hm, hmk, Space.deathRatio, if_pos hf, M.pure_run]
  rfl

end Examples

end BB.Props
