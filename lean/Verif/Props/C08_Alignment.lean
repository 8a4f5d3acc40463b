import Verif.Lemmas.StateChain
import Verif.Props.C06_C07_Saving

/-!
# C08: the lists of saved values are aligned
-/

namespace BB.Props

open BB BB.Spec BB.Lemmas

variable {E : Type}

/-- A state with exactly the values named in `K`, whose cache holds predicted data only for the
targets. -/
structure Shaped (K : List String) (tf : List (Target × Fwd)) (s : State) : Prop where
  vars : ∀ k, k ∈ dkeys s.vars ↔ k ∈ K
  nodup : (dkeys s.cache).Nodup
  dpred : ∀ k ∈ dkeys s.cache, substr "dpred" k → ∃ x ∈ tf, k = dpredKey x.1.name

theorem vars_congr {s s' : State} (h1 : s'.params = s.params) (h2 : s'.extra = s.extra) :
    s'.vars = s.vars := by
  unfold State.vars; rw [h1, h2]

theorem Shaped.step {K : List String} {tf : List (Target × Fwd)} {s s' : State}
    (h : Shaped K tf s) (hs : CacheStep tf s s') : Shaped K tf s' := by
  refine ⟨?_, hs.nodup h.nodup, ?_⟩
  · rw [vars_congr hs.params hs.extra]; exact h.vars
  · intro k hk hd
    rcases hs.keys k hk with h1 | h1
    · exact h.dpred k h1 hd
    · exact h1

theorem substr_dpredKey (name : String) : substr "dpred" (dpredKey name) = true := by
  unfold substr dpredKey
  rw [List.any_eq_true]
  refine ⟨"dpred".toList, ?_, by decide +kernel⟩
  rw [List.mem_tails, String.toList_append]
  refine ⟨name.toList ++ ['.'], ?_⟩
  rw [List.append_assoc]
  congr 1

theorem filter_key_singleton {α : Type} {d : List (String × α)} (hd : (dkeys d).Nodup) {k : String}
    {v : α} (h : dget d k = some v) : d.filter (fun kv => kv.1 = k) = [(k, v)] := by
  induction d with
  | nil => simp at h
  | cons kv d ih =>
    obtain ⟨k', v'⟩ := kv
    have hnd : k' ∉ dkeys d ∧ (dkeys d).Nodup := by simpa [dkeys, List.nodup_cons] using hd
    by_cases hk : k' = k
    · subst hk
      have hv : v' = v := by simpa [dget] using h
      subst hv
      simp only [List.filter_cons, decide_true, if_true]
      congr 1
      rw [List.filter_eq_nil_iff]
      intro x hx
      simp only [decide_eq_true_eq]
      intro he
      exact hnd.1 (he ▸ List.mem_map_of_mem hx)
    · simp only [List.filter_cons, hk, decide_false, Bool.false_eq_true, if_false]
      exact ih hnd.2 (by simpa [dget, hk] using h)

/-- C08, partial.  When the perturbations return states with a fixed set of named values (`K`) and
ratios that are not infinite, all the lists saved by a fresh chain have one entry for each saved
state, and the entries at position `j` belong to the `j`-th saved state; this includes the lists of
predicted data.  What is missing: with infinite ratios the lists of predicted data can be shorter,
see `C08_misaligned`. -/
theorem C08_aligned_partial (K : List String) (tf : List (Target × Fwd))
    (hK : ∀ x ∈ tf, dpredKey x.1.name ∉ K)
    (perturbs : List (String × (State → M (State × PyF)))) (weights : List ℝ)
    (hpert : ∀ name f, (name, f) ∈ perturbs → ∀ s t new lpr t', Shaped K tf s →
      f s t = (.ok (new, lpr), t') → Shaped K tf new ∧ lpr.isInf = false)
    (spaces : Option (List (String × Bool))) (sd : Bool) (b s : ℤ)
    (bi ei : Act (Chain State Store E) Unit) (hb : BeginHook bi) (he : EndHook ei)
    (hbs : Act.Keeps bi fun c c' => Shaped K tf c.cur → Shaped K tf c'.cur)
    (hes : Act.Keeps ei fun c c' => Shaped K tf c.cur → Shaped K tf c'.cur) (n : ℕ)
    (s0 : State) (h0 : Shaped K tf s0) (T : ℝ) (w : E)
    (c' : Chain State Store E) (t t' : List Draw) (evs : List (Event State))
    (h : Chain.advance (stateCfg .targets tf perturbs weights spaces sd) b s bi ei n
      (Chain.init s0 [] T w) t = (.ok evs, c', t')) (k : String) :
    savedUnder k c'.saved = [] ∨
    ∃ val : State → SVal, (∀ x ∈ dueStates b s 1 evs, contribution spaces sd k x = [val x]) ∧
      savedUnder k c'.saved = (dueStates b s 1 evs).map val := by
  classical
  have hP : Preserves (stateCfg .targets tf perturbs weights spaces sd) (Shaped K tf) :=
    ⟨fun name f hf s t new lpr t' hs hr => (hpert name f hf s t new lpr t' hs hr).1,
      fun a b T ha hb' => ⟨ha.step (llr_step _ tf perturbs weights spaces sd a b T).1,
        hb'.step (llr_step _ tf perturbs weights spaces sd a b T).2⟩⟩
  -- every visited state is shaped and evaluated
  have hev : ∀ (n : ℕ) (c c' : Chain State Store E) (t t' : List Draw) (evs : List (Event State)),
      Shaped K tf c.cur →
      Chain.advance (stateCfg .targets tf perturbs weights spaces sd) b s bi ei n c t =
        (.ok evs, c', t') →
      ∀ ev ∈ evs, (Shaped K tf ev.prev ∧ Evaluated tf ev.prev) ∧
        (Shaped K tf ev.new ∧ Evaluated tf ev.new) := by
    intro n
    induction n with
    | zero =>
      intro c c' t t' evs _ h
      rw [advance_zero] at h
      simp only [Prod.mk.injEq, Except.ok.injEq] at h
      obtain ⟨rfl, rfl, rfl⟩ := h
      simp
    | succ n ih =>
      intro c c' t t' evs hc h
      rw [advance_succ_ok] at h
      obtain ⟨ev, evs', c1, t1, rfl, h1, h2⟩ := h
      obtain ⟨c2, c3, c4, t2, t3, b1, b2, b3, b4⟩ := (iteration_ok _).1 h1
      have e1 := ((setFlag_ok).1 b1).2.2
      have hc3 : Shaped K tf c3.cur := hbs.ok b2 (by rw [e1]; exact hc)
      have g1 := next_event_P _ hP b3 hc3
      have g2 : Evaluated tf ev.prev ∧ Evaluated tf ev.new := by
        obtain ⟨j, -, c5, t5, h5, h6⟩ := (attempts_ok _).1 b3
        have hc5 : Shaped K tf c5.cur := h5.P _ hP hc3
        rw [attempt_some] at h6
        obtain ⟨name, f, t6, new, lpr, t7, ⟨i, -, hi⟩, hp, h6⟩ := h6
        have hf := (hpert name f (List.mem_of_getElem? hi) _ _ _ _ _ hc5 hp).2
        rcases h6 with ⟨hf', -⟩ | ⟨-, r, cur1, new1, hl, h6⟩
        · rw [hf] at hf'; simp at hf'
        · obtain ⟨d, -, -, rfl, -⟩ := (finish_ok _).1 h6
          have := llr_evaluated tf perturbs weights spaces sd c5.cur new c5.temp r (by rw [hl])
          rw [hl] at this
          exact this
      have hc4 : Shaped K tf c4.cur := by
        rw [(next_effect _ b3).cur]
        unfold Event.result
        split
        · exact g1.2
        · exact g1.1
      intro e hin
      rcases List.mem_cons.1 hin with rfl | hin
      · exact ⟨⟨g1.1, g2.1⟩, ⟨g1.2, g2.2⟩⟩
      · exact ih c1 c' t1 t' evs' (hes.ok b4 hc4) h2 e hin
  have hvis := hev n _ c' t t' evs h0 h
  have hdue : ∀ x ∈ dueStates b s 1 evs, Shaped K tf x ∧ Evaluated tf x := by
    have : ∀ (i : ℕ) (evs : List (Event State)), (∀ ev ∈ evs,
        (Shaped K tf ev.prev ∧ Evaluated tf ev.prev) ∧
        (Shaped K tf ev.new ∧ Evaluated tf ev.new)) →
        ∀ x ∈ dueStates b s i evs, Shaped K tf x ∧ Evaluated tf x := by
      intro i evs
      induction evs generalizing i with
      | nil => intro _ x hx; simp [dueStates] at hx
      | cons ev evs ih =>
        intro hall x hx
        rw [dueStates] at hx
        rcases List.mem_append.1 hx with hx | hx
        · split at hx
          · rw [List.mem_singleton] at hx
            subst hx
            have := hall ev (by simp)
            unfold visited
            split
            · exact this.2
            · exact this.1
          · simp at hx
        · exact ih (i + 1) (fun e he => hall e (by simp [he])) x hx
    exact this 1 evs hvis
  have hsaved := C07_saved_values .targets tf perturbs weights spaces sd b s bi ei hb he n _ c' t t'
    evs h k
  have hinit : savedUnder k (Chain.init s0 ([] : Store) T w).saved = [] := rfl
  rw [hinit, List.nil_append] at hsaved
  have htot : (Chain.init s0 ([] : Store) T w).total + 1 = 1 := rfl
  rw [htot] at hsaved
  have finishUp : ∀ val : State → SVal,
      (∀ x ∈ dueStates b s 1 evs, contribution spaces sd k x = [val x]) →
      savedUnder k c'.saved = (dueStates b s 1 evs).map val := by
    intro val hval
    rw [hsaved, List.flatMap_congr (g := fun x => [val x]) hval, ← List.map_eq_flatMap]
  have empty : (∀ x ∈ dueStates b s 1 evs, contribution spaces sd k x = []) →
      savedUnder k c'.saved = [] := by
    intro hval
    rw [hsaved, List.flatMap_eq_nil_iff]
    exact hval
  by_cases hkd : ∃ x ∈ tf, k = dpredKey x.1.name
  · obtain ⟨x, hx, rfl⟩ := hkd
    have hnone : ∀ y ∈ dueStates b s 1 evs, dget y.vars (dpredKey x.1.name) = none := by
      intro y hy
      rw [dget_none_iff, (hdue y hy).1.vars]
      exact hK x hx
    cases sd with
    | false =>
      left
      apply empty
      intro y hy
      simp [contribution, hnone y hy]
    | true =>
      right
      let val : State → SVal := fun y =>
        match dget y.cache (dpredKey x.1.name) with
        | some v => cacheVal v
        | none => .int 0
      have hval : ∀ y ∈ dueStates b s 1 evs,
          contribution spaces true (dpredKey x.1.name) y = [val y] := by
        intro y hy
        obtain ⟨d, hd⟩ := (hdue y hy).2 x hx
        simp only [contribution, hnone y hy, substr_dpredKey, List.nil_append, and_self, if_true]
        rw [filter_key_singleton (hdue y hy).1.nodup hd]
        simp [val, hd]
      exact ⟨val, hval, finishUp val hval⟩
  · have hnc : ∀ y ∈ dueStates b s 1 evs, contribution spaces sd k y =
        (match dget y.vars k, skipKey spaces k with
          | some v, .ok false => [v]
          | _, _ => []) := by
      intro y hy
      unfold contribution
      have : (if (sd = true ∧ substr "dpred" k = true) then
          (y.cache.filter (fun kv => kv.1 = k)).map (fun kv => cacheVal kv.2) else []) = [] := by
        split
        · rename_i hh
          rw [List.map_eq_nil_iff, List.filter_eq_nil_iff]
          intro kv hkv
          simp only [decide_eq_true_eq]
          intro he
          exact hkd ((hdue y hy).1.dpred k (he ▸ List.mem_map_of_mem hkv) hh.2)
        · rfl
      rw [this, List.append_nil]
      rfl
    by_cases hskip : skipKey spaces k = .ok false
    · by_cases hk : k ∈ K
      · right
        let val : State → SVal := fun y => (dget y.vars k).getD (.int 0)
        have hval : ∀ y ∈ dueStates b s 1 evs, contribution spaces sd k y = [val y] := by
          intro y hy
          have hmem := ((hdue y hy).1.vars k).2 hk
          match hd : dget y.vars k with
          | none => exact absurd hmem (dget_none_iff.1 hd)
          | some v => rw [hnc y hy, hd, hskip]; simp [val, hd]
        exact ⟨val, hval, finishUp val hval⟩
      · left
        apply empty
        intro y hy
        have : dget y.vars k = none := by rw [dget_none_iff, (hdue y hy).1.vars]; exact hk
        rw [hnc y hy, this]
    · left
      apply empty
      intro y hy
      rw [hnc y hy]
      split
      · rename_i h1; exact absurd h1 hskip
      · rfl

/-- C08, equal lengths, as a consequence. -/
theorem C08_equal_lengths_partial (K : List String) (tf : List (Target × Fwd))
    (hK : ∀ x ∈ tf, dpredKey x.1.name ∉ K)
    (perturbs : List (String × (State → M (State × PyF)))) (weights : List ℝ)
    (hpert : ∀ name f, (name, f) ∈ perturbs → ∀ s t new lpr t', Shaped K tf s →
      f s t = (.ok (new, lpr), t') → Shaped K tf new ∧ lpr.isInf = false)
    (spaces : Option (List (String × Bool))) (sd : Bool) (b s : ℤ)
    (bi ei : Act (Chain State Store E) Unit) (hb : BeginHook bi) (he : EndHook ei)
    (hbs : Act.Keeps bi fun c c' => Shaped K tf c.cur → Shaped K tf c'.cur)
    (hes : Act.Keeps ei fun c c' => Shaped K tf c.cur → Shaped K tf c'.cur) (n : ℕ)
    (s0 : State) (h0 : Shaped K tf s0) (T : ℝ) (w : E)
    (c' : Chain State Store E) (t t' : List Draw) (evs : List (Event State))
    (h : Chain.advance (stateCfg .targets tf perturbs weights spaces sd) b s bi ei n
      (Chain.init s0 [] T w) t = (.ok evs, c', t')) (k1 k2 : String)
    (h1 : savedUnder k1 c'.saved ≠ []) (h2 : savedUnder k2 c'.saved ≠ []) :
    (savedUnder k1 c'.saved).length = (savedUnder k2 c'.saved).length := by
  have a1 := C08_aligned_partial K tf hK perturbs weights hpert spaces sd b s bi ei hb he hbs hes n
    s0 h0 T w c' t t' evs h k1
  have a2 := C08_aligned_partial K tf hK perturbs weights hpert spaces sd b s bi ei hb he hbs hes n
    s0 h0 T w c' t t' evs h k2
  rcases a1 with a1 | ⟨v1, -, a1⟩
  · exact absurd a1 h1
  · rcases a2 with a2 | ⟨v2, -, a2⟩
    · exact absurd a2 h2
    · rw [a1, a2]; simp

/-- A state with one parameter space and cached predicted data. -/
noncomputable def exShaped : State :=
      { params := [("v", .ps (.mk 1 [("a", .arr (.vec [1]))] none))], temperature := 1,
        cache := [("t.dpred", .dpred [7])], extra := [] }

/-- The hypotheses of `C08_aligned_partial` on the states and the perturbations are met by a target
and a perturbation that discards the cache. -/
example : Shaped ["v.n_dimensions", "v.a"] [({ name := "t", dobs := [0] }, fun _ => some [0])]
      exShaped ∧
    ∀ (s new : State) (lpr : PyF) (t t' : List Draw),
      Shaped ["v.n_dimensions", "v.a"] [({ name := "t", dobs := [0] }, fun _ => some [0])] s →
      ((.ok ({ s with cache := [] }, .fin 2), t) : Except PyErr (State × PyF) × List Draw) =
        (.ok (new, lpr), t') →
      Shaped ["v.n_dimensions", "v.a"] [({ name := "t", dobs := [0] }, fun _ => some [0])] new ∧
        lpr.isInf = false := by
  constructor
  · refine ⟨?_, by simp [dkeys, exShaped], ?_⟩
    · intro k
      have : dkeys exShaped.vars = ["v.n_dimensions", "v.a"] := by rfl
      rw [this]
    · intro k hk _
      refine ⟨_, List.mem_singleton_self _, ?_⟩
      simpa [dkeys, dpredKey, exShaped] using hk
  · intro s new lpr t t' hs h
    simp only [Prod.mk.injEq, Except.ok.injEq] at h
    obtain ⟨⟨rfl, rfl⟩, rfl⟩ := h
    refine ⟨⟨?_, by simp [dkeys], by simp [dkeys]⟩, rfl⟩
    intro k
    rw [← hs.vars k]
    rfl

/-! ### The counterexample -/

section Witness

/-- One target whose predicted data are constant. -/
noncomputable def exTarget8 : Target × Fwd :=
  ({ name := "t", dobs := [0], covInv := some (.scalar 1) }, fun _ => some [0])

/-- Two perturbations: the first leaves the prior support, the second does not. -/
def exPerturbs8 : List (String × (State → M (State × PyF))) :=
  [("out", fun s t => (.ok (s.copy, .ninf), t)), ("in", fun s t => (.ok (s.copy, .fin 0), t))]

noncomputable def exState8 : State :=
  { params := [("v", .ps (.mk 1 [("a", .arr (.vec [1]))] none))], temperature := 1,
    cache := [], extra := [] }

noncomputable def exCfg8 : ChainCfg State Store :=
  stateCfg .targets [exTarget8] exPerturbs8 [1, 1] none true

theorem exChoice8 (x : ℝ) (h : 0 ≤ x ∧ x < 1) (i : ℕ) (hi : i < 2)
    (h1 : (([1, 1] : List ℝ).take i).sum ≤ x * 2)
    (h2 : x * 2 < (([1, 1] : List ℝ).take (i + 1)).sum) (t : List Draw) :
    choices exCfg8.perturbs.length exCfg8.weights (exDraw x h :: t) = (.ok i, t) := by
  have hs : ([1, 1] : List ℝ).sum = 2 := by norm_num
  exact (choices_iff [1, 1] (by simp) (by norm_num) (exDraw x h) t t i).2
    ⟨rfl, hi, by rw [hs]; exact h1, by rw [hs]; exact h2⟩

/-- C08 is false of the code: a run of two iterations, both saved, after which the list of parameter
values has two entries and the list of predicted data has one. -/
theorem C08_misaligned : ∃ (t t' : List Draw) (evs : List (Event State)) (c' : Chain State Store Unit),
    Chain.advance exCfg8 0 1 Act.skip Act.skip 2 (Chain.init exState8 [] 1 ()) t =
      (.ok evs, c', t') ∧
    (savedUnder "v.a" c'.saved).length = 2 ∧ (savedUnder "t.dpred" c'.saved).length = 1 := by
  have hsave : ∀ s l, (exCfg8.save s l).1 = .ok () := by
    intro s l
    have : ∀ l d, (saveVars none l d).1 = .ok () := by
      intro l
      induction l with
      | nil => intro d; rfl
      | cons kv l ih =>
        intro d
        obtain ⟨k, v⟩ := kv
        have : skipKey none k = .ok false := by unfold skipKey; split <;> rfl
        simp only [saveVars, this]
        exact ih _
    change (saveState none true s l).1 = _
    unfold saveState
    have h := this s.vars l
    split
    · rename_i h1; rw [h1] at h; exact h
    · rfl
  let d : Draw := exDraw (1/2) (by norm_num)
  let d0 : Draw := exDraw 0 (by norm_num)
  obtain ⟨ev1, c1, hit1, p1, -, a1, T1, cur1, tot1, temp1⟩ :=
    iteration_exists exCfg8 (b := 0) (s := 1) (by norm_num)
      (c := Chain.init exState8 [] 1 ()) (t := [d0, d, d, d]) (t1 := [d, d, d]) (t2 := [d, d])
      (name := "out") (d := d) (lpr := .ninf)
      ⟨0, exChoice8 0 (by norm_num) 0 (by norm_num) (by norm_num) (by norm_num) _, rfl⟩ rfl
      (by norm_num [d, exDraw]) (by decide +kernel) hsave (Or.inl ⟨rfl, rfl, rfl, rfl⟩)
  have hacc1 : ev1.acc = false := by
    cases h : ev1.acc with
    | false => rfl
    | true => exact absurd (a1.1 h) (fun h => h)
  have hc1 : c1.cur = exState8 := by rw [cur1, Event.result, hacc1]; exact p1
  -- the second iteration evaluates both states
  let ev8 : State := { exState8 with cache := [("t.dpred", .dpred [0])] }
  have hm : getMisfitAndDet [exTarget8] exState8 = (.ok (0, 0), ev8, ["t"]) := by
    simp [getMisfitAndDet, misfitLoop, getDpred, exTarget8, exState8, dpredKey, Target.misfit,
      Target.invCovTimes, Target.hierarchical, dset, bcast, vdot, ev8]
  have hllr : exCfg8.llr c1.cur (State.copy c1.cur) c1.temp = (.ok (.fin 0), ev8, ev8) := by
    rw [hc1, temp1]
    have hcopy : exState8.copy = exState8 := rfl
    rw [hcopy]
    simp only [exCfg8, stateCfg, logLikelihoodRatio, ratioFromTargets, hm]
    simp [pyDiv, PyF.divFin, Chain.init]
  obtain ⟨ev2, c2, hit2, p2, n2, a2, T2, cur2, tot2, temp2⟩ :=
    iteration_exists exCfg8 (b := 0) (s := 1) (by norm_num)
      (c := c1) (t := [d, d]) (t1 := [d]) (t2 := [])
      (name := "in") (d := d) (lpr := .fin 0)
      ⟨1, exChoice8 (1/2) (by norm_num) 1 (by norm_num) (by norm_num) (by norm_num) _, rfl⟩ rfl
      (by norm_num [d, exDraw]) (by decide +kernel) hsave (Or.inr ⟨rfl, hllr⟩)
  have hrun : Chain.advance exCfg8 0 1 Act.skip Act.skip 2 (Chain.init exState8 [] 1 ())
      [d0, d, d, d] = (.ok [ev1, ev2], c2, []) :=
    (advance_succ_ok _).2 ⟨ev1, [ev2], c1, [d, d], rfl, hit1,
      (advance_succ_ok _).2 ⟨ev2, [], c2, [], rfl, hit2, advance_zero _ _ _⟩⟩
  refine ⟨_, _, _, c2, hrun, ?_⟩
  have hv1 : visited ev1 = exState8 := by rw [visited, hacc1]; exact p1
  have hv2 : visited ev2 = ev8 := by
    unfold visited
    split
    · exact n2
    · exact p2
  have hdue : dueStates 0 1 1 [ev1, ev2] = [exState8, ev8] := by
    have e1 : Due 0 1 1 := ⟨by norm_num, by norm_num⟩
    have e2 : Due 0 1 (1 + 1) := ⟨by norm_num, by norm_num⟩
    have t2 : ev2.temp = 1 := by rw [T2, temp1]; rfl
    rw [dueStates, if_pos ⟨e1, T1⟩, dueStates, if_pos ⟨e2, t2⟩, dueStates, hv1, hv2]
    rfl
  have key := fun k => C07_saved_values .targets [exTarget8] exPerturbs8 [1, 1] none true 0 1
    Act.skip Act.skip skip_begin skip_end 2 _ c2 _ _ _ hrun k
  have htot : (Chain.init exState8 ([] : Store) 1 ()).total + 1 = 1 := rfl
  simp only [htot, hdue] at key
  rw [key, key]
  exact ⟨rfl, rfl⟩

end Witness

end BB.Props
