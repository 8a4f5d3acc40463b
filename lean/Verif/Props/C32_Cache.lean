import Verif.Lemmas.StateChain

/-!
# C32: cached predictions are never stale
-/

namespace BB.Props

open BB BB.Spec BB.Lemmas

variable {E : Type}

/-- The tempered log likelihood ratio computed without any cache: each prediction is the forward
function applied to the parameters. -/
noncomputable def freshRatio (tf : List (Target × Fwd)) (p p' : Params) (T : ℝ) :
    Except PyErr PyF := do
  let a ← freshEval p tf
  let b ← freshEval p' tf
  pyDiv (.fin ((a.2 - b.2 + a.1 - b.1) / 2)) T

/-- A hook that keeps the cache of the current state coherent. -/
def CoherentHook (tf : List (Target × Fwd)) (m : Act (Chain State Store E) Unit) : Prop :=
  Act.Keeps m fun c c' => Coherent tf c.cur → Coherent tf c'.cur

theorem llr_coherent (tf : List (Target × Fwd)) (hnd : (tf.map (·.1.name)).Nodup)
    (perturbs : List (String × (State → M (State × PyF)))) (weights : List ℝ)
    (spaces : Option (List (String × Bool))) (sd : Bool) (a b : State) (T : ℝ)
    (ha : Coherent tf a) (hb : Coherent tf b) :
    Coherent tf ((stateCfg .targets tf perturbs weights spaces sd).llr a b T).2.1 ∧
    Coherent tf ((stateCfg .targets tf perturbs weights spaces sd).llr a b T).2.2 := by
  have h1 := (getMisfitAndDet_coh tf a hnd ha).2.1
  have h2 := (getMisfitAndDet_coh tf b hnd hb).2.1
  simp only [stateCfg, logLikelihoodRatio, ratioFromTargets]
  split
  · rename_i h; rw [h] at h1; exact ⟨h1, hb⟩
  · rename_i h
    rw [h] at h1
    split
    · rename_i h'; rw [h'] at h2; exact ⟨h1, h2⟩
    · rename_i h'; rw [h'] at h2; exact ⟨h1, h2⟩

/-- C32, one evaluation: between states with coherent caches, the computed ratio (value or exception)
is the one computed without any cache. -/
theorem C32_evaluation (tf : List (Target × Fwd)) (hnd : (tf.map (·.1.name)).Nodup)
    (perturbs : List (String × (State → M (State × PyF)))) (weights : List ℝ)
    (spaces : Option (List (String × Bool))) (sd : Bool) (a b : State) (T : ℝ)
    (ha : Coherent tf a) (hb : Coherent tf b) :
    ((stateCfg .targets tf perturbs weights spaces sd).llr a b T).1 =
      freshRatio tf a.params b.params T := by
  have h1 := (getMisfitAndDet_coh tf a hnd ha).1
  have h2 := (getMisfitAndDet_coh tf b hnd hb).1
  simp only [stateCfg, logLikelihoodRatio, ratioFromTargets, freshRatio]
  match hm : getMisfitAndDet tf a with
  | (.error e, o, c) =>
    rw [hm] at h1
    simp only at h1 ⊢
    rw [← h1]; rfl
  | (.ok (m, l), o, c) =>
    rw [hm] at h1
    simp only at h1 ⊢
    rw [← h1]
    match hm' : getMisfitAndDet tf b with
    | (.error e, o', c') =>
      rw [hm'] at h2
      simp only at h2 ⊢
      rw [← h2]; rfl
    | (.ok (m', l'), o', c') =>
      rw [hm'] at h2
      simp only at h2 ⊢
      rw [← h2]; rfl

/-- C32, all histories.  Suppose the perturbations return states with coherent caches (those of the
library return copies, whose caches hold no predicted data).  Then after any number of iterations
with any outcome, including failed attempts and exceptions, the current state is coherent; all states
visited or proposed in the completed iterations are; and an evaluation of the current state against
any coherent proposal yields the ratio computed without cache. -/
theorem C32_never_stale (tf : List (Target × Fwd)) (hnd : (tf.map (·.1.name)).Nodup)
    (perturbs : List (String × (State → M (State × PyF)))) (weights : List ℝ)
    (hpert : ∀ name f, (name, f) ∈ perturbs → ∀ s t new lpr t', Coherent tf s →
      f s t = (.ok (new, lpr), t') → Coherent tf new)
    (spaces : Option (List (String × Bool))) (sd : Bool) (b s : ℤ)
    (bi ei : Act (Chain State Store E) Unit) (hbi : CoherentHook tf bi) (hei : CoherentHook tf ei)
    (n : ℕ) (c : Chain State Store E) (hc : Coherent tf c.cur) (t : List Draw) :
    Coherent tf (Chain.advance (stateCfg .targets tf perturbs weights spaces sd) b s bi ei n c
      t).2.1.cur ∧
    (∀ evs c' t', Chain.advance (stateCfg .targets tf perturbs weights spaces sd) b s bi ei n c t =
      (.ok evs, c', t') → ∀ ev ∈ evs, Coherent tf ev.prev ∧ Coherent tf ev.new) ∧
    ∀ new T, Coherent tf new →
      ((stateCfg .targets tf perturbs weights spaces sd).llr (Chain.advance
        (stateCfg .targets tf perturbs weights spaces sd) b s bi ei n c t).2.1.cur new T).1 =
      freshRatio tf (Chain.advance (stateCfg .targets tf perturbs weights spaces sd) b s bi ei n c
        t).2.1.cur.params new.params T := by
  have hP : Preserves (stateCfg .targets tf perturbs weights spaces sd) (Coherent tf) :=
    ⟨hpert, fun a b T ha hb => llr_coherent tf hnd perturbs weights spaces sd a b T ha hb⟩
  have h1 := advance_P (b := b) (s := s) _ hP hbi hei n c t hc
  refine ⟨h1, ?_, ?_⟩
  · intro evs c' t' h
    exact (advance_events_P _ hP hbi hei h hc).1
  · intro new T hn
    exact C32_evaluation tf hnd perturbs weights spaces sd _ _ T h1 hn

/-- A copy of a state is coherent, with or without `keep_dpred`. -/
theorem C32_copy (tf : List (Target × Fwd)) (s : State) (hs : Coherent tf s)
    (keep : Bool) : Coherent tf (s.copy keep) := by
  intro x hx v hv
  apply hs x hx v
  cases keep with
  | false => simp [State.copy] at hv
  | true =>
    simp only [State.copy, if_true] at hv
    have h1 := dget_some_mem hv
    rw [List.mem_filter] at h1
    have h2 := h1.2
    simp only [beq_iff_eq] at h2
    exfalso
    have h4 := congrArg String.toList h2
    rw [String.toList_append] at h4
    have : ".dpred".toList.length = 6 := by decide +kernel
    have h5 := congrArg List.length h4
    rw [List.length_append, this] at h5
    have h6 : "dpred".toList.length = 5 := by decide +kernel
    omega

/-- The successive evaluations of one state: `evalAt k` is the state before the `k`-th evaluation. -/
noncomputable def evalAt (tf : List (Target × Fwd)) (s : State) : ℕ → State
  | 0 => s
  | k + 1 => (getMisfitAndDet tf (evalAt tf s k)).2.1

theorem evalAt_params (tf : List (Target × Fwd)) (s : State) (k : ℕ) :
    (evalAt tf s k).params = s.params := by
  induction k with
  | zero => rfl
  | succ k ih => rw [evalAt, (getMisfitAndDet_step tf _).params, ih]

/-- C32, number of calls: however often a state is evaluated, a forward function that returns data is
called at most once on it for each target; within one evaluation, no target is asked twice. -/
theorem C32_called_once (tf : List (Target × Fwd)) (hnd : (tf.map (·.1.name)).Nodup) (s : State)
    (hs : Coherent tf s) (x : Target × Fwd) (hx : x ∈ tf) (hok : (x.2 s.params).isSome) (i j : ℕ)
    (hi : x.1.name ∈ (getMisfitAndDet tf (evalAt tf s i)).2.2)
    (hj : x.1.name ∈ (getMisfitAndDet tf (evalAt tf s j)).2.2) :
    i = j ∧ (getMisfitAndDet tf (evalAt tf s i)).2.2.Nodup := by
  have hcoh : ∀ k, Coherent tf (evalAt tf s k) := by
    intro k
    induction k with
    | zero => exact hs
    | succ k ih => exact (getMisfitAndDet_coh tf _ hnd ih).2.1
  -- once called, cached
  have hcall : ∀ k, x.1.name ∈ (getMisfitAndDet tf (evalAt tf s k)).2.2 →
      dget (evalAt tf s k).cache (dpredKey x.1.name) = none ∧
      ∃ v, dget (evalAt tf s (k + 1)).cache (dpredKey x.1.name) = some v := by
    intro k hk
    have hm := (getMisfitAndDet_coh tf _ hnd (hcoh k)).2.2.2.1
    have hin : x.1.name ∈ missing tf (evalAt tf s k).cache := hm.subset hk
    obtain ⟨y, hy, hyn⟩ := List.mem_map.1 hin
    obtain ⟨hy1, hy2⟩ := List.mem_filter.1 hy
    have hyx : y = x := List.inj_on_of_nodup_map hnd hy1 hx hyn
    subst hyx
    refine ⟨by simpa using hy2, ?_⟩
    -- the call of `y` succeeded, so its result has been cached
    have : ∀ (all l : List (Target × Fwd)) (m d : ℝ) (st : EvSt), List.Sublist l all →
        (all.map (·.1.name)).Nodup → CohC all (evalAt tf s k).params st.cache →
        (∀ z ∈ all, z.1.name = y.1.name → z = y) →
        y.1.name ∈ (misfitLoop (evalAt tf s k).params l m d st).2.calls → y.1.name ∉ st.calls →
        ∃ v, dget (misfitLoop (evalAt tf s k).params l m d st).2.cache (dpredKey y.1.name) =
          some v := by
      intro all l
      induction l with
      | nil => intro m d st _ _ _ _ h1 h2; exact absurd h1 h2
      | cons z l ih =>
        obtain ⟨tg, f⟩ := z
        intro m d st hsub hnd' hcc hu h1 h2
        have hz : (tg, f) ∈ all := hsub.subset (by simp)
        obtain ⟨g1, g2, g3, g4⟩ := getDpred_coh hnd' hcc hz
        have hsub' : List.Sublist l all := (List.sublist_cons_self _ _).trans hsub
        by_cases hzy : tg.name = y.1.name
        · -- this is the target itself
          have he : (tg, f) = y := hu _ hz hzy
          have hfd : ∃ dd, f (evalAt tf s k).params = some dd := by
            rw [evalAt_params]
            have : f = y.2 := by rw [← he]
            rw [this]
            exact Option.isSome_iff_exists.1 hok
          obtain ⟨dd, hdd⟩ := hfd
          have hcached : ∃ v, dget (getDpred tg f (evalAt tf s k).params st).2.cache
              (dpredKey y.1.name) = some v := by
            match hg : getDpred tg f (evalAt tf s k).params st with
            | (.ok d1, s1) =>
              have := getDpred_ok hg
              rw [hzy] at this
              exact ⟨_, this⟩
            | (.error e, s1) => rw [hg, hdd] at g1; simp at g1
          obtain ⟨v, hv⟩ := hcached
          have hgo : ∀ m d, ∃ v, dget (misfitLoop (evalAt tf s k).params l m d
              (getDpred tg f (evalAt tf s k).params st).2).2.cache (dpredKey y.1.name) = some v :=
            fun m d => ⟨v, misfitLoop_ext _ _ _ _ _ _ _ hv⟩
          unfold misfitLoop
          split
          · rename_i hg; rw [hg] at hv; exact ⟨v, hv⟩
          · rename_i hg
            rw [hg] at hv hgo
            split
            · exact ⟨v, hv⟩
            · split
              · split
                · exact ⟨v, hv⟩
                · exact hgo _ _
              · exact hgo _ _
        · -- another target
          have hst : y.1.name ∉ (getDpred tg f (evalAt tf s k).params st).2.calls := by
            rw [g3, List.mem_append]
            rintro (h | h)
            · exact h2 h
            · split at h
              · exact hzy (List.mem_singleton.1 h).symm
              · simp at h
          have hgo : ∀ m d, y.1.name ∈ (misfitLoop (evalAt tf s k).params l m d
              (getDpred tg f (evalAt tf s k).params st).2).2.calls → ∃ v, dget (misfitLoop
              (evalAt tf s k).params l m d (getDpred tg f (evalAt tf s k).params st).2).2.cache
              (dpredKey y.1.name) = some v :=
            fun m d h => ih m d _ hsub' hnd' g2 hu h hst
          unfold misfitLoop at h1 ⊢
          match hg : getDpred tg f (evalAt tf s k).params st with
          | (.error e, s1) =>
            rw [hg] at h1 hst
            exact absurd h1 hst
          | (.ok dd, s1) =>
            rw [hg] at h1 hst hgo
            simp only at h1 hst hgo ⊢
            match hq : tg.misfit (evalAt tf s k).params dd with
            | .error e => rw [hq] at h1; exact absurd h1 hst
            | .ok q =>
              rw [hq] at h1
              simp only at h1 ⊢
              by_cases hh : tg.hierarchical
              · rw [if_pos hh] at h1 ⊢
                match hl1 : tg.logDet (evalAt tf s k).params with
                | .error e => rw [hl1] at h1; exact absurd h1 hst
                | .ok l1 => rw [hl1] at h1; exact hgo _ _ h1
              · rw [if_neg hh] at h1 ⊢
                exact hgo _ _ h1
    exact this tf tf 0 0 ⟨(evalAt tf s k).cache, []⟩ (List.Sublist.refl _) hnd (hcoh k)
      (fun z hz hn => List.inj_on_of_nodup_map hnd hz hx hn) hk (by simp)
  have hmono : ∀ k m v, k ≤ m → dget (evalAt tf s k).cache (dpredKey x.1.name) = some v →
      dget (evalAt tf s m).cache (dpredKey x.1.name) = some v := by
    intro k m v hkm hv
    induction m, hkm using Nat.le_induction with
    | base => exact hv
    | succ m _ ih => exact (getMisfitAndDet_step tf _).ext _ _ ih
  have hlt : ∀ a b, a < b → x.1.name ∈ (getMisfitAndDet tf (evalAt tf s a)).2.2 →
      x.1.name ∈ (getMisfitAndDet tf (evalAt tf s b)).2.2 → False := by
    intro a b hab h1 h2
    obtain ⟨v, hv⟩ := (hcall a h1).2
    have := hmono (a + 1) b v hab hv
    rw [(hcall b h2).1] at this
    simp at this
  refine ⟨?_, ?_⟩
  · rcases Nat.lt_trichotomy i j with h | h | h
    · exact (hlt i j h hi hj).elim
    · exact h
    · exact (hlt j i h hj hi).elim
  · have hm := (getMisfitAndDet_coh tf _ hnd (hcoh i)).2.2.2.1
    refine List.Nodup.sublist hm.sublist ?_
    unfold missing
    exact hnd.sublist ((List.filter_sublist).map _)

/-! ### Non-trivial instances -/

section Examples

/-- A perturbation that changes a parameter on a copy, and a forward function that depends on it: the
hypotheses of `C32_never_stale` are met from a state that has been evaluated. -/
noncomputable def exFwd32 : Fwd := fun p =>
  match dget p "t" with
  | some (.noise d) => some [d.std]
  | _ => none

noncomputable def exTf32 : List (Target × Fwd) := [({ name := "t", dobs := [1] }, exFwd32)]

noncomputable def exPerturb32 : State → M (State × PyF) := fun s t =>
  (.ok ({ s.copy with params := dset s.params "t" (.noise ⟨3, none⟩) }, .fin 0), t)

noncomputable def exState32 : State :=
  { params := [("t", .noise ⟨2, none⟩)], temperature := 1, cache := [("t.dpred", .dpred [2])],
    extra := [] }

example : (exTf32.map (·.1.name)).Nodup ∧ Coherent exTf32 exState32 ∧
    (∀ s t new lpr t', Coherent exTf32 s → exPerturb32 s t = (.ok (new, lpr), t') →
      Coherent exTf32 new ∧ dget new.params "t" = some (.noise ⟨3, none⟩)) := by
  refine ⟨by simp [exTf32], ?_, ?_⟩
  · intro x hx v hv
    simp only [exTf32, List.mem_singleton] at hx
    subst hx
    have : v = .dpred [2] := by
      have h : dget exState32.cache ("t" ++ ".dpred") = some (.dpred [2]) := rfl
      rw [h] at hv
      exact (Option.some.inj hv).symm
    exact ⟨[2], this, rfl⟩
  · intro s t new lpr t' _ h
    simp only [exPerturb32, Prod.mk.injEq, Except.ok.injEq] at h
    obtain ⟨⟨rfl, rfl⟩, rfl⟩ := h
    refine ⟨fun x _ v hv => ?_, dget_dset_same _ _ _⟩
    simp [State.copy] at hv

/-- The first evaluation of a state without cache calls the forward function, the second does not. -/
example : (getMisfitAndDet exTf32 (evalAt exTf32 { exState32 with cache := [] } 0)).2.2 = ["t"] ∧
    (getMisfitAndDet exTf32 (evalAt exTf32 { exState32 with cache := [] } 1)).2.2 = [] := by
  have h0 : getMisfitAndDet exTf32 { exState32 with cache := [] } =
      (.ok ((2 - 1) * (1 / 2 ^ 2 * (2 - 1)), 2 * 1 * Real.log 2), exState32, ["t"]) := by
    simp [getMisfitAndDet, misfitLoop, getDpred, exTf32, exFwd32, exState32, dget, dpredKey,
      Target.misfit, Target.invCovTimes, Target.hierarchical, dset, bcast, vdot, Target.logDet,
      getNoise, pyLog]
  constructor
  · rw [evalAt, h0]
  · rw [evalAt, evalAt, h0, getMisfitAndDet_again _ _ _ _ _ h0]

end Examples

end BB.Props
