import Verif.Spec.Iterations
import Verif.Lemmas.WholeChain
import Verif.Lemmas.BlockAgain
import Verif.Lemmas.Spare

/-!
# The iterations of whole inversions are completed
-/

namespace BB.Lemmas

open BB Spec Props MeasureTheory ProbabilityTheory

variable {p : Problem} {B : ℕ → Block} {logLik : Whole p B → ℝ} {E : Type}

/-! ### saving -/

theorem rows_keys {P : Type} {k : ℕ} {sp : Space} {prs : Fin k → Prior} {col : List P → List (String × PVal)}
    (hp : OnlyPriors sp prs) (hcol : ∀ xs, ∀ kv ∈ col xs, kv.1 = "discretization") {l : List (P × (Fin k → ℝ))} {st : PSState}
    (h : Props.Holds col prs l st) : ∀ kv ∈ st.vals, kv.1 = "discretization" ∨ ∃ q, (kv.1, q) ∈ sp.params.toList := by
  intro kv hkv
  rw [h.2] at hkv
  rcases List.mem_append.1 hkv with hkv | hkv
  · exact .inl (hcol _ _ hkv)
  · obtain ⟨j, rfl⟩ := List.mem_ofFn.1 hkv
    exact .inr ⟨.prior (prs j), by rw [hp.params]; exact List.mem_ofFn.2 ⟨j, rfl⟩⟩

theorem noSites_keys : ∀ xs, ∀ kv ∈ noSites xs, kv.1 = "discretization" := by
  intro xs kv hkv
  cases hkv

theorem lineSites_keys : ∀ xs, ∀ kv ∈ lineSites xs, kv.1 = "discretization" := by
  intro xs kv hkv
  rw [List.mem_singleton.1 hkv]

theorem planeSites_keys : ∀ xs, ∀ kv ∈ planeSites xs, kv.1 = "discretization" := by
  intro xs kv hkv
  rw [List.mem_singleton.1 hkv]

/-- The entry of a space. -/
theorem explored_vals {sp : Space} {b : Block} (h : Explored sp b) {q : Params} (hq : b.holds q) :
    ∃ st, dget q sp.info.name = some (.ps st) ∧
      ∀ kv ∈ st.vals, kv.1 = "discretization" ∨ ∃ q, (kv.1, q) ∈ sp.params.toList := by
  cases h with
  | known h =>
    cases h with
    | plain _ prs _ _ _ hp _ _ =>
      obtain ⟨st, h1, l, h2, -⟩ := hq
      exact ⟨st, h1, rows_keys hp.only noSites_keys h2⟩
    | fixed _ prs _ _ _ hp _ =>
      obtain ⟨st, h1, l, h2, -⟩ := hq
      exact ⟨st, h1, rows_keys hp.only noSites_keys h2⟩
    | line _ prs _ _ _ hp _ =>
      obtain ⟨st, h1, l, h2, -⟩ := hq
      exact ⟨st, h1, rows_keys hp.only lineSites_keys h2⟩
    | plane _ prs _ _ _ hp _ =>
      obtain ⟨st, h1, l, h2, -⟩ := hq
      exact ⟨st, h1, rows_keys hp.only planeSites_keys h2⟩
  | lineBirths _ prs _ _ _ hp _ _ _ =>
    obtain ⟨st, h1, l, h2, -⟩ := hq
    exact ⟨st, h1, rows_keys hp.only lineSites_keys h2⟩
  | lineNear _ prs _ _ _ _ hp _ _ _ _ _ _ =>
    obtain ⟨st, h1, l, h2, -⟩ := hq
    exact ⟨st, h1, rows_keys hp.only lineSites_keys h2⟩
  | planeBirths _ prs _ _ _ hp _ _ _ =>
    obtain ⟨st, h1, l, h2, -⟩ := hq
    exact ⟨st, h1, rows_keys hp.only planeSites_keys h2⟩
  | planeNear _ prs _ _ _ _ hp _ _ _ _ _ _ =>
    obtain ⟨st, h1, l, h2, -⟩ := hq
    exact ⟨st, h1, rows_keys hp.only planeSites_keys h2⟩

/-- Saving a model raises nothing. -/
theorem save_whole (h : AnyProblem p B logLik) (hpn : PlainNames p) {s : State} (hs : HoldsAll p B s.params)
    (he : s.extra = []) (d : Store) : ∃ d', p.cfg.save s d = (.ok (), d') := by
  have hn : (dkeys s.params).Nodup := by
    rw [hs.1]
    exact h.distinct
  change ∃ d', saveState _ p.saveDpred s d = (.ok (), d')
  unfold saveState
  obtain ⟨d1, h1⟩ := saveVars_runs (spaces := some (p.spaces.map fun kv => (kv.1, kv.2.info.transD))) s.vars d (by
    refine vars_keys (P := KeyOk _) he ?_
    intro k v hkv
    have hd := dget_of_mem hn hkv
    have hk : k ∈ dkeys s.params := List.mem_map.2 ⟨_, hkv, rfl⟩
    rw [hs.1] at hk
    obtain ⟨i, hi⟩ := whole_keys h hk
    rcases whole_cases h i with ⟨sp, hq, hm, -⟩ | ⟨-, -, hb, -⟩
    · rw [explored_keys hm, List.mem_singleton] at hi
      subst hi
      obtain ⟨st, e, hvals⟩ := explored_vals hm (hs.2 i)
      rw [hd] at e
      injection e with e
      subst e
      have hsp := List.mem_of_getElem? hq
      obtain ⟨hp1, hp2⟩ := hpn.1 _ _ hsp
      cases st with
      | mk n vals kd =>
        simp only [TopVal.todict]
        rw [PSState.todict]
        refine todictVals_keys (P := KeyOk _) _ _ ?_ ?_
        · intro kv hkv
          rw [List.mem_singleton] at hkv
          subst hkv
          unfold KeyOk skipKey
          rw [if_pos (substr_n_dimensions _), dropSuffix_n_dimensions]
          have hm : (sp.info.name, sp.info.transD) ∈ p.spaces.map fun kv => (kv.1, kv.2.info.transD) :=
            List.mem_map.2 ⟨_, hsp, rfl⟩
          have hnd : (dkeys (p.spaces.map fun kv => (kv.1, kv.2.info.transD))).Nodup := by
            unfold dkeys
            rw [List.map_map]
            exact (List.nodup_append.1 h.distinct).1
          refine ⟨!sp.info.transD, ?_⟩
          simp only [dget_of_mem hnd hm]
        · intro kv hkv
          refine ⟨_, skipKey_plain (plain_dot hp1 ?_)⟩
          rcases hvals kv hkv with e | ⟨q, hq⟩
          · rw [e]
            exact plain_of (by decide +kernel)
          · exact hp2 _ _ hq
    · have hold := hs.2 i
      rw [hb] at hold hi
      obtain ⟨t, ht, rfl⟩ := List.mem_map.1 hi
      obtain ⟨dn, e, -⟩ := hold t ht
      rw [hd] at e
      injection e with e
      subst e
      have hpl := hpn.2 t ht
      have p1 : Plain (t.name ++ ".std") := plain_dot (b := "std") hpl (plain_of (by decide +kernel)) |> fun x => by
        rw [String.append_assoc] at x; exact x
      have p2 : Plain (t.name ++ ".correlation") := plain_dot (b := "correlation") hpl (plain_of (by decide +kernel)) |> fun x => by
        rw [String.append_assoc] at x; exact x
      intro kv hkv
      simp only [TopVal.todict, Noise.todict] at hkv
      rcases List.mem_cons.1 hkv with e | hkv
      · rw [e]; exact ⟨_, skipKey_plain p1⟩
      · split at hkv
        · simp at hkv
        · rw [List.mem_singleton] at hkv; rw [hkv]; exact ⟨_, skipKey_plain p2⟩)
  rw [h1]
  exact ⟨_, rfl⟩

/-! ### the end of an iteration -/

theorem finish_whole (h : AnyProblem p B logLik) (hpn : PlainNames p) {T : ℝ} {c : Chain State Store E} (hc : Ready p B T c)
    {name : String} {new : State} (hp : HoldsAll p B new.params) (he : new.extra = []) (hco : Coherent p.tf new)
    (hs : name.startsWith "ParamSpacePerturbation" = true → ∃ st, loadStats new = .ok st) (lp : PyF) {d : Draw} (hu : 0 < d.u)
    (t : List Draw) : ∃ ev c', Chain.finish p.cfg name new lp c (d :: t) = (.ok ev, c', t) ∧ Ready p B T c' := by
  classical
  rw [finish_run, if_neg (not_le.2 hu)]
  obtain ⟨p', a', e, h1, h2⟩ := newStats_runs (p := p) (name := name) (decide (lp.gtFin (Real.log d.u))) hs hc.proposed hc.accepted
  rw [e]
  have hc' : Ready p B T (afterStats c new (decide (lp.gtFin (Real.log d.u))) p' a') := by
    by_cases ha : lp.gtFin (Real.log d.u)
    · refine ⟨?_, ?_, ?_, hc.temp, h1, h2⟩ <;> simp only [afterStats, ha, decide_true, if_true]
      exacts [hp, hco, he]
    · refine ⟨?_, ?_, ?_, hc.temp, h1, h2⟩ <;> simp only [afterStats, ha, decide_false, Bool.false_eq_true, if_false]
      exacts [hc.holds, hc.cache, hc.extra]
  have hsave : ∃ c'', Chain.saveIfDue p.cfg (afterStats c new (decide (lp.gtFin (Real.log d.u))) p' a') t = (.ok (), c'', t) ∧
      Ready p B T c'' := by
    generalize afterStats c new (decide (lp.gtFin (Real.log d.u))) p' a' = c1 at hc'
    unfold Chain.saveIfDue
    split
    · obtain ⟨d, hd⟩ := save_whole h hpn hc'.holds hc'.extra c1.saved
      rw [hd]
      exact ⟨_, rfl, hc'.holds, hc'.cache, hc'.extra, hc'.temp, hc'.proposed, hc'.accepted⟩
    · exact ⟨c1, rfl, hc'⟩
  obtain ⟨c'', e2, h3⟩ := hsave
  simp only [e2]
  exact ⟨_, c'', rfl, h3⟩

/-! ### an iteration -/

/-- What the perturbations leave behind. -/
theorem prop_cache (hnd : (p.targets.map (·.name)).Nodup) {name : String} {f : State → M (State × PyF)} (hf : (name, f) ∈ p.perturbs)
    {s new : State} {lpr : PyF} {t t' : List Draw} (hr : f s t = (.ok (new, lpr), t')) :
    new.extra = [] ∧ (name.startsWith "ParamSpacePerturbation" = true → ∃ st, loadStats new = .ok st) := by
  unfold Problem.perturbs at hf
  rcases List.mem_append.1 hf with hf | hf
  · obtain ⟨g, _, e⟩ := List.mem_map.1 hf
    simp only [Prod.mk.injEq] at e
    obtain ⟨-, rfl⟩ := e
    obtain ⟨⟨st, h1⟩, h2⟩ := perturb_cache g.1 s _ _ _ hr
    refine ⟨h2, fun _ => ⟨st, ?_⟩⟩
    unfold loadStats
    rw [h1]
    simp [dget]
  · unfold Problem.noisePerturbs at hf
    split at hf
    · simp at hf
    · simp only [List.mem_singleton, Prod.mk.injEq] at hf
      obtain ⟨rfl, rfl⟩ := hf
      obtain ⟨-, -, -, h1, h2, -⟩ := noisePerturb_ok (hier_nodup hnd) hr
      refine ⟨h1, fun hn => ?_⟩
      rw [noiseName_starts] at hn
      cases hn

theorem attempt_whole (h : AnyProblem p B logLik) (hpn : PlainNames p) {T : ℝ} (hT : T ≠ 0)
    (R : ∀ i : Fin p.cfg.perturbs.length, Realization p.tf p.cfg.perturbs[i].2 (B i)) {c : Chain State Store E} (hc : Ready p B T c)
    (hpos : PossibleWhole (wholeOf p B c.cur.params)) {ω : ℝ × (∀ i : Fin p.cfg.perturbs.length, ℝ × (B i).Θ) × ℝ}
    (hω : Happens p.cfg (fun i => (R i).L) (fun i => (R i).proj) c.cur ω) :
    ∃ ev c', Chain.attempt p.cfg c (iterationDraws p.cfg (wholeDraws p B) c.cur ω) = (.ok (some ev), c', []) ∧ Ready p B T c' := by
  obtain ⟨h0, h1, i, j, new', lpr, k1, k2, k3, k4, k5⟩ := hω
  obtain ⟨new, g1, g2, -, g4, g5⟩ := whole_run h R hc.holds hpos k2 k3 k4 k5
  have hd : iterationDraws p.cfg (wholeDraws p B) c.cur ω =
      unitDraw ω.1 :: ((B i).enc c.cur (ω.2.1 i) ++ [unitDraw ω.2.2]) := by
    unfold iterationDraws
    rw [k1]
    simp only [i.is_lt, dif_pos]
    rfl
  have hch : ∀ t, choices p.cfg.perturbs.length p.cfg.weights (unitDraw ω.1 :: t) = (.ok i.val, t) := fun t =>
    choices_cons k1 t
  have hu : 0 < (unitDraw ω.2.2).u := by
    rw [unitDraw_eq ⟨h1.1.le, h1.2⟩]
    exact h1.1
  obtain ⟨⟨name, f⟩, hg⟩ : ∃ g, p.cfg.perturbs[i] = g := ⟨_, rfl⟩
  have hf : p.cfg.perturbs[i.val]? = some (name, f) := by
    rw [← hg]
    exact List.getElem?_eq_getElem _
  have g1' : ∀ rest, f c.cur ((B i).enc c.cur (ω.2.1 i) ++ rest) = (.ok (new, lpr), rest) := by
    intro rest
    have := g1 rest
    rw [hg] at this
    exact this
  obtain ⟨hex, hst⟩ := prop_cache h.targets (List.mem_of_getElem? hf) (g1' [])
  rw [hd, attempt_run, hch]
  simp only [hf, g1']
  by_cases hinf : lpr.isInf = true
  · rw [if_pos hinf]
    obtain ⟨ev, c', e1, e2⟩ := finish_whole h hpn hc (name := name) g2 hex g4 hst (lpr.add (.fin 0)) hu []
    rw [e1]
    exact ⟨_, c', rfl, e2⟩
  · rw [if_neg hinf]
    have hll := llr_whole h hT hc.holds g2 hpos (g5 (by simpa using hinf)) hc.cache g4
    have hnd := tf_nodup h.targets
    obtain rfl : c.temp = T := hc.temp
    have hstep := llr_step p.kind p.tf p.perturbs p.weights (some (p.spaces.map fun kv => (kv.1, kv.2.info.transD)))
      p.saveDpred c.cur new c.temp
    have hleft := llr_left hnd c.cur new c.temp hc.cache
    have hright := llr_right hnd c.cur new c.temp g4
    have hst' : name.startsWith "ParamSpacePerturbation" = true → ∃ st, loadStats (p.cfg.llr c.cur new c.temp).2.2 = .ok st :=
      fun hn => by
        obtain ⟨st, hst⟩ := hst hn
        exact ⟨st, llr_stats _ _ _ hst⟩
    change CacheStep p.tf c.cur (p.cfg.llr c.cur new c.temp).2.1 ∧ CacheStep p.tf new (p.cfg.llr c.cur new c.temp).2.2 at hstep
    match hm2 : p.cfg.llr c.cur new c.temp with
    | (r1, cur, new1) =>
      rw [hm2] at hll hstep hleft hright hst'
      simp only at hll hstep hleft hright hst' ⊢
      subst hll
      simp only
      have hc1 : Ready p B c.temp { c with cur := cur } :=
        ⟨by rw [show ({ c with cur := cur } : Chain State Store E).cur.params = c.cur.params from hstep.1.params]; exact hc.holds,
          hleft, hstep.1.extra.trans hc.extra, rfl, hc.proposed, hc.accepted⟩
      obtain ⟨ev, c', e1, e2⟩ := finish_whole h hpn hc1 (name := name) (new := new1)
        (by rw [hstep.2.params]; exact g2) (hstep.2.extra.trans hex) hright hst' (lpr.add (.fin _)) hu []
      rw [e1]
      exact ⟨_, c', rfl, e2⟩

theorem iteration_next {S σ E : Type} (cfg : ChainCfg S σ) {b s : ℤ} (hs : s ≠ 0) (c : Chain S σ E) :
    ∃ f, ∀ t, Chain.iteration cfg b s Act.skip Act.skip c t = Chain.next cfg { c with saveNow := f } t := by
  have hflag : ∃ f, ∀ t, Chain.setFlag b s c t = (.ok (), { c with saveNow := f }, t) := by
    unfold Chain.setFlag
    simp only
    split
    · exact ⟨_, fun _ => rfl⟩
    · exact ⟨_, fun _ => rfl⟩
  obtain ⟨f, hf⟩ := hflag
  refine ⟨f, fun t => ?_⟩
  unfold Chain.iteration
  rw [Act.bind_run, hf]
  simp only
  rw [Act.bind_run]
  unfold Act.skip
  simp only
  rw [Act.bind_run]
  match Chain.next cfg { c with saveNow := f } t with
  | (.ok ev, c', t') => rfl
  | (.error e, c', t') => rfl

/-! ### several iterations -/

/-- One iteration, if it is completed. -/
noncomputable def wholeStep (p : Problem) (B : ℕ → Block) (b s : ℤ) (c : Chain State Store E)
    (ω : ℝ × (∀ i : Fin p.cfg.perturbs.length, ℝ × (B i).Θ) × ℝ) : Option (Chain State Store E) :=
  match Chain.iteration p.cfg b s Act.skip Act.skip c (iterationDraws p.cfg (wholeDraws p B) c.cur ω) with
  | (.ok _, c', []) => some c'
  | _ => none

theorem iterations_steps (b s : ℤ) : ∀ n (c : Chain State Store E) (A : Set (Whole p B)),
    IterationsLaw p.cfg b s (wholeDraws p B) (wholeLaw p B) (fun st => wholeOf p B st.params) n c A =
      stepsLaw' (unit.prod ((wholeLaw p B).prod unit)) (wholeStep p B b s) (fun c => wholeOf p B c.cur.params) n c A
  | 0, c, A => rfl
  | n + 1, c, A => by
    unfold IterationsLaw stepsLaw'
    refine lintegral_congr fun ω => ?_
    unfold wholeStep
    match Chain.iteration p.cfg b s Act.skip Act.skip c (iterationDraws p.cfg (wholeDraws p B) c.cur ω) with
    | (.ok _, c', []) => exact iterations_steps b s n c' A
    | (.ok _, c', _ :: _) => rfl
    | (.error _, c', _) => rfl

theorem ready_flag {T : ℝ} {c : Chain State Store E} (h : Ready p B T c) {b s : ℤ} (hs : s ≠ 0) : ∃ c1 : Chain State Store E,
    Ready p B T c1 ∧ c1.cur = c.cur ∧ ∀ t, Chain.iteration p.cfg b s Act.skip Act.skip c t = Chain.next p.cfg c1 t := by
  obtain ⟨f, hf⟩ := iteration_next p.cfg (b := b) hs c
  exact ⟨{ c with saveNow := f }, ⟨h.holds, h.cache, h.extra, h.temp, h.proposed, h.accepted⟩, rfl, hf⟩

theorem next_whole (h : AnyProblem p B logLik) (hpn : PlainNames p) {T : ℝ} (hT : T ≠ 0)
    (R : ∀ i : Fin p.cfg.perturbs.length, Realization p.tf p.cfg.perturbs[i].2 (B i)) {c : Chain State Store E} (hc : Ready p B T c)
    (hpos : PossibleWhole (wholeOf p B c.cur.params)) {ω : ℝ × (∀ i : Fin p.cfg.perturbs.length, ℝ × (B i).Θ) × ℝ}
    (hω : Happens p.cfg (fun i => (R i).L) (fun i => (R i).proj) c.cur ω) :
    ∃ ev c', Chain.next p.cfg c (iterationDraws p.cfg (wholeDraws p B) c.cur ω) = (.ok ev, c', []) ∧ Ready p B T c' := by
  obtain ⟨ev, c', e1, e2⟩ := attempt_whole h hpn hT R hc hpos hω
  refine ⟨ev, c', ?_, e2⟩
  unfold Chain.next
  rw [attempts_succ, e1]

/-- A completed iteration, and the law of iterations. -/
theorem law_completed {c c' : Chain State Store E} {ω : ℝ × (∀ i : Fin p.cfg.perturbs.length, ℝ × (B i).Θ) × ℝ} {ev : Event State}
    (e : Chain.next p.cfg c (iterationDraws p.cfg (wholeDraws p B) c.cur ω) = (.ok ev, c', [])) (h0 : 0 ≤ ω.1 ∧ ω.1 < 1)
    (h1 : 0 ≤ ω.2.2 ∧ ω.2.2 < 1) {i : Fin p.cfg.perturbs.length}
    (k1 : choices p.cfg.perturbs.length p.cfg.weights [unitDraw ω.1] = (.ok i.val, [])) (A : Set (Whole p B)) :
    wholeOf p B c'.cur.params ∈ A ↔ ∃ h0 h1, ∃ i : Fin p.cfg.perturbs.length,
      choices p.cfg.perturbs.length p.cfg.weights [⟨0, 0, ω.1, h0⟩] = (.ok i.val, []) ∧
      wholeOf p B (Chain.next p.cfg c (⟨0, 0, ω.1, h0⟩ :: wholeDraws p B i c.cur ω.2.1 ++ [⟨0, 0, ω.2.2, h1⟩])).2.1.cur.params ∈ A := by
  have e3 : ∀ (i' : Fin p.cfg.perturbs.length) (h0' : 0 ≤ ω.1 ∧ ω.1 < 1) (h1' : 0 ≤ ω.2.2 ∧ ω.2.2 < 1),
      choices p.cfg.perturbs.length p.cfg.weights [⟨0, 0, ω.1, h0'⟩] = (.ok i'.val, []) →
      (⟨0, 0, ω.1, h0'⟩ :: wholeDraws p B i' c.cur ω.2.1 ++ [⟨0, 0, ω.2.2, h1'⟩] : List Draw) =
        iterationDraws p.cfg (wholeDraws p B) c.cur ω := by
    intro i' h0' h1' hc'
    unfold iterationDraws
    rw [unitDraw_eq h0', unitDraw_eq h1', hc']
    simp only [i'.is_lt, dif_pos]
  have key : ∀ (i' : Fin p.cfg.perturbs.length) (h0' : 0 ≤ ω.1 ∧ ω.1 < 1) (h1' : 0 ≤ ω.2.2 ∧ ω.2.2 < 1),
      choices p.cfg.perturbs.length p.cfg.weights [⟨0, 0, ω.1, h0'⟩] = (.ok i'.val, []) →
      (Chain.next p.cfg c (⟨0, 0, ω.1, h0'⟩ :: wholeDraws p B i' c.cur ω.2.1 ++ [⟨0, 0, ω.2.2, h1'⟩])).2.1 = c' := by
    intro i' h0' h1' hc'
    rw [e3 i' h0' h1' hc', e]
  constructor
  · intro m
    have k1' := k1
    rw [unitDraw_eq h0] at k1'
    exact ⟨h0, h1, i, k1', by rw [key i h0 h1 k1']; exact m⟩
  · rintro ⟨h0', h1', i', m1, m2⟩
    rw [key i' h0' h1' m1] at m2
    exact m2

/-- The models from which an iteration can be described. -/
def wholeFine (R : ∀ i : Fin p.cfg.perturbs.length, Realization p.tf p.cfg.perturbs[i].2 (B i)) : Set (Whole p B) :=
  {x | ∀ i, x i ∈ fine (R i).L.moves (R i).L.possible}

theorem step_whole {c c1 c' : Chain State Store E} {b s : ℤ} (hcur : c1.cur = c.cur)
    (hn : ∀ t, Chain.iteration p.cfg b s Act.skip Act.skip c t = Chain.next p.cfg c1 t)
    {ω : ℝ × (∀ i : Fin p.cfg.perturbs.length, ℝ × (B i).Θ) × ℝ} {ev : Event State}
    (e : Chain.next p.cfg c1 (iterationDraws p.cfg (wholeDraws p B) c1.cur ω) = (.ok ev, c', [])) :
    wholeStep p B b s c ω = some c' := by
  unfold wholeStep
  rw [hcur] at e
  rw [hn, e]

theorem whole_follows (h : AnyProblem p B logLik) (hpn : PlainNames p) {T : ℝ} (hT : T ≠ 0) {b s : ℤ} (hs : s ≠ 0)
    (R : ∀ i : Fin p.cfg.perturbs.length, Realization p.tf p.cfg.perturbs[i].2 (B i)) :
    Follows (unit.prod ((wholeLaw p B).prod unit)) (wholeStep (E := E) p B b s) (fun c => wholeOf p B c.cur.params) SameWhole
      (mixTrans (fun i => (R i).L.moves) (fun i => (R i).L.w) logLik T (chance p.cfg)) (Ready p B T) (wholeFine R) := by
  have H := whole_chained h hT R
  have hpos : ∀ {x : Whole p B}, x ∈ wholeFine R → PossibleWhole x := fun {x} hx i => by
    rw [← (R i).possible]
    exact (hx i).1
  have hap : ∀ c : Chain State Store E, Ready p B T c → wholeOf p B c.cur.params ∈ wholeFine R →
      ∀ᵐ ω ∂unit.prod ((wholeLaw p B).prod unit), Happens p.cfg (fun i => (R i).L) (fun i => (R i).proj) c.cur ω := by
    intro c hc hf
    have := blocks_happen H ⟨hc.holds, hc.cache⟩ hf
    rw [whole_draws R] at this
    exact this
  refine ⟨fun c hc hf A hA hAr => ?_, fun c hc hf => ?_⟩
  · obtain ⟨c1, hc1, hcur, hn⟩ := ready_flag hc (b := b) hs
    rw [← hcur] at hf
    have hl := blocks_law H c1 ⟨hc1.holds, hc1.cache⟩ hc1.temp hf hA (by rw [whole_same R]; exact hAr)
    change _ = mixTrans (fun i => (R i).L.moves) (fun i => (R i).L.w) logLik T (chance p.cfg) (wholeOf p B c.cur.params) A
    rw [← hcur, mixTrans_apply (fun i => (R i).ok.ok) h.meas _ hA]
    rw [whole_draws R] at hl
    refine Eq.trans (measure_congr ?_) hl
    filter_upwards [hap c1 hc1 hf] with ω hω
    refine propext ?_
    obtain ⟨ev, c', e1, -⟩ := next_whole h hpn hT R hc1 (hpos hf) hω
    obtain ⟨h0, h1, i, -, -, -, k1, -⟩ := hω
    have e2 : wholeStep p B b s c ω = some c' := step_whole hcur hn e1
    have e3 := law_completed e1 h0 ⟨h1.1.le, h1.2⟩ k1 A
    refine Iff.trans ?_ e3
    constructor
    · rintro ⟨c'', m1, m2⟩
      rw [e2] at m1
      injection m1 with m1
      rw [m1]
      exact m2
    · exact fun m => ⟨c', e2, m⟩
  · obtain ⟨c1, hc1, hcur, hn⟩ := ready_flag hc (b := b) hs
    rw [← hcur] at hf
    filter_upwards [hap c1 hc1 hf] with ω hω
    obtain ⟨ev, c', e1, e2⟩ := next_whole h hpn hT R hc1 (hpos hf) hω
    exact ⟨c', step_whole hcur hn e1, e2⟩

/-- The law of an iteration is a Markov kernel, and fine models are followed by iterations. -/
theorem whole_kernel (h : AnyProblem p B logLik) {T : ℝ} (hT : T ≠ 0)
    (R : ∀ i : Fin p.cfg.perturbs.length, Realization p.tf p.cfg.perturbs[i].2 (B i)) :
    Measurable (mixTrans (fun i => (R i).L.moves) (fun i => (R i).L.w) logLik T (chance p.cfg)) ∧
    (∀ x, IsProbabilityMeasure (mixTrans (fun i => (R i).L.moves) (fun i => (R i).L.w) logLik T (chance p.cfg) x)) ∧
    Alike (SameWhole : Whole p B → Whole p B → Prop) (mixTrans (fun i => (R i).L.moves) (fun i => (R i).L.w) logLik T (chance p.cfg)) ∧
    MeasurableSet (wholeFine R) ∧ Invariant SameWhole (wholeFine R) ∧ IsProbabilityMeasure (wholeLaw p B) := by
  have hok : ∀ i, (R i).L.Ok := fun i => (R i).ok
  have hfin : ∀ i, IsFiniteMeasure (R i).L.moves.prior := fun i => (hok i).finite
  have H := whole_chained h hT R
  have hsum := chance_sum H.len H.nonneg H.sum
  have halike := mixTrans_alike (p := fun i => (R i).L.moves) (w := fun i => (R i).L.w) (a := chance p.cfg) (T := T)
    (fun i => (hok i).ok) (r := fun i => (R i).L.same) (fun i => (hok i).refl) (fun i => (hok i).lumps) h.meas H.lumps
  have hGr : Invariant (EachSame fun i => (R i).L.same) (wholeFine R) := fun x y hxy => forall_congr' fun i =>
    fine_invariant (hok i).ok (hok i).refl (hok i).lumps (hok i).possible_meas (hok i).possible_same _ _ (hxy i)
  rw [whole_same R] at halike hGr
  refine ⟨mixTrans_meas (fun i => (R i).L.moves.prior) (fun i => (hok i).ok) (fun i => rfl) h.meas,
    mixTrans_prob (fun i => (hok i).ok) (fun i => (hok i).w_nonneg) (fun i => (hok i).w_sum) h.meas hsum, halike, ?_, hGr, ?_⟩
  · have : wholeFine R = ⋂ i, (fun x : Whole p B => x i) ⁻¹' fine (R i).L.moves (R i).L.possible := by
      ext x
      simp only [Set.mem_iInter]
      rfl
    rw [this]
    exact .iInter fun i => measurable_pi_apply i (fine_meas (hok i).ok (hok i).possible_meas)
  · rw [← whole_draws R]
    have : ∀ i, IsProbabilityMeasure (R i).L.moves.draws := fun i => (hok i).ok.prob
    infer_instance

/-- Any number of iterations. -/
theorem whole_iterations (h : WholeProblem p B logLik) (hpn : PlainNames p) {T : ℝ} (hT : T ≠ 0) {b s : ℤ} (hs : s ≠ 0)
    (state : Whole p B → Chain State Store E)
    (hstate : ∀ x, PossibleWhole x → Ready p B T (state x) ∧ SameWhole x (wholeOf p B (state x).cur.params))
    (n : ℕ) :
    (∀ A, MeasurableSet A → Invariant SameWhole A →
      ∫⁻ x, IterationsLaw p.cfg b s (wholeDraws p B) (wholeLaw p B) (fun st => wholeOf p B st.params) n (state x) A
          ∂posterior ((wholePrior p B).withDensity fun x => ENNReal.ofReal (wholeStaying p B x)) logLik T =
        posterior ((wholePrior p B).withDensity fun x => ENNReal.ofReal (wholeStaying p B x)) logLik T A) ∧
    ∀ᵐ x ∂posterior ((wholePrior p B).withDensity fun x => ENNReal.ofReal (wholeStaying p B x)) logLik T,
      IterationsLaw p.cfg b s (wholeDraws p B) (wholeLaw p B) (fun st => wholeOf p B st.params) n (state x) Set.univ = 1 := by
  choose R hR using whole_balanced h
  have h := any_of_whole h
  have hok : ∀ i, (R i).L.Ok := fun i => (R i).ok
  have hfin : ∀ i, IsFiniteMeasure (R i).L.moves.prior := fun i => (hok i).finite
  obtain ⟨hK, hprob, halike, hGm, hGr, hdr⟩ := whole_kernel h hT R
  have H := whole_chained h hT R
  have hsum := chance_sum H.len H.nonneg H.sum
  have hpres := mixTrans_preserves (fun i => (R i).L.moves.prior) (p := fun i => (R i).L.moves) (w := fun i => (R i).L.w)
    (a := chance p.cfg) (T := T) (fun i => (hok i).ok) (fun i => rfl) (fun i => (hok i).w_nonneg) (fun i => (hok i).w_sum) h.meas hsum
  have hab : ∀ {q : Whole p B → Prop}, (∀ᵐ x ∂Measure.pi fun i => (R i).L.moves.prior, q x) →
      ∀ᵐ x ∂posterior (Measure.pi fun i => (R i).L.moves.prior) logLik T, q x := fun hq =>
    (withDensity_absolutelyContinuous _ _).ae_le hq
  rw [← whole_prior h R hR]
  simp only [iterations_steps]
  have hae := hab (ae_all_iff.2 fun i => (Measure.quasiMeasurePreserving_eval (fun i => (R i).L.moves.prior) i).ae
    (fine_ae (hok i).ok (hok i).possible_meas (hok i).possible_ae))
  have hst := hab (Filter.Eventually.mono (whole_possible R) fun x hx => hstate x hx)
  exact ⟨fun A hA hAr => steps_preserve (whole_follows h hpn hT hs R) hK hprob halike hGm hGr hpres hae hst hA hAr n,
    steps_complete (whole_follows h hpn hT hs R) hK hprob halike hGm hGr (spares_of_bind hK hpres) hae hst n⟩

/-- Spaces without positions are explored by their moves in balance with the prior. -/
theorem explored_modelled {sp : Space} {b : Block} (hm : Explored sp b) (hd : ¬ sp.info.kind.isDisc = true) :
    Modelled sp b := by
  cases hm with
  | known hm => exact hm
  | lineBirths _ _ _ _ _ hp => exact absurd (by rw [hp.kind]; rfl) hd
  | lineNear _ _ _ _ _ _ hp => exact absurd (by rw [hp.kind]; rfl) hd
  | planeBirths _ _ _ _ _ hp => exact absurd (by rw [hp.kind]; rfl) hd
  | planeNear _ _ _ _ _ _ hp => exact absurd (by rw [hp.kind]; rfl) hd

/-- Each block is in balance with distributions that have the null sets of the prior. -/
theorem whole_settled (h : AnyProblem p B logLik) (i : Fin p.cfg.perturbs.length) :
    ∃ R : Realization p.tf p.cfg.perturbs[i].2 (B i), Settled (B i).prior (B i).staying R.L.moves R.L.w := by
  rcases whole_cases h i with ⟨sp, -, hm, e⟩ | ⟨-, -, hb, e⟩
  · rw [e]
    by_cases hd : sp.info.kind.isDisc = true
    · obtain ⟨R, hR⟩ := space_stirred p.tf hm hd
      exact ⟨R, .inr hR⟩
    · have hmod : Modelled sp (B i) := explored_modelled hm hd
      obtain ⟨R, hR⟩ := space_realized p.tf hmod
      exact ⟨R, .inl hR⟩
  · rw [e, hb]
    obtain ⟨R, hR, -⟩ := noise_realized p.tf (hier_nodup h.targets) h.bounds
    exact ⟨R, .inl hR⟩

/-- Any number of iterations of any inversion are completed. -/
theorem any_completed (h : AnyProblem p B logLik) (hpn : PlainNames p) {T : ℝ} (hT : T ≠ 0) {b s : ℤ} (hs : s ≠ 0)
    (state : Whole p B → Chain State Store E)
    (hstate : ∀ x, PossibleWhole x → Ready p B T (state x) ∧ SameWhole x (wholeOf p B (state x).cur.params)) (n : ℕ) :
    (∀ᵐ x ∂wholePrior p B,
      IterationsLaw p.cfg b s (wholeDraws p B) (wholeLaw p B) (fun st => wholeOf p B st.params) n (state x) Set.univ = 1) ∧
    ∀ N, MeasurableSet N → Invariant SameWhole N → wholePrior p B N = 0 → ∀ᵐ x ∂wholePrior p B,
      IterationsLaw p.cfg b s (wholeDraws p B) (wholeLaw p B) (fun st => wholeOf p B st.params) n (state x) N = 0 := by
  choose R hR using whole_settled h
  have hreg := whole_regular h
  have hfi : ∀ i : Fin p.cfg.perturbs.length, IsFiniteMeasure (B i).prior := fun i => (hreg i).finite
  have hok : ∀ i, (R i).L.Ok := fun i => (R i).ok
  obtain ⟨hK, hprob, halike, hGm, hGr, hdr⟩ := whole_kernel h hT R
  have hsp : Spares (wholePrior p B) (mixTrans (fun i => (R i).L.moves) (fun i => (R i).L.w) logLik T (chance p.cfg)) :=
    settled_spares (fun i : Fin p.cfg.perturbs.length => (B i).prior) (fun i => (hok i).ok) (fun i => (hok i).w_nonneg)
      (fun i => (hok i).w_sum) (fun i => (hreg i).meas) (fun i => (hreg i).pos) (fun i => (hreg i).tilt) hR h.meas T _
  simp only [iterations_steps]
  have hae : ∀ᵐ x ∂wholePrior p B, x ∈ wholeFine R :=
    ae_all_iff.2 fun i => (Measure.quasiMeasurePreserving_eval (fun i : Fin p.cfg.perturbs.length => (B i).prior) i).ae (R i).fine
  have hst := (whole_possible_prior h).mono fun x hx => hstate x hx
  exact ⟨steps_complete (whole_follows h hpn hT hs R) hK hprob halike hGm hGr hsp hae hst n,
    fun N hN hNr h0 => steps_spare (whole_follows h hpn hT hs R) hK hprob halike hGm hGr hsp hae hst hN hNr h0 n⟩

end BB.Lemmas
