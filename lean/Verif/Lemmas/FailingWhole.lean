import Verif.Spec.Failing
import Verif.Lemmas.WholeRuns
import Verif.Lemmas.BlockProposal
import Verif.Lemmas.RetryLink

/-!
# The attempts of whole inversions whose forward functions fail
-/

namespace BB.Lemmas

open BB Spec Props MeasureTheory ProbabilityTheory

variable {p : Problem} {B : ℕ → Block} {F : Set (Whole p B)} {logLik : Whole p B → ℝ} {E : Type}

/-! ### the likelihood -/

/-- The same inversion with the log likelihood `ℓ`, which is defined everywhere. -/
noncomputable def virt (p : Problem) (B : ℕ → Block) (ℓ : Whole p B → ℝ) : Problem :=
  { p with kind := .loglike fun s => .ok (.fin (ℓ (wholeOf p B s.params))) }

theorem virt_inversion {Known : Space → Block → Prop} (h : FailingInversion p B Known F logLik) {ℓ : Whole p B → ℝ}
    (hm : Measurable ℓ) (hl : ∀ x y, SameWhole x y → ℓ x = ℓ y) : InversionOf (virt p B ℓ) B Known ℓ where
  exist := h.exist
  spaces := h.spaces
  noise := h.noise
  distinct := h.distinct
  targets := h.targets
  bounds := h.bounds
  likelihood := by
    unfold HasWholeLogLik
    intro s _ _
    rfl
  meas := hm
  lumps := hl

theorem llr_virt (ℓ : Whole p B → ℝ) {T : ℝ} (hT : T ≠ 0) (a b : State) :
    ((virt p B ℓ).cfg.llr a b T).1 = .ok (.fin ((ℓ (wholeOf p B b.params) - ℓ (wholeOf p B a.params)) / T)) := by
  change pyDiv (PyF.sub (.fin (ℓ (wholeOf p B b.params))) (.fin (ℓ (wholeOf p B a.params)))) T = _
  rw [pyDiv_ok hT]
  change Except.ok (PyF.fin ((ℓ _ + -ℓ _) / T)) = _
  rw [← sub_eq_add_neg]

theorem fresh_fails {q : Params} : ∀ {before : List (Target × Fwd)} {y : Target × Fwd} {after : List (Target × Fwd)} (m l : ℝ),
    (∀ z ∈ before, Evaluable q z) → y.2 q = none →
    (before ++ y :: after).foldlM (freshStep q) (m, l) = .error .forward := by
  intro before y after m l hb hy
  obtain ⟨m', l', e, -⟩ := foldlM_fresh q before hb m l
  rw [List.foldlM_append, e]
  change ((y :: after).foldlM (freshStep q) (m', l')) = _
  rw [List.foldlM_cons]
  unfold freshStep
  rw [hy]
  rfl

theorem llr_outside {Known : Space → Block → Prop} (h : FailingInversion p B Known F logLik) {T : ℝ} (hT : T ≠ 0) {a b : State}
    (ha : HoldsAll p B a.params) (hb : HoldsAll p B b.params) (hpa : PossibleWhole (wholeOf p B a.params))
    (hpb : PossibleWhole (wholeOf p B b.params)) (hca : Coherent p.tf a) (hcb : Coherent p.tf b)
    (hFa : wholeOf p B a.params ∉ F) (hFb : wholeOf p B b.params ∉ F) :
    (p.cfg.llr a b T).1 = .ok (.fin ((logLik (wholeOf p B b.params) - logLik (wholeOf p B a.params)) / T)) := by
  have hl := h.likelihood
  unfold FailsExactlyOn at hl
  have hnd := tf_nodup h.targets
  change (logLikelihoodRatio p.kind p.tf a b T).1 = _
  match hk : p.kind with
  | .targets =>
    rw [hk] at hl
    obtain ⟨e1, l1⟩ := (hl _ ha hpa).1 hFa
    obtain ⟨e2, l2⟩ := (hl _ hb hpb).1 hFb
    rw [Props.C27_gaussian_ratio p.tf a b T hT hnd hca hcb e1 e2, ← l1, ← l2]
  | .loglike f =>
    rw [hk] at hl
    simp only [logLikelihoodRatio, ratioFromLoglike, (hl _ ha hpa).1 hFa, (hl _ hb hpb).1 hFb]
    change pyDiv (PyF.sub _ _) T = _
    rw [pyDiv_ok hT]
    change Except.ok (PyF.fin ((logLik _ + -logLik _) / T)) = _
    rw [← sub_eq_add_neg]
  | .ratio f =>
    rw [hk] at hl
    simp only [logLikelihoodRatio, (hl _ _ ha hpa hFa hb hpb).1 hFb]
    change pyDiv _ T = _
    rw [pyDiv_ok hT]
    simp [PyF.divFin]

theorem llr_fails {Known : Space → Block → Prop} (h : FailingInversion p B Known F logLik) (T : ℝ) {a b : State}
    (ha : HoldsAll p B a.params) (hb : HoldsAll p B b.params) (hpa : PossibleWhole (wholeOf p B a.params))
    (hpb : PossibleWhole (wholeOf p B b.params)) (hca : Coherent p.tf a) (hcb : Coherent p.tf b)
    (hFa : wholeOf p B a.params ∉ F) (hFb : wholeOf p B b.params ∈ F) :
    (p.cfg.llr a b T).1 = .error .forward ∨ (p.cfg.llr a b T).1 = .error .userFunction := by
  have hl := h.likelihood
  unfold FailsExactlyOn at hl
  have hnd := tf_nodup h.targets
  change (logLikelihoodRatio p.kind p.tf a b T).1 = _ ∨ (logLikelihoodRatio p.kind p.tf a b T).1 = _
  match hk : p.kind with
  | .targets =>
    rw [hk] at hl
    left
    obtain ⟨e1, -⟩ := (hl _ ha hpa).1 hFa
    obtain ⟨before, y, after, htf, hbe, hy⟩ := (hl _ hb hpb).2 hFb
    obtain ⟨mo, lo, ho1, -⟩ := foldlM_fresh a.params p.tf e1 0 0
    have ho3 := (getMisfitAndDet_coh p.tf a hnd hca).1
    have hn3 := (getMisfitAndDet_coh p.tf b hnd hcb).1
    rw [freshEval_eq, ho1] at ho3
    rw [freshEval_eq] at hn3
    have hn4 : p.tf.foldlM (freshStep b.params) (0, 0) = .error .forward := by
      rw [htf]
      exact fresh_fails 0 0 hbe hy
    rw [hn4] at hn3
    unfold logLikelihoodRatio ratioFromTargets
    match h1 : getMisfitAndDet p.tf a with
    | (r1, o', c1) =>
      rw [h1] at ho3
      simp only at ho3
      subst ho3
      match h2 : getMisfitAndDet p.tf b with
      | (r2, n', c2) =>
        rw [h2] at hn3
        simp only at hn3
        subst hn3
        rfl
  | .loglike f =>
    rw [hk] at hl
    right
    simp only [logLikelihoodRatio, ratioFromLoglike, (hl _ ha hpa).1 hFa, (hl _ hb hpb).2 hFb]
    rfl
  | .ratio f =>
    rw [hk] at hl
    right
    simp only [logLikelihoodRatio, (hl _ _ ha hpa hFa hb hpb).2 hFb]
    rfl

/-! ### an attempt -/

/-- Saving raises nothing. -/
def Saves (p : Problem) (B : ℕ → Block) : Prop :=
  ∀ s : State, HoldsAll p B s.params → s.extra = [] → ∀ d, ∃ d', p.cfg.save s d = (.ok (), d')

/-- What is proposed in an attempt. -/
structure Proposes (p : Problem) (B : ℕ → Block) (c : Chain State Store E)
    (ω : ℝ × (∀ i : Fin p.cfg.perturbs.length, ℝ × (B i).Θ) × ℝ) (i : ℕ) (name : String) (f : State → M (State × PyF)) (e : List Draw)
    (new : State) (lpr : PyF) : Prop where
  draws : iterationDraws p.cfg (wholeDraws p B) c.cur ω = unitDraw ω.1 :: (e ++ [unitDraw ω.2.2])
  choose : ∀ t, choices p.cfg.perturbs.length p.cfg.weights (unitDraw ω.1 :: t) = (.ok i, t)
  pick : p.cfg.perturbs[i]? = some (name, f)
  run : ∀ rest, f c.cur (e ++ rest) = (.ok (new, lpr), rest)
  holds : HoldsAll p B new.params
  extra : new.extra = []
  cache : Coherent p.tf new
  stats : name.startsWith "ParamSpacePerturbation" = true → ∃ st, loadStats new = .ok st
  possible : lpr.isInf = false → PossibleWhole (wholeOf p B new.params)
  pos : 0 < ω.2.2 ∧ ω.2.2 < 1

theorem proposes (h : AnyProblem p B logLik) (R : ∀ i : Fin p.cfg.perturbs.length, Realization p.tf p.cfg.perturbs[i].2 (B i))
    {T : ℝ} {c : Chain State Store E} (hc : Ready p B T c) (hpos : PossibleWhole (wholeOf p B c.cur.params))
    {ω : ℝ × (∀ i : Fin p.cfg.perturbs.length, ℝ × (B i).Θ) × ℝ}
    (hω : Proposed p.cfg (fun i => (R i).L) (fun i => (R i).proj) c.cur ω) :
    ∃ i name f e new lpr, Proposes p B c ω i name f e new lpr ∧ (lpr = .ninf ∨ ∃ v, lpr = .fin v) := by
  obtain ⟨h0, h1, i, j, new', lpr, k1, k2, k3, k4, k5, k6⟩ := hω
  obtain ⟨new, g1, g2, -, g4, g5⟩ := whole_run h R hc.holds hpos k2 k3 k4 k5
  have hd : iterationDraws p.cfg (wholeDraws p B) c.cur ω =
      unitDraw ω.1 :: ((B i).enc c.cur (ω.2.1 i) ++ [unitDraw ω.2.2]) := by
    unfold iterationDraws
    rw [k1]
    simp only [i.is_lt, dif_pos]
    rfl
  obtain ⟨⟨name, f⟩, hg⟩ : ∃ g, p.cfg.perturbs[i] = g := ⟨_, rfl⟩
  have hf : p.cfg.perturbs[i.val]? = some (name, f) := by
    rw [← hg]
    exact List.getElem?_eq_getElem _
  have g1' : ∀ rest, f c.cur ((B i).enc c.cur (ω.2.1 i) ++ rest) = (.ok (new, lpr), rest) := by
    intro rest
    have := g1 rest
    rw [hg] at this
    exact this
  obtain ⟨hex, hst⟩ := prop_cache h.targets (List.mem_of_getElem? hf) (g1' [])
  exact ⟨i.val, name, f, _, new, lpr, ⟨hd, fun t => choices_cons k1 t, hf, g1', g2, hex, g4, hst, g5, h1⟩, k6⟩

open Classical in
theorem finish_value (hsv : Saves p B) {T : ℝ} {c : Chain State Store E} (hc : Ready p B T c)
    {name : String} {new : State} (hp : HoldsAll p B new.params) (he : new.extra = []) (hco : Coherent p.tf new)
    (hs : name.startsWith "ParamSpacePerturbation" = true → ∃ st, loadStats new = .ok st) (lp : PyF) {d : Draw} (hu : 0 < d.u)
    (t : List Draw) : ∃ ev c', Chain.finish p.cfg name new lp c (d :: t) = (.ok ev, c', t) ∧ Ready p B T c' ∧
      c'.cur = if lp.gtFin (Real.log d.u) then new else c.cur := by
  rw [finish_run, if_neg (not_le.2 hu)]
  obtain ⟨p', a', e, h1, h2⟩ := newStats_runs (p := p) (name := name) (decide (lp.gtFin (Real.log d.u))) hs hc.proposed hc.accepted
  rw [e]
  have hcur : (afterStats c new (decide (lp.gtFin (Real.log d.u))) p' a').cur = if lp.gtFin (Real.log d.u) then new else c.cur := by
    by_cases ha : lp.gtFin (Real.log d.u) <;> simp [afterStats, ha]
  have hc' : Ready p B T (afterStats c new (decide (lp.gtFin (Real.log d.u))) p' a') := by
    by_cases ha : lp.gtFin (Real.log d.u)
    · refine ⟨?_, ?_, ?_, hc.temp, h1, h2⟩ <;> simp only [afterStats, ha, decide_true, if_true]
      exacts [hp, hco, he]
    · refine ⟨?_, ?_, ?_, hc.temp, h1, h2⟩ <;> simp only [afterStats, ha, decide_false, Bool.false_eq_true, if_false]
      exacts [hc.holds, hc.cache, hc.extra]
  have hsave : ∃ c'', Chain.saveIfDue p.cfg (afterStats c new (decide (lp.gtFin (Real.log d.u))) p' a') t = (.ok (), c'', t) ∧
      Ready p B T c'' ∧ c''.cur = if lp.gtFin (Real.log d.u) then new else c.cur := by
    generalize afterStats c new (decide (lp.gtFin (Real.log d.u))) p' a' = c1 at hc' hcur
    unfold Chain.saveIfDue
    split
    · obtain ⟨d, hd⟩ := hsv _ hc'.holds hc'.extra c1.saved
      rw [hd]
      exact ⟨_, rfl, ⟨hc'.holds, hc'.cache, hc'.extra, hc'.temp, hc'.proposed, hc'.accepted⟩, hcur⟩
    · exact ⟨c1, rfl, hc', hcur⟩
  obtain ⟨c'', e2, h3, h4⟩ := hsave
  simp only [e2]
  exact ⟨_, c'', rfl, h3, h4⟩

/-- The log ratio that the acceptance is decided on. -/
noncomputable def ratioUsed (lpr : PyF) (a : ℝ) : PyF := lpr.add (.fin (if lpr.isInf then 0 else a))

open Classical in
/-- An attempt that is completed. -/
theorem attempt_done (hnd : (p.targets.map (·.name)).Nodup) (hsv : Saves p B) {T : ℝ} {c : Chain State Store E} (hc : Ready p B T c)
    {ω : ℝ × (∀ i : Fin p.cfg.perturbs.length, ℝ × (B i).Θ) × ℝ} {i name f e new lpr} (hP : Proposes p B c ω i name f e new lpr)
    {a : ℝ} (hl : lpr.isInf = false → (p.cfg.llr c.cur new T).1 = .ok (.fin a)) :
    ∃ ev c', Chain.attempt p.cfg c (iterationDraws p.cfg (wholeDraws p B) c.cur ω) = (.ok (some ev), c', []) ∧ Ready p B T c' ∧
      wholeOf p B c'.cur.params =
        if (ratioUsed lpr a).gtFin (Real.log ω.2.2) then wholeOf p B new.params else wholeOf p B c.cur.params := by
  have hue : (unitDraw ω.2.2).u = ω.2.2 := by rw [unitDraw_eq ⟨hP.pos.1.le, hP.pos.2⟩]
  have hu : 0 < (unitDraw ω.2.2).u := by rw [hue]; exact hP.pos.1
  rw [hP.draws, attempt_run, hP.choose]
  simp only [hP.pick, hP.run]
  by_cases hinf : lpr.isInf = true
  · rw [if_pos hinf]
    obtain ⟨ev, c', e1, e2, e3⟩ := finish_value hsv hc (name := name) hP.holds hP.extra hP.cache hP.stats (lpr.add (.fin 0)) hu []
    rw [e1]
    refine ⟨_, c', rfl, e2, ?_⟩
    rw [e3, hue]
    unfold ratioUsed
    rw [if_pos hinf]
    split <;> rfl
  · rw [if_neg hinf]
    have hll := hl (by simpa using hinf)
    have hnd := tf_nodup hnd
    obtain rfl : c.temp = T := hc.temp
    have hstep := llr_step p.kind p.tf p.perturbs p.weights (some (p.spaces.map fun kv => (kv.1, kv.2.info.transD)))
      p.saveDpred c.cur new c.temp
    have hleft := llr_left hnd c.cur new c.temp hc.cache
    have hright := llr_right hnd c.cur new c.temp hP.cache
    have hst' : name.startsWith "ParamSpacePerturbation" = true → ∃ st, loadStats (p.cfg.llr c.cur new c.temp).2.2 = .ok st :=
      fun hn => by
        obtain ⟨st, hst⟩ := hP.stats hn
        exact ⟨st, llr_stats _ _ _ hst⟩
    change CacheStep p.tf c.cur (p.cfg.llr c.cur new c.temp).2.1 ∧ CacheStep p.tf new (p.cfg.llr c.cur new c.temp).2.2 at hstep
    match hm2 : p.cfg.llr c.cur new c.temp with
    | (r1, cur, new1) =>
      rw [hm2] at hll hstep hleft hright hst'
      simp only at hll hstep hleft hright hst' ⊢
      subst hll
      simp only
      have hc1 : Ready p B c.temp { c with cur := cur } :=
        ⟨by rw [show ({ c with cur := cur } : Chain State Store E).cur.params = c.cur.params from hstep.1.params]; exact hc.holds,
          hleft, hstep.1.extra.trans hc.extra, rfl, hc.proposed, hc.accepted⟩
      obtain ⟨ev, c', e1, e2, e3⟩ := finish_value hsv hc1 (name := name) (new := new1)
        (by rw [hstep.2.params]; exact hP.holds) (hstep.2.extra.trans hP.extra) hright hst' (lpr.add (.fin _)) hu []
      rw [e1]
      refine ⟨_, c', rfl, e2, ?_⟩
      rw [e3, hue]
      unfold ratioUsed
      rw [if_neg hinf]
      split
      · exact congrArg _ hstep.2.params
      · exact congrArg _ hstep.1.params

/-- An attempt that fails. -/
theorem attempt_failed (hnd : (p.targets.map (·.name)).Nodup) {T : ℝ} {c : Chain State Store E} (hc : Ready p B T c)
    {ω : ℝ × (∀ i : Fin p.cfg.perturbs.length, ℝ × (B i).Θ) × ℝ} {i name f e new lpr} (hP : Proposes p B c ω i name f e new lpr)
    (hinf : lpr.isInf = false)
    (hl : (p.cfg.llr c.cur new T).1 = .error .forward ∨ (p.cfg.llr c.cur new T).1 = .error .userFunction) :
    ∃ c', (∀ rest, Chain.attempt p.cfg c (unitDraw ω.1 :: (e ++ rest)) = (.ok none, c', rest)) ∧ Ready p B T c' ∧
      wholeOf p B c'.cur.params = wholeOf p B c.cur.params := by
  have hnd := tf_nodup hnd
  obtain rfl : c.temp = T := hc.temp
  have hstep := llr_step p.kind p.tf p.perturbs p.weights (some (p.spaces.map fun kv => (kv.1, kv.2.info.transD)))
    p.saveDpred c.cur new c.temp
  have hleft := llr_left hnd c.cur new c.temp hc.cache
  change CacheStep p.tf c.cur (p.cfg.llr c.cur new c.temp).2.1 ∧ CacheStep p.tf new (p.cfg.llr c.cur new c.temp).2.2 at hstep
  match hm2 : p.cfg.llr c.cur new c.temp with
  | (r1, cur, new1) =>
    rw [hm2] at hl hstep hleft
    simp only at hl hstep hleft
    have hc1 : ∀ nm, Ready p B c.temp (Chain.countException nm { c with cur := cur }) := fun nm =>
      ⟨by rw [show (Chain.countException nm { c with cur := cur } : Chain State Store E).cur.params = c.cur.params from hstep.1.params]
          exact hc.holds,
        hleft, hstep.1.extra.trans hc.extra, rfl, hc.proposed, hc.accepted⟩
    rcases hl with rfl | rfl
    · refine ⟨Chain.countException "ForwardException" { c with cur := cur }, fun rest => ?_, hc1 _, congrArg _ hstep.1.params⟩
      rw [attempt_run, hP.choose]
      simp only [hP.pick, hP.run, hinf, hm2]
      rfl
    · refine ⟨Chain.countException "UserFunctionException" { c with cur := cur }, fun rest => ?_, hc1 _,
        congrArg _ hstep.1.params⟩
      rw [attempt_run, hP.choose]
      simp only [hP.pick, hP.run, hinf, hm2]
      rfl

/-! ### attempts and transitions that never fail -/

theorem ready_virt (ℓ : Whole p B → ℝ) {T : ℝ} {c : Chain State Store E} (hc : Ready p B T c) : Ready (virt p B ℓ) B T c :=
  ⟨hc.holds, hc.cache, hc.extra, hc.temp, hc.proposed, hc.accepted⟩

theorem saves_virt {ℓ : Whole p B → ℝ} (h : AnyProblem (virt p B ℓ) B ℓ) (hpn : PlainNames p) : Saves p B :=
  fun _ hs he d => save_whole h hpn hs he d

open Classical in
theorem virt_value (ℓ : Whole p B → ℝ) (hnd : (p.targets.map (·.name)).Nodup) (hsv : Saves p B) {T : ℝ} (hT : T ≠ 0)
    {c : Chain State Store E} (hc : Ready p B T c) {ω : ℝ × (∀ i : Fin p.cfg.perturbs.length, ℝ × (B i).Θ) × ℝ} {i name f e new lpr}
    (hP : Proposes p B c ω i name f e new lpr) :
    ∃ c', wholeStep (virt p B ℓ) B 0 1 c ω = some c' ∧ wholeOf p B c'.cur.params =
      if (ratioUsed lpr ((ℓ (wholeOf p B new.params) - ℓ (wholeOf p B c.cur.params)) / T)).gtFin (Real.log ω.2.2) then
        wholeOf p B new.params else wholeOf p B c.cur.params := by
  obtain ⟨c1, hc1, hcur, hn⟩ := ready_flag (ready_virt ℓ hc) (b := 0) (s := 1) one_ne_zero
  have hP1 : Proposes (virt p B ℓ) B c1 ω i name f e new lpr :=
    ⟨by rw [hcur]; exact hP.draws, hP.choose, hP.pick, by rw [hcur]; exact hP.run, hP.holds, hP.extra, hP.cache, hP.stats,
      hP.possible, hP.pos⟩
  obtain ⟨ev, c', e1, -, e3⟩ := attempt_done (p := virt p B ℓ) hnd hsv hc1 hP1 fun _ => llr_virt ℓ hT c1.cur new
  refine ⟨c', step_whole hcur hn (ev := ev) ?_, ?_⟩
  · unfold Chain.next
    rw [attempts_succ, e1]
  · rw [hcur] at e3
    exact e3

open Classical in
/-- The log likelihood with the value `M` where it is not defined. -/
noncomputable def extended (F : Set (Whole p B)) (logLik : Whole p B → ℝ) (M : ℕ) (x : Whole p B) : ℝ :=
  if x ∈ F then (M : ℝ) else logLik x

theorem extended_meas {Known : Space → Block → Prop} (h : FailingInversion p B Known F logLik) (M : ℕ) :
    Measurable (extended F logLik M) := by
  classical
  exact Measurable.ite h.fails_meas measurable_const h.meas

theorem extended_lumps {Known : Space → Block → Prop} (h : FailingInversion p B Known F logLik) (M : ℕ) (x y : Whole p B)
    (hxy : SameWhole x y) : extended F logLik M x = extended F logLik M y := by
  unfold extended
  have := h.fails_lumps x y hxy
  by_cases hx : x ∈ F
  · rw [if_pos hx, if_pos (this.1 hx)]
  · rw [if_neg hx, if_neg fun hy => hx (this.2 hy), h.lumps x y hxy]

/-- Almost always, something is proposed. -/
theorem whole_proposals (h : FailingInversion p B Explored F logLik) {T : ℝ} (hT : T ≠ 0)
    (R : ∀ i : Fin p.cfg.perturbs.length, Realization p.tf p.cfg.perturbs[i].2 (B i)) {c : Chain State Store E} (hc : Ready p B T c)
    (hf : wholeOf p B c.cur.params ∈ wholeFine R) :
    ∀ᵐ ω ∂unit.prod ((wholeLaw p B).prod unit), ∃ i name f e new lpr, Proposes p B c ω i name f e new lpr ∧
      (lpr = .ninf ∨ ∃ v, lpr = .fin v) := by
  have hv : ∀ M, AnyProblem (virt p B (extended F logLik M)) B (extended F logLik M) := fun M =>
    virt_inversion h (extended_meas h M) (extended_lumps h M)
  have hpos : PossibleWhole (wholeOf p B c.cur.params) := fun i => by
    rw [← (R i).possible]
    exact (hf i).1
  have hprop : ∀ᵐ ω ∂unit.prod ((wholeLaw p B).prod unit), Proposed p.cfg (fun i => (R i).L) (fun i => (R i).proj) c.cur ω := by
    have := blocks_propose (whole_chained (p := virt p B (extended F logLik 0)) (hv 0) hT R) (s := c.cur) ⟨hc.holds, hc.cache⟩ hf
    rw [whole_draws (p := virt p B (extended F logLik 0)) R] at this
    exact this
  filter_upwards [hprop] with ω hω
  obtain ⟨i, name, f, e, new, lpr, g1, g2⟩ := proposes (p := virt p B (extended F logLik 0)) (hv 0) R (ready_virt _ hc) hpos hω
  exact ⟨i, name, f, e, new, lpr, ⟨g1.draws, g1.choose, g1.pick, g1.run, g1.holds, g1.extra, g1.cache, g1.stats, g1.possible,
    g1.pos⟩, g2⟩

/-- An attempt that fails does not look at the draws it does not use. -/
theorem attempt_none {c c' : Chain State Store E} {ω : ℝ × (∀ i : Fin p.cfg.perturbs.length, ℝ × (B i).Θ) × ℝ} {i name f e new lpr}
    (hP : Proposes p B c ω i name f e new lpr) {t : List Draw}
    (h : Chain.attempt p.cfg c (iterationDraws p.cfg (wholeDraws p B) c.cur ω) = (.ok none, c', t)) (rest : List Draw) :
    Chain.attempt p.cfg c ((iterationDraws p.cfg (wholeDraws p B) c.cur ω).dropLast ++ rest) = (.ok none, c', rest) := by
  have hd : (iterationDraws p.cfg (wholeDraws p B) c.cur ω).dropLast = unitDraw ω.1 :: e := by
    rw [hP.draws, ← List.cons_append, List.dropLast_concat]
  rw [hd]
  rw [hP.draws] at h
  rw [attempt_run, hP.choose] at h
  rw [List.cons_append, attempt_run, hP.choose]
  simp only [hP.pick, hP.run] at h ⊢
  by_cases hinf : lpr.isInf = true
  · rw [if_pos hinf] at h
    split at h <;> cases h
  · rw [if_neg hinf] at h ⊢
    match hm : p.cfg.llr c.cur new c.temp with
    | (.error .userFunction, cur, n) =>
      rw [hm] at h
      simp only [Prod.mk.injEq, true_and] at h ⊢
      exact ⟨h.1, trivial⟩
    | (.error .forward, cur, n) =>
      rw [hm] at h
      simp only [Prod.mk.injEq, true_and] at h ⊢
      exact ⟨h.1, trivial⟩
    | (.error e, cur, n) =>
      rw [hm] at h
      cases e <;> simp only [Prod.mk.injEq, true_and, reduceCtorEq, false_and] at h ⊢ <;> exact ⟨h.1, trivial⟩
    | (.ok r, cur, n) =>
      rw [hm] at h
      simp only at h
      split at h <;> cases h

theorem whole_retries (h : FailingInversion p B Explored F logLik) (hpn : PlainNames p) {T : ℝ} (hT : 0 < T)
    (R : ∀ i : Fin p.cfg.perturbs.length, Realization p.tf p.cfg.perturbs[i].2 (B i)) :
    Retries (unit.prod ((wholeLaw p B).prod unit)) (tried (E := E) p.cfg (wholeDraws p B)) (fun c => wholeOf p B c.cur.params) SameWhole
      (fun M => mixTrans (fun i => (R i).L.moves) (fun i => (R i).L.w) (extended F logLik M) T (chance p.cfg))
      (fun c => Ready p B T c ∧ wholeOf p B c.cur.params ∈ wholeFine R ∧ wholeOf p B c.cur.params ∉ F) F := by
  classical
  have hv : ∀ M, AnyProblem (virt p B (extended F logLik M)) B (extended F logLik M) := fun M =>
    virt_inversion h (extended_meas h M) (extended_lumps h M)
  have hsv : Saves p B := saves_virt (hv 0) hpn
  refine ⟨fun c ⟨hc, hf, hF⟩ => ?_, fun c hc => hc.2.2⟩
  have hpos : PossibleWhole (wholeOf p B c.cur.params) := fun i => by
    rw [← (R i).possible]
    exact (hf i).1
  set V : ℕ → ℝ × (∀ i : Fin p.cfg.perturbs.length, ℝ × (B i).Θ) × ℝ → Whole p B := fun M ω =>
    match wholeStep (virt p B (extended F logLik M)) B 0 1 c ω with
    | some c' => wholeOf p B c'.cur.params
    | none => wholeOf p B c.cur.params with hVdef
  have hVeq : ∀ M ω c', wholeStep (virt p B (extended F logLik M)) B 0 1 c ω = some c' → V M ω = wholeOf p B c'.cur.params := by
    intro M ω c' e
    rw [hVdef]
    simp only [e]
  have hP := whole_proposals h hT.ne' R hc hf
  refine ⟨V, fun M A hA hAr => ?_, ?_⟩
  · have hlaw := (whole_follows (E := E) (p := virt p B (extended F logLik M)) (hv M) hpn hT.ne' (b := 0) (s := 1) one_ne_zero R).law c
      (ready_virt _ hc) hf A hA hAr
    refine Eq.trans (measure_congr ?_) hlaw
    filter_upwards [hP] with ω hω
    obtain ⟨i, name, f, e, new, lpr, g1, -⟩ := hω
    obtain ⟨c', e1, -⟩ := virt_value (extended F logLik M) h.targets hsv hT.ne' hc g1
    apply propext
    change V M ω ∈ A ↔ ∃ c', wholeStep (virt p B (extended F logLik M)) B 0 1 c ω = some c' ∧ wholeOf p B c'.cur.params ∈ A
    rw [hVeq M ω c' e1]
    constructor
    · exact fun hx => ⟨c', e1, hx⟩
    · rintro ⟨c2, e2, hx⟩
      rw [e1] at e2
      injection e2 with e2
      rwa [e2]
  · filter_upwards [hP] with ω hω
    obtain ⟨i, name, f, e, new, lpr, g1, g2⟩ := hω
    have hval : ∀ M, V M ω = if (ratioUsed lpr ((extended F logLik M (wholeOf p B new.params) -
        extended F logLik M (wholeOf p B c.cur.params)) / T)).gtFin (Real.log ω.2.2) then wholeOf p B new.params
        else wholeOf p B c.cur.params := fun M => by
      obtain ⟨c', e1, e2⟩ := virt_value (extended F logLik M) h.targets hsv hT.ne' hc g1
      rw [hVeq M ω c' e1, e2]
    have hx : ∀ M, extended F logLik M (wholeOf p B c.cur.params) = logLik (wholeOf p B c.cur.params) := fun M => if_neg hF
    rcases g2 with rfl | ⟨v, rfl⟩
    · -- the proposal is not possible
      right
      obtain ⟨ev, c', e1, -, e3⟩ := attempt_done h.targets hsv hc g1 (a := 0) fun hi => by cases hi
      refine ⟨c', ?_, ?_, fun M => ?_⟩
      · unfold tried
        rw [e1]
      · rw [e3, if_neg (by exact id)]
        exact hF
      · rw [hval, e3, if_neg (by exact id), if_neg (by exact id)]
    · have hposn := g1.possible rfl
      by_cases hFn : wholeOf p B new.params ∈ F
      · left
        have hy : ∀ M : ℕ, extended F logLik M (wholeOf p B new.params) = M := fun M => if_pos hFn
        obtain ⟨c', e1, e2, e3⟩ := attempt_failed h.targets hc g1 rfl
          (llr_fails h T hc.holds g1.holds hpos hposn hc.cache g1.cache hF hFn)
        have hgt : ∀ M, V M ω ∈ F ↔ Real.log ω.2.2 < v + ((M : ℝ) - logLik (wholeOf p B c.cur.params)) / T := by
          intro M
          rw [hval M, hx, hy]
          by_cases hlt : Real.log ω.2.2 < v + ((M : ℝ) - logLik (wholeOf p B c.cur.params)) / T
          · rw [if_pos (by exact hlt)]
            exact ⟨fun _ => hlt, fun _ => hFn⟩
          · rw [if_neg (by exact hlt)]
            exact ⟨fun hc' => absurd hc' hF, fun hc' => absurd hc' hlt⟩
        refine ⟨c', ?_, ⟨e2, ?_, ?_⟩, e3, ?_, fun M => ⟨?_, fun hM => ?_⟩⟩
        · unfold tried
          rw [g1.draws, e1]
        · rw [e3]; exact hf
        · rw [e3]; exact hF
        · obtain ⟨M, hM⟩ := exists_nat_gt (T * (Real.log ω.2.2 - v) + logLik (wholeOf p B c.cur.params))
          refine ⟨M, (hgt M).2 ?_⟩
          have h1 : T * (Real.log ω.2.2 - v) < (M : ℝ) - logLik (wholeOf p B c.cur.params) := by linarith
          have h2 : Real.log ω.2.2 - v < ((M : ℝ) - logLik (wholeOf p B c.cur.params)) / T := by
            rw [lt_div_iff₀ hT]
            linarith
          linarith
        · rw [hval M]
          split
          · exact .inl hFn
          · exact .inr rfl
        · rw [hgt] at hM ⊢
          refine hM.trans_le ?_
          have : ((M : ℝ) - logLik (wholeOf p B c.cur.params)) / T ≤ (((M + 1 : ℕ) : ℝ) - logLik (wholeOf p B c.cur.params)) / T := by
            refine div_le_div_of_nonneg_right ?_ hT.le
            push_cast
            linarith
          linarith
      · right
        have hy : ∀ M : ℕ, extended F logLik M (wholeOf p B new.params) = logLik (wholeOf p B new.params) := fun M => if_neg hFn
        obtain ⟨ev, c', e1, -, e3⟩ := attempt_done h.targets hsv hc g1 fun _ =>
          llr_outside h hT.ne' hc.holds g1.holds hpos hposn hc.cache g1.cache hF hFn
        refine ⟨c', ?_, ?_, fun M => ?_⟩
        · unfold tried
          rw [e1]
        · rw [e3]
          split
          · exact hFn
          · exact hF
        · rw [hval, e3, hx, hy]

end BB.Lemmas
