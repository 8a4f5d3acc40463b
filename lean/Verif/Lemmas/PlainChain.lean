import Verif.Lemmas.PlainPert
import Verif.Lemmas.PlainLaw
import Verif.Lemmas.ProgressChain
import Verif.Lemmas.ProgressSave
import Verif.Props.C27_C31_Likelihood

/-!
# Plain parameter spaces: what the iterations of a chain compute
-/

namespace BB.Lemmas

open BB Spec MeasureTheory

variable {m : ℕ} {sps : Fin m → PlainSpace} {p : Problem} {logLik : Values sps → ℝ} {E : Type}

/-! ### the perturbations -/

theorem perts_plain (h : PlainProblem p sps logLik) :
    p.spaces.perts = List.ofFn fun i => ((sps i).space.ownPert, (ownW (sps i)).sum) := by
  unfold Spaces.perts
  rw [h.spaces, List.flatMap_def, List.map_ofFn]
  have e : (fun kv : String × Space => kv.2.perts) ∘ (fun i => ((sps i).info.name, (sps i).space)) =
      fun i => [((sps i).space.ownPert, (ownW (sps i)).sum)] := by
    funext i
    simp only [Function.comp]
    have : (sps i).space.perts = [] ++ [((sps i).space.ownPert, ((sps i).space.ownPert).weights.sum)] := by
      conv_lhs => rw [PlainSpace.space, Space.perts, paramDict_perts]
      rfl
    rw [this, ownWeights_plain (h.ok i)]
    rfl
  rw [e]
  have : ∀ {n : ℕ} (f : Fin n → PSPert × ℝ), (List.ofFn fun i => [f i]).flatten = List.ofFn f := by
    intro n
    induction n with
    | zero => intro f; rfl
    | succ n ih => intro f; rw [List.ofFn_succ, List.ofFn_succ, List.flatten_cons, ih]; rfl
  exact this _

theorem weights_plain (h : PlainProblem p sps logLik) : p.weights = outerW sps := by
  unfold Problem.weights outerW
  rw [perts_plain h, h.noise, List.map_ofFn]
  simp
  rfl

theorem perturbs_plain (h : PlainProblem p sps logLik) :
    p.perturbs = List.ofFn fun i => ((sps i).space.ownPert.displayName, (sps i).space.ownPert.perturb) := by
  unfold Problem.perturbs Problem.noisePerturbs
  rw [perts_plain h, h.noise, List.map_ofFn]
  simp
  rfl

/-! ### saving -/

theorem save_plain (h : PlainProblem p sps logLik) {x : Values sps} {s : State} (hs : s.params = paramsOf sps x)
    (he : s.extra = []) (d : Store) : ∃ d', p.cfg.save s d = (.ok (), d') := by
  change ∃ d', saveState _ p.saveDpred s d = (.ok (), d')
  unfold saveState
  obtain ⟨d1, h1⟩ := saveVars_runs (spaces := some (p.spaces.map fun kv => (kv.1, kv.2.info.transD))) s.vars d (by
    refine vars_keys (P := KeyOk _) he ?_
    intro k v hkv
    rw [hs] at hkv
    obtain ⟨i, e⟩ := List.mem_ofFn.1 hkv
    injection e with e1 e2
    subst e1 e2
    have hp1 := (h.ok i).name
    simp only [TopVal.todict]
    unfold PlainSpace.stateOf
    rw [PSState.todict]
    refine todictVals_keys (P := KeyOk _) _ _ ?_ ?_
    · intro kv hkv
      rw [List.mem_singleton] at hkv
      subst hkv
      unfold KeyOk skipKey
      rw [if_pos (substr_n_dimensions _), dropSuffix_n_dimensions]
      have hm : ((sps i).info.name, (sps i).space.info.transD) ∈ p.spaces.map fun kv => (kv.1, kv.2.info.transD) := by
        rw [h.spaces]
        exact List.mem_map.2 ⟨_, List.mem_ofFn.2 ⟨i, rfl⟩, rfl⟩
      have hnd : (dkeys (p.spaces.map fun kv => (kv.1, kv.2.info.transD))).Nodup := by
        unfold dkeys
        rw [List.map_map, h.spaces, List.map_ofFn]
        exact List.nodup_ofFn.2 h.distinct
      refine ⟨!(sps i).space.info.transD, ?_⟩
      simp only [dget_of_mem hnd hm]
    · intro kv hkv
      refine ⟨_, skipKey_plain (plain_dot hp1 ?_)⟩
      obtain ⟨j, rfl⟩ := List.mem_ofFn.1 hkv
      exact ((h.ok i).names j).2)
  rw [h1]
  exact ⟨_, rfl⟩

/-! ### the end of an iteration -/

open Classical in
theorem finish_plain (h : PlainProblem p sps logLik) {T : ℝ} {x x' : Values sps} {c : Chain State Store E} (hc : At p sps T x c)
    {name : String} {new : State} (hp : new.params = paramsOf sps x') (he : new.extra = []) (hco : Coherent p.tf new)
    (hs : ∃ st, loadStats new = .ok st) (lp : PyF) {d : Draw} (hu : d.u ≠ 0) (t : List Draw) :
    ∃ ev c', Chain.finish p.cfg name new lp c (d :: t) = (.ok ev, c', t) ∧
      At p sps T (if lp.gtFin (Real.log d.u) then x' else x) c' := by
  rw [finish_run, if_neg (not_le.2 (lt_of_le_of_ne d.hu.1 (Ne.symm hu)))]
  obtain ⟨p', a', e, h1, h2⟩ := newStats_runs (p := p) (name := name) (decide (lp.gtFin (Real.log d.u))) (fun _ => hs) hc.proposed hc.accepted
  rw [e]
  have hc' : At p sps T (if lp.gtFin (Real.log d.u) then x' else x) (afterStats c new (decide (lp.gtFin (Real.log d.u))) p' a') := by
    by_cases ha : lp.gtFin (Real.log d.u)
    · rw [if_pos ha]
      refine ⟨?_, ?_, ?_, hc.temp, h1, h2⟩ <;> simp only [afterStats, ha, decide_true, if_true]
      exacts [hp, he, hco]
    · rw [if_neg ha]
      refine ⟨?_, ?_, ?_, hc.temp, h1, h2⟩ <;> simp only [afterStats, ha, decide_false, Bool.false_eq_true, if_false]
      exacts [hc.params, hc.extra, hc.cache]
  have hsave : ∃ c'', Chain.saveIfDue p.cfg (afterStats c new (decide (lp.gtFin (Real.log d.u))) p' a') t = (.ok (), c'', t) ∧
      At p sps T (if lp.gtFin (Real.log d.u) then x' else x) c'' := by
    generalize afterStats c new (decide (lp.gtFin (Real.log d.u))) p' a' = c1 at hc'
    unfold Chain.saveIfDue
    split
    · obtain ⟨d, hd⟩ := save_plain h hc'.params hc'.extra c1.saved
      rw [hd]
      exact ⟨_, rfl, hc'.params, hc'.extra, hc'.cache, hc'.temp, hc'.proposed, hc'.accepted⟩
    · exact ⟨c1, rfl, hc'⟩
  obtain ⟨c'', e2, h3⟩ := hsave
  simp only [e2]
  exact ⟨_, c'', rfl, h3⟩

/-! ### the likelihood -/

theorem llr_plain (h : PlainProblem p sps logLik) {T : ℝ} (hT : T ≠ 0) {x x' : Values sps} (hx : Possible sps x)
    (hx' : Possible sps x') {a b : State} (ha : a.params = paramsOf sps x) (hb : b.params = paramsOf sps x')
    (hca : Coherent p.tf a) (hcb : Coherent p.tf b) :
    (p.cfg.llr a b T).1 = .ok (.fin (logLik x' / T - logLik x / T)) := by
  have hl := h.likelihood
  unfold HasLogLik at hl
  have hnd : (p.tf.map (·.1.name)).Nodup := by
    have := h.targets
    unfold Problem.targets at this
    rw [List.map_map] at this
    exact this
  change (logLikelihoodRatio p.kind p.tf a b T).1 = _
  match hk : p.kind with
  | .targets =>
    rw [hk] at hl
    obtain ⟨e1, l1⟩ := hl x hx
    obtain ⟨e2, l2⟩ := hl x' hx'
    rw [Props.C27_gaussian_ratio p.tf a b T hT hnd hca hcb (ha ▸ e1) (hb ▸ e2), ha, hb, ← l1, ← l2, sub_div]
  | .loglike f =>
    rw [hk] at hl
    simp only [logLikelihoodRatio, ratioFromLoglike, hl x hx a ha, hl x' hx' b hb]
    change pyDiv (PyF.sub _ _) T = _
    rw [pyDiv_ok hT]
    change Except.ok (PyF.fin ((logLik x' + -logLik x) / T)) = _
    rw [← sub_eq_add_neg, sub_div]
  | .ratio f =>
    rw [hk] at hl
    simp only [logLikelihoodRatio, hl x x' hx hx' a b ha hb]
    change pyDiv _ T = _
    rw [pyDiv_ok hT]
    simp [PyF.divFin, sub_div]

/-! ### an iteration -/

theorem possible_update {x : Values sps} (hx : Possible sps x) {i : Fin m} {y : Tuple (Fin (sps i).size → ℝ)}
    (hy : PossibleIn (sps i) y) : Possible sps (Function.update x i y) := by
  intro j
  by_cases hj : j = i
  · subst hj
    rw [Function.update_self]
    exact hy
  · rw [Function.update_of_ne hj]
    exact hx j

open Classical in
theorem attempt_plain {K : ℕ} (hm : 0 < m) (h : PlainProblem p sps logLik) {T : ℝ} (hT : T ≠ 0) {x : Values sps} (hx : Possible sps x)
    {c : Chain State Store E} (hc : At p sps T x c) {t : List Draw} (hu : ∀ d ∈ t, d.u ≠ 0)
    (ht : ∀ i, (sps i).size + 5 ≤ t.length) :
    ∃ ev c', Chain.attempt p.cfg c t = (.ok (some ev), c', (iterV sps K (fun x => logLik x / T) hm x t).2) ∧
      At p sps T (iterV sps K (fun x => logLik x / T) hm x t).1 c' ∧
      Possible sps (iterV sps K (fun x => logLik x / T) hm x t).1 := by
  obtain rfl : c.temp = T := hc.temp
  obtain ⟨d, t, rfl⟩ : ∃ d t', t = d :: t' := by
    cases t with
    | nil => have := ht ⟨0, hm⟩; simp at this
    | cons d t => exact ⟨d, t, rfl⟩
  have hlt := pick_lt (outerW_nonneg sps) (outerW_sum hm sps) d
  have hlt' : pick (outerW sps) d < m := by rw [outerW_length] at hlt; exact hlt
  set i := pickSpace sps hm d with hi
  have hiv : (i : ℕ) = pick (outerW sps) d := Nat.mod_eq_of_lt hlt'
  have hch : choices p.cfg.perturbs.length p.cfg.weights (d :: t) = (.ok (i : ℕ), t) := by
    have hlen : p.cfg.perturbs.length = p.cfg.weights.length := perturbs_length p
    have hw : p.cfg.weights = outerW sps := weights_plain h
    rw [hlen, hw, choices_pick (outerW_nonneg sps) (outerW_sum hm sps), hiv]
  have hf : p.cfg.perturbs[(i : ℕ)]? = some ((sps i).space.ownPert.displayName, (sps i).space.ownPert.perturb) := by
    change p.perturbs[(i : ℕ)]? = _
    rw [perturbs_plain h, List.getElem?_ofFn, dif_pos i.2]
  have ht1 : (sps i).size + 4 ≤ t.length := by
    have := ht i
    simpa using this
  obtain ⟨new, y, r, t', st, hrun, hp, he, hcache, hr, hpos, ⟨k, hk, hdrop⟩, hV⟩ :=
    perturb_run (K := K) h.ok h.distinct i (hx i) hc.params (t := t) (by omega)
  have hlen' : 0 < t'.length := by rw [hdrop, List.length_drop]; omega
  obtain ⟨d', t', rfl⟩ : ∃ d t'', t' = d :: t'' := by
    cases t' with
    | nil => simp at hlen'
    | cons d t => exact ⟨d, t, rfl⟩
  have hd' : d'.u ≠ 0 := by
    refine hu d' (List.mem_cons_of_mem _ ?_)
    have : d' ∈ t.drop k := by rw [← hdrop]; exact List.mem_cons_self ..
    exact List.mem_of_mem_drop this
  have hupos : 0 < d'.u := lt_of_le_of_ne d'.hu.1 (Ne.symm hd')
  have hst : ∃ st, loadStats new = .ok st := by
    unfold loadStats
    rw [hcache]
    exact ⟨st, by simp [dget]⟩
  have hco : Coherent p.tf new := coherent_stats hcache
  have hsim : iterV sps K (fun x => logLik x / c.temp) hm x (d :: t) =
      (if d'.u < r * Real.exp (logLik (Function.update x i y) / c.temp - logLik x / c.temp) then Function.update x i y else x, t') :=
    hV fun x => logLik x / c.temp
  rw [hsim, attempt_run, hch]
  simp only [hf, hrun]
  by_cases hr0 : r = 0
  · subst hr0
    have hl0 : logOf 0 = PyF.ninf := by
      unfold logOf
      rw [if_neg (lt_irrefl _)]
    rw [hl0, if_pos (show PyF.ninf.isInf = true from rfl)]
    obtain ⟨ev, c', h1, h2⟩ := finish_plain h hc (name := (sps i).space.ownPert.displayName) hp he hco hst (PyF.add .ninf (.fin 0)) hd' t'
    rw [h1]
    have hng : ¬ (PyF.add .ninf (.fin 0)).gtFin (Real.log d'.u) := fun h => h
    have hns : ¬ d'.u < 0 * Real.exp (logLik (Function.update x i y) / c.temp - logLik x / c.temp) := by
      rw [zero_mul]
      exact not_lt.2 hupos.le
    rw [if_neg hng] at h2
    rw [if_neg hns]
    exact ⟨_, c', rfl, h2, hx⟩
  · have hrp : 0 < r := lt_of_le_of_ne hr (Ne.symm hr0)
    have hinf : ¬ (logOf r).isInf = true := by
      unfold logOf
      rw [if_pos hrp]
      simp [PyF.isInf]
    rw [if_neg hinf]
    have hx' := possible_update hx (hpos hr0)
    have hnd : (p.tf.map (·.1.name)).Nodup := by
      have := h.targets
      unfold Problem.targets at this
      rw [List.map_map] at this
      exact this
    have hll := llr_plain h hT hx hx' hc.params hp hc.cache hco
    have hstep := llr_step p.kind p.tf p.perturbs p.weights (some (p.spaces.map fun kv => (kv.1, kv.2.info.transD)))
      p.saveDpred c.cur new c.temp
    have hleft := llr_left hnd c.cur new c.temp hc.cache
    have hright := llr_right hnd c.cur new c.temp hco
    have hst' : ∃ st, loadStats (p.cfg.llr c.cur new c.temp).2.2 = .ok st := by
      obtain ⟨st, hst⟩ := hst
      exact ⟨st, llr_stats _ _ _ hst⟩
    change CacheStep p.tf c.cur (p.cfg.llr c.cur new c.temp).2.1 ∧ CacheStep p.tf new (p.cfg.llr c.cur new c.temp).2.2 at hstep
    match hm2 : p.cfg.llr c.cur new c.temp with
    | (r1, cur, new1) =>
      rw [hm2] at hll hstep hleft hright hst'
      simp only at hll hstep hleft hright hst' ⊢
      subst hll
      simp only
      have hc1 : At p sps c.temp x { c with cur := cur } :=
        ⟨hstep.1.params.trans hc.params, hstep.1.extra.trans hc.extra, hleft, hc.temp, hc.proposed, hc.accepted⟩
      obtain ⟨ev, c', h1, h2⟩ := finish_plain h hc1 (name := (sps i).space.ownPert.displayName) (hstep.2.params.trans hp)
        (hstep.2.extra.trans he) hright hst' ((logOf r).add (.fin (logLik (Function.update x i y) / c.temp - logLik x / c.temp))) hd' t'
      rw [h1]
      simp only [accept_iff hr hupos] at h2
      refine ⟨_, c', rfl, h2, ?_⟩
      split
      · exact hx'
      · exact hx

/-- One iteration. -/
theorem iteration_plain {K : ℕ} (hm : 0 < m) (h : PlainProblem p sps logLik) {T : ℝ} (hT : T ≠ 0) {x : Values sps} (hx : Possible sps x)
    {c : Chain State Store E} (hc : At p sps T x c) {b s : ℤ} (hs : s ≠ 0) {t : List Draw} (hu : ∀ d ∈ t, d.u ≠ 0)
    (ht : ∀ i, (sps i).size + 5 ≤ t.length) :
    ∃ ev c', Chain.iteration p.cfg b s Act.skip Act.skip c t = (.ok ev, c', (iterV sps K (fun x => logLik x / T) hm x t).2) ∧
      At p sps T (iterV sps K (fun x => logLik x / T) hm x t).1 c' ∧
      Possible sps (iterV sps K (fun x => logLik x / T) hm x t).1 := by
  have hflag : ∃ f, Chain.setFlag b s c t = (.ok (), { c with saveNow := f }, t) := by
    unfold Chain.setFlag
    simp only
    split
    · exact ⟨_, rfl⟩
    · exact ⟨_, rfl⟩
  obtain ⟨f, hf⟩ := hflag
  have hc' : At p sps T x { c with saveNow := f } := ⟨hc.params, hc.extra, hc.cache, hc.temp, hc.proposed, hc.accepted⟩
  obtain ⟨ev, c', h1, h2, h3⟩ := attempt_plain (K := K) hm h hT hx hc' hu ht
  refine ⟨ev, c', ?_, h2, h3⟩
  unfold Chain.iteration
  rw [Act.bind_run, hf]
  simp only
  rw [Act.bind_run]
  unfold Act.skip
  simp only
  rw [Act.bind_run]
  unfold Chain.next
  rw [attempts_succ, h1]
  rfl

/-- Several iterations. -/
theorem advance_plain {K : ℕ} (hm : 0 < m) (h : PlainProblem p sps logLik) {T : ℝ} (hT : T ≠ 0) {b s : ℤ} (hs : s ≠ 0) {L : ℕ}
    (hL : ∀ i, (sps i).size + 5 ≤ L) : ∀ (n : ℕ) {x : Values sps} {c : Chain State Store E} {t : List Draw}, Possible sps x →
    At p sps T x c → (∀ d ∈ t, d.u ≠ 0) → n * L ≤ t.length →
    ∃ evs c', Chain.advance p.cfg b s Act.skip Act.skip n c t =
        (.ok evs, c', (itersV sps K (fun x => logLik x / T) hm n x t).2) ∧
      At p sps T (itersV sps K (fun x => logLik x / T) hm n x t).1 c' ∧
      Possible sps (itersV sps K (fun x => logLik x / T) hm n x t).1
  | 0, x, c, t, hx, hc, _, _ => ⟨[], c, rfl, hc, hx⟩
  | n + 1, x, c, t, hx, hc, hu, ht => by
    have ht1 : ∀ i, (sps i).size + 5 ≤ t.length := fun i => le_trans (hL i) (le_trans (by
      rw [Nat.succ_mul]
      exact Nat.le_add_left _ _) ht)
    obtain ⟨ev, c1, h1, h2, h3⟩ := iteration_plain (K := K) hm h hT hx hc (b := b) hs hu ht1
    obtain ⟨k, hk, hdrop⟩ := iterV_short (K := K) (ℓ := fun x => logLik x / T) hm hL x t
    obtain ⟨evs, c2, h4, h5, h6⟩ := advance_plain (K := K) hm h hT (b := b) hs hL n h3 h2
      (t := (iterV sps K (fun x => logLik x / T) hm x t).2)
      (fun d hd => hu d (by rw [hdrop] at hd; exact List.mem_of_mem_drop hd)) (by
        rw [hdrop, List.length_drop]
        rw [Nat.succ_mul] at ht
        omega)
    refine ⟨ev :: evs, c2, ?_, h5, h6⟩
    exact (advance_succ_ok _).2 ⟨ev, evs, c1, _, rfl, h1, h4⟩

end BB.Lemmas
