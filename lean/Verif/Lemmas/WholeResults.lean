import Verif.Spec.WholeResults
import Verif.Lemmas.Annealed
import Verif.Lemmas.Prefixed
import Verif.Lemmas.PlainWhole
import Verif.Lemmas.WholeStart

/-!
# Runs with several chains
-/

namespace BB.Lemmas

open BB BB.Spec MeasureTheory

/-! ### the means -/

section

variable {S σ E Θ : Type} [MeasurableSpace Θ] {cfg : ChainCfg S σ} {b s : ℤ} {beginIt endIt : Act (Chain S σ E) Unit}
  {enc : Fin cfg.perturbs.length → S → Θ → List Draw} {draws : Measure Θ}

theorem iterations_bound (hp : ∀ f ∈ cfg.perturbs, ∀ s, Prefixed (f.2 s)) (hb : ActPrefixed beginIt) (he : ActPrefixed endIt)
    {Q : Chain S σ E → Prop} {v : ENNReal} : ∀ (n : ℕ) (c : Chain S σ E) (F : List Draw → ENNReal),
    (∀ t evs c', Chain.advance cfg b s beginIt endIt n c t = (.ok evs, c', []) → Q c' → v ≤ F t) →
    v * HookedLaw cfg b s beginIt endIt enc draws Q n c ≤ iterationsMean cfg b s beginIt endIt enc draws n c F
  | 0, c, F, h => by
    rw [HookedLaw, iterationsMean]
    split
    · next hq =>
      rw [mul_one]
      exact h [] [] c rfl hq
    · rw [mul_zero]
      exact zero_le
  | n + 1, c, F, h => by
    rw [HookedLaw, iterationsMean]
    refine (lintegral_const_mul_le _ _).trans (lintegral_mono fun ω => ?_)
    dsimp only
    rcases hx : Chain.iteration cfg b s beginIt endIt c (iterationDraws cfg enc c.cur ω) with ⟨e | ev, c', _ | ⟨d, t'⟩⟩
    · simp
    · simp
    · refine iterations_bound hp hb he n c' _ fun t evs c'' h1 hq => h _ (ev :: evs) c'' ?_ hq
      have h2 := iteration_prefixed (E := E) hp b s hb he c (iterationDraws cfg enc c.cur ω) t
      rw [hx] at h2
      exact (advance_succ_ok cfg).2 ⟨ev, evs, c', t, rfl, h2 (by simp), h1⟩
    · simp

theorem chains_bound (hp : ∀ f ∈ cfg.perturbs, ∀ s, Prefixed (f.2 s)) (hb : ActPrefixed beginIt) (he : ActPrefixed endIt)
    {Q : Chain S σ E → Prop} {v : ENNReal} {n : ℕ} : ∀ (cs : List (Chain S σ E)) (F : List (List Draw) → ENNReal),
    (∀ ts, List.Forall₂ (fun c t => ∃ evs c', Chain.advance cfg b s beginIt endIt n c t = (.ok evs, c', []) ∧ Q c') cs ts → v ≤ F ts) →
    v * (cs.map fun c => HookedLaw cfg b s beginIt endIt enc draws Q n c).prod ≤ chainsMean cfg b s beginIt endIt enc draws n cs F
  | [], F, h => by
    rw [chainsMean, List.map_nil, List.prod_nil, mul_one]
    exact h [] List.Forall₂.nil
  | c :: cs, F, h => by
    rw [chainsMean, List.map_cons, List.prod_cons, mul_comm (HookedLaw _ _ _ _ _ _ _ _ _ _), ← mul_assoc]
    refine iterations_bound hp hb he n c _ fun t evs c' h1 hq => ?_
    exact chains_bound hp hb he cs _ fun ts hts => h _ (List.Forall₂.cons ⟨evs, c', h1, hq⟩ hts)

end

theorem forEach_const {α : Type} (m : M α) : ∀ l l' : List ℕ, l.length = l'.length → M.forEach (fun _ => m) l = M.forEach (fun _ => m) l'
  | [], [], _ => rfl
  | _ :: l, _ :: l', h => by
    rw [M.forEach, M.forEach, forEach_const m l l' (Nat.succ.inj h)]

theorem times_succ {α : Type} (m : M α) (k : ℕ) : M.times (k + 1) m = (do
    let y ← m
    let ys ← M.times k m
    return y :: ys) := by
  unfold M.times
  rw [List.range_succ_eq_map, M.forEach, forEach_const m (List.map Nat.succ (List.range k)) (List.range k) (by simp)]

section

variable {E : Type} {p : Problem} {S : ℕ → Beginning}

theorem newChains_succ (hp : ∀ kv ∈ p.spaces, SpacePrefixed kv.2) {w : E} {k : ℕ} {t₁ t₂ : List Draw} {c : Chain State Store E}
    {cs : List (Chain State Store E)} (h1 : p.newChain w t₁ = (.ok c, [])) (h2 : p.newChains k w t₂ = (.ok cs, [])) :
    p.newChains (k + 1) w (t₁ ++ t₂) = (.ok (c :: cs), []) := by
  unfold Problem.newChains at h2 ⊢
  rw [times_succ]
  have h3 := newChain_prefixed (E := E) hp w t₁ t₂
  rw [h1] at h3
  refine (M.bind_of (h3 (by simp))).trans ?_
  exact M.bind_of h2

theorem starts_bound (hp : ∀ kv ∈ p.spaces, SpacePrefixed kv.2) {w : E} {g : Chain State Store E → ENNReal} :
    ∀ (k : ℕ) (v : ENNReal) (F : List Draw → ENNReal),
    (∀ t cs, p.newChains k w t = (.ok cs, []) → v * (cs.map g).prod ≤ F t) → v * newChainLaw p S w g ^ k ≤ startsMean p S k F
  | 0, v, F, h => by
    rw [startsMean, pow_zero]
    simpa using h [] [] rfl
  | k + 1, v, F, h => by
    rw [startsMean, pow_succ, ← mul_assoc]
    refine (lintegral_const_mul_le _ _).trans (lintegral_mono fun θ => ?_)
    dsimp only
    rcases hx : p.newChain w (startDraws p S θ) with ⟨e | c, _ | ⟨d, t'⟩⟩
    · simp
    · simp
    · dsimp only
      rw [mul_right_comm]
      refine starts_bound hp k (v * g c) _ fun t cs hcs => ?_
      have := h _ _ (newChains_succ hp hx hcs)
      rwa [List.map_cons, List.prod_cons, ← mul_assoc] at this
    · simp

theorem newChain_new {w : E} {t t' : List Draw} {c : Chain State Store E} (h : p.newChain w t = (.ok c, t')) :
    (c.saved = [] ∧ c.world = w) ∧ c.total = 0 ∧ c.temp = 1 := by
  unfold Problem.newChain at h
  rcases hx : p.start t with ⟨e | x, t1⟩
  · rw [bind_raises hx] at h
    cases h
  · rw [M.bind_of hx] at h
    cases h
    exact ⟨⟨rfl, rfl⟩, rfl, rfl⟩

theorem newChains_new {w : E} : ∀ {k : ℕ} {t t' : List Draw} {cs : List (Chain State Store E)}, p.newChains k w t = (.ok cs, t') →
    cs.length = k ∧ ∀ c ∈ cs, (c.saved = [] ∧ c.world = w) ∧ c.total = 0 ∧ c.temp = 1
  | 0, t, t', cs, h => by
    cases h
    exact ⟨rfl, fun _ hc => by cases hc⟩
  | k + 1, t, t', cs, h => by
    unfold Problem.newChains at h
    rw [times_succ] at h
    rcases hx : p.newChain w t with ⟨e | c, t1⟩
    · rw [bind_raises hx] at h
      cases h
    · rw [M.bind_of hx] at h
      rcases hy : p.newChains k w t1 with ⟨e | cs', t2⟩
      · have h' := (bind_raises (f := fun ys => pure (c :: ys)) hy).symm.trans h
        cases h'
      · have h' := (M.bind_of (f := fun ys => pure (c :: ys)) hy).symm.trans h
        cases h'
        obtain ⟨h1, h2⟩ := newChains_new hy
        refine ⟨congrArg (· + 1) h1, fun c' hc' => ?_⟩
        rcases List.mem_cons.1 hc' with rfl | hc'
        · exact newChain_new hx
        · exact h2 c' hc'

/-- The mean over the runs. -/
theorem run_bound (hp : ∀ kv ∈ p.spaces, SpacePrefixed kv.2) {init : Chain State Store E → Chain State Store E}
    {beginIt endIt : Act (Chain State Store E) Unit} (hb : ActPrefixed beginIt) (he : ActPrefixed endIt) {b s : ℤ} {k n : ℕ} {w : E}
    {Q : Chain State Store E → Prop} {F : List Draw → List (List Draw) → ENNReal}
    (hF : ∀ t cs ts, p.newChains k w t = (.ok cs, []) → List.Forall₂ (fun c t => ∃ evs c',
      Chain.advance p.cfg b s beginIt endIt n c t = (.ok evs, c', []) ∧ Q c') (cs.map init) ts → 1 ≤ F t ts) :
    newChainLaw p S w (fun c => HookedLaw p.cfg b s beginIt endIt (wholeDraws p fun i => (S i).block) (wholeLaw p fun i => (S i).block)
      Q n (init c)) ^ k ≤ runMean p S init beginIt endIt b s k n w F := by
  unfold runMean
  have h1 := starts_bound (S := S) hp (w := w) (g := fun c => HookedLaw p.cfg b s beginIt endIt (wholeDraws p fun i => (S i).block)
    (wholeLaw p fun i => (S i).block) Q n (init c)) k 1 (fun t => match p.newChains k w t with
    | (.ok cs, []) => chainsMean p.cfg b s beginIt endIt (wholeDraws p fun i => (S i).block) (wholeLaw p fun i => (S i).block) n
        (cs.map init) (F t)
    | _ => 0) (fun t cs hcs => by
      rw [hcs]
      have := chains_bound (enc := wholeDraws p fun i => (S i).block) (draws := wholeLaw p fun i => (S i).block)
        (perturbs_prefixed hp) hb he (cs.map init) (F t) fun ts hts => hF t cs ts hcs hts
      rwa [List.map_map] at this)
  rwa [one_mul] at h1

/-! ### the runs of the chains -/

variable {α : Type} {adv : Act (Chain State Store E) α} {Q : Chain State Store E → Prop}

theorem advSeq_ran (hpre : ActPrefixed adv) (hw : ∀ c t a c' t', adv c t = (.ok a, c', t') → c'.world = c.world) {w : E} :
    ∀ {cs : List (Chain State Store E)} {ts : List (List Draw)},
    List.Forall₂ (fun c t => ∃ a c', adv c t = (.ok a, c', []) ∧ Q c') cs ts → (∀ c ∈ cs, c.world = w) →
    ∃ as cs', advSeq adv cs w ts.flatten = (.ok as, cs', w, []) ∧ List.Forall₂ (fun c c' => ∃ t a, adv c t = (.ok a, c', []) ∧ Q c') cs cs'
  | _, _, .nil, _ => ⟨[], [], rfl, .nil⟩
  | c :: cs, t :: ts, .cons ⟨a, c', h1, h2⟩ h3, hc => by
    have hcw : c.world = w := hc c (List.mem_cons_self ..)
    obtain ⟨as, cs', h4, h5⟩ := advSeq_ran hpre hw h3 (fun c hc' => hc c (List.mem_cons_of_mem _ hc'))
    refine ⟨a :: as, c' :: cs', ?_, .cons ⟨t, a, h1, h2⟩ h5⟩
    rw [List.flatten_cons, advSeq]
    have e : ({ c with world := w } : Chain State Store E) = c := by rw [← hcw]
    have h6 := hpre c t ts.flatten
    rw [h1] at h6
    rw [e, h6 (by simp)]
    dsimp only
    rw [List.nil_append, hw _ _ _ _ _ h1, hcw, h4]

theorem advPar_ran {w : E} {work : ℕ → List Draw} : ∀ {cs : List (Chain State Store E)} {ts : List (List Draw)} (j : ℕ),
    List.Forall₂ (fun c t => ∃ a c', adv c t = (.ok a, c', []) ∧ Q c') cs ts → (∀ c ∈ cs, c.world = w) →
    (∀ i, work (j + i) = ts.getD i []) →
    ∃ as cs', advPar adv work w j cs = .ok (as, cs') ∧ List.Forall₂ (fun c c' => ∃ t a, adv c t = (.ok a, c', []) ∧ Q c') cs cs'
  | _, _, _, .nil, _, _ => ⟨[], [], rfl, .nil⟩
  | c :: cs, t :: ts, j, .cons ⟨a, c', h1, h2⟩ h3, hc, hwork => by
    have hcw : c.world = w := hc c (List.mem_cons_self ..)
    obtain ⟨as, cs', h4, h5⟩ := advPar_ran (work := work) (j + 1) h3 (fun c hc' => hc c (List.mem_cons_of_mem _ hc')) fun i => by
      have := hwork (i + 1)
      rw [List.getD_cons_succ] at this
      rw [← this]
      congr 1
      omega
    refine ⟨a :: as, c' :: cs', ?_, .cons ⟨t, a, h1, h2⟩ h5⟩
    rw [advPar]
    have e : ({ c with world := w } : Chain State Store E) = c := by rw [← hcw]
    have h6 : work j = t := hwork 0
    rw [e, h6, h1]
    dsimp only
    rw [h4]

/-- All chains, in one or several processes. -/
theorem each_ran (hpre : ActPrefixed adv) (hw : ∀ c t a c' t', adv c t = (.ok a, c', t') → c'.world = c.world) {w : E} (nJobs : ℤ)
    {cs : List (Chain State Store E)} {ts : List (List Draw)}
    (h : List.Forall₂ (fun c t => ∃ a c', adv c t = (.ok a, c', []) ∧ Q c') cs ts) (hc : ∀ c ∈ cs, c.world = w) :
    ∃ as cs' t', Samp.each ⟨some nJobs, fun _ j => ts.getD j []⟩ adv ⟨cs, w, 0⟩ ts.flatten = (.ok as, ⟨cs', w, 1⟩, t') ∧
      List.Forall₂ (fun c c' => ∃ t a, adv c t = (.ok a, c', []) ∧ Q c') cs cs' := by
  unfold Samp.each
  by_cases hj : 1 < nJobs
  · obtain ⟨as, cs', h1, h2⟩ := advPar_ran (work := fun j => ts.getD j []) 0 h hc fun i => by rw [Nat.zero_add]
    refine ⟨as, cs', ts.flatten, ?_, h2⟩
    simp only [if_pos hj, h1]
  · obtain ⟨as, cs', h1, h2⟩ := advSeq_ran hpre hw h hc
    refine ⟨as, cs', [], ?_, h2⟩
    simp only [if_neg hj, h1]

/-! ### the results -/

theorem results_of (p : Problem) {cs : List (Chain State Store E)} (hne : cs ≠ []) (hnd : ∀ c ∈ cs, (dkeys c.saved).Nodup)
    {stss : List (List State)} (h : List.Forall₂ (fun (c : Chain State Store E) sts => SavesStates p [] c.saved sts) cs stss) :
    ∃ res, (open Classical in getResults (fun _ : String => SVal.int 0) (fun _ => true) (fun _ => .error .typeError)
      (.list (cs.map fun c => some (.dict c.saved))) .all true) = .ok (.named res) ∧ ResultsOf p res stss.flatten := by
  classical
  have hu : ∀ q, ((cs.map fun c : Chain State Store E => c.saved).flatMap fun x => (dget x q).getD []) =
      stss.flatten.flatMap (BB.Spec.contribution (some (p.spaces.map fun kv => (kv.1, kv.2.info.transD))) p.saveDpred q) := by
    intro q
    clear hne hnd
    induction h with
    | nil => rfl
    | cons hy _ ih =>
      rw [List.map_cons, List.flatMap_cons, ih, List.flatten_cons, List.flatMap_append]
      congr 1
      exact (hy q).trans (List.nil_append _)
  cases cs with
  | nil => exact (hne rfl).elim
  | cons c cs =>
    have hnd' : ∀ d ∈ c.saved :: cs.map (fun c => c.saved), (dkeys d).Nodup := by
      intro d hd
      rcases List.mem_cons.1 hd with rfl | hd
      · exact hnd c (List.mem_cons_self ..)
      · obtain ⟨c', hc', rfl⟩ := List.mem_map.1 hd
        exact hnd c' (List.mem_cons_of_mem _ hc')
    obtain ⟨res, h1, h2⟩ := Props.C54_concatenated (V := SVal) (fun _ => .int 0) (fun _ => true) (fun _ => .error .typeError)
      c.saved (cs.map fun c => c.saved) .all hnd'
    refine ⟨res, ?_, fun q => ?_⟩
    · rw [← h1, List.map_cons, List.map_cons, List.map_map]
      rfl
    · rw [← hu q]
      unfold resultsUnder
      rw [List.map_cons]
      by_cases hex : ∃ d' ∈ c.saved :: cs.map (fun c => c.saved), q ∈ dkeys d'
      · rw [(h2 q).1 ⟨trivial, hex⟩]
        rfl
      · rw [(h2 q).2 fun hh => hex hh.2]
        have h5 : ((c.saved :: cs.map fun c => c.saved).flatMap fun x => (dget x q).getD []) = [] := by
          rw [List.flatMap_eq_nil_iff]
          intro d hd
          have : q ∉ dkeys d := fun hq => hex ⟨d, hd, hq⟩
          rw [dget_none_iff.2 this]
          rfl
        rw [h5]
        rfl

theorem hooked_nodup {b s : ℤ} {beginIt endIt : Act (Chain State Store E) Unit} (hb : Props.BeginHook beginIt) (he : Props.EndHook endIt) {n : ℕ}
    {c c' : Chain State Store E} {t t' : List Draw} {evs : List (Event State)}
    (h : Chain.advance p.cfg b s beginIt endIt n c t = (.ok evs, c', t')) (hn : (dkeys c.saved).Nodup) : (dkeys c'.saved).Nodup := by
  classical
  have h1 := Props.C06_C07_saved p.cfg (fun d : Store => if (dkeys d).Nodup then ([] : List Unit) else [()]) (fun _ => []) (fun x st st' hs => by
    have h2 := nodup_saveState (some (p.spaces.map fun kv => (kv.1, kv.2.info.transD))) p.saveDpred x st
    have h3 : saveState (some (p.spaces.map fun kv => (kv.1, kv.2.info.transD))) p.saveDpred x st = (.ok (), st') := hs
    rw [h3] at h2
    simp only [h2, List.append_nil]) b s beginIt endIt hb he n c c' t t' evs h
  simp only [if_pos hn, List.nil_append] at h1
  by_contra hc
  rw [if_neg hc] at h1
  have h4 : (List.flatMap (fun _ : State => ([] : List Unit)) (dueStates b s (c.total + 1) evs)) = [] := by simp
  rw [h4] at h1
  cases h1

theorem hooked_world {cfg : ChainCfg State Store} {b s : ℤ} {beginIt endIt : Act (Chain State Store E) Unit}
    (hb : ∀ c t x c' t', beginIt c t = (.ok x, c', t') → c'.world = c.world)
    (he : ∀ c t x c' t', endIt c t = (.ok x, c', t') → c'.world = c.world) : ∀ (n : ℕ) {c c' : Chain State Store E} {t t' : List Draw}
    {evs : List (Event State)}, Chain.advance cfg b s beginIt endIt n c t = (.ok evs, c', t') → c'.world = c.world
  | 0, c, c', t, t', evs, h => by
    rw [advance_zero] at h
    cases h
    rfl
  | n + 1, c, c', t, t', evs, h => by
    obtain ⟨ev, evs', c1, t1, rfl, h1, h2⟩ := (advance_succ_ok cfg).1 h
    obtain ⟨c2, c3, c4, t2, t3, b1, b2, b3, b4⟩ := (iteration_ok cfg).1 h1
    have e1 := ((setFlag_ok).1 b1).2.2
    rw [hooked_world hb he n h2, he _ _ _ _ _ b4, (next_effect cfg b3).world, hb _ _ _ _ _ b2, e1]

theorem forall₂_choose {A B C : Type} {R : A → B → Prop} {P : B → C → Prop} (h : ∀ a b, R a b → ∃ c, P b c) :
    ∀ {as : List A} {bs : List B}, List.Forall₂ R as bs → ∃ cs, List.Forall₂ P bs cs
  | _, _, .nil => ⟨[], .nil⟩
  | _, _, .cons h1 h2 => by
    obtain ⟨c, hc⟩ := h _ _ h1
    obtain ⟨cs, hcs⟩ := forall₂_choose h h2
    exact ⟨c :: cs, .cons hc hcs⟩

/-! ### spaces without functions of the user -/

theorem list_prefixed : ∀ {ps : ParamList}, (∀ kv ∈ ps.toList, ParamPrefixed kv.2) → ListPrefixed ps
  | .nil, _ => by rw [ListPrefixed]; trivial
  | .cons m q rest, h => by
    rw [ListPrefixed]
    rw [ParamList.toList] at h
    exact ⟨h _ (List.mem_cons_self ..), list_prefixed fun kv hkv => h kv (List.mem_cons_of_mem _ hkv)⟩

theorem only_prefixed {k : ℕ} {sp : Space} {prs : Fin k → Prior} (h1 : Props.OnlyPriors sp prs) (h2 : ∀ j, NotCustom (prs j))
    (h3 : ∀ j, (prs j).init = none) : SpacePrefixed sp := by
  cases sp with
  | mk info ps =>
    rw [SpacePrefixed]
    refine list_prefixed fun kv hkv => ?_
    have := h1.params
    rw [show (Space.mk info ps).params = ps from rfl] at this
    rw [this] at hkv
    obtain ⟨j, rfl⟩ := List.mem_ofFn.1 hkv
    rw [ParamPrefixed]
    refine ⟨?_, fun a b f hf => absurd hf (h2 j a b f)⟩
    intro f hf
    rw [h3 j] at hf
    exact nomatch hf

theorem started_prefixed {sp : Space} {b : Beginning} (h : Started sp b) : SpacePrefixed sp := by
  cases h with
  | plain _ _ _ _ _ _ _ _ h1 h2 => exact only_prefixed h1.only h1.custom h2.init
  | line _ _ _ _ _ _ _ _ _ h1 h2 => exact only_prefixed h1.only h1.custom h2.init
  | plane _ _ _ _ _ _ _ _ h1 h2 => exact only_prefixed h1.only h1.custom h2.init

theorem all_prefixed (h : AllStart p S) : ∀ kv ∈ p.spaces, SpacePrefixed kv.2 := by
  intro kv hkv
  obtain ⟨i, hi⟩ := List.mem_iff_getElem?.1 hkv
  exact started_prefixed (h.spaces i kv.1 kv.2 hi)

/-! ### samplers that only change the temperature -/

/-- Functions at the beginning and at the end of iterations that change nothing but the temperature, which is one when something is due. -/
structure Tempers (b s : ℤ) (beginIt endIt : Act (Chain State Store E) Unit) (f : Chain State Store E → Chain State Store E)
    (I : Chain State Store E → Prop) : Prop where
  begins : ∀ c t, beginIt c t = (.ok (), f c, t)
  ends : ∀ c t, endIt c t = (.ok (), c, t)
  saved : ∀ c, (f c).saved = c.saved
  total : ∀ c, (f c).total = c.total
  saveNow : ∀ c, (f c).saveNow = c.saveNow
  world : ∀ c, (f c).world = c.world
  due : ∀ c, I c → Due b s (c.total + 1) → (f c).temp = 1
  flag : ∀ c x, I c → I { c with saveNow := x }
  step : ∀ c c', I c → c'.total = c.total + 1 → c'.temp = (f c).temp → I c'

theorem quiet_prefixed {a : Act (Chain State Store E) Unit} {f : Chain State Store E → Chain State Store E} (h : ∀ c t, a c t = (.ok (), f c, t)) :
    ActPrefixed a := by
  intro c t r _
  rw [h, h]

variable {b s : ℤ} {beginIt endIt : Act (Chain State Store E) Unit} {f : Chain State Store E → Chain State Store E}
  {I : Chain State Store E → Prop}

theorem tempers_begin (h : Tempers b s beginIt endIt f I) : Props.BeginHook beginIt := by
  intro c t
  rw [h.begins]
  exact ⟨h.saved c, h.total c, h.saveNow c⟩

theorem tempers_end (h : Tempers b s beginIt endIt f I) : Props.EndHook endIt := by
  intro c t
  rw [h.ends]
  exact ⟨rfl, rfl⟩

theorem tempers_world (h : Tempers b s beginIt endIt f I) (n : ℕ) {c c' : Chain State Store E} {t t' : List Draw}
    {evs : List (Event State)} (hr : Chain.advance p.cfg b s beginIt endIt n c t = (.ok evs, c', t')) : c'.world = c.world :=
  hooked_world (fun c t x c' t' hh => by
    rw [h.begins] at hh
    cases hh
    exact h.world c) (fun c t x c' t' hh => by
    rw [h.ends] at hh
    cases hh
    rfl) n hr

open Classical in
theorem tempers_length (h : Tempers b s beginIt endIt f I) : ∀ (n : ℕ) {c c' : Chain State Store E} {t t' : List Draw}
    {evs : List (Event State)}, I c → Chain.advance p.cfg b s beginIt endIt n c t = (.ok evs, c', t') →
    (dueStates b s (c.total + 1) evs).length = Nat.count (fun i => Due b s (c.total + 1 + i)) n
  | 0, c, c', t, t', evs, _, hr => by
    rw [advance_zero] at hr
    cases hr
    rfl
  | n + 1, c, c', t, t', evs, hI, hr => by
    obtain ⟨ev, evs', c1, t1, rfl, h1, h2⟩ := (advance_succ_ok p.cfg).1 hr
    obtain ⟨c2, c3, c4, t2, t3, b1, b2, b3, b4⟩ := (iteration_ok p.cfg).1 h1
    have e1 := ((setFlag_ok).1 b1).2.2
    rw [h.begins] at b2
    rw [h.ends] at b4
    cases b2
    cases b4
    have e3 := next_effect p.cfg b3
    have hI2 : I c2 := by
      rw [e1]
      exact h.flag c _ hI
    have ht2 : c2.total = c.total := by rw [e1]
    have ht : c1.total = c.total + 1 := by rw [e3.total, h.total, ht2]
    have hI4 : I c1 := h.step c2 c1 hI2 (by rw [ht, ht2]) e3.temp
    rw [dueStates, List.length_append, Nat.count_succ', ← ht, tempers_length h n hI4 h2, add_comm]
    congr 1
    · congr 1
      funext i
      congr 1
      omega
    · rw [ht]
      by_cases hd : Due b s (c.total + 1)
      · rw [if_pos ⟨hd, by rw [e3.evTemp]; exact h.due c2 hI2 (by rw [ht2]; exact hd)⟩, if_pos hd]
        rfl
      · rw [if_neg fun hh => hd hh.1, if_neg hd]
        rfl

/-- What is saved. -/
theorem tempers_states (h : Tempers b s beginIt endIt f I) {n : ℕ} {c c' : Chain State Store E} {t t' : List Draw}
    {evs : List (Event State)} (hr : Chain.advance p.cfg b s beginIt endIt n c t = (.ok evs, c', t')) :
    SavesStates p c.saved c'.saved (dueStates b s (c.total + 1) evs) := by
  intro k
  exact Props.C06_C07_saved p.cfg (savedUnder k) (BB.Spec.contribution (some (p.spaces.map fun kv => (kv.1, kv.2.info.transD))) p.saveDpred k)
    (fun x st st' hh => saveState_ok _ _ _ _ _ hh k) b s beginIt endIt (tempers_begin h) (tempers_end h) n c c' t t' evs hr

/-! ### the programs -/

theorem newChains_prefixed (hp : ∀ kv ∈ p.spaces, SpacePrefixed kv.2) (k : ℕ) (w : E) : Prefixed (p.newChains k w) :=
  times_prefixed (newChain_prefixed hp w) k

/-- The chains of a run with the default sampler. -/
theorem sampled_vanilla (hp : ∀ kv ∈ p.spaces, SpacePrefixed kv.2) {k n : ℕ} {nJobs : Option ℤ} {b s : ℤ} {w : E} {t : List Draw}
    {cs : List (Chain State Store E)} {ts : List (List Draw)} (h1 : p.newChains k w t = (.ok cs, []))
    (h2 : List.Forall₂ (fun c t => ∃ evs c', Chain.advance p.cfg b s Act.skip Act.skip n c t = (.ok evs, c', []) ∧ Q c') (cs.map id) ts) :
    ∃ cs' t', p.sample k nJobs (fun _ j => ts.getD j []) n b s w (t ++ ts.flatten) = (.ok cs', t') ∧
      List.Forall₂ (fun c c' => ∃ t evs, Chain.advance p.cfg b s Act.skip Act.skip n c t = (.ok evs, c', []) ∧ Q c') (cs.map id) cs' := by
  rw [List.map_id] at h2 ⊢
  have h3 := newChains_prefixed hp k w t ts.flatten
  rw [h1] at h3
  obtain ⟨evs, cs', t', h4, h5⟩ := each_ran (adv := Chain.advance p.cfg b s Act.skip Act.skip n)
    (advance_prefixed (perturbs_prefixed hp) b s (quiet_prefixed (f := id) fun _ _ => rfl) (quiet_prefixed (f := id) fun _ _ => rfl) n)
    (fun c t a c' t' hh => hooked_world (fun c t x c' t' hh => by cases hh; rfl) (fun c t x c' t' hh => by cases hh; rfl) n hh)
    (nJobs.getD (cs.length : ℤ)) h2 fun c hc => ((newChains_new h1).2 c hc).1.2
  refine ⟨cs', t', ?_, h5⟩
  have h6 : inversionRun vanillaSampler (vanillaRun p.cfg ⟨some (nJobs.getD (cs.length : ℤ)), fun _ j => ts.getD j []⟩ vanillaSampler n b s)
      ⟨cs, w, 0⟩ ts.flatten = (.ok evs, ⟨cs', w, 1⟩, t') := by
    unfold inversionRun vanillaRun SamplerDef.advanceChain
    exact (act_bind_of rfl).trans ((act_bind_of h4).trans rfl)
  unfold Problem.sample
  rw [h3 (by simp)]
  dsimp only
  rw [List.nil_append, h6]

/-- The chains of a run by simulated annealing. -/
theorem sampled_annealing (hp : ∀ kv ∈ p.spaces, SpacePrefixed kv.2) {T0 : ℝ} (hT : 0 < T0) {k n : ℕ} {nJobs : Option ℤ} {b : ℕ} {s : ℤ}
    {w : E} {t : List Draw} {cs : List (Chain State Store E)} {ts : List (List Draw)}
    {f : Chain State Store E → Chain State Store E} {I : Chain State Store E → Prop}
    (ht : Tempers b s (annealing p.cfg T0 (Real.log T0 / b) b vanillaSampler).beginIteration
      (annealing p.cfg T0 (Real.log T0 / b) b vanillaSampler).endIteration f I) (h1 : p.newChains k w t = (.ok cs, []))
    (h2 : List.Forall₂ (fun c t => ∃ evs c', Chain.advance p.cfg b s (annealing p.cfg T0 (Real.log T0 / b) b vanillaSampler).beginIteration
      (annealing p.cfg T0 (Real.log T0 / b) b vanillaSampler).endIteration n c t = (.ok evs, c', []) ∧ Q c')
      (cs.map fun c => c.setTemp p.cfg T0) ts) :
    ∃ cs' t', p.annealedSample T0 k nJobs (fun _ j => ts.getD j []) n b s w (t ++ ts.flatten) = (.ok cs', t') ∧
      List.Forall₂ (fun c c' => ∃ t evs, Chain.advance p.cfg b s (annealing p.cfg T0 (Real.log T0 / b) b vanillaSampler).beginIteration
        (annealing p.cfg T0 (Real.log T0 / b) b vanillaSampler).endIteration n c t = (.ok evs, c', []) ∧ Q c')
        (cs.map fun c => c.setTemp p.cfg T0) cs' := by
  have h3 := newChains_prefixed hp k w t ts.flatten
  rw [h1] at h3
  obtain ⟨evs, cs', t', h4, h5⟩ := each_ran
    (adv := Chain.advance p.cfg b s (annealing p.cfg T0 (Real.log T0 / b) b vanillaSampler).beginIteration
      (annealing p.cfg T0 (Real.log T0 / b) b vanillaSampler).endIteration n)
    (advance_prefixed (perturbs_prefixed hp) b s (quiet_prefixed ht.begins) (quiet_prefixed (f := id) ht.ends) n)
    (fun c t a c' t' hh => tempers_world ht n hh)
    (nJobs.getD (cs.length : ℤ)) h2 fun c hc => by
      obtain ⟨c0, hc0, rfl⟩ := List.mem_map.1 hc
      exact ((newChains_new h1).2 c0 hc0).1.2
  refine ⟨cs', t', ?_, h5⟩
  have h6 : inversionRun (annealing p.cfg T0 (Real.log T0 / (b : ℤ)) b vanillaSampler)
      (saRun p.cfg ⟨some (nJobs.getD (cs.length : ℤ)), fun _ j => ts.getD j []⟩ vanillaSampler T0 n b s)
      ⟨cs, w, 0⟩ ts.flatten = (.ok evs, ⟨cs', w, 1⟩, t') := by
    unfold inversionRun saRun SamplerDef.advanceChain
    rw [if_neg fun hh => absurd hT (not_lt.2 hh.2)]
    refine (act_bind_of (c' := ⟨cs.map fun c => c.setTemp p.cfg T0, w, 0⟩) (t' := ts.flatten) (x := ()) rfl).trans ((act_bind_of ?_).trans rfl)
    rw [← h4]
    rfl
  unfold Problem.annealedSample
  rw [h3 (by simp)]
  dsimp only
  rw [List.nil_append, h6]

/-! ### the results of the programs -/

/-- `get_results()` after a run. -/
noncomputable def thenResults (sample : (ℕ → ℕ → List Draw) → M (List (Chain State Store E))) (work : ℕ → ℕ → List Draw) :
    M (Results SVal) := fun t =>
  open Classical in
  match sample work t with
  | (.error e, t) => (.error e, t)
  | (.ok cs, t) => (getResults (fun _ => .int 0) (fun _ => true) (fun _ => .error .typeError)
      (.list (cs.map fun c => some (.dict c.saved))) .all true, t)

theorem outcome (hp : ∀ kv ∈ p.spaces, SpacePrefixed kv.2) (ht : Tempers b s beginIt endIt f I) {k n : ℕ} (hk : 0 < k) {w : E}
    {init : Chain State Store E → Chain State Store E} {sample : (ℕ → ℕ → List Draw) → M (List (Chain State Store E))}
    (hsaved : ∀ c, (init c).saved = c.saved)
    (hrun : ∀ t cs ts, p.newChains k w t = (.ok cs, []) → List.Forall₂ (fun c t => ∃ evs c',
      Chain.advance p.cfg b s beginIt endIt n c t = (.ok evs, c', []) ∧ Q c') (cs.map init) ts →
      ∃ cs' t', sample (fun _ j => ts.getD j []) (t ++ ts.flatten) = (.ok cs', t') ∧
        List.Forall₂ (fun c c' => ∃ t evs, Chain.advance p.cfg b s beginIt endIt n c t = (.ok evs, c', []) ∧ Q c') (cs.map init) cs')
    {P : List State → Prop}
    (hP : ∀ c t evs c', c.saved = [] → c.total = 0 → c.temp = 1 → Chain.advance p.cfg b s beginIt endIt n (init c) t = (.ok evs, c', []) → Q c' →
      ∃ sts, SavesStates p [] c'.saved sts ∧ P sts)
    {R : List (String × List (BB.Entry SVal)) → Prop}
    (hR : ∀ (stss : List (List State)) res, stss.length = k → (∀ sts ∈ stss, P sts) → ResultsOf p res stss.flatten → R res) :
    newChainLaw p S w (fun c => HookedLaw p.cfg b s beginIt endIt (wholeDraws p fun i => (S i).block) (wholeLaw p fun i => (S i).block)
      Q n (init c)) ^ k ≤ runMean p S init beginIt endIt b s k n w (returns (thenResults sample) R) := by
  refine run_bound hp (quiet_prefixed ht.begins) (quiet_prefixed (f := id) ht.ends) fun t cs ts h1 h2 => ?_
  obtain ⟨cs', t', h3, h4⟩ := hrun t cs ts h1 h2
  obtain ⟨hlen, hnew⟩ := newChains_new h1
  rw [List.forall₂_map_left_iff] at h4
  have h5 : List.Forall₂ (fun c c' => ∃ sts, SavesStates p [] c'.saved sts ∧ P sts) cs cs' := by
    refine (List.forall₂_and_left _ _).2 ⟨fun c hc => hnew c hc, h4⟩ |>.imp ?_
    rintro c c' ⟨⟨⟨g1, -⟩, g2, g3⟩, t, evs, g4, g5⟩
    exact hP c t evs c' g1 g2 g3 g4 g5
  have h6 : ∀ c ∈ cs', (dkeys c.saved).Nodup := by
    have : List.Forall₂ (fun _ c' => (dkeys c'.saved).Nodup) cs cs' := by
      refine (List.forall₂_and_left _ _).2 ⟨fun c hc => hnew c hc, h4⟩ |>.imp ?_
      rintro c c' ⟨⟨⟨g1, -⟩, g2, g3⟩, t, evs, g4, g5⟩
      refine hooked_nodup (tempers_begin ht) (tempers_end ht) g4 ?_
      rw [hsaved, g1]
      exact List.nodup_nil
    clear h1 h2 h3 h4 h5 hlen hnew
    induction this with
    | nil => intro c hc; cases hc
    | cons g1 _ ih =>
      intro c hc
      rcases List.mem_cons.1 hc with rfl | hc
      · exact g1
      · exact ih c hc
  obtain ⟨stss, h7⟩ := forall₂_choose (P := fun (c' : Chain State Store E) sts => SavesStates p [] c'.saved sts ∧ P sts)
    (fun c c' hh => hh) h5
  have hne : cs' ≠ [] := by
    rintro rfl
    have := h4.length_eq
    rw [hlen] at this
    exact hk.ne' this
  obtain ⟨res, h8, h9⟩ := results_of p hne h6 (h7.imp fun _ _ hh => hh.1)
  have hPs : ∀ sts ∈ stss, P sts := by
    clear h1 h2 h3 h4 h5 h6 h8 h9 hne hlen hnew
    induction h7 with
    | nil => intro c hc; cases hc
    | cons g1 _ ih =>
      intro c hc
      rcases List.mem_cons.1 hc with rfl | hc
      · exact g1.2
      · exact ih c hc
  unfold returns
  rw [if_pos]
  refine ⟨res, t', ?_, hR stss res ?_ hPs h9⟩
  · unfold thenResults
    rw [h3]
    dsimp only
    rw [h8]
  · rw [← h7.length_eq, ← h4.length_eq, hlen]

/-- The functions of the default sampler. -/
theorem tempers_skip (b s : ℤ) : Tempers (E := E) b s Act.skip Act.skip id fun c => c.temp = 1 where
  begins := fun _ _ => rfl
  ends := fun _ _ => rfl
  saved := fun _ => rfl
  total := fun _ => rfl
  saveNow := fun _ => rfl
  world := fun _ => rfl
  due := fun _ h _ => h
  flag := fun _ _ h => h
  step := fun c c' h _ h2 => h2.trans h

/-- Those of simulated annealing. -/
theorem tempers_cools {T0 rate : ℝ} {b : ℕ} {s : ℤ} (h : Cools p T0 rate b beginIt endIt) :
    Tempers b s beginIt endIt (cooled p T0 rate b) fun c => b < c.total → c.temp = 1 where
  begins := h.begins
  ends := h.ends
  saved := fun c => by unfold cooled; split_ifs <;> rfl
  total := fun c => by unfold cooled; split_ifs <;> rfl
  saveNow := fun c => by unfold cooled; split_ifs <;> rfl
  world := fun c => by unfold cooled; split_ifs <;> rfl
  due := fun c hI hd => by
    have h1 : (b : ℤ) < ((c.total + 1 : ℕ) : ℤ) := hd.1
    unfold cooled
    rw [if_neg (by push_cast at h1; omega)]
    split_ifs with h2
    · rfl
    · exact hI (by push_cast at h1; omega)
  flag := fun _ _ h => h
  step := fun c c' hI h1 h2 h3 => by
    rw [h2]
    unfold cooled
    rw [if_neg (by omega)]
    split_ifs with h4
    · rfl
    · exact hI (by omega)

theorem runs_hooked {b s : ℤ} {Q : Chain State Store E → Prop} {B : ℕ → Block} : ∀ (n : ℕ) (c : Chain State Store E),
    RunsLaw p.cfg b s (wholeDraws p B) (wholeLaw p B) Q n c = HookedLaw p.cfg b s Act.skip Act.skip (wholeDraws p B) (wholeLaw p B) Q n c
  | 0, c => rfl
  | n + 1, c => by
    rw [RunsLaw, HookedLaw]
    refine lintegral_congr fun ω => ?_
    rcases Chain.iteration p.cfg b s Act.skip Act.skip c (iterationDraws p.cfg (wholeDraws p B) c.cur ω) with ⟨e | ev, c', _ | ⟨d, t'⟩⟩
    · rfl
    · rfl
    · exact runs_hooked n c'
    · rfl

theorem iterations_hooked {b s : ℤ} {B : ℕ → Block} {X : Type} (val : State → X) : ∀ (n : ℕ) (c : Chain State Store E),
    IterationsLaw p.cfg b s (wholeDraws p B) (wholeLaw p B) val n c Set.univ =
      HookedLaw p.cfg b s Act.skip Act.skip (wholeDraws p B) (wholeLaw p B) (fun _ => True) n c
  | 0, c => by
    rw [IterationsLaw, HookedLaw, if_pos trivial, Set.indicator_univ]
    rfl
  | n + 1, c => by
    rw [IterationsLaw, HookedLaw]
    refine lintegral_congr fun ω => ?_
    rcases Chain.iteration p.cfg b s Act.skip Act.skip c (iterationDraws p.cfg (wholeDraws p B) c.cur ω) with ⟨e | ev, c', _ | ⟨d, t'⟩⟩
    · rfl
    · rfl
    · exact iterations_hooked val n c'
    · rfl

/-! ### probabilities -/

theorem iterationsMean_le {b s : ℤ} {beginIt endIt : Act (Chain State Store E) Unit} {B : ℕ → Block} (hl : IsProbabilityMeasure (wholeLaw p B)) :
    ∀ (n : ℕ) (c : Chain State Store E) (F : List Draw → ENNReal), (∀ t, F t ≤ 1) →
    iterationsMean p.cfg b s beginIt endIt (wholeDraws p B) (wholeLaw p B) n c F ≤ 1
  | 0, c, F, h => h []
  | n + 1, c, F, h => by
    rw [iterationsMean]
    refine (lintegral_mono (g := fun _ => 1) fun ω => ?_).trans (le_of_eq (by rw [lintegral_one, measure_univ]))
    dsimp only
    split
    · exact iterationsMean_le hl n _ _ fun t => h _
    · exact zero_le

theorem chainsMean_le {b s : ℤ} {beginIt endIt : Act (Chain State Store E) Unit} {B : ℕ → Block} (hl : IsProbabilityMeasure (wholeLaw p B))
    (n : ℕ) : ∀ (cs : List (Chain State Store E)) (F : List (List Draw) → ENNReal), (∀ ts, F ts ≤ 1) →
    chainsMean p.cfg b s beginIt endIt (wholeDraws p B) (wholeLaw p B) n cs F ≤ 1
  | [], F, h => h []
  | c :: cs, F, h => iterationsMean_le hl n c _ fun t => chainsMean_le hl n cs _ fun ts => h _

theorem startsMean_le (hl : IsProbabilityMeasure (Measure.pi fun i : Fin p.cfg.perturbs.length => (S i).draws)) :
    ∀ (k : ℕ) (F : List Draw → ENNReal), (∀ t, F t ≤ 1) → startsMean p S k F ≤ 1
  | 0, F, h => h []
  | k + 1, F, h => by
    rw [startsMean]
    exact (lintegral_mono (g := fun _ => 1) fun θ => startsMean_le hl k _ fun t => h _).trans (le_of_eq (by rw [lintegral_one, measure_univ]))

theorem runMean_le {logLik : Whole p (fun i => (S i).block) → ℝ} (h : AnyProblem p (fun i => (S i).block) logLik) (hS : AllStart p S)
    {b s : ℤ} {beginIt endIt : Act (Chain State Store E) Unit} {init : Chain State Store E → Chain State Store E} {k n : ℕ} {w : E}
    {run : (ℕ → ℕ → List Draw) → M (Results SVal)} {R : List (String × List (BB.Entry SVal)) → Prop} :
    runMean p S init beginIt endIt b s k n w (returns run R) ≤ 1 := by
  obtain ⟨-, -, hq, -⟩ := whole_start h hS
  have hl : IsProbabilityMeasure (wholeLaw p fun i => (S i).block) := by
    obtain ⟨-, -, -, -, -, -, -, -, hl⟩ := cooled_kernel h one_ne_zero 0 0
    exact hl
  refine startsMean_le hq k _ fun t => ?_
  split
  · refine chainsMean_le hl n _ _ fun ts => ?_
    unfold returns
    split_ifs
    · exact le_rfl
    · exact zero_le
  · exact zero_le

end

/-- Bernoulli's inequality for probabilities. -/
theorem power_bound {x : ENNReal} {k : ℕ} (hk : 0 < k) {ε : ℝ} (hε : 0 < ε) (hx : 1 - ENNReal.ofReal (min ε 1 / k) ≤ x) :
    1 - ENNReal.ofReal ε ≤ x ^ k := by
  have hk' : (1 : ℝ) ≤ k := by exact_mod_cast hk
  set δ := min ε 1 / k with hδ
  have hδ0 : 0 ≤ δ := by positivity
  have hδ1 : δ ≤ 1 := (div_le_one (by positivity)).2 ((min_le_right _ _).trans hk')
  have h1 : 1 - ENNReal.ofReal δ = ENNReal.ofReal (1 - δ) := by
    rw [ENNReal.ofReal_sub _ hδ0, ENNReal.ofReal_one]
  refine le_trans ?_ (pow_le_pow_left' hx k)
  rw [h1, ← ENNReal.ofReal_pow (by linarith), ← ENNReal.ofReal_one, ← ENNReal.ofReal_sub _ hε.le]
  refine ENNReal.ofReal_le_ofReal ?_
  have h2 := one_add_mul_le_pow (a := -δ) (by linarith) k
  have h3 : (k : ℝ) * δ ≤ ε := by
    rw [hδ, mul_div_cancel₀ _ (by positivity)]
    exact min_le_left _ _
  calc 1 - ε ≤ 1 + k * -δ := by linarith
    _ ≤ (1 + -δ) ^ k := h2
    _ = (1 - δ) ^ k := by rw [← sub_eq_add_neg]

/-- The average over the samples of all chains. -/
theorem average_pooled {p : Problem} {B : ℕ → Block} {f : Whole p B → ℝ} {m δ : ℝ} {stss : List (List State)} (hne : stss ≠ [])
    (h : ∀ sts ∈ stss, sts ≠ [] ∧ |averageModel p B f sts - m| ≤ δ) : stss.flatten ≠ [] ∧ |averageModel p B f stss.flatten - m| ≤ δ := by
  have key : ∀ sts : List State, sts ≠ [] → (|averageModel p B f sts - m| ≤ δ ↔
      |(sts.map fun st => f (wholeOf p B st.params) - m).sum| ≤ δ * sts.length) := by
    intro sts hs
    have h0 : (0 : ℝ) < sts.length := by exact_mod_cast List.length_pos_iff.2 hs
    have e : ∀ l : List State, (l.map fun st => f (wholeOf p B st.params) - m).sum =
        (l.map fun st => f (wholeOf p B st.params)).sum - m * l.length := by
      intro l
      induction l with
      | nil => simp
      | cons a l ih => simp only [List.map_cons, List.sum_cons, ih, List.length_cons]; push_cast; ring
    rw [e, averageModel, ← div_le_iff₀ h0, ← abs_of_pos h0, ← abs_div, abs_of_pos h0, sub_div, mul_div_cancel_right₀ _ h0.ne']
  have hsum : ∀ l : List (List State), (∀ sts ∈ l, |(sts.map fun st => f (wholeOf p B st.params) - m).sum| ≤ δ * sts.length) →
      |(l.flatten.map fun st => f (wholeOf p B st.params) - m).sum| ≤ δ * l.flatten.length := by
    intro l
    induction l with
    | nil => intro _; simp
    | cons a l ih =>
      intro hl
      rw [List.flatten_cons, List.map_append, List.sum_append, List.length_append, Nat.cast_add, mul_add]
      exact (abs_add_le _ _).trans (add_le_add (hl _ (List.mem_cons_self ..)) (ih fun x hx => hl x (List.mem_cons_of_mem _ hx)))
  have hfl : stss.flatten ≠ [] := by
    obtain ⟨a, l, rfl⟩ := List.exists_cons_of_ne_nil hne
    intro h0
    rw [List.flatten_cons, List.append_eq_nil_iff] at h0
    exact (h a (List.mem_cons_self ..)).1 h0.1
  exact ⟨hfl, (key _ hfl).2 (hsum stss fun sts hs => (key sts (h sts hs).1).1 (h sts hs).2)⟩

end BB.Lemmas
