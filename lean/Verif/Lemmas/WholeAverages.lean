import Verif.Lemmas.WholeRoam
import Verif.Lemmas.PathSteps
import Verif.Lemmas.PlainSamples
import Verif.Spec.Samples

/-!
# Averages over the samples of whole inversions
-/

namespace BB.Lemmas

open BB Spec Props MeasureTheory ProbabilityTheory

variable {E : Type} {p : Problem} {B : ℕ → Block} {logLik : Whole p B → ℝ}

open Classical in
/-- An iteration of a chain together with the states that it has saved. -/
noncomputable def recStep (p : Problem) (B : ℕ → Block) (b s : ℤ) (c : Chain State Store E × List State)
    (ω : ℝ × (∀ i : Fin p.cfg.perturbs.length, ℝ × (B i).Θ) × ℝ) : Option (Chain State Store E × List State) :=
  (wholeStep p B b s c.1 ω).map fun c' => (c', if Due b s (c.1.total + 1) then c.2 ++ [c'.cur] else c.2)

theorem runs_steps {b s : ℤ} (Q : Chain State Store E → Prop) : ∀ n (c : Chain State Store E × List State),
    stepsTo (unit.prod ((wholeLaw p B).prod unit)) (recStep p B b s) (fun c => Q c.1) n c =
      RunsLaw p.cfg b s (wholeDraws p B) (wholeLaw p B) Q n c.1
  | 0, c => rfl
  | n + 1, c => by
    unfold stepsTo RunsLaw
    refine lintegral_congr fun ω => ?_
    unfold recStep wholeStep
    match Chain.iteration p.cfg b s Act.skip Act.skip c.1 (iterationDraws p.cfg (wholeDraws p B) c.1.cur ω) with
    | (.ok _, c', []) => exact runs_steps Q n _
    | (.ok _, c', _ :: _) => rfl
    | (.error _, c', _) => rfl

theorem rec_follows {b s : ℤ} {r : Whole p B → Whole p B → Prop} {K : Whole p B → Measure (Whole p B)} {ok : Chain State Store E → Prop}
    {G : Set (Whole p B)} (h : Follows (unit.prod ((wholeLaw p B).prod unit)) (wholeStep (E := E) p B b s)
      (fun c => wholeOf p B c.cur.params) r K ok G) :
    Follows (unit.prod ((wholeLaw p B).prod unit)) (recStep (E := E) p B b s) (fun c => wholeOf p B c.1.cur.params) r K (fun c => ok c.1) G := by
  constructor
  · intro c hc hG A hA hAr
    rw [← h.law c.1 hc hG A hA hAr]
    congr 1
    ext ω
    constructor
    · rintro ⟨c', e, hx⟩
      obtain ⟨c'', e', rfl⟩ := Option.map_eq_some_iff.1 e
      exact ⟨c'', e', hx⟩
    · rintro ⟨c', e, hx⟩
      exact ⟨_, Option.map_eq_some_iff.2 ⟨c', e, rfl⟩, hx⟩
  · intro c hc hG
    filter_upwards [h.again c.1 hc hG] with ω hω
    obtain ⟨c', e, hx⟩ := hω
    exact ⟨_, Option.map_eq_some_iff.2 ⟨c', e, rfl⟩, hx⟩

/-- What an iteration does to the store. -/
theorem step_saves {b s : ℤ} {c c' : Chain State Store E} (htemp : c.temp = 1) {ω : ℝ × (∀ i : Fin p.cfg.perturbs.length, ℝ × (B i).Θ) × ℝ}
    (h : wholeStep p B b s c ω = some c') : c'.total = c.total + 1 ∧
      (Due b s (c.total + 1) → ∀ k, savedUnder k c'.saved = savedUnder k c.saved ++
        contribution (some (p.spaces.map fun kv => (kv.1, kv.2.info.transD))) p.saveDpred k c'.cur) ∧
      (¬ Due b s (c.total + 1) → c'.saved = c.saved) := by
  unfold wholeStep at h
  split at h
  · rename_i ev c'' heq
    injection h with h
    subst h
    obtain ⟨d1, d2, d3, t3, t4, b1, b2, b3, b4⟩ := (iteration_ok _).1 heq
    have e1 := ((setFlag_ok).1 b1).2.2
    have e2 : d1 = d2 := (Prod.mk.inj (Prod.mk.inj b2).2).1
    have e4 : d3 = c'' := (Prod.mk.inj (Prod.mk.inj b4).2).1
    have e3 := next_effect _ b3
    subst e2 e4
    have hsave := e3.saved
    have hnow : d1.saveNow = true ↔ Due b s (c.total + 1) := by
      rw [e1]
      simp only [decide_eq_true_eq]
      unfold Due
      push_cast
      exact Iff.rfl
    have ht1 : d1.temp = 1 := by rw [e1]; exact htemp
    have hs1 : d1.saved = c.saved := by rw [e1]
    refine ⟨by rw [e3.total, e1], fun hd k => ?_, fun hd => ?_⟩
    · rw [if_pos ⟨hnow.2 hd, ht1⟩, hs1, ← e3.cur] at hsave
      exact saveState_ok _ _ _ _ _ hsave k
    · rw [if_neg (fun hc => hd (hnow.1 hc.1)), hs1] at hsave
      exact hsave
  · cases h

open Classical in
theorem ticks_due (b s : ℤ) : ∀ n t, ticks (fun i => if Due b s i then 1 else 0) t n = dueW b s t n
  | 0, _ => rfl
  | n + 1, t => by
    unfold ticks dueW
    rw [ticks_due b s n]

/-- Either the sum is close to zero or it is far. -/
noncomputable def near (c : ℝ) (s : ℝ) : ENNReal := {s : ℝ | |s| ≤ c}.indicator 1 s

theorem near_meas (c : ℝ) : Measurable (near c) :=
  measurable_one.indicator (measurableSet_le (by fun_prop) measurable_const)

theorem near_far (c s : ℝ) : near c s + far c s = 1 := by
  unfold near far
  by_cases h : |s| ≤ c
  · have h1 : s ∈ {s : ℝ | |s| ≤ c} := h
    have h2 : s ∉ {s : ℝ | c < |s|} := not_lt.2 h
    rw [Set.indicator_of_mem h1, Set.indicator_of_notMem h2]
    simp
  · have h1 : s ∉ {s : ℝ | |s| ≤ c} := h
    have h2 : s ∈ {s : ℝ | c < |s|} := not_le.1 h
    rw [Set.indicator_of_notMem h1, Set.indicator_of_mem h2]
    simp

theorem pathE_add {X : Type} [MeasurableSpace X] {K : Kernel X X} [IsMarkovKernel K] {f : X → ℝ} (hf : Measurable f) {g g' : ℝ → ENNReal}
    (hg : Measurable g) : ∀ w x s,
    Ker.pathE K f (fun s => g s + g' s) w x s = Ker.pathE K f g w x s + Ker.pathE K f g' w x s
  | [], _, _ => rfl
  | a :: w, x, s => by
    change ∫⁻ y, Ker.pathE K f (fun s => g s + g' s) w y _ ∂K x = ∫⁻ y, Ker.pathE K f g w y _ ∂K x + ∫⁻ y, Ker.pathE K f g' w y _ ∂K x
    rw [← lintegral_add_left (pathE_step hf hg w a s)]
    exact lintegral_congr fun y => pathE_add hf hg w y _

/-- What is known of a chain and of the states it has saved since its store was `base`. -/
structure Recorded (p : Problem) (B : ℕ → Block) (b s : ℤ) (τ : ℕ) (base : Store) (c : Chain State Store E × List State) : Prop where
  late : τ ≤ c.1.total
  saves : SavesStates p base c.1.saved c.2
  holds : ∀ st ∈ c.2, HoldsAll p B st.params
  many : (c.2.length : ℝ) = (dueW b s (τ + 1) (c.1.total - τ)).sum

theorem recorded_step {b s : ℤ} {τ : ℕ} {base : Store} {c c' : Chain State Store E × List State} (hc : Ready p B 1 c.1)
    (hc' : Ready p B 1 c'.1) (h : Recorded p B b s τ base c) {ω : ℝ × (∀ i : Fin p.cfg.perturbs.length, ℝ × (B i).Θ) × ℝ}
    (hs : recStep p B b s c ω = some c') : Recorded p B b s τ base c' := by
  classical
  obtain ⟨d, e, rfl⟩ := Option.map_eq_some_iff.1 hs
  obtain ⟨h1, h2, h3⟩ := step_saves hc.temp e
  have hlen : d.total - τ = (c.1.total - τ) + 1 := by
    have := h.late
    omega
  have hsum : (dueW b s (τ + 1) (d.total - τ)).sum =
      (dueW b s (τ + 1) (c.1.total - τ)).sum + if Due b s (c.1.total + 1) then 1 else 0 := by
    rw [hlen, dueW_add, List.sum_append]
    have e1 : τ + 1 + (c.1.total - τ) = c.1.total + 1 := by
      have := h.late
      omega
    rw [e1]
    simp [dueW]
  refine ⟨by change τ ≤ d.total; have := h.late; omega, ?_, ?_, ?_⟩
  · intro k
    change savedUnder k d.saved = _
    by_cases hd : Due b s (c.1.total + 1)
    · rw [h2 hd k, h.saves k]
      simp only [if_pos hd, List.flatMap_append, List.flatMap_cons, List.flatMap_nil, List.append_nil, List.append_assoc]
    · rw [h3 hd, h.saves k]
      simp only [if_neg hd]
  · intro st hst
    by_cases hd : Due b s (c.1.total + 1)
    · simp only [if_pos hd] at hst
      rcases List.mem_append.1 hst with hst | hst
      · exact h.holds st hst
      · rw [List.mem_singleton] at hst
        rw [hst]
        exact hc'.holds
    · simp only [if_neg hd] at hst
      exact h.holds st hst
  · change ((if Due b s (c.1.total + 1) then c.2 ++ [d.cur] else c.2).length : ℝ) = (dueW b s (τ + 1) (d.total - τ)).sum
    rw [hsum, ← h.many]
    by_cases hd : Due b s (c.1.total + 1)
    · simp [if_pos hd]
    · simp [if_neg hd]

/-- The sum of a function over the saved states. -/
noncomputable def sumModel (p : Problem) (B : ℕ → Block) (f : Whole p B → ℝ) (sts : List State) : ℝ :=
  (sts.map fun st => f (wholeOf p B st.params)).sum

theorem sum_shift (f : Whole p B → ℝ) (m : ℝ) : ∀ sts : List State,
    sumModel p B (fun x => f x - m) sts = sumModel p B f sts - sts.length * m
  | [] => by simp [sumModel]
  | st :: sts => by
    have ih := sum_shift f m sts
    unfold sumModel at ih ⊢
    simp only [List.map_cons, List.sum_cons, List.length_cons, ih]
    push_cast
    ring

theorem runs_mono {S σ E Θ : Type} [MeasurableSpace Θ] {cfg : ChainCfg S σ} {b s : ℤ} {enc : Fin cfg.perturbs.length → S → Θ → List Draw}
    {draws : Measure Θ} {Q Q' : Chain S σ E → Prop} (h : ∀ c, Q c → Q' c) : ∀ n c,
    RunsLaw cfg b s enc draws Q n c ≤ RunsLaw cfg b s enc draws Q' n c
  | 0, c => by
    unfold RunsLaw
    by_cases hq : Q c
    · rw [if_pos hq, if_pos (h c hq)]
    · rw [if_neg hq]
      exact zero_le
  | n + 1, c => by
    unfold RunsLaw
    refine lintegral_mono fun ω => ?_
    dsimp only
    match Chain.iteration cfg b s Act.skip Act.skip c (iterationDraws cfg enc c.cur ω) with
    | (.ok _, c', []) => exact runs_mono h n c'
    | (.ok _, c', _ :: _) => exact le_rfl
    | (.error _, c', _) => exact le_rfl

/-- The probability that the saved states have a sum that is near to the expected one. -/
theorem runs_near (h : AnyProblem p B logLik) (hpn : PlainNames p) {b s : ℤ} (hs : s ≠ 0)
    (R : ∀ i : Fin p.cfg.perturbs.length, Realization p.tf p.cfg.perturbs[i].2 (B i)) {K : Kernel (Whole p B) (Whole p B)}
    [IsMarkovKernel K] (hKe : (K : Whole p B → Measure (Whole p B)) =
      mixTrans (fun i => (R i).L.moves) (fun i => (R i).L.w) logLik 1 (chance p.cfg))
    {f : Whole p B → ℝ} (hf : Measurable f) (hfr : ∀ x y, SameWhole x y → f x = f y) (m : ℝ) {r : ℝ} (n : ℕ)
    (c : Chain State Store E) (hc : Ready p B 1 c) (hv : wholeOf p B c.cur.params ∈ within K (wholeFine R) n) :
    Ker.pathE K (fun x => f x - m) (near r) (dueW b s (c.total + 1) n) (wholeOf p B c.cur.params) 0 ≤
      RunsLaw p.cfg b s (wholeDraws p B) (wholeLaw p B) (fun c' => ∃ sts, SavesStates p c.saved c'.saved sts ∧
        (∀ st ∈ sts, HoldsAll p B st.params) ∧ (sts.length : ℝ) = (dueW b s (c.total + 1) n).sum ∧
        |sumModel p B f sts - sts.length * m| ≤ r) n c := by
  classical
  obtain ⟨hK, hprob, halike, hGm, hGr, hdr⟩ := whole_kernel h one_ne_zero R
  rw [← hKe] at halike
  have hF := rec_follows (whole_follows (E := E) (b := b) h hpn one_ne_zero hs R)
  rw [← hKe] at hF
  have hm : Measurable fun x => f x - m := hf.sub_const m
  have H := path_le (f := fun x => f x - m) (g := near r) hF halike hGm hGr hm
    (fun x y hxy => by rw [hfr x y hxy]) (near_meas r)
    (obs := fun d => sumModel p B (fun x => f x - m) d.2) (tick := fun d => d.1.total)
    (wt := fun i => if Due b s i then 1 else 0)
    (Inv := Recorded p B b s c.total c.saved)
    (Q := fun d => ∃ sts, SavesStates p c.saved d.1.saved sts ∧ (∀ st ∈ sts, HoldsAll p B st.params) ∧
      (sts.length : ℝ) = (dueW b s (c.total + 1) n).sum ∧ |sumModel p B f sts - sts.length * m| ≤ r)
    (N := c.total + n) ?_ ?_ n (c, []) hc hv ?_ rfl
  · rw [ticks_due] at H
    exact H.trans (le_of_eq (runs_steps (p := p) (B := B) (b := b) (s := s) (fun d : Chain State Store E => ∃ sts,
      SavesStates p c.saved d.saved sts ∧ (∀ st ∈ sts, HoldsAll p B st.params) ∧
      (sts.length : ℝ) = (dueW b s (c.total + 1) n).sum ∧ |sumModel p B f sts - sts.length * m| ≤ r) n (c, [])))
  · intro d ω d' hd hd' hI hst
    refine ⟨recorded_step hd hd' hI hst, ?_⟩
    obtain ⟨e, he, rfl⟩ := Option.map_eq_some_iff.1 hst
    refine ⟨(step_saves hd.temp he).1, ?_⟩
    change sumModel p B _ (if Due b s (d.1.total + 1) then d.2 ++ [e.cur] else d.2) = _
    by_cases hdue : Due b s (d.1.total + 1)
    · simp [if_pos hdue, sumModel]
    · simp [if_neg hdue]
  · intro d hd hI ht hne
    have hin : |sumModel p B (fun x => f x - m) d.2| ≤ r := by
      by_contra hcon
      exact hne (Set.indicator_of_notMem (show _ ∉ {s : ℝ | |s| ≤ r} from hcon) _)
    refine ⟨?_, d.2, hI.saves, hI.holds, ?_, ?_⟩
    · exact le_of_le_of_eq (le_add_of_nonneg_right zero_le) (near_far r _)
    · rw [hI.many, ht, Nat.add_sub_cancel_left]
    · rw [← sum_shift]
      exact hin
  · refine ⟨le_rfl, fun k => by simp, fun st hst => (List.not_mem_nil hst).elim, ?_⟩
    simp [dueW]

/-- The averages over the saved states approach the means of what is sampled: a bound of their law, on a set of models. -/
theorem whole_averaging_on (h : InversionOf p B Roaming logLik) (hpn : PlainNames p) {b s : ℤ} (hs : s ≠ 0) (τ : ℕ)
    (hfin : posterior (wholePrior p B) logLik 1 Set.univ ≠ ⊤) (μ : Measure (Whole p B)) [IsProbabilityMeasure μ]
    (hμ : μ ≪ wholePrior p B) {f : Whole p B → ℝ} (hf : Bdd f) (hfr : ∀ x y, SameWhole x y → f x = f y)
    {ε δ : ℝ} (hε : 0 < ε) (hδ : 0 < δ) :
    ∃ n₀, ∀ n ≥ n₀, ∃ (g : Whole p B → ENNReal) (W : Set (Whole p B)), Measurable g ∧ (∀ x y, SameWhole x y → g x = g y) ∧
      1 - ENNReal.ofReal ε ≤ ∫⁻ x, g x ∂μ ∧ (MeasurableSet W ∧ Invariant SameWhole W ∧ ∀ᵐ x ∂wholePrior p B, x ∈ W) ∧
      ∀ c : Chain State Store E, Ready p B 1 c → wholeOf p B c.cur.params ∈ W → c.total = τ →
      g (wholeOf p B c.cur.params) ≤ RunsLaw p.cfg b s (wholeDraws p B) (wholeLaw p B) (fun c' => ∃ sts, SavesStates p c.saved c'.saved sts ∧
        (∀ st ∈ sts, HoldsAll p B st.params) ∧ sts ≠ [] ∧
        |averageModel p B f sts - meanOf (wholeSampled p B logLik 1) f| ≤ δ) n c := by
  choose R hR hroam using whole_roamed h
  have hw : WholeProblem p B logLik := inversion_mono (fun _ _ => roaming_modelled) h
  have ha := any_of_whole hw
  have hfinite := sampled_finite hw hfin
  have hok : ∀ i, (R i).L.Ok := fun i => (R i).ok
  have hfi : ∀ i, IsFiniteMeasure (R i).L.moves.prior := fun i => (hok i).finite
  have H := whole_chained ha one_ne_zero R
  have hsum := chance_sum H.len H.nonneg H.sum
  obtain ⟨hK, hprob, halike, hGm, hGr, hdr⟩ := whole_kernel ha one_ne_zero R
  have hpi := whole_prior ha R hR
  unfold wholeSampled
  set π := posterior ((wholePrior p B).withDensity fun x => ENNReal.ofReal (wholeStaying p B x)) logLik 1 with hπdef
  set K := mixKernel (p := fun i => (R i).L.moves) (w := fun i => (R i).L.w) (fun i => (R i).L.moves.prior) (fun i => (hok i).ok)
    (fun i => rfl) h.meas 1 (chance p.cfg) with hKdef
  have hMk : IsMarkovKernel K := ⟨hprob⟩
  have hirr : Ker.Irred π K := by
    rw [hπdef, ← hpi]
    exact mix_irred (fun i => (R i).L.moves.prior) (fun i => (hok i).ok) (fun i => rfl) (fun i => (hok i).w_nonneg) h.meas
      (chance_ne ha) hroam
  have hrev : Ker.Revers π K := by
    rw [hπdef, ← hpi]
    exact mix_revers (fun i => (R i).L.moves.prior) (fun i => (hok i).ok) (fun i => rfl) (fun i => (hok i).w_nonneg)
      (fun i => (hok i).w_sum) h.meas hsum
  have hac := prior_sampled ha 1
  have hne : π ≠ 0 := fun hc => wholePrior_ne ha (Measure.absolutelyContinuous_zero_iff.1 (hc ▸ hac))
  have hpres := mixTrans_preserves (fun i => (R i).L.moves.prior) (p := fun i => (R i).L.moves) (w := fun i => (R i).L.w)
    (a := chance p.cfg) (T := 1) (fun i => (hok i).ok) (fun i => rfl) (fun i => (hok i).w_nonneg) (fun i => (hok i).w_sum) h.meas hsum
  rw [hpi] at hpres
  have hsp : Spares (wholePrior p B) (mixTrans (fun i => (R i).L.moves) (fun i => (R i).L.w) logLik 1 (chance p.cfg)) := by
    intro N hN h0
    exact hac.ae_le (spares_of_bind hK hpres N hN (posterior_sampled (logLik := logLik) 1 h0))
  have hbi : ∀ i : Fin p.cfg.perturbs.length, IsFiniteMeasure (B i).prior := fun i => (whole_regular ha i).finite
  have hae : ∀ᵐ x ∂wholePrior p B, x ∈ wholeFine R :=
    ae_all_iff.2 fun i => (Measure.quasiMeasurePreserving_eval (fun i : Fin p.cfg.perturbs.length => (B i).prior) i).ae (R i).fine
  set m := meanOf π f with hm
  have hmass : (π Set.univ).toReal ≠ 0 :=
    (ENNReal.toReal_pos (fun hc => hne (Measure.measure_univ_eq_zero.1 hc)) (measure_ne_top _ _)).ne'
  have hb0 : Bdd fun x => f x - m := by
    obtain ⟨hfm, C, hC⟩ := hf
    exact ⟨hfm.sub_const m, C + |m|, fun x => (abs_sub _ _).trans (add_le_add_left (hC x) _)⟩
  have hmean : ∫ x, (f x - m) ∂π = 0 := by
    rw [integral_sub (hf.integrable _) (integrable_const m), integral_const, smul_eq_mul, measureReal_def, hm]
    unfold meanOf
    rw [mul_div_cancel₀ _ hmass, sub_self]
  obtain ⟨W, hW, hlln⟩ := Ker.path_lln hrev hirr hb0 hne hmean μ (hμ.trans hac) hε hδ
  obtain ⟨k, hk⟩ := exists_nat_ge W
  obtain ⟨n₀, h₀⟩ := dueW_many (b := b) hs k (τ + 1)
  refine ⟨n₀, fun n hn => ?_⟩
  set w := dueW b s (τ + 1) n with hwdef
  have hwW : W ≤ w.sum := hk.trans (h₀ n hn)
  have hw0 : 0 < w.sum := hW.trans_le hwW
  have hfar := hlln w dueW_mem hwW
  have hone : ∀ x, Ker.pathE K (fun x => f x - m) (near (δ * w.sum)) w x 0 + Ker.pathE K (fun x => f x - m) (far (δ * w.sum)) w x 0 = 1 := by
    intro x
    rw [← pathE_add hb0.1 (near_meas _)]
    have e : (fun s => near (δ * w.sum) s + far (δ * w.sum) s) = fun _ => 1 := funext fun s => near_far _ s
    rw [e]
    exact Ker.pathE_one w x 0
  have hnm : Measurable fun x => Ker.pathE K (fun x => f x - m) (near (δ * w.sum)) w x 0 :=
    (pathE_measK hb0.1 (near_meas _) w).comp (measurable_id.prodMk measurable_const)
  have htot : ∫⁻ x, Ker.pathE K (fun x => f x - m) (near (δ * w.sum)) w x 0 ∂μ +
      ∫⁻ x, Ker.pathE K (fun x => f x - m) (far (δ * w.sum)) w x 0 ∂μ = 1 := by
    rw [← lintegral_add_left hnm, lintegral_congr hone, lintegral_one, measure_univ]
  have hnear : 1 - ENNReal.ofReal ε ≤ ∫⁻ x, Ker.pathE K (fun x => f x - m) (near (δ * w.sum)) w x 0 ∂μ := by
    rw [tsub_le_iff_right, ← htot]
    exact add_le_add_right hfar _
  have hal : Alike (SameWhole : Whole p B → Whole p B → Prop) K := halike
  refine ⟨_, within K (wholeFine R) n, hnm, pathE_alike hal hb0.1 (fun x y hxy => by rw [hfr x y hxy]) (near_meas _) w 0, hnear,
    ⟨within_meas hK hGm n, within_invariant halike hK hGm hGr n, within_ae hK hsp hGm hae n⟩, fun c h3 h1 hτ => ?_⟩
  rw [hwdef, ← hτ]
  refine (runs_near ha hpn hs R (K := K) rfl hf.1 hfr m n c h3 h1).trans (runs_mono ?_ n c)
  rintro c' ⟨sts, g1, g2, g3, g4⟩
  rw [hτ, ← hwdef] at g3 g4
  have hpos : (0 : ℝ) < sts.length := g3 ▸ hw0
  refine ⟨sts, g1, g2, fun hnil => by simp [hnil] at hpos, ?_⟩
  have e : averageModel p B f sts - m = (sumModel p B f sts - sts.length * m) / sts.length := by
    unfold averageModel sumModel
    field_simp
  rw [e, abs_div, abs_of_pos hpos, div_le_iff₀ hpos, g3]
  rw [g3] at g4
  exact g4

/-- The averages over the saved states approach the means of what is sampled: a bound of their law. -/
theorem whole_averaging (h : InversionOf p B Roaming logLik) (hpn : PlainNames p) {b s : ℤ} (hs : s ≠ 0) (τ : ℕ)
    (hfin : posterior (wholePrior p B) logLik 1 Set.univ ≠ ⊤) (μ : Measure (Whole p B)) [IsProbabilityMeasure μ]
    (hμ : μ ≪ wholePrior p B) {f : Whole p B → ℝ} (hf : Bdd f) (hfr : ∀ x y, SameWhole x y → f x = f y)
    {ε δ : ℝ} (hε : 0 < ε) (hδ : 0 < δ) :
    ∃ n₀, ∀ n ≥ n₀, ∃ g : Whole p B → ENNReal, Measurable g ∧ 1 - ENNReal.ofReal ε ≤ ∫⁻ x, g x ∂μ ∧
      ∀ᵐ x ∂wholePrior p B, ∀ c : Chain State Store E, Ready p B 1 c → SameWhole x (wholeOf p B c.cur.params) → c.total = τ →
      g x ≤ RunsLaw p.cfg b s (wholeDraws p B) (wholeLaw p B) (fun c' => ∃ sts, SavesStates p c.saved c'.saved sts ∧
        (∀ st ∈ sts, HoldsAll p B st.params) ∧ sts ≠ [] ∧
        |averageModel p B f sts - meanOf (wholeSampled p B logLik 1) f| ≤ δ) n c := by
  obtain ⟨n₀, h₀⟩ := whole_averaging_on (E := E) (b := b) (s := s) h hpn hs τ hfin μ hμ hf hfr hε hδ
  refine ⟨n₀, fun n hn => ?_⟩
  obtain ⟨g, W, h1, h2, h3, h4, h5⟩ := h₀ n hn
  refine ⟨g, h1, h3, ?_⟩
  filter_upwards [h4.2.2] with x hx c hc hr hτ
  rw [h2 _ _ hr]
  exact h5 c hc ((h4.2.1 _ _ hr).1 hx) hτ

/-- The averages over the saved states approach the means of what is sampled. -/
theorem whole_averages (h : InversionOf p B Roaming logLik) (hpn : PlainNames p) {b s : ℤ} (hs : s ≠ 0)
    (state : Whole p B → Chain State Store E)
    (hstate : ∀ x, PossibleWhole x → Ready p B 1 (state x) ∧ SameWhole x (wholeOf p B (state x).cur.params))
    (τ : ℕ) (hτ : ∀ x, PossibleWhole x → (state x).total = τ)
    (hfin : posterior (wholePrior p B) logLik 1 Set.univ ≠ ⊤) (μ : Measure (Whole p B)) [IsProbabilityMeasure μ]
    (hμ : μ ≪ wholePrior p B) {f : Whole p B → ℝ} (hf : Bdd f) (hfr : ∀ x y, SameWhole x y → f x = f y)
    {ε δ : ℝ} (hε : 0 < ε) (hδ : 0 < δ) :
    ∃ n₀, ∀ n ≥ n₀, 1 - ENNReal.ofReal ε ≤
      ∫⁻ x, RunsLaw p.cfg b s (wholeDraws p B) (wholeLaw p B) (fun c' => ∃ sts, SavesStates p (state x).saved c'.saved sts ∧
        (∀ st ∈ sts, HoldsAll p B st.params) ∧ sts ≠ [] ∧
        |averageModel p B f sts - meanOf (wholeSampled p B logLik 1) f| ≤ δ) n (state x) ∂μ := by
  have ha := any_of_whole (inversion_mono (fun _ _ => roaming_modelled) h)
  obtain ⟨n₀, h₀⟩ := whole_averaging (E := E) (b := b) (s := s) h hpn hs τ hfin μ hμ hf hfr hε hδ
  refine ⟨n₀, fun n hn => ?_⟩
  obtain ⟨g, -, h1, h2⟩ := h₀ n hn
  refine h1.trans (lintegral_mono_ae (hμ.ae_le ?_))
  filter_upwards [h2, whole_possible_prior ha] with x hx hp
  exact hx _ (hstate x hp).1 (hstate x hp).2 (hτ x hp)

end BB.Lemmas
