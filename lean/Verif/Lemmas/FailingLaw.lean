import Verif.Lemmas.FailingWhole

/-!
# The law of the iterations of whole inversions whose forward functions fail
-/

namespace BB.Lemmas

open BB Spec Props MeasureTheory ProbabilityTheory

/-- A geometric sum. -/
theorem geometric_sum {f : ENNReal} (hf : f ≤ 1) : ∀ n, (∑ j ∈ Finset.range n, f ^ j) * (1 - f) + f ^ n = 1
  | 0 => by simp
  | n + 1 => by
    have e : f ^ n * (1 - f) + f ^ (n + 1) = f ^ n := by
      rw [pow_succ, ← mul_add, tsub_add_cancel_of_le hf, mul_one]
    rw [Finset.sum_range_succ, add_mul, add_assoc, e, geometric_sum hf n]

theorem geometric_pos (f : ENNReal) : (∑ j ∈ Finset.range 500, f ^ j) ≠ 0 := by
  rw [Finset.sum_range_succ']
  simp

theorem geometric_top {f : ENNReal} (hf : f ≤ 1) : (∑ j ∈ Finset.range 500, f ^ j) ≠ ⊤ :=
  (ENNReal.sum_lt_top.2 fun j _ => ENNReal.pow_lt_top (hf.trans_lt ENNReal.one_lt_top)).ne

section

variable {X : Type} [MeasurableSpace X] {r : X → X → Prop} {ρ : Measure X} {S P : X → Set X → ENNReal} {f : X → ENNReal}

/-- If the transitions `S` are in balance with a distribution but may fail, more often outside `L` than in `L`, then transitions made
anew until they succeed do not preserve the distribution. -/
theorem flow_unequal [IsFiniteMeasure ρ] (hbal : DetailedBalanceUpTo r ρ S) (hf : AEMeasurable f ρ) (hf1 : ∀ᵐ x ∂ρ, f x ≤ 1)
    (hPm : ∀ A, MeasurableSet A → Invariant r A → AEMeasurable (fun x => P x A) ρ)
    (hP : ∀ᵐ x ∂ρ, ∀ A, MeasurableSet A → Invariant r A → (1 - f x) * P x A = S x A)
    (hPadd : ∀ᵐ x ∂ρ, ∀ A, MeasurableSet A → Invariant r A → P x A + P x Aᶜ = P x Set.univ)
    (hPone : ∀ᵐ x ∂ρ, P x Set.univ ≤ 1) (hPlt : ∀ᵐ x ∂ρ, f x < 1 → P x Set.univ = 1)
    {L : Set X} (hL : MeasurableSet L) (hLr : Invariant r L) {t : ENNReal} (ht : t ≤ 1) (hin : ∀ᵐ x ∂ρ, x ∈ L → f x < t)
    (hout : ∀ᵐ x ∂ρ, x ∉ L → t ≤ f x) (hflow : ∫⁻ x in L, P x Lᶜ ∂ρ ≠ 0) : ¬ PreservesUpTo r ρ P := by
  intro hpr
  have hLc : Invariant r Lᶜ := fun x y hxy => not_congr (hLr x y hxy)
  have hPL : ∀ᵐ x ∂ρ, P x L ≤ 1 := by
    filter_upwards [hPadd, hPone] with x h1 h2
    exact (le_self_add.trans_eq (h1 L hL hLr)).trans h2
  have hPLc : ∀ᵐ x ∂ρ, P x Lᶜ ≤ 1 := by
    filter_upwards [hPadd, hPone] with x h1 h2
    exact (le_add_self.trans_eq (h1 L hL hLr)).trans h2
  -- what leaves `L` enters it
  have e1 : ∫⁻ x in L, P x L ∂ρ + ∫⁻ x in L, P x Lᶜ ∂ρ = ρ L := by
    rw [← lintegral_add_left' (hPm L hL hLr).restrict]
    calc ∫⁻ x in L, (P x L + P x Lᶜ) ∂ρ = ∫⁻ x in L, 1 ∂ρ := by
          refine lintegral_congr_ae ?_
          filter_upwards [ae_restrict_of_ae hPadd, ae_restrict_of_ae hPlt, ae_restrict_of_ae hin, ae_restrict_mem hL] with x h1 h2 h3 h4
          rw [h1 L hL hLr, h2 ((h3 h4).trans_le ht)]
      _ = ρ L := by rw [setLIntegral_one]
  have e2 : ∫⁻ x in L, P x L ∂ρ + ∫⁻ x in Lᶜ, P x L ∂ρ = ρ L := by
    rw [lintegral_add_compl _ hL]
    exact hpr L hL hLr
  have hfin : ∫⁻ x in L, P x L ∂ρ ≠ ⊤ := ne_top_of_le_ne_top (measure_ne_top ρ L) (le_self_add.trans_eq e1)
  have e3 : ∫⁻ x in L, P x Lᶜ ∂ρ = ∫⁻ x in Lᶜ, P x L ∂ρ := by
    rw [← e2] at e1
    exact (ENNReal.add_right_inj hfin).1 e1
  -- the flows
  have hg : AEMeasurable (fun x => (t - f x) * P x Lᶜ) (ρ.restrict L) :=
    ((aemeasurable_const.sub hf).mul (hPm _ hL.compl hLc)).restrict
  have e4 : ∫⁻ x in L, S x Lᶜ ∂ρ = (1 - t) * ∫⁻ x in L, P x Lᶜ ∂ρ + ∫⁻ x in L, (t - f x) * P x Lᶜ ∂ρ := by
    rw [← lintegral_const_mul'' _ (hPm _ hL.compl hLc).restrict, ← lintegral_add_right' _ hg]
    refine lintegral_congr_ae ?_
    filter_upwards [ae_restrict_of_ae hP, ae_restrict_of_ae hin, ae_restrict_mem hL] with x h1 h2 h3
    rw [← h1 _ hL.compl hLc, ← add_mul, tsub_add_tsub_cancel ht (h2 h3).le]
  have e5 : ∫⁻ x in Lᶜ, S x L ∂ρ ≤ (1 - t) * ∫⁻ x in Lᶜ, P x L ∂ρ := by
    rw [← lintegral_const_mul'' _ (hPm _ hL hLr).restrict]
    refine lintegral_mono_ae ?_
    filter_upwards [ae_restrict_of_ae hP, ae_restrict_of_ae hout, ae_restrict_mem hL.compl] with x h1 h2 h3
    rw [← h1 _ hL hLr]
    exact mul_le_mul_left (tsub_le_tsub_left (h2 h3) 1) _
  have e6 := hbal L Lᶜ hL hL.compl hLr hLc
  rw [e4] at e6
  rw [← e6, ← e3] at e5
  have hfl : (1 - t) * ∫⁻ x in L, P x Lᶜ ∂ρ ≠ ⊤ := by
    refine ENNReal.mul_ne_top (ne_top_of_le_ne_top ENNReal.one_ne_top tsub_le_self) ?_
    exact ne_top_of_le_ne_top (measure_ne_top ρ L) (le_add_self.trans_eq e1)
  have e7 : ∫⁻ x in L, (t - f x) * P x Lᶜ ∂ρ = 0 := by
    by_contra h0
    exact absurd e5 (not_le.2 (ENNReal.lt_add_right hfl h0))
  rw [lintegral_eq_zero_iff' hg] at e7
  refine hflow ?_
  rw [lintegral_eq_zero_iff' (hPm _ hL.compl hLc).restrict]
  filter_upwards [e7, ae_restrict_of_ae hin, ae_restrict_mem hL] with x h1 h2 h3
  rcases mul_eq_zero.1 h1 with h | h
  · exact absurd (tsub_eq_zero_iff_le.1 h) (not_le.2 (h2 h3))
  · exact h

end

variable {p : Problem} {B : ℕ → Block} {F : Set (Whole p B)} {logLik : Whole p B → ℝ} {E : Type}

/-- The transitions of the attempts, if the log likelihood is `M` where it fails. -/
noncomputable def failK (R : ∀ i : Fin p.cfg.perturbs.length, Realization p.tf p.cfg.perturbs[i].2 (B i)) (F : Set (Whole p B))
    (logLik : Whole p B → ℝ) (T : ℝ) (M : ℕ) : Whole p B → Measure (Whole p B) :=
  mixTrans (fun i => (R i).L.moves) (fun i => (R i).L.w) (extended F logLik M) T (chance p.cfg)

theorem failing_kernel (h : FailingInversion p B Explored F logLik) {T : ℝ} (hT : T ≠ 0)
    (R : ∀ i : Fin p.cfg.perturbs.length, Realization p.tf p.cfg.perturbs[i].2 (B i)) :
    (∀ M, Measurable (failK R F logLik T M)) ∧ (∀ M x, IsProbabilityMeasure (failK R F logLik T M x)) ∧
    (∀ M, Alike (SameWhole : Whole p B → Whole p B → Prop) (failK R F logLik T M)) ∧ Invariant SameWhole (wholeFine R) ∧
    IsProbabilityMeasure (wholeLaw p B) := by
  have hv : ∀ M, AnyProblem (virt p B (extended F logLik M)) B (extended F logLik M) := fun M =>
    virt_inversion h (extended_meas h M) (extended_lumps h M)
  have k : ∀ M, _ := fun M => whole_kernel (p := virt p B (extended F logLik M)) (hv M) hT R
  exact ⟨fun M => (k M).1, fun M => (k M).2.1, fun M => (k M).2.2.1, (k 0).2.2.2.2.1, (k 0).2.2.2.2.2⟩

/-- The law of an iteration. -/
theorem completed_law (h : FailingInversion p B Explored F logLik) (hpn : PlainNames p) {T : ℝ} (hT : 0 < T)
    (R : ∀ i : Fin p.cfg.perturbs.length, Realization p.tf p.cfg.perturbs[i].2 (B i)) {c : Chain State Store E}
    (hc : Ready p B T c) (hf : wholeOf p B c.cur.params ∈ wholeFine R) (hF : wholeOf p B c.cur.params ∉ F) :
    FailureProb p.cfg (wholeDraws p B) (wholeLaw p B) c = failing (failK R F logLik T) F (wholeOf p B c.cur.params) ∧
    ∀ A, MeasurableSet A → Invariant SameWhole A →
      CompletedLaw p.cfg (wholeDraws p B) (wholeLaw p B) (fun s => wholeOf p B s.params) c A =
        (∑ j ∈ Finset.range 500, failing (failK R F logLik T) F (wholeOf p B c.cur.params) ^ j) *
          succeeding (failK R F logLik T) F (wholeOf p B c.cur.params) A := by
  obtain ⟨-, -, -, -, hpr⟩ := failing_kernel h hT.ne' R
  have H := whole_retries (E := E) h hpn hT R
  have hd : ∀ c : Chain State Store E, (Ready p B T c ∧ wholeOf p B c.cur.params ∈ wholeFine R ∧ wholeOf p B c.cur.params ∉ F) →
      ∀ᵐ ω ∂unit.prod ((wholeLaw p B).prod unit), ∃ c', (tried p.cfg (wholeDraws p B) c ω = .failed c' ∧
        (Ready p B T c' ∧ wholeOf p B c'.cur.params ∈ wholeFine R ∧ wholeOf p B c'.cur.params ∉ F) ∧
        ∀ rest, Chain.attempt p.cfg c ((iterationDraws p.cfg (wholeDraws p B) c.cur ω).dropLast ++ rest) = (.ok none, c', rest)) ∨
      tried p.cfg (wholeDraws p B) c ω = .done c' := by
    intro c hc
    obtain ⟨V, -, hω⟩ := H.values c hc
    filter_upwards [hω, whole_proposals h hT.ne' R hc.1 hc.2.1] with ω h1 h2
    obtain ⟨i, name, f, e, new, lpr, g1, -⟩ := h2
    rcases h1 with ⟨c', h1, h3, -⟩ | ⟨c', h1, -⟩
    · obtain ⟨d, h4⟩ := tried_failed h1
      exact ⟨c', .inl ⟨h1, h3, attempt_none g1 h4⟩⟩
    · exact ⟨c', .inr h1⟩
  constructor
  · rw [failure_link ((hd c ⟨hc, hf, hF⟩).mono fun ω ⟨c', h'⟩ => ⟨c', h'.imp_left fun g => g.1⟩)]
    exact (retries_law H h.fails_meas h.fails_lumps .univ (fun _ _ _ => Iff.rfl) ⟨hc, hf, hF⟩).1.2
  · intro A hA hAr
    unfold CompletedLaw
    rw [retry_link hd c 500 c [] ⟨hc, hf, hF⟩ fun rest => rfl]
    exact retries_geometric H h.fails_meas h.fails_lumps hA hAr 500 ⟨hc, hf, hF⟩

theorem succeeding_univ (h : FailingInversion p B Explored F logLik) {T : ℝ} (hT : T ≠ 0)
    (R : ∀ i : Fin p.cfg.perturbs.length, Realization p.tf p.cfg.perturbs[i].2 (B i)) (x : Whole p B) :
    succeeding (failK R F logLik T) F x Set.univ = 1 - failing (failK R F logLik T) F x := by
  obtain ⟨-, hp, -⟩ := failing_kernel h hT R
  have := hp 0 x
  unfold succeeding excess
  rw [Set.indicator_of_mem (Set.mem_univ x), ← Set.compl_eq_univ_diff, prob_compl_eq_one_sub h.fails_meas,
    tsub_tsub_tsub_cancel_right]
  exact le_iSup (fun M => failK R F logLik T M x F) 0

theorem failing_mono {Known Known' : Space → Block → Prop} (hK : ∀ sp b, Known sp b → Known' sp b)
    (h : FailingInversion p B Known F logLik) : FailingInversion p B Known' F logLik where
  exist := h.exist
  spaces := fun i nm sp hi => ⟨(h.spaces i nm sp hi).1, hK _ _ (h.spaces i nm sp hi).2⟩
  noise := h.noise
  distinct := h.distinct
  targets := h.targets
  bounds := h.bounds
  likelihood := h.likelihood
  meas := h.meas
  lumps := h.lumps
  fails_meas := h.fails_meas
  fails_lumps := h.fails_lumps

/-- Where the likelihood does not fail, the posterior is that of `logLik`. -/
theorem posterior_extended (hF : MeasurableSet F) (μ : Measure (Whole p B)) (T : ℝ) (M : ℕ) :
    (posterior μ (extended F logLik M) T).restrict Fᶜ = (posterior μ logLik T).restrict Fᶜ := by
  unfold posterior
  rw [restrict_withDensity hF.compl, restrict_withDensity hF.compl]
  refine withDensity_congr_ae ?_
  filter_upwards [ae_restrict_mem hF.compl] with x hx
  rw [show extended F logLik M x = logLik x from if_neg hx]

/-- The law of the iterations from given models. -/
structure LawOf (p : Problem) (B : ℕ → Block) (ρ : Measure (Whole p B)) (state : Whole p B → Chain State Store E)
    (f : Whole p B → ENNReal) (S : Whole p B → Set (Whole p B) → ENNReal) : Prop where
  meas : Measurable f
  le : ∀ x, f x ≤ 1
  smeas : ∀ A, MeasurableSet A → Measurable fun x => S x A
  balance : DetailedBalanceUpTo SameWhole ρ S
  univ : ∀ x, S x Set.univ = 1 - f x
  add : ∀ᵐ x ∂ρ, ∀ A, MeasurableSet A → Invariant SameWhole A → S x A + S x Aᶜ = S x Set.univ
  fails : ∀ᵐ x ∂ρ, FailureProb p.cfg (wholeDraws p B) (wholeLaw p B) (state x) = f x
  completes : ∀ᵐ x ∂ρ, ∀ A, MeasurableSet A → Invariant SameWhole A →
    CompletedLaw p.cfg (wholeDraws p B) (wholeLaw p B) (fun s => wholeOf p B s.params) (state x) A =
      (∑ j ∈ Finset.range 500, f x ^ j) * S x A

theorem failing_state (h : FailingInversion p B Modelled F logLik) (hpn : PlainNames p) {T : ℝ} (hT : 0 < T)
    (state : Whole p B → Chain State Store E)
    (hstate : ∀ x, PossibleWhole x → x ∉ F → Ready p B T (state x) ∧ SameWhole x (wholeOf p B (state x).cur.params)) :
    ∃ f S, LawOf p B ((posterior ((wholePrior p B).withDensity fun x => ENNReal.ofReal (wholeStaying p B x)) logLik T).restrict Fᶜ)
      state f S ∧ (F = ∅ → ∀ x, f x = 0) := by
  have ha : FailingInversion p B Explored F logLik := failing_mono (fun _ _ h => .known h) h
  have hw : WholeProblem (virt p B (extended F logLik 0)) B (extended F logLik 0) :=
    virt_inversion h (extended_meas h 0) (extended_lumps h 0)
  have R' : ∀ i : Fin p.cfg.perturbs.length, ∃ R : Realization p.tf p.cfg.perturbs[i].2 (B i), R.L.moves.prior = (B i).sampled :=
    whole_balanced (p := virt p B (extended F logLik 0)) hw
  choose R hR using R'
  obtain ⟨hK, hprob, halike, hGr, -⟩ := failing_kernel ha hT.ne' R
  have hok : ∀ i, (R i).L.Ok := fun i => (R i).ok
  have hfinp : ∀ i, IsFiniteMeasure (R i).L.moves.prior := fun i => (hok i).finite
  have hreg : ∀ i : Fin p.cfg.perturbs.length, Regular (B i) := whole_regular (p := virt p B (extended F logLik 0)) (any_of_whole hw)
  have hfi : ∀ i : Fin p.cfg.perturbs.length, IsFiniteMeasure (B i).prior := fun i => (hreg i).finite
  have hpi : (Measure.pi fun i => (R i).L.moves.prior) = (wholePrior p B).withDensity fun x => ENNReal.ofReal (wholeStaying p B x) :=
    whole_prior (p := virt p B (extended F logLik 0)) (any_of_whole hw) R hR
  have hfine : ∀ᵐ x ∂wholePrior p B, x ∈ wholeFine R :=
    ae_all_iff.2 fun i => (Measure.quasiMeasurePreserving_eval (fun i : Fin p.cfg.perturbs.length => (B i).prior) i).ae (R i).fine
  set ρ := (posterior ((wholePrior p B).withDensity fun x => ENNReal.ofReal (wholeStaying p B x)) logLik T).restrict Fᶜ with hρ
  have hac : ρ ≪ wholePrior p B := Measure.restrict_le_self.absolutelyContinuous.trans
    ((withDensity_absolutelyContinuous _ _).trans (withDensity_absolutelyContinuous _ _))
  have hbal0 : DetailedBalanceUpTo SameWhole
      (posterior ((wholePrior p B).withDensity fun x => ENNReal.ofReal (wholeStaying p B x)) (extended F logLik 0) T)
      fun x A => failK R F logLik T 0 x A := by
    have H := whole_chained (p := virt p B (extended F logLik 0)) (any_of_whole hw) hT.ne' R
    rw [← hpi]
    exact (mixture_balance (fun i => (R i).L.moves.prior) (p := fun i => (R i).L.moves) (w := fun i => (R i).L.w) (fun i => (hok i).ok)
      (fun i => rfl) (fun i => (hok i).w_nonneg) (fun i => (hok i).w_sum) (extended_meas h 0) T (chance p.cfg)
      (chance_sum H.len H.nonneg H.sum) SameWhole _ (Filter.Eventually.of_forall fun x A hA _ =>
        mixTrans_apply (fun i => (hok i).ok) (extended_meas h 0) x hA)).1
  have hgood : ∀ᵐ x ∂ρ, Ready p B T (state x) ∧ SameWhole x (wholeOf p B (state x).cur.params) ∧
      wholeOf p B (state x).cur.params ∈ wholeFine R ∧ wholeOf p B (state x).cur.params ∉ F := by
    filter_upwards [hac.ae_le hfine, ae_restrict_mem h.fails_meas.compl] with x h1 h2
    have h3 : PossibleWhole x := fun i => by
      rw [← (R i).possible]
      exact (h1 i).1
    obtain ⟨g1, g2⟩ := hstate x h3 h2
    exact ⟨g1, g2, (hGr _ _ g2).1 h1, fun h4 => h2 ((h.fails_lumps _ _ g2).2 h4)⟩
  have hadd : ∀ᵐ x ∂ρ, ∀ A, MeasurableSet A → Invariant SameWhole A →
      succeeding (failK R F logLik T) F x A + A.indicator (excess (failK R F logLik T) F) x = failK R F logLik T 0 x (A \ F) := by
    filter_upwards [hgood] with x ⟨h1, h2, h3, h4⟩ A hA hAr
    obtain ⟨-, -, -, -, hpr⟩ := failing_kernel ha hT.ne' R
    have := (retries_law (whole_retries (E := E) ha hpn hT R) h.fails_meas h.fails_lumps hA hAr (c := state x) ⟨h1, h3, h4⟩).2.2.2
    have e1 := succeeding_alike halike h.fails_meas h.fails_lumps h2 hA hAr
    have e2 := halike 0 x _ h2 (A \ F) (hA.diff h.fails_meas) fun a b hab => and_congr (hAr a b hab) (not_congr (h.fails_lumps a b hab))
    have e3 : A.indicator (excess (failK R F logLik T) F) x =
        A.indicator (excess (failK R F logLik T) F) (wholeOf p B (state x).cur.params) := by
      by_cases hx : x ∈ A
      · rw [Set.indicator_of_mem hx, Set.indicator_of_mem ((hAr _ _ h2).1 hx), excess_alike halike h.fails_meas h.fails_lumps h2]
      · rw [Set.indicator_of_notMem hx, Set.indicator_of_notMem fun hy => hx ((hAr _ _ h2).2 hy)]
    rw [e1, e2, e3]
    exact this
  have hKm : ∀ M D, MeasurableSet D → Measurable fun x => failK R F logLik T M x D := fun M D hD =>
    Measure.measurable_measure.1 (hK M) D hD
  have hex : ∀ x, excess (failK R F logLik T) F x ≠ ⊤ := fun x =>
    ne_top_of_le_ne_top ENNReal.one_ne_top (tsub_le_self.trans (failing_le hprob x))
  refine ⟨failing (failK R F logLik T) F, succeeding (failK R F logLik T) F, ⟨failing_meas hK h.fails_meas, failing_le hprob,
    fun A hA => ?_, ?_, succeeding_univ ha hT.ne' R, ?_, ?_, ?_⟩, fun h0 x => ?_⟩
  · exact (hKm 0 _ (hA.diff h.fails_meas)).sub (((failing_meas hK h.fails_meas).sub (hKm 0 _ h.fails_meas)).indicator hA)
  · rw [hρ, ← posterior_extended h.fails_meas _ T 0]
    refine succeeding_balance hK hprob h.fails_meas h.fails_lumps hbal0 ?_
    rw [posterior_extended h.fails_meas]
    exact hadd
  · filter_upwards [hadd] with x hx A hA hAr
    have hAc : Invariant SameWhole Aᶜ := fun a b hab => not_congr (hAr a b hab)
    have e1 := hx A hA hAr
    have e2 := hx Aᶜ hA.compl hAc
    have e3 := hx Set.univ .univ fun _ _ _ => Iff.rfl
    have e4 : failK R F logLik T 0 x (A \ F) + failK R F logLik T 0 x (Aᶜ \ F) = failK R F logLik T 0 x (Set.univ \ F) := by
      rw [← measure_union _ (hA.compl.diff h.fails_meas)]
      · congr 1
        ext y
        simp only [Set.mem_union, Set.mem_sdiff, Set.mem_compl_iff, Set.mem_univ, true_and]
        tauto
      · exact Set.disjoint_left.2 fun y hy hy' => hy'.1 hy.1
    rw [← e1, ← e2, ← e3, Set.indicator_of_mem (Set.mem_univ x)] at e4
    have e5 : A.indicator (excess (failK R F logLik T) F) x + Aᶜ.indicator (excess (failK R F logLik T) F) x =
        excess (failK R F logLik T) F x := by
      by_cases hx : x ∈ A
      · rw [Set.indicator_of_mem hx, Set.indicator_of_notMem (show x ∉ Aᶜ from fun hy => hy hx), add_zero]
      · rw [Set.indicator_of_notMem hx, Set.indicator_of_mem (show x ∈ Aᶜ from hx), zero_add]
    rw [add_add_add_comm, e5] at e4
    exact (ENNReal.add_left_inj (hex x)).1 e4
  · filter_upwards [hgood] with x ⟨h1, h2, h3, h4⟩
    rw [(completed_law ha hpn hT R h1 h3 h4).1]
    exact (failing_alike halike h.fails_meas h.fails_lumps h2).symm
  · filter_upwards [hgood] with x ⟨h1, h2, h3, h4⟩ A hA hAr
    rw [(completed_law ha hpn hT R h1 h3 h4).2 A hA hAr, failing_alike halike h.fails_meas h.fails_lumps h2,
      succeeding_alike halike h.fails_meas h.fails_lumps h2 hA hAr]
  · rw [h0]
    exact le_antisymm (iSup_le fun M => (measure_empty (μ := failK R _ logLik T M x)).le) zero_le

end BB.Lemmas
