import Verif.Lemmas.FailingLaw

/-!
# C89 — what is sampled when forward functions fail

When a forward function or the function of the user raises an exception at the proposed model, an iteration does not reject the
proposal: it makes another one, up to 500 times.  The iterations then do not preserve the posterior on the models where the likelihood
is defined: they preserve its product with the probability that a proposal made there does not fail.
-/

namespace BB.Props

open BB Spec Lemmas MeasureTheory

variable {E : Type} {p : Problem} {B : ℕ → Block} {F : Set (Whole p B)} {logLik : Whole p B → ℝ}

/-- What the iterations sample if nothing fails, where nothing fails. -/
noncomputable def undisturbed (p : Problem) (B : ℕ → Block) (F : Set (Whole p B)) (logLik : Whole p B → ℝ) (T : ℝ) :
    Measure (Whole p B) :=
  (posterior ((wholePrior p B).withDensity fun x => ENNReal.ofReal (wholeStaying p B x)) logLik T).restrict Fᶜ

theorem given_law {ρ : Measure (Whole p B)} {state : Whole p B → Chain State Store E} {f S} (H : LawOf p B ρ state f S) :
    ∀ᵐ x ∂ρ, ∀ A, MeasurableSet A → Invariant SameWhole A →
      GivenCompleted p.cfg (wholeDraws p B) (wholeLaw p B) (fun s => wholeOf p B s.params) (state x) A = S x A / (1 - f x) := by
  filter_upwards [H.completes] with x hx A hA hAr
  unfold GivenCompleted
  rw [hx A hA hAr, hx Set.univ .univ fun _ _ _ => Iff.rfl, H.univ x]
  exact ENNReal.mul_div_mul_left _ _ (geometric_pos _) (geometric_top (H.le x))

theorem given_rate {ρ : Measure (Whole p B)} {state : Whole p B → Chain State Store E} {f S} (H : LawOf p B ρ state f S) :
    ∀ᵐ x ∂ρ, ∀ A, MeasurableSet A → Invariant SameWhole A →
      (1 - f x) * GivenCompleted p.cfg (wholeDraws p B) (wholeLaw p B) (fun s => wholeOf p B s.params) (state x) A = S x A := by
  filter_upwards [given_law H, H.add] with x h1 h2 A hA hAr
  rw [h1 A hA hAr]
  refine ENNReal.mul_div_cancel' (fun h0 => ?_) fun ht => absurd ht (ne_top_of_le_ne_top ENNReal.one_ne_top tsub_le_self)
  have := h2 A hA hAr
  rw [H.univ, h0] at this
  exact (add_eq_zero.1 this).1

/-- Given that they are completed, the iterations satisfy detailed balance with respect to the product of what they sample if nothing
fails and the probability that an attempt of the iteration does not fail, and they preserve this distribution. -/
theorem C89_sampled (h : FailingInversion p B Modelled F logLik) (hpn : PlainNames p) {T : ℝ} (hT : 0 < T)
    (state : Whole p B → Chain State Store E)
    (hstate : ∀ x, PossibleWhole x → x ∉ F → Ready p B T (state x) ∧ SameWhole x (wholeOf p B (state x).cur.params)) :
    DetailedBalanceUpTo SameWhole
      ((undisturbed p B F logLik T).withDensity fun x => 1 - FailureProb p.cfg (wholeDraws p B) (wholeLaw p B) (state x))
      (fun x => GivenCompleted p.cfg (wholeDraws p B) (wholeLaw p B) (fun s => wholeOf p B s.params) (state x)) ∧
    PreservesUpTo SameWhole
      ((undisturbed p B F logLik T).withDensity fun x => 1 - FailureProb p.cfg (wholeDraws p B) (wholeLaw p B) (state x))
      (fun x => GivenCompleted p.cfg (wholeDraws p B) (wholeLaw p B) (fun s => wholeOf p B s.params) (state x)) := by
  obtain ⟨f, S, H, -⟩ := failing_state h hpn hT state hstate
  have e : (undisturbed p B F logLik T).withDensity (fun x => 1 - FailureProb p.cfg (wholeDraws p B) (wholeLaw p B) (state x)) =
      (undisturbed p B F logLik T).withDensity fun x => 1 - f x := withDensity_congr_ae (H.fails.mono fun x hx => congrArg (fun a => 1 - a) hx)
  rw [e]
  have hm : Measurable fun x => 1 - f x := measurable_const.sub H.meas
  have hbal := rates_balance H.balance (q := fun x => 1 - f x) hm.aemeasurable
    (Filter.Eventually.of_forall fun x => ne_top_of_le_ne_top ENNReal.one_ne_top tsub_le_self) (given_rate H)
  refine ⟨hbal, fun A hA hAr => ?_⟩
  have := hbal Set.univ A .univ hA (fun _ _ _ => Iff.rfl) hAr
  rw [Measure.restrict_univ] at this
  refine this.trans ?_
  have e2 : ∫⁻ x in A, GivenCompleted p.cfg (wholeDraws p B) (wholeLaw p B) (fun s => wholeOf p B s.params) (state x) Set.univ
      ∂(undisturbed p B F logLik T).withDensity (fun x => 1 - f x) = ∫⁻ x in A, (1 - f x) ∂undisturbed p B F logLik T := by
    rw [restrict_withDensity hA, lintegral_withDensity_eq_lintegral_mul_non_measurable _ hm
      (Filter.Eventually.of_forall fun x => tsub_le_self.trans_lt ENNReal.one_lt_top)]
    refine lintegral_congr_ae (ae_restrict_of_ae ?_)
    filter_upwards [given_rate H] with x hx
    rw [Pi.mul_apply, hx Set.univ .univ fun _ _ _ => Iff.rfl, H.univ]
  rw [withDensity_apply _ hA]
  exact e2

/-- An iteration is completed unless all of its 500 attempts fail; attempts fail independently. -/
theorem C89_completed (h : FailingInversion p B Modelled F logLik) (hpn : PlainNames p) {T : ℝ} (hT : 0 < T)
    (state : Whole p B → Chain State Store E)
    (hstate : ∀ x, PossibleWhole x → x ∉ F → Ready p B T (state x) ∧ SameWhole x (wholeOf p B (state x).cur.params)) :
    ∀ᵐ x ∂undisturbed p B F logLik T,
      CompletedLaw p.cfg (wholeDraws p B) (wholeLaw p B) (fun s => wholeOf p B s.params) (state x) Set.univ =
        1 - FailureProb p.cfg (wholeDraws p B) (wholeLaw p B) (state x) ^ 500 := by
  obtain ⟨f, S, H, -⟩ := failing_state h hpn hT state hstate
  filter_upwards [H.fails, H.completes] with x h1 h2
  rw [h1, h2 Set.univ .univ fun _ _ _ => Iff.rfl, H.univ]
  exact ENNReal.eq_sub_of_add_eq (ENNReal.pow_ne_top (ne_top_of_le_ne_top ENNReal.one_ne_top (H.le x))) (geometric_sum (H.le x) 500)

/-- Models where the likelihood is not defined are never reached. -/
theorem C89_outside (h : FailingInversion p B Modelled F logLik) (hpn : PlainNames p) {T : ℝ} (hT : 0 < T)
    (state : Whole p B → Chain State Store E)
    (hstate : ∀ x, PossibleWhole x → x ∉ F → Ready p B T (state x) ∧ SameWhole x (wholeOf p B (state x).cur.params)) :
    ∫⁻ x, CompletedLaw p.cfg (wholeDraws p B) (wholeLaw p B) (fun s => wholeOf p B s.params) (state x) F
      ∂undisturbed p B F logLik T = 0 := by
  obtain ⟨f, S, H, -⟩ := failing_state h hpn hT state hstate
  have e := H.balance Set.univ F .univ h.fails_meas (fun _ _ _ => Iff.rfl) h.fails_lumps
  have h0 : (undisturbed p B F logLik T).restrict F = 0 := by
    unfold undisturbed
    rw [Measure.restrict_restrict h.fails_meas, Set.inter_compl_self, Measure.restrict_empty]
  change ∫⁻ x in Set.univ, S x F ∂undisturbed p B F logLik T = ∫⁻ x in F, S x Set.univ ∂undisturbed p B F logLik T at e
  rw [h0, lintegral_zero_measure, Measure.restrict_univ, lintegral_eq_zero_iff (H.smeas F h.fails_meas)] at e
  rw [← lintegral_zero]
  refine lintegral_congr_ae ?_
  filter_upwards [e, H.completes] with x h1 h2
  rw [h2 F h.fails_meas h.fails_lumps, h1]
  exact mul_zero _

/-- If attempts fail with the same probability everywhere, the distribution is that of an inversion without failures. -/
theorem C89_constant (h : FailingInversion p B Modelled F logLik) (hpn : PlainNames p) {T : ℝ} (hT : 0 < T)
    (state : Whole p B → Chain State Store E)
    (hstate : ∀ x, PossibleWhole x → x ∉ F → Ready p B T (state x) ∧ SameWhole x (wholeOf p B (state x).cur.params))
    {t : ENNReal} (ht : t < 1)
    (hcon : ∀ᵐ x ∂undisturbed p B F logLik T, FailureProb p.cfg (wholeDraws p B) (wholeLaw p B) (state x) = t) :
    PreservesUpTo SameWhole (undisturbed p B F logLik T)
      (fun x => GivenCompleted p.cfg (wholeDraws p B) (wholeLaw p B) (fun s => wholeOf p B s.params) (state x)) := by
  intro A hA hAr
  have h1 := (C89_sampled h hpn hT state hstate).2 A hA hAr
  have e : (undisturbed p B F logLik T).withDensity (fun x => 1 - FailureProb p.cfg (wholeDraws p B) (wholeLaw p B) (state x)) =
      (1 - t) • undisturbed p B F logLik T := by
    rw [← withDensity_const]
    exact withDensity_congr_ae (hcon.mono fun x hx => congrArg (fun a => 1 - a) hx)
  rw [e, lintegral_smul_measure, Measure.smul_apply, smul_eq_mul, smul_eq_mul] at h1
  exact (ENNReal.mul_right_inj (tsub_pos_of_lt ht).ne' (ne_top_of_le_ne_top ENNReal.one_ne_top tsub_le_self)).1 h1

/-- If attempts fail more often outside a set than in it, and the iterations lead out of it, then they do not preserve the
distribution that the same inversion without failures preserves. -/
theorem failing_not_posterior (h : FailingInversion p B Modelled F logLik) (hpn : PlainNames p) {T : ℝ} (hT : 0 < T)
    (state : Whole p B → Chain State Store E)
    (hstate : ∀ x, PossibleWhole x → x ∉ F → Ready p B T (state x) ∧ SameWhole x (wholeOf p B (state x).cur.params))
    (hfin : undisturbed p B F logLik T Set.univ ≠ ⊤) {L : Set (Whole p B)} (hL : MeasurableSet L) (hLr : Invariant SameWhole L)
    {t : ENNReal} (ht : t ≤ 1)
    (hin : ∀ᵐ x ∂undisturbed p B F logLik T, x ∈ L → FailureProb p.cfg (wholeDraws p B) (wholeLaw p B) (state x) < t)
    (hout : ∀ᵐ x ∂undisturbed p B F logLik T, x ∉ L → t ≤ FailureProb p.cfg (wholeDraws p B) (wholeLaw p B) (state x))
    (hflow : ∫⁻ x in L, GivenCompleted p.cfg (wholeDraws p B) (wholeLaw p B) (fun s => wholeOf p B s.params) (state x) Lᶜ
      ∂undisturbed p B F logLik T ≠ 0) :
    ¬ PreservesUpTo SameWhole (undisturbed p B F logLik T)
      (fun x => GivenCompleted p.cfg (wholeDraws p B) (wholeLaw p B) (fun s => wholeOf p B s.params) (state x)) := by
  obtain ⟨f, S, H, -⟩ := failing_state h hpn hT state hstate
  have : IsFiniteMeasure (undisturbed p B F logLik T) := ⟨hfin.lt_top⟩
  have hu : ∀ᵐ x ∂undisturbed p B F logLik T, GivenCompleted p.cfg (wholeDraws p B) (wholeLaw p B) (fun s => wholeOf p B s.params)
      (state x) Set.univ = (1 - f x) / (1 - f x) := by
    filter_upwards [given_law H] with x hx
    rw [hx _ .univ fun _ _ _ => Iff.rfl, H.univ]
  refine flow_unequal (S := S) (f := f) H.balance H.meas.aemeasurable (Filter.Eventually.of_forall H.le) (fun A hA hAr => ?_)
    (given_rate H) ?_ ?_ ?_ hL hLr ht ?_ ?_ hflow
  · have hm : Measurable fun x => S x A / (1 - f x) := (H.smeas A hA).div (measurable_const.sub H.meas)
    refine hm.aemeasurable.congr ?_
    filter_upwards [given_law H] with x hx
    rw [hx A hA hAr]
  · filter_upwards [given_law H, H.add] with x h1 h2 A hA hAr
    rw [h1 A hA hAr, h1 Aᶜ hA.compl fun a b hab => not_congr (hAr a b hab), h1 Set.univ .univ fun _ _ _ => Iff.rfl, ← h2 A hA hAr,
      ENNReal.add_div]
  · filter_upwards [hu] with x hx
    rw [hx]
    exact ENNReal.div_self_le_one
  · filter_upwards [hu] with x hx hlt
    rw [hx, ENNReal.div_self (tsub_pos_of_lt hlt).ne' (ne_top_of_le_ne_top ENNReal.one_ne_top tsub_le_self)]
  · filter_upwards [H.fails, hin] with x h1 h2
    rwa [← h1]
  · filter_upwards [H.fails, hout] with x h1 h2
    rwa [← h1]

/-! ### three models, one of which fails

A `BaseBayesianInversion` over the models 0, 1 and 2.  One perturbation goes to the left (and stays at 0), the other one to the
right (and stays at 2); they have equal weights, and the proposals are symmetric.  The log likelihood is 0 at the models 0 and 1, and
raises an exception at the model 2. -/

section Three

/-- The chain. -/
noncomputable def cfg89 : ChainCfg ℕ Unit where
  perturbs := [("left", fun s => pure (s - 1, .fin 0)), ("right", fun s => pure (min (s + 1) 2, .fin 0))]
  weights := [1, 1]
  llr := fun a b _ => (if b = 2 then .error .userFunction else .ok (.fin 0), a, b)
  stats := fun _ => .ok []
  setTemp := fun s _ => s
  save := fun _ s => (.ok (), s)

/-- The perturbations use no draws. -/
def enc89 : Fin cfg89.perturbs.length → ℕ → Unit → List Draw := fun _ _ _ => []

/-- A chain at the models 0 or 1 that does not save. -/
structure At89 (c : Chain ℕ Unit Unit) : Prop where
  cur : c.cur ≤ 1
  flag : c.saveNow = false

theorem choose89 {u : ℝ} (h : 0 ≤ u ∧ u < 1) (t : List Draw) :
    choices cfg89.perturbs.length cfg89.weights (unitDraw u :: t) = (.ok (if u < 1 / 2 then 0 else 1), t) := by
  rw [unitDraw_eq h]
  have hw : ∀ w ∈ ([1, 1] : List ℝ), 0 ≤ w := by simp
  have hs : 0 < ([1, 1] : List ℝ).sum := by norm_num
  refine (choices_iff ([1, 1] : List ℝ) hw hs _ _ _ _).2 ⟨rfl, ?_, ?_⟩
  · split <;> simp
  · split
    · refine ⟨?_, ?_⟩
      · simp only [List.take_zero, List.sum_nil, List.sum_cons]
        nlinarith [h.1]
      · simp only [zero_add, List.take_succ_cons, List.take_zero, List.sum_nil, List.sum_cons]
        linarith
    · refine ⟨?_, ?_⟩
      · simp only [List.take_succ_cons, List.take_zero, List.sum_nil, List.sum_cons]
        linarith
      · simp only [List.take_succ_cons, List.take_nil, List.take_zero, List.sum_nil, List.sum_cons]
        linarith [h.2]

theorem done89 {c : Chain ℕ Unit Unit} (hc : At89 c) {name : String} (hn : name = "left" ∨ name = "right") (new : ℕ) {v : ℝ}
    (hv : 0 < v ∧ v < 1) (t : List Draw) :
    ∃ ev c', Chain.finish cfg89 name new (PyF.add (.fin 0) (.fin 0)) c (unitDraw v :: t) = (.ok ev, c', t) ∧ c'.cur = new := by
  classical
  have hue : (unitDraw v).u = v := by rw [unitDraw_eq ⟨hv.1.le, hv.2⟩]
  rw [finish_run, if_neg (by rw [hue]; exact not_le.2 hv.1)]
  have hgt : (PyF.add (.fin 0) (.fin 0)).gtFin (Real.log (unitDraw v).u) := by
    rw [hue]
    change Real.log v < 0 + 0
    rw [add_zero]
    exact Real.log_neg hv.1 hv.2
  have hst : newStats cfg89 name (decide ((PyF.add (.fin 0) (.fin 0)).gtFin (Real.log (unitDraw v).u))) new c.proposed c.accepted =
      .ok (bumpCount name (decide ((PyF.add (.fin 0) (.fin 0)).gtFin (Real.log (unitDraw v).u))) c.proposed c.accepted) := by
    unfold newStats
    rcases hn with rfl | rfl <;> rfl
  rw [hst]
  simp only
  have hs : ∀ c1 : Chain ℕ Unit Unit, c1.saveNow = false → Chain.saveIfDue cfg89 c1 t = (.ok (), c1, t) := by
    intro c1 h1
    unfold Chain.saveIfDue
    rw [if_neg fun h => by rw [h1] at h; exact absurd h.1 (by simp)]
  rw [hs _ (by exact hc.flag)]
  refine ⟨_, _, rfl, ?_⟩
  change (if decide _ = true then new else c.cur) = new
  rw [if_pos (decide_eq_true hgt)]

theorem step89 {c : Chain ℕ Unit Unit} {d : Draw} {t : List Draw} {i : ℕ} {name : String} {new : ℕ}
    (hch : choices cfg89.perturbs.length cfg89.weights (d :: t) = (.ok i, t))
    {f : ℕ → M (ℕ × PyF)} (hp : cfg89.perturbs[i]? = some (name, f)) (hf : f c.cur t = (.ok (new, .fin 0), t)) :
    Chain.attempt cfg89 c (d :: t) = if new = 2 then (.ok none, Chain.countException "UserFunctionException" c, t)
      else match Chain.finish cfg89 name new (PyF.add (.fin 0) (.fin 0)) c t with
        | (.ok ev, c, t) => (.ok (some ev), c, t)
        | (.error e, c, t) => (.error e, c, t) := by
  rw [attempt_run, hch]
  simp only [hp, hf]
  rw [if_neg (show ¬ (PyF.fin 0).isInf = true from Bool.false_ne_true)]
  have hl : cfg89.llr c.cur new c.temp = (if new = 2 then .error .userFunction else .ok (.fin 0), c.cur, new) := rfl
  rw [hl]
  by_cases h2 : new = 2
  · rw [if_pos h2, if_pos h2]
  · rw [if_neg h2, if_neg h2]
    dsimp only
    have hcc : ({ c with cur := c.cur } : Chain ℕ Unit Unit) = c := rfl
    rw [hcc]
    rcases hfin : Chain.finish cfg89 name new (PyF.add (.fin 0) (.fin 0)) c t with ⟨r, c', t'⟩
    cases r <;> rfl

/-- What an attempt does. -/
theorem attempt89 {c : Chain ℕ Unit Unit} (hc : At89 c) {ω : ℝ × Unit × ℝ} (h1 : 0 ≤ ω.1 ∧ ω.1 < 1) (h2 : 0 < ω.2.2 ∧ ω.2.2 < 1) :
    (ω.1 < 1 / 2 → ∃ c', tried cfg89 enc89 c ω = .done c' ∧ c'.cur = 0) ∧
    (¬ ω.1 < 1 / 2 → c.cur = 0 → ∃ c', tried cfg89 enc89 c ω = .done c' ∧ c'.cur = 1) ∧
    (¬ ω.1 < 1 / 2 → c.cur = 1 → ∃ c', tried cfg89 enc89 c ω = .failed c' ∧ (At89 c' ∧ c'.cur = c.cur) ∧
      ∀ rest, Chain.attempt cfg89 c ((iterationDraws cfg89 enc89 c.cur ω).dropLast ++ rest) = (.ok none, c', rest)) := by
  have hd : iterationDraws cfg89 enc89 c.cur ω = [unitDraw ω.1, unitDraw ω.2.2] := by
    unfold iterationDraws
    rw [choose89 h1]
    simp [enc89]
  refine ⟨fun hlt => ?_, fun hlt h0 => ?_, fun hlt h0 => ?_⟩
  · have hnew : c.cur - 1 = 0 := by
      have := hc.cur
      omega
    have hch := choose89 h1 [unitDraw ω.2.2]
    rw [if_pos hlt] at hch
    obtain ⟨ev, c', e, hcur⟩ := done89 hc (.inl rfl : "left" = "left" ∨ _) (c.cur - 1) h2 []
    refine ⟨c', ?_, hcur.trans hnew⟩
    unfold tried
    rw [hd, step89 hch (name := "left") (f := fun s => pure (s - 1, .fin 0)) (new := c.cur - 1) rfl rfl, if_neg (by omega), e]
  · have hch := choose89 h1 [unitDraw ω.2.2]
    rw [if_neg hlt] at hch
    obtain ⟨ev, c', e, hcur⟩ := done89 hc (.inr rfl : "right" = "left" ∨ "right" = "right") (min (c.cur + 1) 2) h2 []
    refine ⟨c', ?_, hcur.trans (by rw [h0]; rfl)⟩
    unfold tried
    rw [hd, step89 hch (name := "right") (f := fun s => pure (min (s + 1) 2, .fin 0)) (new := min (c.cur + 1) 2) rfl rfl,
      if_neg (by omega), e]
  · have key : ∀ rest, Chain.attempt cfg89 c (unitDraw ω.1 :: rest) =
        (.ok none, Chain.countException "UserFunctionException" c, rest) := fun rest => by
      have hch := choose89 h1 rest
      rw [if_neg hlt] at hch
      rw [step89 hch (name := "right") (f := fun s => pure (min (s + 1) 2, .fin 0)) (new := min (c.cur + 1) 2) rfl rfl,
        if_pos (by omega)]
    refine ⟨Chain.countException "UserFunctionException" c, ?_, ⟨⟨hc.cur, hc.flag⟩, rfl⟩, fun rest => ?_⟩
    · unfold tried
      rw [hd, key]
    · rw [hd]
      exact key rest

/-- The probability that an attempt fails. -/
noncomputable def f89 (n : ℕ) : ENNReal := if n = 0 then 0 else 2⁻¹

/-- The probability that an attempt leads to the models in `A`. -/
noncomputable def s89 (A : Set ℕ) (n : ℕ) : ENNReal := 2⁻¹ * A.indicator 1 0 + if n = 0 then 2⁻¹ * A.indicator 1 1 else 0

theorem half89 : (unit.prod ((Measure.dirac ()).prod unit)) {ω | ω.1 < 1 / 2} = 2⁻¹ ∧
    (unit.prod ((Measure.dirac ()).prod unit)) {ω | ¬ ω.1 < 1 / 2} = 2⁻¹ := by
  have e1 : {ω : ℝ × Unit × ℝ | ω.1 < 1 / 2} = Set.Iio (1 / 2) ×ˢ Set.univ := by ext; simp
  have e2 : {ω : ℝ × Unit × ℝ | ¬ ω.1 < 1 / 2} = Set.Ici (1 / 2) ×ˢ Set.univ := by ext; simp
  rw [e1, e2, Measure.prod_prod, Measure.prod_prod, measure_univ, mul_one, mul_one]
  unfold unit
  rw [Measure.restrict_apply measurableSet_Iio, Measure.restrict_apply measurableSet_Ici]
  have i1 : Set.Iio (1 / 2 : ℝ) ∩ Set.Ico 0 1 = Set.Ico 0 (1 / 2) := by
    ext x
    simp only [Set.mem_inter_iff, Set.mem_Iio, Set.mem_Ico]
    constructor
    · exact fun h => ⟨h.2.1, h.1⟩
    · exact fun h => ⟨h.2, h.1, by linarith [h.2]⟩
  have i2 : Set.Ici (1 / 2 : ℝ) ∩ Set.Ico 0 1 = Set.Ico (1 / 2) 1 := by
    ext x
    simp only [Set.mem_inter_iff, Set.mem_Ici, Set.mem_Ico]
    constructor
    · exact fun h => ⟨h.1, h.2.2⟩
    · exact fun h => ⟨h.1, by linarith [h.1], h.2⟩
  rw [i1, i2, Real.volume_Ico, Real.volume_Ico]
  have : ENNReal.ofReal (2⁻¹) = 2⁻¹ := by
    rw [ENNReal.ofReal_inv_of_pos (by norm_num)]
    simp
  constructor
  · rw [← this]
    norm_num
  · rw [← this]
    norm_num

theorem ae89 : ∀ᵐ ω ∂unit.prod ((Measure.dirac ()).prod unit), (0 ≤ ω.1 ∧ ω.1 < 1) ∧ 0 < ω.2.2 ∧ ω.2.2 < 1 := by
  have h1 : ∀ᵐ ω ∂unit.prod ((Measure.dirac ()).prod unit), 0 < ω.1 ∧ ω.1 < 1 := Measure.quasiMeasurePreserving_fst.ae unit_pos
  have h2 : ∀ᵐ ω ∂unit.prod ((Measure.dirac ()).prod unit), 0 < ω.2.2 ∧ ω.2.2 < 1 :=
    (Measure.quasiMeasurePreserving_snd.comp Measure.quasiMeasurePreserving_snd).ae unit_pos
  filter_upwards [h1, h2] with ω g1 g2
  exact ⟨⟨g1.1.le, g1.2⟩, g2⟩

theorem cur89 {c : Chain ℕ Unit Unit} (hc : At89 c) : c.cur = 0 ∨ c.cur = 1 := by
  have := hc.cur
  omega

theorem fails89 {c : Chain ℕ Unit Unit} (hc : At89 c) :
    NullMeasurableSet (failSet (tried cfg89 enc89) c) (unit.prod ((Measure.dirac ()).prod unit)) ∧
    (unit.prod ((Measure.dirac ()).prod unit)) (failSet (tried cfg89 enc89) c) = f89 c.cur := by
  rcases cur89 hc with h0 | h0
  · have e : failSet (tried cfg89 enc89) c =ᵐ[unit.prod ((Measure.dirac ()).prod unit)] (∅ : Set _) := by
      filter_upwards [ae89] with ω hω
      obtain ⟨g1, g2, -⟩ := attempt89 hc hω.1 hω.2
      refine propext ⟨?_, False.elim⟩
      rintro ⟨c', e⟩
      by_cases hlt : ω.1 < 1 / 2
      · obtain ⟨c'', e', -⟩ := g1 hlt
        rw [e] at e'
        cases e'
      · obtain ⟨c'', e', -⟩ := g2 hlt h0
        rw [e] at e'
        cases e'
    refine ⟨MeasurableSet.empty.nullMeasurableSet.congr e.symm, ?_⟩
    rw [measure_congr e, measure_empty, h0]
    rfl
  · have e : failSet (tried cfg89 enc89) c =ᵐ[unit.prod ((Measure.dirac ()).prod unit)] {ω | ¬ ω.1 < 1 / 2} := by
      filter_upwards [ae89] with ω hω
      obtain ⟨g1, -, g2⟩ := attempt89 hc hω.1 hω.2
      refine propext ⟨?_, fun h => ?_⟩
      · rintro ⟨c', e⟩ hlt
        obtain ⟨c'', e', -⟩ := g1 hlt
        rw [e] at e'
        cases e'
      · obtain ⟨c', e, -⟩ := g2 h h0
        exact ⟨c', e⟩
    have hm : MeasurableSet {ω : ℝ × Unit × ℝ | ¬ ω.1 < 1 / 2} := (measurableSet_lt measurable_fst measurable_const).compl
    refine ⟨hm.nullMeasurableSet.congr e.symm, ?_⟩
    rw [measure_congr e, half89.2, h0]
    rfl

theorem leads89 (A : Set ℕ) {c : Chain ℕ Unit Unit} (hc : At89 c) :
    NullMeasurableSet (doneSet (tried cfg89 enc89) (fun c => c.cur) A c) (unit.prod ((Measure.dirac ()).prod unit)) ∧
    (unit.prod ((Measure.dirac ()).prod unit)) (doneSet (tried cfg89 enc89) (fun c => c.cur) A c) = s89 A c.cur := by
  have hm1 : MeasurableSet {ω : ℝ × Unit × ℝ | ω.1 < 1 / 2} := measurableSet_lt measurable_fst measurable_const
  have hm2 : MeasurableSet {ω : ℝ × Unit × ℝ | ¬ ω.1 < 1 / 2} := hm1.compl
  have e : doneSet (tried cfg89 enc89) (fun c => c.cur) A c =ᵐ[unit.prod ((Measure.dirac ()).prod unit)]
      ({ω | ω.1 < 1 / 2 ∧ 0 ∈ A} ∪ {ω | ¬ ω.1 < 1 / 2 ∧ (c.cur = 0 ∧ 1 ∈ A)} : Set _) := by
    filter_upwards [ae89] with ω hω
    obtain ⟨g1, g2, g3⟩ := attempt89 hc hω.1 hω.2
    refine propext ?_
    change (∃ c', tried cfg89 enc89 c ω = .done c' ∧ c'.cur ∈ A) ↔ (ω.1 < 1 / 2 ∧ 0 ∈ A) ∨ (¬ ω.1 < 1 / 2 ∧ (c.cur = 0 ∧ 1 ∈ A))
    by_cases hlt : ω.1 < 1 / 2
    · obtain ⟨c', e, h'⟩ := g1 hlt
      constructor
      · rintro ⟨c'', e', h''⟩
        rw [e] at e'
        cases e'
        rw [h'] at h''
        exact .inl ⟨hlt, h''⟩
      · rintro (h | h)
        · exact ⟨c', e, h'.symm ▸ h.2⟩
        · exact absurd hlt h.1
    · rcases cur89 hc with h0 | h0
      · obtain ⟨c', e, h'⟩ := g2 hlt h0
        constructor
        · rintro ⟨c'', e', h''⟩
          rw [e] at e'
          cases e'
          rw [h'] at h''
          exact .inr ⟨hlt, h0, h''⟩
        · rintro (h | h)
          · exact absurd h.1 hlt
          · exact ⟨c', e, h'.symm ▸ h.2.2⟩
      · obtain ⟨c', e, -⟩ := g3 hlt h0
        constructor
        · rintro ⟨c'', e', -⟩
          rw [e] at e'
          cases e'
        · rintro (h | h)
          · exact absurd h.1 hlt
          · exact absurd (h0.symm.trans h.2.1) (by norm_num)
  have hc1 : ∀ P : Prop, MeasurableSet {ω : ℝ × Unit × ℝ | ω.1 < 1 / 2 ∧ P} := fun P => hm1.inter (MeasurableSet.const P)
  have hc2 : ∀ P : Prop, MeasurableSet {ω : ℝ × Unit × ℝ | ¬ ω.1 < 1 / 2 ∧ P} := fun P => hm2.inter (MeasurableSet.const P)
  refine ⟨((hc1 _).union (hc2 _)).nullMeasurableSet.congr e.symm, ?_⟩
  rw [measure_congr e, measure_union (Set.disjoint_left.2 fun ω h h' => h'.1 h.1) (hc2 _)]
  unfold s89
  congr 1
  · by_cases h : (0 : ℕ) ∈ A
    · simp only [h, and_true, Set.indicator_of_mem, Pi.one_apply, mul_one]
      exact half89.1
    · simp [h]
  · by_cases h0 : c.cur = 0
    · by_cases h : (1 : ℕ) ∈ A
      · simp only [h0, h, and_true, if_true, Set.indicator_of_mem, Pi.one_apply, mul_one]
        exact half89.2
      · simp [h]
    · simp [h0]

/-- The law of an iteration. -/
theorem law89 (A : Set ℕ) {c : Chain ℕ Unit Unit} (hc : At89 c) :
    CompletedLaw cfg89 enc89 (Measure.dirac ()) id c A = (∑ j ∈ Finset.range 500, f89 c.cur ^ j) * s89 A c.cur := by
  unfold CompletedLaw
  rw [retry_link (ok := At89) (fun c hc => ?_) c 500 c [] hc fun rest => rfl]
  · exact retry_geometric (val := fun c : Chain ℕ Unit Unit => id c.cur) (S := s89 A) (fun c hc => (fails89 hc).1)
      (fun c hc => (fails89 hc).2) (fun c hc => (leads89 A hc).1) (fun c hc => (leads89 A hc).2) (fun c hc => by
        filter_upwards [ae89] with ω hω c' e
        obtain ⟨g1, g2, g3⟩ := attempt89 hc hω.1 hω.2
        by_cases hlt : ω.1 < 1 / 2
        · obtain ⟨c'', e', -⟩ := g1 hlt
          rw [e] at e'
          cases e'
        · rcases cur89 hc with h0 | h0
          · obtain ⟨c'', e', -⟩ := g2 hlt h0
            rw [e] at e'
            cases e'
          · obtain ⟨c'', e', h', -⟩ := g3 hlt h0
            rw [e] at e'
            cases e'
            exact h') 500 c hc
  · filter_upwards [ae89] with ω hω
    obtain ⟨g1, g2, g3⟩ := attempt89 hc hω.1 hω.2
    by_cases hlt : ω.1 < 1 / 2
    · obtain ⟨c', e, -⟩ := g1 hlt
      exact ⟨c', .inr e⟩
    · rcases cur89 hc with h0 | h0
      · obtain ⟨c', e, -⟩ := g2 hlt h0
        exact ⟨c', .inr e⟩
      · obtain ⟨c', e, h1, h2⟩ := g3 hlt h0
        exact ⟨c', .inl ⟨e, h1.1, h2⟩⟩

/-- The distribution of the model after an iteration. -/
theorem given89 (A : Set ℕ) {n : ℕ} (hn : n ≤ 1) :
    GivenCompleted cfg89 enc89 (Measure.dirac ()) id (Chain.init n () 1 () : Chain ℕ Unit Unit) A =
      if n = 0 then 2⁻¹ * A.indicator 1 0 + 2⁻¹ * A.indicator 1 1 else A.indicator 1 0 := by
  have hc : At89 (Chain.init n () 1 () : Chain ℕ Unit Unit) := ⟨hn, rfl⟩
  have hf : f89 n ≤ 1 := by
    unfold f89
    split
    · exact zero_le
    · exact ENNReal.inv_le_one.2 (by norm_num)
  unfold GivenCompleted
  rw [law89 A hc, law89 Set.univ hc]
  change (∑ j ∈ Finset.range 500, f89 n ^ j) * s89 A n / ((∑ j ∈ Finset.range 500, f89 n ^ j) * s89 Set.univ n) = _
  rw [ENNReal.mul_div_mul_left _ _ (geometric_pos _) (geometric_top hf)]
  unfold s89
  by_cases h : n = 0
  · simp only [if_pos h, Set.indicator_univ, Pi.one_apply, mul_one]
    rw [ENNReal.inv_two_add_inv_two, div_one]
  · simp only [if_neg h, Set.indicator_univ, Pi.one_apply, mul_one, add_zero]
    rw [mul_comm, ENNReal.mul_div_cancel_right (by simp) (by simp)]

/-- Although the proposals are symmetric and the likelihood is constant where it is defined, the chain does not preserve the uniform
distribution on the models 0 and 1: it preserves the one that gives the model 0, from which no proposal fails, twice the
probability. -/
theorem C89_three :
    ¬ Spec.Preserves (Measure.dirac 0 + Measure.dirac 1 : Measure ℕ)
      (fun n => GivenCompleted cfg89 enc89 (Measure.dirac ()) id (Chain.init n () 1 () : Chain ℕ Unit Unit)) ∧
    Spec.Preserves (2 • Measure.dirac 0 + Measure.dirac 1 : Measure ℕ)
      (fun n => GivenCompleted cfg89 enc89 (Measure.dirac ()) id (Chain.init n () 1 () : Chain ℕ Unit Unit)) := by
  constructor
  · intro h
    have := h {0} (measurableSet_singleton 0)
    rw [lintegral_add_measure, lintegral_dirac, lintegral_dirac] at this
    beta_reduce at this
    rw [given89 _ zero_le_one, given89 _ le_rfl] at this
    simp at this
  · intro A hA
    rw [lintegral_add_measure, lintegral_smul_measure, lintegral_dirac, lintegral_dirac]
    beta_reduce
    rw [given89 _ zero_le_one, given89 _ le_rfl]
    simp only [if_true, one_ne_zero, if_false, Measure.add_apply, Measure.smul_apply, Measure.dirac_apply, smul_add, nsmul_eq_mul,
      Nat.cast_ofNat, ← mul_assoc]
    rw [ENNReal.mul_inv_cancel two_ne_zero ENNReal.ofNat_ne_top, one_mul, one_mul, two_mul, add_right_comm]

end Three

/-! ### examples

A space with a variable number of dimensions, and a function for the log likelihood that raises an exception if the number of
dimensions is in a set `D`. -/

section Examples

open Classical in
/-- The inversion. -/
noncomputable def ex89q (D : Set ℕ) : Problem where
  spaces := [("s", exSpace23 .plain)]
  kind := .loglike fun s => match dget s.params "s" with
    | some (.ps st) => if st.n ∈ D then .error .userFunction else .ok (.fin (-(st.n : ℝ)))
    | _ => .error .userFunction
  tf := []

/-- Its block. -/
noncomputable def ex89B : ℕ → Block := fun _ => plainBlock (exSpace23 .plain) exPriors23 exDens23

/-- Its values. -/
noncomputable def ex89y {D : Set ℕ} (x : Whole (ex89q D) ex89B) : Tuple (Unit × (Fin 2 → ℝ)) :=
  x (⟨0, Nat.one_pos⟩ : Fin (ex89q D).cfg.perturbs.length)

theorem ex89_one {D : Set ℕ} (i : Fin (ex89q D).cfg.perturbs.length) : i = ⟨0, Nat.one_pos⟩ :=
  Fin.ext (Nat.lt_one_iff.1 i.is_lt)

/-- The models where it fails. -/
def ex89F (D : Set ℕ) : Set (Whole (ex89q D) ex89B) := {x | (ex89y x).1 ∈ D}

theorem ex89_problem (D : Set ℕ) : FailingInversion (ex89q D) ex89B Modelled (ex89F D) fun x => exLik23 (ex89y x) where
  exist := .inl (by simp [ex89q])
  spaces := by
    intro i nm sp h
    match i with
    | 0 =>
      obtain ⟨rfl, rfl⟩ := Prod.mk.inj (Option.some.inj h)
      exact ⟨rfl, .plain _ _ _ _ rfl (ex77_can _ _ (ex23_only _) (by decide)) rfl (by decide)⟩
    | i + 1 => cases h
  noise := fun h => absurd rfl h
  distinct := by
    change ["s"].Nodup
    decide +kernel
  targets := List.nodup_nil
  bounds := fun q => q.1.elim0
  likelihood := by
    intro s hs hp
    obtain ⟨st, h1, l, h2, -⟩ := hs.2 (⟨0, Nat.one_pos⟩ : Fin (ex89q D).cfg.perturbs.length)
    have h1' : dget s.params "s" = some (.ps st) := h1
    have hy : ex89y (wholeOf (ex89q D) ex89B s.params) = ofRows l := by
      change (match dget s.params "s" with
        | some (.ps st) => decode noSites exPriors23 st
        | _ => ofRows []) = _
      rw [h1']
      exact decode_none _ _ _ h2
    have hF : wholeOf (ex89q D) ex89B s.params ∈ ex89F D ↔ st.n ∈ D := by
      change (ex89y (wholeOf (ex89q D) ex89B s.params)).1 ∈ D ↔ _
      rw [hy, h2.1]
      rfl
    simp only [h1', hy, hF]
    refine ⟨fun h => ?_, fun h => if_pos h⟩
    rw [if_neg h, h2.1]
    rfl
  meas := ex23_lik.comp (measurable_pi_apply (⟨0, Nat.one_pos⟩ : Fin (ex89q D).cfg.perturbs.length))
  lumps := fun x y h => ex23_same _ _ (h (⟨0, Nat.one_pos⟩ : Fin (ex89q D).cfg.perturbs.length))
  fails_meas := (dim_meas (R := Unit × (Fin 2 → ℝ)) (t := D) trivial).preimage
    (measurable_pi_apply (⟨0, Nat.one_pos⟩ : Fin (ex89q D).cfg.perturbs.length))
  fails_lumps := fun x y h => by
    have e : (ex89y x).1 = (ex89y y).1 := SameRows.dim (h (⟨0, Nat.one_pos⟩ : Fin (ex89q D).cfg.perturbs.length))
    change (ex89y x).1 ∈ D ↔ (ex89y y).1 ∈ D
    rw [e]

theorem ex89_names (D : Set ℕ) : PlainNames (ex89q D) := by
  have hs : Plain "s" := plain_of (by decide +kernel)
  have ha : Plain "a" := plain_of (by decide +kernel)
  have hb : Plain "b" := plain_of (by decide +kernel)
  refine ⟨fun nm sp h => ?_, fun t ht => by cases ht⟩
  obtain ⟨rfl, rfl⟩ := Prod.mk.inj (List.mem_singleton.1 h)
  refine ⟨hs, fun k q hk => ?_⟩
  rcases List.mem_cons.1 hk with e | hk
  · rw [(Prod.mk.inj e).1]
    exact ha
  · rw [(Prod.mk.inj (List.mem_singleton.1 hk)).1]
    exact hb

/-- A chain at a model. -/
noncomputable def ex89u {D : Set ℕ} (x : Whole (ex89q D) ex89B) : Chain State Store Unit :=
  Chain.init { params := [("s", .ps (exState23 noSites (Chain.init (.mk 0 [] none) () 1 ()) (ex89y x)).cur)],
               temperature := 1, cache := [], extra := [] } [] 1 ()

theorem ex89_ready (D : Set ℕ) (x : Whole (ex89q D) ex89B) (hx : PossibleWhole x) (_ : x ∉ ex89F D) :
    Ready (ex89q D) ex89B 1 (ex89u x) ∧ SameWhole x (wholeOf (ex89q D) ex89B (ex89u x).cur.params) := by
  have h0 := hx (⟨0, Nat.one_pos⟩ : Fin (ex89q D).cfg.perturbs.length)
  have hy := ex23_state noSites (Chain.init (.mk 0 [] none) () 1 ()) (ex89y x)
  refine ⟨⟨⟨rfl, fun i => ?_⟩, fun _ h => (by cases h), rfl, rfl, fun _ _ _ h => (by cases h),
    fun _ _ _ h => (by cases h)⟩, fun i => ?_⟩
  · rw [ex89_one i]
    refine ⟨_, rfl, _, hy, ?_⟩
    rw [List.length_ofFn]
    exact ⟨h0.1.1.1, h0.1.1.2, fun _ _ => trivial, trivial, trivial⟩
  · rw [ex89_one i]
    have e : wholeOf (ex89q D) ex89B (ex89u x).cur.params ⟨0, Nat.one_pos⟩ = ofRows (List.ofFn (ex89y x).2) := decode_none _ _ _ hy
    rw [e]
    change (List.ofFn (ex89y x).2).Perm (List.ofFn (ofRows (List.ofFn (ex89y x).2)).2)
    rw [rows_ofRows]

example := C89_sampled (ex89_problem {10}) (ex89_names _) one_pos ex89u (ex89_ready _)

example := C89_completed (ex89_problem {10}) (ex89_names _) one_pos ex89u (ex89_ready _)

example := C89_outside (ex89_problem {10}) (ex89_names _) one_pos ex89u (ex89_ready _)

theorem ex89_never : ∀ᵐ x ∂undisturbed (ex89q ∅) ex89B (ex89F ∅) (fun x => exLik23 (ex89y x)) 1,
    FailureProb (ex89q ∅).cfg (wholeDraws (ex89q ∅) ex89B) (wholeLaw (ex89q ∅) ex89B) (ex89u x) = 0 := by
  obtain ⟨f, S, H, hf⟩ := failing_state (ex89_problem ∅) (ex89_names ∅) one_pos ex89u (ex89_ready ∅)
  exact H.fails.mono fun x hx => hx.trans (hf rfl x)

example := C89_constant (ex89_problem ∅) (ex89_names _) one_pos ex89u (ex89_ready _) (t := 0) one_pos ex89_never

end Examples

end BB.Props
