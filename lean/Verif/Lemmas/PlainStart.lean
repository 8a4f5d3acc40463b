import Mathlib.Probability.ProductMeasure
import Verif.Spec.PlainStart
import Verif.Lemmas.PlainConverge

/-!
# Plain parameter spaces: the law of the model at the start
-/

namespace BB.Lemmas

open BB Spec MeasureTheory

/-! ### functions of different independent draws -/

theorem pi_reindex {ι κ Y Z : Type} [Fintype ι] [Fintype κ] [MeasurableSpace Y] [MeasurableSpace Z] (ν : Measure Y)
    [IsProbabilityMeasure ν] {e : κ → ι} (he : Function.Injective e) {g : κ → Y → Z} (hg : ∀ k, Measurable (g k)) :
    (Measure.pi fun _ : ι => ν).map (fun w k => g k (w (e k))) = Measure.pi fun k => ν.map (g k) := by
  classical
  have hp : ∀ k, IsProbabilityMeasure (ν.map (g k)) := fun k => Measure.isProbabilityMeasure_map (hg k).aemeasurable
  have hm : Measurable fun (w : ι → Y) k => g k (w (e k)) := measurable_pi_lambda _ fun k => (hg k).comp (measurable_pi_apply _)
  refine (Measure.pi_eq fun s hs => ?_).symm
  rw [Measure.map_apply hm (MeasurableSet.univ_pi hs)]
  set T : ι → Set Y := fun i => if h : ∃ k, e k = i then g h.choose ⁻¹' s h.choose else Set.univ with hT
  have hTe : ∀ k, T (e k) = g k ⁻¹' s k := by
    intro k
    have h : ∃ k', e k' = e k := ⟨k, rfl⟩
    have h2 : h.choose = k := he h.choose_spec
    rw [hT]
    simp only [dif_pos h]
    rw [h2]
  have hTn : ∀ i, i ∉ Set.range e → T i = Set.univ := by
    intro i hi
    rw [hT]
    simp only
    exact dif_neg fun h => hi h
  have hpre : (fun (w : ι → Y) k => g k (w (e k))) ⁻¹' Set.univ.pi s = Set.univ.pi T := by
    ext w
    simp only [Set.mem_preimage, Set.mem_univ_pi]
    constructor
    · intro h i
      by_cases hi : i ∈ Set.range e
      · obtain ⟨k, rfl⟩ := hi
        rw [hTe]
        exact h k
      · rw [hTn i hi]
        trivial
    · intro h k
      have := h (e k)
      rw [hTe] at this
      exact this
  rw [hpre, Measure.pi_pi]
  symm
  refine Fintype.prod_of_injective e he _ _ (fun i hi => ?_) fun k => ?_
  · rw [hTn i hi, measure_univ]
  · rw [hTe, Measure.map_apply (hg k) (hs k)]

theorem pi_curry {ι κ X : Type} [Fintype ι] [Fintype κ] [MeasurableSpace X] (μ : ι → κ → Measure X)
    [∀ i j, IsProbabilityMeasure (μ i j)] :
    (Measure.pi fun z : ι × κ => μ z.1 z.2).map (fun w i j => w (i, j)) = Measure.pi fun i => Measure.pi fun j => μ i j := by
  have h := Measure.infinitePi_map_curry μ
  rw [Measure.infinitePi_eq_pi] at h
  have h2 : (fun i : ι => Measure.infinitePi fun j : κ => μ i j) = fun i => Measure.pi fun j => μ i j :=
    funext fun i => Measure.infinitePi_eq_pi _
  have h3 : ∀ i, IsProbabilityMeasure (Measure.infinitePi fun j : κ => μ i j) := fun i => inferInstance
  rw [Measure.infinitePi_eq_pi, h2] at h
  exact h

/-! ### the values of a space -/

variable {s : PlainSpace} {K : ℕ}

/-- The values made of draws: for each parameter, a draw for each number of the array that the program does not initialize, then
one for each value. -/
noncomputable def startRows (s : PlainSpace) (n : ℕ) (w : Fin (s.size * (n + n)) → Draw) : Fin n → Fin s.size → ℝ :=
  fun r j => sampleOf (s.prior j) (w (finProdFinEquiv (j, Fin.natAdd n r)))

theorem startRows_meas (h : s.Ok) (n : ℕ) : Measurable (startRows s n) :=
  measurable_pi_lambda _ fun _ => measurable_pi_lambda _ fun j =>
    (DensityOf.sampled (h.dens j)).2.1.comp (measurable_pi_apply _)

theorem valuesLaw_pi (h : s.Ok) (hK : K ≠ 0) :
    valuesLaw s.dens = Measure.pi fun j => (drawLaw K).map (sampleOf (s.prior j)) := by
  have hp := drawLaw_prob hK
  have hpr' : ∀ j, IsProbabilityMeasure ((drawLaw K).map (sampleOf (s.prior j))) := fun j =>
    Measure.isProbabilityMeasure_map (DensityOf.sampled (h.dens j)).2.1.aemeasurable
  rw [← samplesOf_law hK h.dens]
  exact Measure.pi_map_pi (μ := fun _ => drawLaw K) fun j => (DensityOf.sampled (h.dens j)).2.1.aemeasurable

theorem startRows_law (h : s.Ok) (hK : K ≠ 0) (n : ℕ) :
    (tapeLaw K (s.size * (n + n))).map (startRows s n) = Measure.pi fun _ : Fin n => valuesLaw s.dens := by
  have hp := drawLaw_prob hK
  have hm := fun j => (DensityOf.sampled (h.dens j)).2.1
  have hpr' : ∀ j, IsProbabilityMeasure ((drawLaw K).map (sampleOf (s.prior j))) := fun j =>
    Measure.isProbabilityMeasure_map (hm j).aemeasurable
  rw [valuesLaw_pi h hK, ← pi_curry fun (_ : Fin n) j => (drawLaw K).map (sampleOf (s.prior j))]
  have he : Function.Injective fun z : Fin n × Fin s.size => (finProdFinEquiv (z.2, Fin.natAdd n z.1) : Fin (s.size * (n + n))) := by
    intro z z' hz
    have h1 := finProdFinEquiv.injective hz
    injection h1 with h2 h3
    exact Prod.ext (Fin.natAdd_injective n n h3) h2
  rw [← pi_reindex (drawLaw K) he (g := fun z => sampleOf (s.prior z.2)) fun z => hm z.2]
  have hm1 : Measurable fun (w : Fin n × Fin s.size → ℝ) i j => w (i, j) :=
    measurable_pi_lambda _ fun i => measurable_pi_lambda _ fun j => measurable_pi_apply _
  have hm2 : Measurable fun (w : Fin (s.size * (n + n)) → Draw) (z : Fin n × Fin s.size) =>
      sampleOf (s.prior z.2) (w (finProdFinEquiv (z.2, Fin.natAdd n z.1))) :=
    measurable_pi_lambda _ fun z => (hm z.2).comp (measurable_pi_apply _)
  rw [Measure.map_map hm1 hm2]
  rfl

/-! ### the start of a space -/

/-- The number of dimensions. -/
noncomputable def dimV (s : PlainSpace) : V ℕ :=
  match s.info.nDim with
  | some n => V.ret n
  | none => V.andThen V.draw fun d => V.ret (s.info.nMin + d.n % (s.startHi - s.info.nMin + 1))

/-- The values, for a given number of dimensions. -/
noncomputable def rowsV (s : PlainSpace) (n : ℕ) : V (Tuple (Fin s.size → ℝ)) :=
  V.andThen (V.draws (s.size * (n + n))) fun w => V.ret (tup n (startRows s n w))

/-- The start of a space. -/
noncomputable def spaceStartV (s : PlainSpace) : V (Tuple (Fin s.size → ℝ)) :=
  V.andThen (dimV s) fun n => rowsV s (min n s.info.hi)

theorem startHi_bounds (h : s.Ok) (hs : s.Startable) : s.info.lo ≤ s.startHi ∧ s.startHi ≤ s.info.hi := by
  have h1 := h.hi
  unfold Info.lo Info.hi at h1 ⊢
  unfold PlainSpace.startHi
  cases hn : s.info.nDim with
  | some n => simp
  | none =>
    obtain ⟨h2, h3⟩ := hs.range hn
    simp only [hn, Option.getD_none] at h1 ⊢
    have h4 : (s.info.nMin : ℝ) ≤ s.info.nMax := by exact_mod_cast h1
    constructor
    · refine Nat.le_floor ?_
      have : 0 ≤ s.info.initRange * ((s.info.nMax : ℝ) - s.info.nMin) := mul_nonneg h2 (by linarith)
      linarith
    · refine Nat.floor_le_of_le ?_
      have : s.info.initRange * ((s.info.nMax : ℝ) - s.info.nMin) ≤ (s.info.nMax : ℝ) - s.info.nMin :=
        mul_le_of_le_one_left (by linarith) h3
      linarith

theorem rowsV_meas (h : s.Ok) (n : ℕ) : Measurable (rowsV s n) := by
  have h1 : Measurable fun t => (tup n (startRows s n (V.draws (s.size * (n + n)) t).1), (V.draws (s.size * (n + n)) t).2) :=
    (((measurable_mk n).comp (startRows_meas h n)).comp (measurable_fst.comp (V.draws_meas _))).prodMk
      (measurable_snd.comp (V.draws_meas _))
  exact h1

theorem rowsV_law (h : s.Ok) (hK : K ≠ 0) (n : ℕ) : V.HasLaw K (rowsV s n) (s.size * (n + n))
    fun G => ∫⁻ v, G (tup n v) ∂Measure.pi fun _ : Fin n => valuesLaw s.dens := by
  have hm : Measurable fun w => tup n (startRows s n w) := (measurable_mk n).comp (startRows_meas h n)
  have h1 := V.HasLaw.andThen (V.HasLaw.draws hK (s.size * (n + n)))
    (f := fun w => V.ret (tup n (startRows s n w))) (fun w => V.HasLaw.ret _) (V.Meas.ret hm)
  refine V.HasLaw.congr hK h1 fun G hG => ?_
  rw [← startRows_law h hK n, lintegral_map (f := fun v => G (tup n v)) (hG.comp (measurable_mk n)) (startRows_meas h n)]

theorem spaceStartV_meas (h : s.Ok) : Measurable (spaceStartV s) := by
  have h1 : Measurable (dimV s) := by
    unfold dimV
    split
    · exact measurable_const.prodMk measurable_id
    · have h2 : Measurable fun d : Draw => s.info.nMin + d.n % (s.startHi - s.info.nMin + 1) :=
        (measurable_from_top (f := fun n : ℕ => s.info.nMin + n % (s.startHi - s.info.nMin + 1))).comp draw_n_meas
      exact (h2.comp (measurable_fst.comp uncons_meas)).prodMk (measurable_snd.comp uncons_meas)
  have h2 : V.Meas fun n => rowsV s (min n s.info.hi) := by
    have h3 := V.Meas.countable (Ξ := Unit) (f := fun _ n => rowsV s (min n s.info.hi)) fun n => V.Meas.const (rowsV_meas h _)
    exact h3.comp ((measurable_const (a := ())).prodMk measurable_id)
  have h3 : V.Meas fun _ : Unit => spaceStartV s := V.Meas.andThen (V.Meas.const h1) (h2.comp measurable_snd)
  exact h3.at ()

/-- The law of the start of a space. -/
theorem spaceStartV_law (h : s.Ok) (hs : s.Startable) (hK : K ≠ 0) (hd : ∀ n, 0 < n → n ≤ s.info.hi → n ∣ K) :
    V.HasLaw K (spaceStartV s) (1 + s.size * (s.info.hi + s.info.hi)) fun G =>
      ∫⁻ y, G y ∂(((s.startHi - s.info.lo + 1 : ℕ) : ENNReal)⁻¹ • transPrior (valuesLaw s.dens) s.info.lo s.startHi) := by
  obtain ⟨hb1, hb2⟩ := startHi_bounds h hs
  have hdim : V.HasLaw K (dimV s) 1 fun G => ((s.startHi - s.info.lo + 1 : ℕ) : ENNReal)⁻¹ * ∑ n ∈ Finset.Ico s.info.lo (s.startHi + 1), G n := by
    unfold dimV
    split
    · rename_i n hn
      have e1 : s.info.lo = n := by unfold Info.lo; rw [hn]; rfl
      have e2 : s.startHi = n := by unfold PlainSpace.startHi; rw [hn]
      refine V.HasLaw.congr hK ((V.HasLaw.ret n).mono (Nat.zero_le 1)) fun G _ => ?_
      rw [e1, e2]
      simp
    · rename_i hn
      have e1 : s.info.lo = s.info.nMin := by unfold Info.lo; rw [hn]; rfl
      have hlo := h.lo
      rw [e1] at hb1 hlo ⊢
      have h2 : Measurable fun d : Draw => s.info.nMin + d.n % (s.startHi - s.info.nMin + 1) :=
        (measurable_from_top (f := fun n : ℕ => s.info.nMin + n % (s.startHi - s.info.nMin + 1))).comp draw_n_meas
      have h3 := V.HasLaw.andThen (V.HasLaw.draw hK)
        (f := fun d => V.ret (s.info.nMin + d.n % (s.startHi - s.info.nMin + 1))) (fun d => V.HasLaw.ret _) (V.Meas.ret h2)
      refine V.HasLaw.congr hK h3 fun G hG => ?_
      have h4 := uniform_mod hK (hd (s.startHi - s.info.nMin + 1) (Nat.succ_pos _) (by omega)) fun k => G (s.info.nMin + k)
      rw [← drawLaw_n, lintegral_map (measurable_from_top (f := fun k => G (s.info.nMin + k % (s.startHi - s.info.nMin + 1)))) draw_n_meas] at h4
      rw [h4, Finset.sum_Ico_eq_sum_range]
      congr 3
      omega
  have hrm : V.Meas fun n => rowsV s (min n s.info.hi) := by
    have h3 := V.Meas.countable (Ξ := Unit) (f := fun _ n => rowsV s (min n s.info.hi)) fun n => V.Meas.const (rowsV_meas h _)
    exact h3.comp ((measurable_const (a := ())).prodMk measurable_id)
  have h1 := V.HasLaw.andThen hdim (f := fun n => rowsV s (min n s.info.hi)) (L' := s.size * (s.info.hi + s.info.hi))
    (fun n => (rowsV_law h hK (min n s.info.hi)).mono (Nat.mul_le_mul_left _ (by omega))) hrm
  refine V.HasLaw.congr hK h1 fun G hG => ?_
  rw [lintegral_smul_measure, lintegral_transPrior _ _ _ hG, smul_eq_mul]
  congr 1
  refine Finset.sum_congr rfl fun n hn => ?_
  rw [Finset.mem_Ico] at hn
  have e : min n s.info.hi = n := min_eq_left (by omega)
  exact congrArg (fun k : ℕ => ∫⁻ v : Fin k → Fin s.size → ℝ, G (tup k v) ∂Measure.pi fun _ : Fin k => valuesLaw s.dens) e

/-! ### the start of all spaces -/

/-- The start of the spaces, one after the other. -/
noncomputable def startV : {m : ℕ} → (sps : Fin m → PlainSpace) → V (Values sps)
  | 0, _ => V.ret fun i => i.elim0
  | m + 1, sps => V.andThen (spaceStartV (sps 0)) fun y => V.andThen (startV fun i => sps i.succ) fun x =>
      V.ret (Fin.cons (α := fun i => Tuple (Fin (sps i).size → ℝ)) y x)

/-- The number of draws for the start. -/
def startLen : {m : ℕ} → (Fin m → PlainSpace) → ℕ
  | 0, _ => 0
  | _ + 1, sps => (1 + (sps 0).size * ((sps 0).info.hi + (sps 0).info.hi)) + startLen fun i => sps i.succ

theorem consValues_meas {m : ℕ} (sps : Fin (m + 1) → PlainSpace) :
    Measurable fun z : Tuple (Fin (sps 0).size → ℝ) × Values (fun i => sps i.succ) =>
      (Fin.cons (α := fun i => Tuple (Fin (sps i).size → ℝ)) z.1 z.2 : Values sps) := by
  refine measurable_pi_lambda _ fun i => ?_
  refine Fin.cases ?_ (fun i => ?_) i
  · exact measurable_fst
  · exact (measurable_pi_apply i).comp measurable_snd

theorem consAll_meas {m : ℕ} {X : Fin (m + 1) → Type} [∀ i, MeasurableSpace (X i)] :
    Measurable fun z : X 0 × (∀ i : Fin m, X i.succ) => (Fin.cons z.1 z.2 : ∀ i, X i) := by
  refine measurable_pi_lambda _ fun i => ?_
  refine Fin.cases ?_ (fun i => ?_) i
  · exact measurable_fst
  · exact (measurable_pi_apply i).comp measurable_snd

theorem pi_cons {m : ℕ} {X : Fin (m + 1) → Type} [∀ i, MeasurableSpace (X i)] (μ : ∀ i, Measure (X i)) [∀ i, SigmaFinite (μ i)] :
    Measure.pi μ = ((μ 0).prod (Measure.pi fun i : Fin m => μ i.succ)).map fun z => (Fin.cons z.1 z.2 : ∀ i, X i) := by
  refine Measure.pi_eq fun s hs => ?_
  rw [Measure.map_apply consAll_meas (MeasurableSet.univ_pi hs)]
  have h1 : (fun z : X 0 × (∀ i : Fin m, X i.succ) => (Fin.cons z.1 z.2 : ∀ i, X i)) ⁻¹' Set.univ.pi s =
      s 0 ×ˢ Set.univ.pi fun i : Fin m => s i.succ := by
    ext z
    simp only [Set.mem_preimage, Set.mem_univ_pi, Set.mem_prod]
    exact ⟨fun h => ⟨h 0, fun i => h i.succ⟩, fun h i => Fin.cases h.1 (fun i => h.2 i) i⟩
  rw [h1, Measure.prod_prod, Measure.pi_pi, Fin.prod_univ_succ]

theorem lintegral_cons {m : ℕ} {X : Fin (m + 1) → Type} [∀ i, MeasurableSpace (X i)] (μ : ∀ i, Measure (X i))
    [∀ i, IsProbabilityMeasure (μ i)] {G : (∀ i, X i) → ENNReal} (hG : Measurable G) :
    ∫⁻ y, ∫⁻ x, G (Fin.cons y x) ∂(Measure.pi fun i : Fin m => μ i.succ) ∂μ 0 = ∫⁻ z, G z ∂Measure.pi μ := by
  rw [pi_cons μ, lintegral_map hG consAll_meas]
  exact (lintegral_prod (fun z : X 0 × (∀ i : Fin m, X i.succ) => G (Fin.cons z.1 z.2)) (hG.comp consAll_meas).aemeasurable).symm

theorem pi_absCont : ∀ {m : ℕ} {X : Fin m → Type} [∀ i, MeasurableSpace (X i)] (μ ν : ∀ i, Measure (X i)) [∀ i, SigmaFinite (μ i)]
    [∀ i, SigmaFinite (ν i)], (∀ i, μ i ≪ ν i) → Measure.pi μ ≪ Measure.pi ν
  | 0, _, _, μ, ν, _, _, _ => by
    rw [Measure.pi_of_empty μ fun i => i.elim0, Measure.pi_of_empty ν fun i => i.elim0]
  | m + 1, _, _, μ, ν, _, _, h => by
    rw [pi_cons μ, pi_cons ν]
    exact ((h 0).prod (pi_absCont (fun i => μ i.succ) (fun i => ν i.succ) fun i => h i.succ)).map consAll_meas

theorem startV_meas : ∀ {m : ℕ} {sps : Fin m → PlainSpace}, (∀ i, (sps i).Ok) → Measurable (startV sps)
  | 0, _, _ => measurable_const.prodMk measurable_id
  | m + 1, sps, h => by
    have h1 := spaceStartV_meas (h 0)
    have h2 := (startV_meas fun i => h i.succ).comp (measurable_snd.comp h1)
    have h3 : Measurable fun t => (Fin.cons (α := fun i => Tuple (Fin (sps i).size → ℝ)) (spaceStartV (sps 0) t).1
        (startV (fun i => sps i.succ) (spaceStartV (sps 0) t).2).1, (startV (fun i => sps i.succ) (spaceStartV (sps 0) t).2).2) :=
      ((consValues_meas sps).comp ((measurable_fst.comp h1).prodMk (measurable_fst.comp h2))).prodMk (measurable_snd.comp h2)
    exact h3

theorem startPart_prob (h : s.Ok) (hs : s.Startable) : IsProbabilityMeasure
    (((s.startHi - s.info.lo + 1 : ℕ) : ENNReal)⁻¹ • transPrior (valuesLaw s.dens) s.info.lo s.startHi) := by
  have hp := valuesLaw_prob h.dens
  obtain ⟨hb1, -⟩ := startHi_bounds h hs
  constructor
  rw [← lintegral_one, lintegral_smul_measure, lintegral_transPrior _ _ _ measurable_const, smul_eq_mul]
  have e : s.startHi + 1 - s.info.lo = s.startHi - s.info.lo + 1 := by omega
  simp only [lintegral_one, measure_univ, Finset.sum_const, Nat.card_Ico, nsmul_eq_mul, mul_one, e]
  exact ENNReal.inv_mul_cancel (Nat.cast_ne_zero.2 (Nat.succ_ne_zero _)) (ENNReal.natCast_ne_top _)

theorem startPart_ac (h : s.Ok) (hs : s.Startable) :
    ((s.startHi - s.info.lo + 1 : ℕ) : ENNReal)⁻¹ • transPrior (valuesLaw s.dens) s.info.lo s.startHi ≪
      transPrior (valuesLaw s.dens) s.info.lo s.info.hi := by
  obtain ⟨-, hb⟩ := startHi_bounds h hs
  refine Measure.smul_absolutelyContinuous.trans (Measure.AbsolutelyContinuous.mk fun A hA h0 => ?_)
  rw [← lintegral_indicator_one hA, lintegral_transPrior _ _ _ (measurable_one.indicator hA), Finset.sum_eq_zero_iff] at h0 ⊢
  intro n hn
  rw [Finset.mem_Ico] at hn
  exact h0 n (Finset.mem_Ico.2 (by omega))

theorem startOf_prob {m : ℕ} {sps : Fin m → PlainSpace} (h : ∀ i, (sps i).Ok) (hs : ∀ i, (sps i).Startable) :
    IsProbabilityMeasure (startOf sps) := by
  have hp : ∀ i, IsProbabilityMeasure _ := fun i => startPart_prob (h i) (hs i)
  unfold startOf
  infer_instance

/-- The law of the start has a density with respect to the prior. -/
theorem startOf_ac {m : ℕ} {sps : Fin m → PlainSpace} (h : ∀ i, (sps i).Ok) (hs : ∀ i, (sps i).Startable) : startOf sps ≪ priorOf sps := by
  have hp : ∀ i, IsProbabilityMeasure (((((sps i).startHi - (sps i).info.lo + 1 : ℕ) : ENNReal))⁻¹ •
    transPrior (valuesLaw (sps i).dens) (sps i).info.lo (sps i).startHi) := fun i => startPart_prob (h i) (hs i)
  have hf : ∀ i, IsFiniteMeasure (transPrior (valuesLaw (sps i).dens) (sps i).info.lo (sps i).info.hi) := fun i => by
    have := valuesLaw_prob (h i).dens
    unfold transPrior
    infer_instance
  exact pi_absCont _ _ fun i => startPart_ac (h i) (hs i)

/-- The law of the start. -/
theorem startV_law (hK : K ≠ 0) : ∀ {m : ℕ} {sps : Fin m → PlainSpace}, (∀ i, (sps i).Ok) → (∀ i, (sps i).Startable) →
    Multiple sps K → V.HasLaw K (startV sps) (startLen sps) fun G => ∫⁻ x, G x ∂startOf sps
  | 0, sps, _, _, _ => by
    refine V.HasLaw.congr hK (V.HasLaw.ret _) fun G hG => ?_
    unfold startOf
    rw [Measure.pi_of_empty _ fun i => i.elim0, lintegral_dirac' _ hG]
  | m + 1, sps, h, hs, hd => by
    have hp : ∀ i, IsProbabilityMeasure _ := fun i => startPart_prob (h i) (hs i)
    have hc := consValues_meas sps
    have h2 : ∀ y : Tuple (Fin (sps 0).size → ℝ), V.HasLaw K (V.andThen (startV fun i => sps i.succ) fun x =>
        V.ret (Fin.cons (α := fun i => Tuple (Fin (sps i).size → ℝ)) y x)) (startLen (fun i => sps i.succ) + 0)
        fun G => ∫⁻ x, G (Fin.cons (α := fun i => Tuple (Fin (sps i).size → ℝ)) y x) ∂startOf fun i => sps i.succ := fun y =>
      V.HasLaw.andThen (startV_law hK (fun i => h i.succ) (fun i => hs i.succ) fun i => hd i.succ) (fun x => V.HasLaw.ret _)
        (V.Meas.ret (hc.comp (measurable_const.prodMk measurable_id)))
    have hm : V.Meas fun y : Tuple (Fin (sps 0).size → ℝ) => V.andThen (startV fun i => sps i.succ) fun x =>
        V.ret (Fin.cons (α := fun i => Tuple (Fin (sps i).size → ℝ)) y x) :=
      V.Meas.andThen (V.Meas.const (startV_meas fun i => h i.succ)) (V.Meas.ret hc)
    have h3 := V.HasLaw.andThen (spaceStartV_law (h 0) (hs 0) hK (hd 0)) h2 hm
    refine V.HasLaw.congr hK h3 fun G hG => ?_
    unfold startOf
    exact lintegral_cons (fun i => (((sps i).startHi - (sps i).info.lo + 1 : ℕ) : ENNReal)⁻¹ •
      transPrior (valuesLaw (sps i).dens) (sps i).info.lo (sps i).startHi) hG

/-! ### what the program computes -/

theorem forEach_run {α β : Type} {f : α → M β} {g : α → Draw → β} :
    ∀ (l : List α) (_ : ∀ a ∈ l, ∀ d t, f a (d :: t) = (.ok (g a d), t)) (ds : List Draw) (t : List Draw), ds.length = l.length →
    M.forEach f l (ds ++ t) = (.ok (List.zipWith g l ds), t)
  | [], _, [], t, _ => rfl
  | a :: l, hf, d :: ds, t, h => by
    rw [M.forEach, List.cons_append]
    refine (M.bind_of (hf a (List.mem_cons_self ..) d _)).trans ?_
    exact (M.bind_of (forEach_run l (fun a ha => hf a (List.mem_cons_of_mem _ ha)) ds t (by simpa using h))).trans rfl

theorem garbage_run (n : ℕ) (ds t : List Draw) (h : ds.length = n) :
    garbage n (ds ++ t) = (.ok (ds.map fun d => Pos.one d.z), t) := by
  unfold garbage M.times
  rw [forEach_run (g := fun _ d => Pos.one d.z) _ (fun a _ d t => rfl) _ _ (by simpa using h)]
  congr 2
  refine List.ext_getElem (by simp [h]) fun k h1 h2 => by simp

theorem zipWith_const {α β γ : Type} (g : β → γ) : ∀ (l : List α) (ds : List β), ds.length = l.length →
    List.zipWith (fun _ d => g d) l ds = ds.map g
  | [], [], _ => rfl
  | a :: l, d :: ds, h => by
    rw [List.zipWith_cons_cons, zipWith_const g l ds (by simpa using h)]
    rfl

theorem hyper_const {hy : Hyper} {a : ℝ} (h : hy.get .none = .ok a) : hy = .const a := by
  cases hy with
  | const x =>
    unfold Hyper.get at h
    injection h with h
    rw [h]
  | line xs ys => cases h
  | plane f => cases h

theorem mapM_const {α β : Type} {f : α → Except PyErr β} {b : β} (h : ∀ a, f a = .ok b) : ∀ l : List α,
    l.mapM f = .ok (l.map fun _ => b)
  | [] => rfl
  | a :: l => by
    rw [List.mapM_cons, h a, mapM_const h l]
    rfl

theorem zip_const {α β γ : Type} (a : β) (b : γ) : ∀ l : List α, (l.map fun _ => a).zip (l.map fun _ => b) = l.map fun _ => (a, b)
  | [] => rfl
  | x :: l => by
    rw [List.map_cons, List.map_cons, List.zip_cons_cons, zip_const a b l]
    rfl

/-- The values of a parameter. -/
theorem priorInit_run {pr : Prior} {f : ℝ → ℝ} (h : DensityOf pr f) (hi : pr.init = none) (ps : List Pos) (hne : ps ≠ [])
    (ds t : List Draw) (hl : ds.length = ps.length) :
    pr.initialize ps (ds ++ t) = (.ok (.vec (ds.map (sampleOf pr))), t) := by
  have hs := (DensityOf.sampled h).1
  have hsv : ∀ d, sampleOf pr d = match (pr.sample .none [d]).1 with | .ok v => v | .error _ => 0 := fun d => rfl
  unfold DensityOf at h
  unfold Prior.initialize
  rw [hi]
  simp only
  match hd : pr.dist with
  | .uniform vmin vmax =>
    rw [hd] at h
    obtain ⟨a, b, h1, h2, -, -⟩ := h
    obtain rfl := hyper_const h1
    obtain rfl := hyper_const h2
    have hv : ∀ d, sampleOf pr d = a + (b - a) * d.u := by
      intro d
      rw [hsv]
      unfold Prior.sample
      rw [hd]
      rfl
    simp only
    have hmap : (ps.mapM fun q => do
        let a' ← (Hyper.const a).get q
        let b' ← (Hyper.const b).get q
        return (a', b') : Except PyErr (List (ℝ × ℝ))) = .ok (ps.map fun _ => (a, b)) := mapM_const (fun q => rfl) ps
    refine (M.bind_of (show M.lift _ _ = (.ok (ps.map fun _ => (a, b)), ds ++ t) from congrArg (fun r => (r, ds ++ t)) hmap)).trans ?_
    rw [if_neg (by cases ps with
      | nil => exact (hne rfl).elim
      | cons => simp)]
    refine (M.bind_of (forEach_run (g := fun ab d => ab.1 + (ab.2 - ab.1) * d.u) _ (fun ab _ d t => M.uniform_run _ _ _ _) _ _ (by simpa using hl))).trans ?_
    rw [List.zipWith_map_left, zipWith_const (fun d => a + (b - a) * d.u) _ _ hl]
    exact congrArg (fun l => ((.ok (Arr.vec l) : Except PyErr Arr), t)) (List.map_congr_left fun d _ => (hv d).symm)
  | .gaussian mean std =>
    rw [hd] at h
    obtain ⟨a, b, h1, h2, hb, -⟩ := h
    obtain rfl := hyper_const h1
    obtain rfl := hyper_const h2
    have hv : ∀ d, sampleOf pr d = a + d.z * b := by
      intro d
      rw [hsv]
      unfold Prior.sample
      rw [hd]
      rfl
    simp only [Hyper.getAll]
    refine (M.bind_of rfl).trans ((M.bind_of rfl).trans ?_)
    rw [zip_const]
    refine (M.bind_of (forEach_run (g := fun ab d => ab.1 + d.z * ab.2) _ (fun ab hab d t => ?_) _ _ (by simpa using hl))).trans ?_
    · obtain ⟨q, -, rfl⟩ := List.mem_map.1 hab
      unfold M.npNormal
      rw [if_neg (not_lt.2 hb.le)]
      exact M.normalvariate_run _ _ _ _
    rw [List.zipWith_map_left, zipWith_const (fun d => a + d.z * b) _ _ hl]
    exact congrArg (fun l => ((.ok (Arr.vec l) : Except PyErr Arr), t)) (List.map_congr_left fun d _ => (hv d).symm)
  | .laplace mean scale =>
    rw [hd] at h
    obtain ⟨a, b, h1, h2, hb, -⟩ := h
    obtain rfl := hyper_const h1
    obtain rfl := hyper_const h2
    have hv : ∀ d, sampleOf pr d = a + M.laplaceDev d.u * b := by
      intro d
      rw [hsv]
      unfold Prior.sample M.npLaplace
      rw [hd]
      simp only
      change (match (match (M.npLaplace a b : M ℝ) [d] with | r => r.1) with | .ok v => v | .error _ => 0) = _
      unfold M.npLaplace
      rw [if_neg (not_lt.2 hb.le)]
      rfl
    simp only [Hyper.getAll]
    refine (M.bind_of rfl).trans ((M.bind_of rfl).trans ?_)
    rw [zip_const]
    refine (M.bind_of (forEach_run (g := fun ab d => ab.1 + M.laplaceDev d.u * ab.2) _ (fun ab hab d t => ?_) _ _ (by simpa using hl))).trans ?_
    · obtain ⟨q, -, rfl⟩ := List.mem_map.1 hab
      unfold M.npLaplace
      rw [if_neg (not_lt.2 hb.le)]
      rfl
    rw [List.zipWith_map_left, zipWith_const (fun d => a + M.laplaceDev d.u * b) _ _ hl]
    exact congrArg (fun l => ((.ok (Arr.vec l) : Except PyErr Arr), t)) (List.map_congr_left fun d _ => (hv d).symm)
  | .custom _ _ _ => rw [hd] at h; exact h.elim

theorem blocks_run {n : ℕ} (hn : 1 ≤ n) : ∀ {k : ℕ} (prior : Fin k → Prior) (dens : Fin k → ℝ → ℝ) (_ : ∀ j, DensityOf (prior j) (dens j))
    (_ : ∀ j, (prior j).init = none) (w : Fin k → Fin (n + n) → Draw) (t : List Draw),
    (paramDict (List.ofFn prior)).initPlain n ((List.ofFn fun j => List.ofFn (w j)).flatten ++ t) =
      (.ok (List.ofFn fun j => ((prior j).name, .arr (.vec (List.ofFn fun r : Fin n => sampleOf (prior j) (w j (Fin.natAdd n r)))))), t)
  | 0, prior, dens, _, _, w, t => rfl
  | k + 1, prior, dens, h, hi, w, t => by
    have e1 : (List.ofFn fun j => List.ofFn (w j)).flatten ++ t =
        (List.ofFn fun r : Fin n => w 0 (Fin.castAdd n r)) ++ ((List.ofFn fun r : Fin n => w 0 (Fin.natAdd n r)) ++
          ((List.ofFn fun j : Fin k => List.ofFn (w j.succ)).flatten ++ t)) := by
      rw [List.ofFn_succ, List.flatten_cons, List.append_assoc]
      have := List.ofFn_fin_append (fun r : Fin n => w 0 (Fin.castAdd n r)) (fun r : Fin n => w 0 (Fin.natAdd n r))
      rw [← List.append_assoc (List.ofFn fun r : Fin n => w 0 (Fin.castAdd n r)), ← this, Fin.append_castAdd_natAdd]
    rw [e1, List.ofFn_succ, List.ofFn_succ, paramDict, ParamList.initPlain]
    refine (M.bind_of (garbage_run n _ _ (List.length_ofFn))).trans ?_
    rw [Param.initialize]
    have h2 := priorInit_run (h 0) (hi 0) ((List.ofFn fun r : Fin n => w 0 (Fin.castAdd n r)).map fun d => Pos.one d.z) (by
        intro e
        have := congrArg List.length e
        simp only [List.length_map, List.length_ofFn, List.length_nil] at this
        omega) (List.ofFn fun r : Fin n => w 0 (Fin.natAdd n r)) ((List.ofFn fun j : Fin k => List.ofFn (w j.succ)).flatten ++ t) (by simp)
    refine (M.bind_of ((M.bind_of h2).trans rfl)).trans ?_
    refine (M.bind_of (blocks_run hn (fun j => prior j.succ) (fun j => dens j.succ) (fun j => h j.succ) (fun j => hi j.succ) (fun j => w j.succ) t)).trans ?_
    rw [List.map_ofFn]
    rfl

theorem initPlain_run {n : ℕ} (hn : 1 ≤ n) (h : s.Ok) (hs : s.Startable) (w : Fin (s.size * (n + n)) → Draw) (t : List Draw) :
    (paramDict (List.ofFn s.prior)).initPlain n (List.ofFn w ++ t) =
      (.ok (s.stateOf (tup n (startRows s n w))).vals, t) := by
  have h1 := blocks_run hn s.prior s.dens h.dens hs.init (fun j q => w (finProdFinEquiv (j, q))) t
  rw [List.ofFn_mul]
  refine Eq.trans ?_ h1
  congr 4
  funext j
  congr 1
  funext q
  congr 1
  refine Fin.ext ?_
  simp [finProdFinEquiv]
  ring

theorem checkVals_plain (n : ℕ) : ∀ {l : List (String × PVal)}, (∀ kv ∈ l, ∃ xs : List ℝ, kv.2 = .arr (.vec xs) ∧ xs.length = n) →
    checkVals n l = .ok ()
  | [], _ => rfl
  | (k, v) :: l, h => by
    obtain ⟨xs, h1, h2⟩ := h _ (List.mem_cons_self ..)
    simp only at h1
    subst h1
    rw [checkVals]
    rw [if_neg (by simpa [PVal.len, Arr.len] using h2)]
    rw [checkVal]
    exact checkVals_plain n fun kv hkv => h kv (List.mem_cons_of_mem _ hkv)
    all_goals simp

theorem initDim_run (h : s.Ok) (hs : s.Startable) (t : List Draw) (ht : 1 ≤ t.length) :
    s.info.initDim t = (.ok (dimV s t).1, (dimV s t).2) ∧ s.info.lo ≤ (dimV s t).1 ∧ (dimV s t).1 ≤ s.startHi := by
  obtain ⟨hb1, hb2⟩ := startHi_bounds h hs
  unfold Info.initDim dimV
  cases hn : s.info.nDim with
  | some n =>
    have e1 : s.info.lo = n := by unfold Info.lo; rw [hn]; rfl
    have e2 : s.startHi = n := by unfold PlainSpace.startHi; rw [hn]
    rw [e1, e2]
    exact ⟨rfl, le_rfl, le_rfl⟩
  | none =>
    have e1 : s.info.lo = s.info.nMin := by unfold Info.lo; rw [hn]; rfl
    rw [e1] at hb1 ⊢
    have e2 : s.info.initMax = (s.startHi : ℤ) := by
      obtain ⟨h2, h3⟩ := hs.range hn
      have h1 := h.hi
      unfold Info.lo Info.hi at h1
      simp only [hn, Option.getD_none] at h1
      have h4 : (s.info.nMin : ℝ) ≤ s.info.nMax := by exact_mod_cast h1
      have h5 : 0 ≤ ((s.info.nMax : ℝ) - s.info.nMin) * s.info.initRange := mul_nonneg (by linarith) h2
      have h6 : (0 : ℝ) ≤ s.info.nMin := Nat.cast_nonneg _
      unfold Info.initMax pyInt PlainSpace.startHi
      rw [hn, if_pos (by linarith), ← Int.natCast_floor_eq_floor (by linarith)]
      simp only
      congr 2
      ring
    match t, ht with
    | d :: t, _ =>
      simp only
      rw [e2, if_neg (by exact_mod_cast not_lt.2 hb1), Int.toNat_natCast]
      refine ⟨M.randint_run hb1 d t, Nat.le_add_right _ _, ?_⟩
      change s.info.nMin + d.n % (s.startHi - s.info.nMin + 1) ≤ s.startHi
      have := Nat.mod_lt d.n (Nat.succ_pos (s.startHi - s.info.nMin))
      simp only [Nat.succ_eq_add_one] at this
      omega

theorem dimV_short (s : PlainSpace) : V.Short (dimV s) 1 := by
  unfold dimV
  split
  · exact (V.Short.ret _).mono (Nat.zero_le 1)
  · exact V.Short.draw.andThen fun _ => V.Short.ret _

theorem spaceStartV_short (s : PlainSpace) : V.Short (spaceStartV s) (1 + s.size * (s.info.hi + s.info.hi)) :=
  (dimV_short s).andThen fun n => ((V.Short.draws _).andThen fun _ => V.Short.ret _).mono
    (Nat.mul_le_mul_left _ (by omega))

/-- The start of a space. -/
theorem spaceInit_run (h : s.Ok) (hs : s.Startable) (t : List Draw) (ht : 1 + s.size * (s.info.hi + s.info.hi) ≤ t.length) :
    s.space.initialize t = (.ok (s.stateOf (spaceStartV s t).1), (spaceStartV s t).2) := by
  obtain ⟨h1, h2, h3⟩ := initDim_run h hs t (by omega)
  obtain ⟨hb1, hb2⟩ := startHi_bounds h hs
  obtain ⟨k, hk, hdrop⟩ := dimV_short s t
  unfold PlainSpace.space
  rw [Space.initialize]
  refine (M.bind_of h1).trans ?_
  generalize hn : (dimV s t).1 = n at h2 h3
  have hmin : min n s.info.hi = n := min_eq_left (by omega)
  have hlen : s.size * (n + n) ≤ (dimV s t).2.length := by
    rw [hdrop, List.length_drop]
    have : s.size * (n + n) ≤ s.size * (s.info.hi + s.info.hi) := Nat.mul_le_mul_left _ (by omega)
    omega
  have hsplit := draws_split hlen
  have e : spaceStartV s t = (tup n (startRows s n (V.draws (s.size * (n + n)) (dimV s t).2).1), (V.draws (s.size * (n + n)) (dimV s t).2).2) := by
    change rowsV s (min (dimV s t).1 s.info.hi) (dimV s t).2 = _
    rw [hn, hmin]
    rfl
  rw [e]
  rw [h.plain]
  refine (M.bind_of (show Kind.sampleSites .plain n (dimV s t).2 = (.ok none, (dimV s t).2) from rfl)).trans ?_
  simp only
  generalize (dimV s t).2 = u at hsplit ⊢
  generalize V.draws (s.size * (n + n)) u = z at hsplit ⊢
  rw [hsplit]
  have hlo := h.lo
  refine (M.bind_of (initPlain_run (by omega) h hs z.1 z.2)).trans ?_
  unfold M.lift mkPS
  rw [checkVals_plain n fun kv hkv => ?_]
  · rfl
  · obtain ⟨j, rfl⟩ := List.mem_ofFn.1 hkv
    exact ⟨_, rfl, List.length_ofFn⟩

variable {m : ℕ} {sps : Fin m → PlainSpace}

theorem startV_short : ∀ {m : ℕ} (sps : Fin m → PlainSpace), V.Short (startV sps) (startLen sps)
  | 0, _ => V.Short.ret _
  | m + 1, sps => (spaceStartV_short (sps 0)).andThen fun _ => (startV_short fun i => sps i.succ).andThen fun _ => V.Short.ret _

theorem initValues_run : ∀ {m : ℕ} {sps : Fin m → PlainSpace}, (∀ i, (sps i).Ok) → (∀ i, (sps i).Startable) → ∀ t : List Draw,
    startLen sps ≤ t.length →
    Spaces.initValues (List.ofFn fun i => ((sps i).info.name, (sps i).space)) t = (.ok (paramsOf sps (startV sps t).1), (startV sps t).2)
  | 0, _, _, _, _, _ => rfl
  | m + 1, sps, h, hs, t, ht => by
    rw [startLen] at ht
    obtain ⟨k, hk, hdrop⟩ := spaceStartV_short (sps 0) t
    rw [List.ofFn_succ, Spaces.initValues]
    refine (M.bind_of (spaceInit_run (h 0) (hs 0) t (by omega))).trans ?_
    have h2 := initValues_run (sps := fun i => sps i.succ) (fun i => h i.succ) (fun i => hs i.succ) (spaceStartV (sps 0) t).2 (by
      rw [hdrop, List.length_drop]
      omega)
    refine (M.bind_of h2).trans ?_
    unfold paramsOf
    rw [List.ofFn_succ]
    rfl

theorem initTargets_none : ∀ {ts : List Target} (s : State), ts.filter (·.hierarchical) = [] → initTargets ts s = pure s
  | [], s, _ => rfl
  | t :: ts, s, h => by
    rw [List.filter_eq_nil_iff] at h
    have h1 := h t (List.mem_cons_self ..)
    rw [initTargets, Target.initialize, if_neg h1]
    have h2 := initTargets_none (ts := ts) s (List.filter_eq_nil_iff.2 fun x hx => h x (List.mem_cons_of_mem _ hx))
    funext u
    exact (M.bind_of rfl).trans (congrFun h2 u)

theorem spaceStartV_possible (h : s.Ok) (hs : s.Startable) (t : List Draw) (ht : 1 ≤ t.length) :
    (s.info.lo ≤ (spaceStartV s t).1.1 ∧ (spaceStartV s t).1.1 ≤ s.info.hi) ∧
      ∀ r j, 0 < s.dens j ((spaceStartV s t).1.2 r j) := by
  obtain ⟨-, h2, h3⟩ := initDim_run h hs t ht
  obtain ⟨hb1, hb2⟩ := startHi_bounds h hs
  refine ⟨⟨?_, ?_⟩, fun r j => ?_⟩
  · exact le_min h2 (by omega)
  · exact min_le_right _ _
  · exact DensityOf.sampled_pos (h.dens j) _

theorem startV_possible : ∀ {m : ℕ} {sps : Fin m → PlainSpace}, (∀ i, (sps i).Ok) → (∀ i, (sps i).Startable) → ∀ t : List Draw,
    startLen sps ≤ t.length → Possible sps (startV sps t).1
  | 0, _, _, _, _, _ => fun i => i.elim0
  | m + 1, sps, h, hs, t, ht => by
    rw [startLen] at ht
    obtain ⟨k, hk, hdrop⟩ := spaceStartV_short (sps 0) t
    intro i
    refine Fin.cases ?_ (fun i => ?_) i
    · exact spaceStartV_possible (h 0) (hs 0) t (by omega)
    · exact startV_possible (sps := fun i => sps i.succ) (fun i => h i.succ) (fun i => hs i.succ) (spaceStartV (sps 0) t).2 (by
        rw [hdrop, List.length_drop]
        omega) i

/-- The starting state of a chain. -/
theorem start_run {p : Problem} {logLik : Values sps → ℝ} (h : PlainProblem p sps logLik) (hs : ∀ i, (sps i).Startable) (t : List Draw)
    (ht : startLen sps ≤ t.length) : p.start t =
      (.ok { params := paramsOf sps (startV sps t).1, temperature := 1, cache := [], extra := [] }, (startV sps t).2) := by
  unfold Problem.start Spaces.initialize
  rw [h.spaces]
  refine (M.bind_of ((M.bind_of (initValues_run h.ok hs t ht)).trans rfl)).trans ?_
  rw [initTargets_none _ h.noise]
  rfl

end BB.Lemmas
