import Mathlib.Data.Fin.Tuple.Sort
import Verif.Lemmas.RowLaw
import Verif.Lemmas.PlainStart

/-!
# The law of rows the values of which are drawn after the sites were put in order
-/

namespace BB.Lemmas

open BB Spec MeasureTheory

section

variable {Ω Y : Type} [MeasurableSpace Ω] [MeasurableSpace Y] {n : ℕ}

/-- Entries that are put in an order that depends on something independent. -/
theorem shuffled {μ : Measure (Fin n → Ω)} [SFinite μ] {ν : Measure Y} [IsProbabilityMeasure ν]
    {τ : (Fin n → Ω) → Equiv.Perm (Fin n)} (hτ : ∀ e, MeasurableSet {ω | τ ω = e}) :
    MeasurePreserving (fun z : (Fin n → Ω) × (Fin n → Y) => (z.1, fun i => z.2 (τ z.1 i)))
      (μ.prod (Measure.pi fun _ => ν)) (μ.prod (Measure.pi fun _ => ν)) := by
  refine (MeasurePreserving.id μ).skew_product (g := fun ω (d : Fin n → Y) i => d (τ ω i)) ?_ (.of_forall fun ω => ?_)
  · refine measurable_pi_lambda _ fun i => ?_
    intro S hS
    have e : (fun z : (Fin n → Ω) × (Fin n → Y) => (Function.uncurry (fun ω (d : Fin n → Y) i => d (τ ω i)) z) i) ⁻¹' S =
        ⋃ σ : Equiv.Perm (Fin n), {z | τ z.1 = σ} ∩ {z | z.2 (σ i) ∈ S} := by
      ext z
      simp [Function.uncurry]
    rw [e]
    exact MeasurableSet.iUnion fun σ => (measurable_fst (hτ σ)).inter (((measurable_pi_apply (σ i)).comp measurable_snd) hS)
  · have h := pi_reindex ν (e := τ ω) (τ ω).injective (g := fun _ y => y) fun _ => measurable_id
    rw [h]
    simp

/-- The permutation that sorts is measurable. -/
theorem sort_meas {f : Ω → ℝ} (hf : Measurable f) (e : Equiv.Perm (Fin n)) :
    MeasurableSet {ω : Fin n → Ω | Tuple.sort (fun i => f (ω i)) = e} := by
  have h : {ω : Fin n → Ω | Tuple.sort (fun i => f (ω i)) = e} =
      {ω | (∀ i j, i ≤ j → f (ω (e i)) ≤ f (ω (e j))) ∧ ∀ i j, i < j → f (ω (e i)) = f (ω (e j)) → e i < e j} := by
    ext ω
    constructor
    · intro h1
      exact Tuple.eq_sort_iff.1 (Eq.symm h1)
    · intro h1
      exact Eq.symm (Tuple.eq_sort_iff.2 h1)
  have hm : ∀ i, Measurable fun ω : Fin n → Ω => f (ω i) := fun i => hf.comp (measurable_pi_apply i)
  have h2 : {ω | (∀ i j, i ≤ j → f (ω (e i)) ≤ f (ω (e j))) ∧ ∀ i j, i < j → f (ω (e i)) = f (ω (e j)) → e i < e j} =
      (⋂ i, ⋂ j, ⋂ _ : i ≤ j, {ω : Fin n → Ω | f (ω (e i)) ≤ f (ω (e j))}) ∩
        ⋂ i, ⋂ j, ⋂ _ : i < j, ({ω | f (ω (e i)) = f (ω (e j))}ᶜ ∪ {_ω | e i < e j}) := by
    ext ω
    simp [imp_iff_not_or]
  rw [h, h2]
  exact (MeasurableSet.iInter fun i => MeasurableSet.iInter fun j => MeasurableSet.iInter fun _ => measurableSet_le (hm _) (hm _)).inter
    (MeasurableSet.iInter fun i => MeasurableSet.iInter fun j => MeasurableSet.iInter fun _ =>
      (measurableSet_eq_fun (hm (e i)) (hm (e j))).compl.union (MeasurableSet.const (e i < e j)))

end

section

variable {P Ω : Type} [MeasurableSpace P] [MeasurableSpace Ω] {k : ℕ}

/-- The rows: the sites, and values which were drawn for the sites in the order `τ`. -/
noncomputable def shuffledRows (site : Ω → P) (value : Fin k → P → ℝ → ℝ) {n : ℕ} (τ : (Fin n → Ω) → Equiv.Perm (Fin n))
    (z : (Fin n → Ω) × (Fin n → Fin k → ℝ)) : Fin n → P × (Fin k → ℝ) :=
  fun i => (site (z.1 i), fun j => value j (site (z.1 i)) (z.2 (τ z.1 i) j))

theorem shuffledRows_law {σ : Measure P} [IsProbabilityMeasure σ]
    {dens : Fin k → P → ℝ → ℝ} (hm : ∀ j, Measurable fun z : P × ℝ => dens j z.1 z.2) {μ : Measure Ω}
    [IsProbabilityMeasure μ] {site : Ω → P} (hs : Measurable site) (hσ : μ.map site = σ) {dom : Set P}
    (hdom : ∀ᵐ x ∂σ, x ∈ dom) {value : Fin k → P → ℝ → ℝ} (hv : ∀ j, Measurable fun z : P × ℝ => value j z.1 z.2)
    {dev : Fin k → Measure ℝ} [∀ j, IsProbabilityMeasure (dev j)]
    (law : ∀ j, ∀ x ∈ dom, (dev j).map (value j x) = volume.withDensity fun v => ENNReal.ofReal (dens j x v))
    {n : ℕ} {τ : (Fin n → Ω) → Equiv.Perm (Fin n)} (hτ : ∀ e, MeasurableSet {ω | τ ω = e}) :
    MeasurePreserving (shuffledRows site value τ) ((Measure.pi fun _ => μ).prod (Measure.pi fun _ => Measure.pi dev))
      (Measure.pi fun _ => rowLaw σ dens) := by
  have h1 := shuffled (μ := Measure.pi fun _ : Fin n => μ) (ν := Measure.pi dev) hτ
  have h2 := (measurePreserving_arrowProdEquivProdArrow Ω (Fin k → ℝ) (Fin n) (fun _ => μ) (fun _ => Measure.pi dev)).symm
  have hrow : Measurable fun ω : Ω × (Fin k → ℝ) => (site ω.1, fun j => value j (site ω.1) (ω.2 j)) := by
    refine (hs.comp measurable_fst).prodMk (measurable_pi_lambda _ fun j => ?_)
    exact (hv j).comp ((hs.comp measurable_fst).prodMk ((measurable_pi_apply j).comp measurable_snd))
  have hr := row_law hm hs hσ hdom hv law
  have hp : IsProbabilityMeasure (rowLaw σ dens) := hr ▸ Measure.isProbabilityMeasure_map hrow.aemeasurable
  have h3 : MeasurePreserving (fun (w : Fin n → Ω × (Fin k → ℝ)) i => (site (w i).1, fun j => value j (site (w i).1) ((w i).2 j)))
      (Measure.pi fun _ => μ.prod (Measure.pi dev)) (Measure.pi fun _ => rowLaw σ dens) :=
    measurePreserving_pi _ _ fun _ => ⟨hrow, hr⟩
  exact h3.comp (h2.comp h1)

/-- The number of dimensions. -/
def dimOf (lo hi m : ℕ) : ℕ := lo + m % (hi - lo + 1)

theorem dimOf_bounds {lo hi : ℕ} (h : lo ≤ hi) (m : ℕ) : lo ≤ dimOf lo hi m ∧ dimOf lo hi m ≤ hi := by
  unfold dimOf
  have := Nat.mod_lt m (Nat.succ_pos (hi - lo))
  simp only [Nat.succ_eq_add_one] at this
  omega

theorem lintegral_mod {K q : ℕ} (hK : K ≠ 0) (hq : q ∣ K) (G : ℕ → ENNReal) :
    ∫⁻ m, G (m % q) ∂uniformNat K = (q : ENNReal)⁻¹ * ∑ i ∈ Finset.range q, G i := by
  obtain ⟨c, rfl⟩ := hq
  have hq0 : q ≠ 0 := fun h => hK (by rw [h, Nat.zero_mul])
  have hc0 : c ≠ 0 := fun h => hK (by rw [h, Nat.mul_zero])
  rw [lintegral_uniformNat]
  have hsum : ∀ c : ℕ, ∑ i ∈ Finset.range (q * c), G (i % q) = c * ∑ i ∈ Finset.range q, G i := by
    intro c
    induction c with
    | zero => simp
    | succ c ih =>
      rw [Nat.mul_succ, Finset.sum_range_add, ih]
      have e : ∑ x ∈ Finset.range q, G ((q * c + x) % q) = ∑ i ∈ Finset.range q, G i := by
        refine Finset.sum_congr rfl fun x hx => ?_
        rw [Nat.mul_add_mod, Nat.mod_eq_of_lt (Finset.mem_range.1 hx)]
      rw [e]
      push_cast
      ring
  rw [hsum, ← mul_assoc]
  congr 1
  push_cast
  rw [ENNReal.mul_inv (.inr (ENNReal.natCast_ne_top c)) (.inl (ENNReal.natCast_ne_top q)), mul_assoc,
    ENNReal.inv_mul_cancel (by exact_mod_cast hc0) (ENNReal.natCast_ne_top c), mul_one]

/-- The first of infinitely many independent entries. -/
theorem first_law {Y : Type} [MeasurableSpace Y] (ν : Measure Y) [IsProbabilityMeasure ν] (n : ℕ) :
    MeasurePreserving (fun (w : ℕ → Y) (i : Fin n) => w i) (Measure.infinitePi fun _ : ℕ => ν) (Measure.pi fun _ : Fin n => ν) := by
  have hm : Measurable fun (w : ℕ → Y) (i : Fin n) => w i := measurable_pi_lambda _ fun i => measurable_pi_apply _
  refine ⟨hm, (Measure.pi_eq fun s hs => ?_).symm⟩
  rw [Measure.map_apply hm (MeasurableSet.univ_pi hs)]
  have e : (fun (w : ℕ → Y) (i : Fin n) => w i) ⁻¹' Set.univ.pi s =
      Set.pi (Finset.range n : Set ℕ) fun i => if h : i < n then s ⟨i, h⟩ else Set.univ := by
    ext w
    simp only [Set.mem_preimage, Set.mem_pi, Finset.coe_range, Set.mem_Iio]
    constructor
    · intro h i hi
      rw [dif_pos hi]
      exact h ⟨i, hi⟩ trivial
    · intro h i _
      have := h i i.2
      rwa [dif_pos i.2] at this
  rw [e, Measure.infinitePi_pi]
  · rw [Finset.prod_range]
    refine Finset.prod_congr rfl fun i _ => ?_
    rw [dif_pos i.2]
  · intro i hi
    rw [dif_pos (Finset.mem_range.1 hi)]
    exact hs _

/-- The model at the start. -/
noncomputable def startModel (lo top : ℕ) (site : Ω → P) (value : Fin k → P → ℝ → ℝ) (τ : ∀ n, (Fin n → Ω) → Equiv.Perm (Fin n))
    (θ : ℕ × ((ℕ → Ω) × (ℕ → Fin k → ℝ))) : Tuple (P × (Fin k → ℝ)) :=
  tup (dimOf lo top θ.1) (shuffledRows site value (τ _) (fun i => θ.2.1 i, fun i => θ.2.2 i))

theorem startModel_law {σ : Measure P} [IsProbabilityMeasure σ]
    {dens : Fin k → P → ℝ → ℝ} (hm : ∀ j, Measurable fun z : P × ℝ => dens j z.1 z.2) {μ : Measure Ω}
    [IsProbabilityMeasure μ] {site : Ω → P} (hs : Measurable site) (hσ : μ.map site = σ) {dom : Set P}
    (hdom : ∀ᵐ x ∂σ, x ∈ dom) {value : Fin k → P → ℝ → ℝ} (hv : ∀ j, Measurable fun z : P × ℝ => value j z.1 z.2)
    {dev : Fin k → Measure ℝ} [∀ j, IsProbabilityMeasure (dev j)]
    (law : ∀ j, ∀ x ∈ dom, (dev j).map (value j x) = volume.withDensity fun v => ENNReal.ofReal (dens j x v))
    {τ : ∀ n, (Fin n → Ω) → Equiv.Perm (Fin n)} (hτ : ∀ n e, MeasurableSet {ω | τ n ω = e}) {lo top K : ℕ} (hlt : lo ≤ top)
    (hK : K ≠ 0) (hd : top - lo + 1 ∣ K) :
    MeasurePreserving (startModel lo top site value τ)
      ((uniformNat K).prod ((Measure.infinitePi fun _ : ℕ => μ).prod (Measure.infinitePi fun _ : ℕ => Measure.pi dev)))
      (((top - lo + 1 : ℕ) : ENNReal)⁻¹ • transPrior (rowLaw σ dens) lo top) := by
  have hp := uniformNat_prob hK
  have hrows : ∀ n, MeasurePreserving (fun z : (ℕ → Ω) × (ℕ → Fin k → ℝ) => shuffledRows site value (τ n) (fun i => z.1 i, fun i => z.2 i))
      ((Measure.infinitePi fun _ : ℕ => μ).prod (Measure.infinitePi fun _ : ℕ => Measure.pi dev)) (Measure.pi fun _ => rowLaw σ dens) :=
    fun n => (shuffledRows_law hm hs hσ hdom hv law (hτ n)).comp ((first_law μ n).prod (first_law (Measure.pi dev) n))
  have ht : ∀ n, Measurable (tup (R := P × (Fin k → ℝ)) n) := fun n => measurable_mk n
  have hmeas : Measurable (startModel lo top site value τ) :=
    measurable_from_prod_countable_right fun m => (ht _).comp (hrows (dimOf lo top m)).measurable
  refine ⟨hmeas, Measure.ext_of_lintegral _ fun F hF => ?_⟩
  rw [lintegral_map hF hmeas, lintegral_prod (fun θ => F (startModel lo top site value τ θ)) (hF.comp hmeas).aemeasurable]
  have e : ∀ m, ∫⁻ z, F (startModel lo top site value τ (m, z)) ∂((Measure.infinitePi fun _ : ℕ => μ).prod
      (Measure.infinitePi fun _ : ℕ => Measure.pi dev)) =
      (fun i => ∫⁻ v, F (tup (lo + i) v) ∂(Measure.pi fun _ : Fin (lo + i) => rowLaw σ dens)) (m % (top - lo + 1)) := by
    intro m
    exact (hrows (dimOf lo top m)).lintegral_comp (hF.comp (ht _))
  rw [lintegral_congr e]
  refine (lintegral_mod hK hd (fun i => ∫⁻ v, F (tup (lo + i) v) ∂(Measure.pi fun _ : Fin (lo + i) => rowLaw σ dens))).trans ?_
  rw [lintegral_smul_measure, smul_eq_mul]
  congr 1
  unfold transPrior
  rw [lintegral_finsetSum_measure, Finset.sum_Ico_eq_sum_range, show top + 1 - lo = top - lo + 1 by omega]
  refine Finset.sum_congr rfl fun i _ => ?_
  rw [lintegral_map hF (ht _)]

end

end BB.Lemmas
