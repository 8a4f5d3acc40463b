import Verif.Lemmas.Metropolis
import Verif.Lemmas.IidTape
import Verif.Spec.PlainInversion

/-!
# Births, deaths and changes of values: the flows of accepted moves are balanced
-/

namespace BB.Lemmas

open BB Spec MeasureTheory ProbabilityTheory

variable {R Ω : Type} [MeasurableSpace R] [MeasurableSpace Ω]

/-! ### births and deaths -/

open Classical in
/-- A birth: an index and the row `new ω`. -/
noncomputable def birthKern (K : ℕ) (μ : Measure Ω) (new : Ω → R) (hi : ℕ) : Kern (Tuple R) (Draw × Ω) where
  draws := (drawLaw K).prod μ
  move := fun x θ => addRow hi x θ.1.n (new θ.2)
  ratio := fun x _ => if x.1 = hi then 0 else 1

open Classical in
/-- A death: an index. -/
noncomputable def deathKern (R : Type) [MeasurableSpace R] (K lo hi : ℕ) : Kern (Tuple R) Draw where
  draws := drawLaw K
  move := fun x θ => removeRow lo hi x θ.n
  ratio := fun x _ => if x.1 = lo then 0 else 1

theorem birthKern_ok {K : ℕ} (hK : K ≠ 0) {μ : Measure Ω} [IsProbabilityMeasure μ] {new : Ω → R} (hn : Measurable new)
    (hi : ℕ) : (birthKern K μ new hi).Ok where
  prob := by
    have := drawLaw_prob hK
    unfold birthKern
    infer_instance
  move := (addRow_meas hi).comp (measurable_fst.prodMk
    ((draw_n_meas.comp (measurable_fst.comp measurable_snd)).prodMk (hn.comp (measurable_snd.comp measurable_snd))))
  ratio := by
    classical
    have h : Measurable fun n : ℕ => if n = hi then (0 : ℝ) else 1 := measurable_from_top
    refine (congrArg Measurable (funext fun z => ?_)).mp
      (h.comp ((dim_meas (R := R)).comp (measurable_fst (β := Draw × Ω))))
    simp [birthKern]

theorem deathKern_ok {K : ℕ} (hK : K ≠ 0) (lo hi : ℕ) : (deathKern R K lo hi).Ok where
  prob := drawLaw_prob hK
  move := (removeRow_meas lo hi).comp (measurable_fst.prodMk (draw_n_meas.comp measurable_snd))
  ratio := by
    classical
    have h : Measurable fun n : ℕ => if n = lo then (0 : ℝ) else 1 := measurable_from_top
    refine (congrArg Measurable (funext fun z => ?_)).mp
      (h.comp ((dim_meas (R := R)).comp (measurable_fst (β := Draw))))
    simp [deathKern]

/-- The flow through a pair of models when the ratio is 1. -/
noncomputable def pairFlow {X : Type} (ℓ : X → ℝ) (H G : X → ENNReal) (z : X × X) : ENNReal :=
  ENNReal.ofReal (Real.exp (ℓ z.1)) * rate ℓ z.1 z.2 1 * (H z.1 * G z.2)

theorem exp_rate {X : Type} (ℓ : X → ℝ) (x y : X) (r : ℝ) :
    ENNReal.ofReal (Real.exp (ℓ x)) * rate ℓ x y r =
      ENNReal.ofReal (min (Real.exp (ℓ x)) (r * Real.exp (ℓ y))) := by
  unfold rate
  rw [← ENNReal.ofReal_mul (Real.exp_pos _).le, mul_min_of_nonneg _ _ (Real.exp_pos _).le, mul_one, Real.exp_sub]
  congr 2
  field_simp

theorem pairFlow_swap {X : Type} (ℓ : X → ℝ) (H G : X → ENNReal) (z : X × X) :
    pairFlow ℓ H G z = pairFlow ℓ G H z.swap := by
  unfold pairFlow
  rw [exp_rate, exp_rate, one_mul, one_mul, min_comm, mul_comm (H z.1)]
  rfl

theorem pairFlow_meas {X : Type} [MeasurableSpace X] {ℓ : X → ℝ} (hℓ : Measurable ℓ) {H G : X → ENNReal} (hH : Measurable H)
    (hG : Measurable G) : Measurable (pairFlow ℓ H G) := by
  unfold pairFlow
  simp only [exp_rate]
  have h1 : Measurable fun z : X × X => ℓ z.1 := hℓ.comp measurable_fst
  have h2 : Measurable fun z : X × X => ℓ z.2 := hℓ.comp measurable_snd
  have h3 : Measurable fun z : X × X => ENNReal.ofReal (min (Real.exp (ℓ z.1)) (1 * Real.exp (ℓ z.2))) := by fun_prop
  exact h3.mul ((hH.comp measurable_fst).mul (hG.comp measurable_snd))

theorem pair_birth_meas {F : Tuple R × Tuple R → ENNReal} (hF : Measurable F) (hi n : ℕ) (v : Fin n → R) :
    Measurable fun θ : ℕ × R => F (tup n v, addRow hi (tup n v) θ.1 θ.2) := by
  have h1 : Measurable fun θ : ℕ × R => (tup n v, θ) := measurable_prodMk_left
  have h2 : Measurable fun θ : ℕ × R => addRow hi (tup n v) θ.1 θ.2 := (addRow_meas hi).comp h1
  have h3 : Measurable fun θ : ℕ × R => (tup n v, addRow hi (tup n v) θ.1 θ.2) := measurable_const.prodMk h2
  exact hF.comp h3

theorem birth_mean {K : ℕ} (hK : K ≠ 0) {μ : Measure Ω} [IsProbabilityMeasure μ] {new : Ω → R} (hn : Measurable new)
    {ρ : Measure R} (hρ : μ.map new = ρ) {F : Tuple R × Tuple R → ENNReal} (hF : Measurable F) (hi n : ℕ) (v : Fin n → R) :
    ∫⁻ θ : Draw × Ω, F (tup n v, addRow hi (tup n v) θ.1.n (new θ.2)) ∂((drawLaw K).prod μ) =
      ∫⁻ k, ∫⁻ y, F (tup n v, addRow hi (tup n v) k y) ∂ρ ∂uniformNat K := by
  have hdp := drawLaw_prob hK
  have hm := pair_birth_meas hF hi n v
  have h1 : Measurable fun θ : Draw × Ω => (θ.1.n, new θ.2) :=
    (draw_n_meas.comp measurable_fst).prodMk (hn.comp measurable_snd)
  have hm2 : Measurable fun θ : Draw × Ω => F (tup n v, addRow hi (tup n v) θ.1.n (new θ.2)) := hm.comp h1
  rw [lintegral_prod _ hm2.aemeasurable]
  have e2 : ∀ d : Draw, ∫⁻ ω, F (tup n v, addRow hi (tup n v) d.n (new ω)) ∂μ =
      ∫⁻ y, F (tup n v, addRow hi (tup n v) d.n y) ∂ρ := by
    intro d
    rw [← hρ]
    have h2 : Measurable fun y : R => (d.n, y) := measurable_prodMk_left
    exact (lintegral_map (f := fun y => F (tup n v, addRow hi (tup n v) d.n y)) (hm.comp h2) hn).symm
  simp only [e2]
  rw [← drawLaw_n (K := K)]
  exact (lintegral_map (f := fun k => ∫⁻ y, F (tup n v, addRow hi (tup n v) k y) ∂ρ) measurable_from_top draw_n_meas).symm

theorem birth_balanced {K : ℕ} (hK : K ≠ 0) {μ : Measure Ω} [IsProbabilityMeasure μ] {new : Ω → R} (hn : Measurable new)
    {ρ : Measure R} (hρ : μ.map new = ρ) {lo hi : ℕ} (hlh : lo ≤ hi) (hd : ∀ n, 0 < n → n ≤ hi → n ∣ K) :
    Balanced (transPrior ρ lo hi) (birthKern K μ new hi) (deathKern R K lo hi) := by
  have hdp := drawLaw_prob hK
  have hρp : IsProbabilityMeasure ρ := by
    rw [← hρ]
    exact Measure.isProbabilityMeasure_map hn.aemeasurable
  intro ℓ H G hℓ hH hG
  have hF := pairFlow_meas hℓ hH hG
  have hF' := pairFlow_meas hℓ hG hH
  unfold Kern.flow
  rw [lintegral_transPrior ρ lo hi ((birthKern_ok hK hn hi).flow_meas hℓ hH hG),
    lintegral_transPrior ρ lo hi ((deathKern_ok hK lo hi).flow_meas hℓ hG hH)]
  have hb : ∀ n, n < hi → ∫⁻ v, ∫⁻ θ, ENNReal.ofReal (Real.exp (ℓ (tup n v))) *
      rate ℓ (tup n v) ((birthKern K μ new hi).move (tup n v) θ) ((birthKern K μ new hi).ratio (tup n v) θ) *
      (H (tup n v) * G ((birthKern K μ new hi).move (tup n v) θ)) ∂(birthKern K μ new hi).draws ∂(Measure.pi fun _ : Fin n => ρ) =
      ∫⁻ z, pairFlow ℓ H G z ∂birthPair ρ n := by
    intro n hlt
    rw [← birth_flow ρ hK (hd (n + 1) (by omega) (by omega)) hlt.ne hF]
    refine lintegral_congr fun v => ?_
    have e : ∀ θ : Draw × Ω, ENNReal.ofReal (Real.exp (ℓ (tup n v))) *
        rate ℓ (tup n v) ((birthKern K μ new hi).move (tup n v) θ) ((birthKern K μ new hi).ratio (tup n v) θ) *
        (H (tup n v) * G ((birthKern K μ new hi).move (tup n v) θ)) =
        pairFlow ℓ H G (tup n v, addRow hi (tup n v) θ.1.n (new θ.2)) := by
      intro θ
      have : (birthKern K μ new hi).ratio (tup n v) θ = 1 := if_neg hlt.ne
      rw [this]
      rfl
    simp only [e]
    exact birth_mean hK hn hρ hF hi n v
  have hde : ∀ n, lo ≤ n → n < hi → ∫⁻ v, ∫⁻ θ, ENNReal.ofReal (Real.exp (ℓ (tup (n + 1) v))) *
      rate ℓ (tup (n + 1) v) ((deathKern R K lo hi).move (tup (n + 1) v) θ) ((deathKern R K lo hi).ratio (tup (n + 1) v) θ) *
      (G (tup (n + 1) v) * H ((deathKern R K lo hi).move (tup (n + 1) v) θ)) ∂(deathKern R K lo hi).draws
        ∂(Measure.pi fun _ : Fin (n + 1) => ρ) = ∫⁻ z, pairFlow ℓ H G z ∂birthPair ρ n := by
    intro n hge hlt
    have h0 : ∫⁻ z, pairFlow ℓ H G z ∂birthPair ρ n = ∫⁻ z, pairFlow ℓ G H z.swap ∂birthPair ρ n :=
      lintegral_congr fun z => pairFlow_swap ℓ H G z
    rw [h0, ← death_flow ρ hK (hd (n + 1) (by omega) (by omega)) (lo := lo) (hi := hi) (by omega) hF']
    refine lintegral_congr fun v => ?_
    rw [← drawLaw_n (K := K)]
    refine Eq.trans (lintegral_congr fun θ => ?_) (lintegral_map
      (f := fun k => pairFlow ℓ G H (tup (n + 1) v, removeRow lo hi (tup (n + 1) v) k)) measurable_from_top draw_n_meas).symm
    have : (deathKern R K lo hi).ratio (tup (n + 1) v) θ = 1 := if_neg (by change ¬(n + 1 = lo); omega)
    rw [this]
    rfl
  have hz : ∀ n, n = hi → ∫⁻ v, ∫⁻ θ, ENNReal.ofReal (Real.exp (ℓ (tup n v))) *
      rate ℓ (tup n v) ((birthKern K μ new hi).move (tup n v) θ) ((birthKern K μ new hi).ratio (tup n v) θ) *
      (H (tup n v) * G ((birthKern K μ new hi).move (tup n v) θ)) ∂(birthKern K μ new hi).draws ∂(Measure.pi fun _ : Fin n => ρ) = 0 := by
    intro n h
    refine (lintegral_congr fun v => (lintegral_congr fun θ => ?_).trans lintegral_zero).trans lintegral_zero
    have : (birthKern K μ new hi).ratio (tup n v) θ = 0 := if_pos h
    rw [this, exp_rate, zero_mul, min_eq_right (Real.exp_pos _).le, ENNReal.ofReal_zero, zero_mul]
  have hz' : ∀ n, n = lo → ∫⁻ v, ∫⁻ θ, ENNReal.ofReal (Real.exp (ℓ (tup n v))) *
      rate ℓ (tup n v) ((deathKern R K lo hi).move (tup n v) θ) ((deathKern R K lo hi).ratio (tup n v) θ) *
      (G (tup n v) * H ((deathKern R K lo hi).move (tup n v) θ)) ∂(deathKern R K lo hi).draws
        ∂(Measure.pi fun _ : Fin n => ρ) = 0 := by
    intro n h
    refine (lintegral_congr fun v => (lintegral_congr fun θ => ?_).trans lintegral_zero).trans lintegral_zero
    have : (deathKern R K lo hi).ratio (tup n v) θ = 0 := if_pos h
    rw [this, exp_rate, zero_mul, min_eq_right (Real.exp_pos _).le, ENNReal.ofReal_zero, zero_mul]
  rw [Finset.sum_Ico_succ_top hlh, hz hi rfl, add_zero, Finset.sum_eq_sum_Ico_succ_bot (Nat.lt_succ_of_le hlh), hz' lo rfl,
    zero_add, ← Finset.sum_Ico_add' _ lo hi 1]
  refine Finset.sum_congr rfl fun n hmem => ?_
  rw [Finset.mem_Ico] at hmem
  rw [hb n hmem.2, hde n hmem.1 hmem.2]

/-! ### one row -/

/-- The row with the index `k` (modulo the number of rows) is replaced. -/
def changeRow (f : R → R) : Tuple R → ℕ → Tuple R
  | ⟨0, v⟩, _ => ⟨0, v⟩
  | ⟨n + 1, v⟩, k => ⟨n + 1, Function.update v (Fin.ofNat (n + 1) k) (f (v (Fin.ofNat (n + 1) k)))⟩

/-- A function of the row with the index `k` (modulo the number of rows). -/
def atRow (f : R → ℝ) : Tuple R → ℕ → ℝ
  | ⟨0, _⟩, _ => 1
  | ⟨n + 1, v⟩, k => f (v (Fin.ofNat (n + 1) k))

/-- A proposal for a row at random. -/
noncomputable def rowKern (K : ℕ) (q : Kern R Ω) : Kern (Tuple R) (Draw × Ω) where
  draws := (drawLaw K).prod q.draws
  move := fun x θ => changeRow (fun y => q.move y θ.2) x θ.1.n
  ratio := fun x θ => atRow (fun y => q.ratio y θ.2) x θ.1.n

theorem nat_param_meas {X Y : Type} [MeasurableSpace X] [MeasurableSpace Y] {f : X × ℕ → Y}
    (h : ∀ k, Measurable fun x => f (x, k)) : Measurable f :=
  measurable_from_prod_countable_left h

theorem rowKern_ok {K : ℕ} (hK : K ≠ 0) {q : Kern R Ω} (hq : q.Ok) : (rowKern K q).Ok where
  prob := by
    have := drawLaw_prob hK
    have := hq.prob
    unfold rowKern
    infer_instance
  move := by
    have h : Measurable fun z : (Tuple R × Ω) × ℕ => changeRow (fun y => q.move y z.1.2) z.1.1 z.2 := by
      refine nat_param_meas fun k => ?_
      refine measurable_tuple_prod fun n => ?_
      cases n with
      | zero => exact (measurable_mk 0).comp measurable_fst
      | succ n =>
        refine (measurable_mk (n + 1)).comp (g := tup (n + 1))
          (f := fun z : (Fin (n + 1) → R) × Ω => Function.update z.1 (Fin.ofNat (n + 1) k) (q.move (z.1 (Fin.ofNat (n + 1) k)) z.2)) ?_
        refine measurable_pi_lambda _ fun j => ?_
        by_cases hj : j = Fin.ofNat (n + 1) k
        · subst hj
          simp only [Function.update_self]
          have h1 : Measurable fun z : (Fin (n + 1) → R) × Ω => (z.1 (Fin.ofNat (n + 1) k), z.2) :=
            ((measurable_pi_apply _).comp measurable_fst).prodMk measurable_snd
          exact hq.move.comp h1
        · simp only [Function.update_of_ne hj]
          exact (measurable_pi_apply _).comp measurable_fst
    exact h.comp ((measurable_fst.prodMk (measurable_snd.comp measurable_snd)).prodMk
      (draw_n_meas.comp (measurable_fst.comp measurable_snd)))
  ratio := by
    have h : Measurable fun z : (Tuple R × Ω) × ℕ => atRow (fun y => q.ratio y z.1.2) z.1.1 z.2 := by
      refine nat_param_meas fun k => ?_
      refine measurable_tuple_prod fun n => ?_
      cases n with
      | zero => exact measurable_const
      | succ n =>
        have h1 : Measurable fun z : (Fin (n + 1) → R) × Ω => (z.1 (Fin.ofNat (n + 1) k), z.2) :=
          ((measurable_pi_apply _).comp measurable_fst).prodMk measurable_snd
        exact hq.ratio.comp h1
    exact h.comp ((measurable_fst.prodMk (measurable_snd.comp measurable_snd)).prodMk
      (draw_n_meas.comp (measurable_fst.comp measurable_snd)))

theorem row_balanced {K : ℕ} (hK : K ≠ 0) {q : Kern R Ω} (hq : q.Ok) {ρ : Measure R} [IsProbabilityMeasure ρ]
    (hb : Balanced ρ q q) {lo hi : ℕ} (hd : ∀ n, 0 < n → n ≤ hi → n ∣ K) :
    Balanced (transPrior ρ lo hi) (rowKern K q) (rowKern K q) := by
  have hdp := drawLaw_prob hK
  have hqp := hq.prob
  intro ℓ H G hℓ hH hG
  have key : ∀ {A B : Tuple R → ENNReal}, Measurable A → Measurable B → ∀ n, n + 1 ≤ hi →
      ∫⁻ v, ∫⁻ θ, ENNReal.ofReal (Real.exp (ℓ (tup (n + 1) v))) *
        rate ℓ (tup (n + 1) v) ((rowKern K q).move (tup (n + 1) v) θ) ((rowKern K q).ratio (tup (n + 1) v) θ) *
        (A (tup (n + 1) v) * B ((rowKern K q).move (tup (n + 1) v) θ)) ∂(rowKern K q).draws ∂(Measure.pi fun _ : Fin (n + 1) => ρ) =
      ((n + 1 : ℕ) : ENNReal)⁻¹ * ∑ i : Fin (n + 1), (q.lift (Y := fun _ : Fin (n + 1) => R) i).flow (Measure.pi fun _ => ρ)
        (fun v => ℓ (tup (n + 1) v)) (fun v => A (tup (n + 1) v)) (fun v => B (tup (n + 1) v)) := by
    intro A B hA hB n hn
    have hfm : ∀ i : Fin (n + 1), Measurable fun v : Fin (n + 1) → R => ∫⁻ θ, ENNReal.ofReal (Real.exp (ℓ (tup (n + 1) v))) *
        rate (fun v => ℓ (tup (n + 1) v)) v ((q.lift (Y := fun _ : Fin (n + 1) => R) i).move v θ) ((q.lift (Y := fun _ : Fin (n + 1) => R) i).ratio v θ) *
        (A (tup (n + 1) v) * B (tup (n + 1) ((q.lift (Y := fun _ : Fin (n + 1) => R) i).move v θ)))
          ∂(q.lift (Y := fun _ : Fin (n + 1) => R) i).draws := fun i =>
      (hq.lift (Y := fun _ : Fin (n + 1) => R) (i := i)).flow_meas (hℓ.comp (measurable_mk (n + 1)))
        (hA.comp (measurable_mk (n + 1))) (hB.comp (measurable_mk (n + 1)))
    unfold Kern.flow
    rw [← lintegral_finsetSum _ fun i _ => hfm i, ← lintegral_const_mul' _ _ (by simp)]
    refine lintegral_congr fun v => ?_
    rw [← uniform_fin hK (hd (n + 1) (by omega) hn), ← drawLaw_n (K := K)]
    have hmm : Measurable fun θ : Draw × Ω => ENNReal.ofReal (Real.exp (ℓ (tup (n + 1) v))) *
        rate ℓ (tup (n + 1) v) ((rowKern K q).move (tup (n + 1) v) θ) ((rowKern K q).ratio (tup (n + 1) v) θ) *
        (A (tup (n + 1) v) * B ((rowKern K q).move (tup (n + 1) v) θ)) := by
      have h1 := (rowKern_ok hK hq).rate_meas hℓ
      have h2 := hB.comp (rowKern_ok hK hq).move
      have h3 : Measurable fun θ : Draw × Ω => (tup (n + 1) v, θ) := measurable_prodMk_left
      exact (measurable_const.mul (h1.comp h3)).mul (measurable_const.mul (h2.comp h3))
    change ∫⁻ θ, _ ∂((drawLaw K).prod q.draws) = _
    rw [lintegral_prod _ hmm.aemeasurable]
    exact (lintegral_map (f := fun k => ∫⁻ θ, ENNReal.ofReal (Real.exp (ℓ (tup (n + 1) v))) *
        rate (fun v => ℓ (tup (n + 1) v)) v ((q.lift (Y := fun _ : Fin (n + 1) => R) (Fin.ofNat (n + 1) k)).move v θ)
          ((q.lift (Y := fun _ : Fin (n + 1) => R) (Fin.ofNat (n + 1) k)).ratio v θ) *
        (A (tup (n + 1) v) * B (tup (n + 1) ((q.lift (Y := fun _ : Fin (n + 1) => R) (Fin.ofNat (n + 1) k)).move v θ)))
          ∂(q.lift (Y := fun _ : Fin (n + 1) => R) (Fin.ofNat (n + 1) k)).draws) measurable_from_top draw_n_meas).symm
  unfold Kern.flow
  rw [lintegral_transPrior ρ lo hi ((rowKern_ok hK hq).flow_meas hℓ hH hG),
    lintegral_transPrior ρ lo hi ((rowKern_ok hK hq).flow_meas hℓ hG hH)]
  refine Finset.sum_congr rfl fun n hmem => ?_
  rw [Finset.mem_Ico] at hmem
  cases n with
  | zero =>
    refine lintegral_congr fun v => lintegral_congr fun θ => ?_
    have : (rowKern K q).move (tup 0 v) θ = tup 0 v := rfl
    rw [this, mul_comm (H _)]
  | succ n =>
    rw [key hH hG n (by omega), key hG hH n (by omega)]
    congr 1
    refine Finset.sum_congr rfl fun i _ => ?_
    exact (Balanced.lift (π := fun _ : Fin (n + 1) => ρ) hb hq hq) _ _ _ (hℓ.comp (measurable_mk (n + 1)))
      (hH.comp (measurable_mk (n + 1))) (hG.comp (measurable_mk (n + 1)))

/-! ### random walks of the values -/

/-- The values after a step of the random walk. -/
def walkTo {k : ℕ} (s : Fin k → ℝ) (y : Fin k → ℝ) (w : Fin k → Draw) : Fin k → ℝ := fun j => y j + (w j).z * s j

/-- Normal deviates are added to all values of a row; the ratio is that of the densities of the prior. -/
noncomputable def walkKern (K : ℕ) {k : ℕ} (s : Fin k → ℝ) (dens : Fin k → ℝ → ℝ) : Kern (Fin k → ℝ) (Fin k → Draw) where
  draws := tapeLaw K k
  move := walkTo s
  ratio := fun y w => ∏ j, dens j (walkTo s y w j) / dens j (y j)

theorem walkTo_meas {k : ℕ} (s : Fin k → ℝ) : Measurable fun z : (Fin k → ℝ) × (Fin k → Draw) => walkTo s z.1 z.2 := by
  refine measurable_pi_lambda _ fun j => ?_
  have h1 : Measurable fun z : (Fin k → ℝ) × (Fin k → Draw) => z.1 j := (measurable_pi_apply j).comp measurable_fst
  have h2 : Measurable fun z : (Fin k → ℝ) × (Fin k → Draw) => (z.2 j).z :=
    draw_z_meas.comp ((measurable_pi_apply j).comp measurable_snd)
  have h3 : Measurable fun z : (Fin k → ℝ) × (Fin k → Draw) => (z.2 j).z * s j := h2.mul (measurable_const (a := s j))
  exact h1.add h3

theorem walkKern_ok {K : ℕ} (hK : K ≠ 0) {k : ℕ} (s : Fin k → ℝ) {dens : Fin k → ℝ → ℝ} (hm : ∀ j, Measurable (dens j)) :
    (walkKern K s dens).Ok where
  prob := by
    have := drawLaw_prob hK
    unfold walkKern tapeLaw
    infer_instance
  move := walkTo_meas s
  ratio := by
    have h : ∀ j ∈ (Finset.univ : Finset (Fin k)), Measurable fun z : (Fin k → ℝ) × (Fin k → Draw) =>
        dens j (walkTo s z.1 z.2 j) / dens j (z.1 j) := by
      intro j _
      have h1 : Measurable fun z : (Fin k → ℝ) × (Fin k → Draw) => walkTo s z.1 z.2 j :=
        (measurable_pi_apply j).comp (walkTo_meas s)
      have h2 : Measurable fun z : (Fin k → ℝ) × (Fin k → Draw) => z.1 j := (measurable_pi_apply j).comp measurable_fst
      exact ((hm j).comp h1).div ((hm j).comp h2)
    exact Finset.measurable_prod _ h

/-- The deviates of the draws. -/
def devs {k : ℕ} (w : Fin k → Draw) : Fin k → ℝ := fun j => (w j).z

theorem devs_law {K : ℕ} (hK : K ≠ 0) (k : ℕ) : (tapeLaw K k).map devs = Measure.pi fun _ : Fin k => gaussianReal 0 1 := by
  have := drawLaw_prob hK
  unfold tapeLaw devs
  rw [Measure.pi_map_pi fun j => draw_z_meas.aemeasurable]
  rw [drawLaw_z hK]

theorem devs_meas (k : ℕ) : Measurable (devs (k := k)) :=
  measurable_pi_lambda _ fun j => draw_z_meas.comp (measurable_pi_apply j)

theorem gauss_neg (k : ℕ) : (Measure.pi fun _ : Fin k => gaussianReal 0 1).map (fun z j => -z j) =
    Measure.pi fun _ : Fin k => gaussianReal 0 1 := by
  have h := Measure.pi_map_pi (μ := fun _ : Fin k => gaussianReal 0 1) (f := fun _ : Fin k => fun z : ℝ => -z)
    fun j => measurable_neg.aemeasurable
  rw [h]
  congr 1
  funext j
  rw [gaussianReal_map_neg, neg_zero]

/-- The random walk is symmetric with respect to the Lebesgue measure. -/
theorem walk_symm {K : ℕ} (hK : K ≠ 0) {k : ℕ} (s : Fin k → ℝ) {F : (Fin k → ℝ) × (Fin k → ℝ) → ENNReal} (hF : Measurable F) :
    ∫⁻ y : Fin k → ℝ, ∫⁻ w, F (y, walkTo s y w) ∂tapeLaw K k = ∫⁻ y : Fin k → ℝ, ∫⁻ w, F (walkTo s y w, y) ∂tapeLaw K k := by
  have key : ∀ {F : (Fin k → ℝ) × (Fin k → ℝ) → ENNReal}, Measurable F →
      ∫⁻ y : Fin k → ℝ, ∫⁻ w, F (y, walkTo s y w) ∂tapeLaw K k =
      ∫⁻ z, (∫⁻ y : Fin k → ℝ, F (y, y + fun j => z j * s j)) ∂(Measure.pi fun _ : Fin k => gaussianReal 0 1) := by
    intro F hF
    have hp : Measurable fun x : (Fin k → ℝ) × (Fin k → ℝ) => (x.1, x.1 + fun j => x.2 j * s j) := by fun_prop
    have hm : Measurable fun x : (Fin k → ℝ) × (Fin k → ℝ) => F (x.1, x.1 + fun j => x.2 j * s j) := hF.comp hp
    have hsw : Measurable fun x : (Fin k → ℝ) × (Fin k → ℝ) => F (x.2, x.2 + fun j => x.1 j * s j) := hm.comp measurable_swap
    rw [lintegral_lintegral_swap (f := fun (z y : Fin k → ℝ) => F (y, y + fun j => z j * s j)) hsw.aemeasurable]
    refine lintegral_congr fun y => ?_
    rw [← devs_law hK k]
    have h1 : Measurable fun z : Fin k → ℝ => (y, z) := measurable_prodMk_left
    exact (lintegral_map (f := fun z => F (y, y + fun j => z j * s j)) (hm.comp h1) (devs_meas k)).symm
  have key2 := key (F := fun x => F (x.2, x.1)) (hF.comp measurable_swap)
  rw [key hF]
  refine Eq.trans ?_ key2.symm
  have e : ∀ z : Fin k → ℝ, ∫⁻ y : Fin k → ℝ, F (y, y + fun j => z j * s j) =
      ∫⁻ y : Fin k → ℝ, F (y + (fun j => -z j * s j), y) := by
    intro z
    rw [← lintegral_add_right_eq_self (fun y : Fin k → ℝ => F (y + (fun j => -z j * s j), y)) fun j => z j * s j]
    refine lintegral_congr fun y => ?_
    congr 2
    funext j
    simp
  simp only [e]
  have hm : Measurable fun x : (Fin k → ℝ) × (Fin k → ℝ) => F (x.2 + (fun j => x.1 j * s j), x.2) :=
    hF.comp (by fun_prop)
  have h2 : Measurable fun z : Fin k → ℝ => ∫⁻ y : Fin k → ℝ, F (y + (fun j => z j * s j), y) :=
    Measurable.lintegral_prod_right' hm
  have h3 := lintegral_map (μ := Measure.pi fun _ : Fin k => gaussianReal 0 1) h2
    (show Measurable fun (z : Fin k → ℝ) j => -z j by fun_prop)
  rw [gauss_neg] at h3
  exact h3.symm

theorem weigh_density {k : ℕ} {dens : Fin k → ℝ → ℝ} (h0 : ∀ j x, 0 ≤ dens j x) {ℓ : (Fin k → ℝ) → ℝ} (y y' : Fin k → ℝ) :
    (∏ j, ENNReal.ofReal (dens j (y j))) * (ENNReal.ofReal (Real.exp (ℓ y)) * rate ℓ y y' (∏ j, dens j (y' j) / dens j (y j))) =
      ENNReal.ofReal (min ((∏ j, dens j (y j)) * Real.exp (ℓ y)) ((∏ j, dens j (y' j)) * Real.exp (ℓ y'))) := by
  have hp : ∀ y : Fin k → ℝ, 0 ≤ ∏ j, dens j (y j) := fun y => Finset.prod_nonneg fun j _ => h0 j _
  rw [exp_rate, ← ENNReal.ofReal_prod_of_nonneg fun j _ => h0 j _, ← ENNReal.ofReal_mul (hp y), Finset.prod_div_distrib,
    mul_min_of_nonneg _ _ (hp y)]
  rcases (hp y).eq_or_lt with h | h
  · rw [← h]
    simp only [zero_mul]
    rw [min_self, min_eq_left (mul_nonneg (hp y') (Real.exp_pos _).le)]
  · congr 2
    field_simp

theorem walk_balanced {K : ℕ} (hK : K ≠ 0) {k : ℕ} (s : Fin k → ℝ) {dens : Fin k → ℝ → ℝ} (hm : ∀ j, Measurable (dens j))
    (h0 : ∀ j x, 0 ≤ dens j x) : Balanced (valuesLaw dens) (walkKern K s dens) (walkKern K s dens) := by
  intro ℓ H G hℓ hH hG
  have hok := walkKern_ok hK s hm
  have hprod : Measurable fun y : Fin k → ℝ => ∏ j, dens j (y j) :=
    Finset.measurable_prod _ fun j _ => (hm j).comp (measurable_pi_apply j)
  have hD : Measurable fun v : Fin k → ℝ => ∏ j, ENNReal.ofReal (dens j (v j)) :=
    Finset.measurable_prod _ fun j _ => ENNReal.measurable_ofReal.comp ((hm j).comp (measurable_pi_apply j))
  have hf : ∀ y : Fin k → ℝ, ∏ j, ENNReal.ofReal (dens j (y j)) ≠ ⊤ := fun y => ENNReal.prod_ne_top fun j _ => ENNReal.ofReal_ne_top
  have key : ∀ {A B : (Fin k → ℝ) → ENNReal}, Measurable A → Measurable B → (walkKern K s dens).flow (valuesLaw dens) ℓ A B =
      ∫⁻ y : Fin k → ℝ, ∫⁻ w, (fun z : (Fin k → ℝ) × (Fin k → ℝ) => ENNReal.ofReal (min ((∏ j, dens j (z.1 j)) * Real.exp (ℓ z.1))
        ((∏ j, dens j (z.2 j)) * Real.exp (ℓ z.2))) * (A z.1 * B z.2)) (y, walkTo s y w) ∂tapeLaw K k := by
    intro A B hA hB
    unfold Kern.flow valuesLaw
    rw [lintegral_withDensity_eq_lintegral_mul _ hD (hok.flow_meas hℓ hA hB)]
    refine lintegral_congr fun y => ?_
    simp only [Pi.mul_apply]
    rw [← lintegral_const_mul' _ _ (hf y)]
    refine lintegral_congr fun w => ?_
    rw [← mul_assoc]
    congr 1
    exact weigh_density h0 y (walkTo s y w)
  rw [key hH hG, key hG hH]
  have hF : Measurable fun z : (Fin k → ℝ) × (Fin k → ℝ) => ENNReal.ofReal (min ((∏ j, dens j (z.1 j)) * Real.exp (ℓ z.1))
        ((∏ j, dens j (z.2 j)) * Real.exp (ℓ z.2))) * (H z.1 * G z.2) := by
    have h1 : Measurable fun z : (Fin k → ℝ) × (Fin k → ℝ) => ℓ z.1 := hℓ.comp measurable_fst
    have h2 : Measurable fun z : (Fin k → ℝ) × (Fin k → ℝ) => ℓ z.2 := hℓ.comp measurable_snd
    have h3 : Measurable fun z : (Fin k → ℝ) × (Fin k → ℝ) => ∏ j, dens j (z.1 j) := hprod.comp measurable_fst
    have h4 : Measurable fun z : (Fin k → ℝ) × (Fin k → ℝ) => ∏ j, dens j (z.2 j) := hprod.comp measurable_snd
    have h5 : Measurable fun z : (Fin k → ℝ) × (Fin k → ℝ) => ENNReal.ofReal (min ((∏ j, dens j (z.1 j)) * Real.exp (ℓ z.1))
        ((∏ j, dens j (z.2 j)) * Real.exp (ℓ z.2))) := by fun_prop
    exact h5.mul ((hH.comp measurable_fst).mul (hG.comp measurable_snd))
  rw [walk_symm hK s hF]
  refine lintegral_congr fun y => lintegral_congr fun w => ?_
  simp only
  rw [min_comm, mul_comm (H _)]

end BB.Lemmas
