import Verif.Lemmas.PlainWhole

/-!
# Plain parameter spaces: averages over the results of whole inversions
-/

namespace BB.Lemmas

open BB Spec MeasureTheory Filter Topology

variable {m : ℕ} {sps : Fin m → PlainSpace} {p : Problem} {logLik : Values sps → ℝ} {E : Type} {K : ℕ} {ℓ f : Values sps → ℝ}

theorem pathE_at_meas (hm : 0 < m) (hK : K ≠ 0) (h : ∀ i, (sps i).Ok) (hℓ : Measurable ℓ) (hf : Measurable f) {L : ℕ}
    (hL : ∀ i, (sps i).size + 5 ≤ L) {G : ℝ → ENNReal} (hG : Measurable G) (w : List ℝ) :
    Measurable fun z : Values sps × ℝ => pathE (iid K L) (nextOf sps K ℓ hm) f G w z.1 z.2 := by
  have hpr := iid_prob hK (w.length * L)
  have e : (fun z : Values sps × ℝ => pathE (iid K L) (nextOf sps K ℓ hm) f G w z.1 z.2) =
      fun z => ∫⁻ t, G (sumV sps K ℓ hm f w z t).1 ∂iid K (w.length * L) :=
    funext fun z => (sumV_law hm hK h hℓ hf hL w z.1 z.2 le_rfl hG).symm
  rw [e]
  have h3 : Measurable fun z : (Values sps × ℝ) × List Draw => sumV sps K ℓ hm f w z.1 z.2 := sumV_meas hm hK h hℓ hf w
  exact Measurable.lintegral_prod_right' (hG.comp (measurable_fst.comp h3))

theorem sumV_hasLaw (hm : 0 < m) (hK : K ≠ 0) (h : ∀ i, (sps i).Ok) (hℓ : Measurable ℓ) (hf : Measurable f) {L : ℕ}
    (hL : ∀ i, (sps i).size + 5 ≤ L) : ∀ (w : List ℝ) (x : Values sps) (r : ℝ),
    V.HasLaw K (sumV sps K ℓ hm f w (x, r)) (w.length * L) fun G => pathE (iid K L) (nextOf sps K ℓ hm) f G w x r
  | [], x, r => (V.HasLaw.ret r).mono (Nat.zero_le _)
  | a :: w, x, r => by
    have h0 : Measurable fun y : Values sps => (y, r + a * f y) := measurable_id.prodMk (measurable_const.add (hf.const_mul a))
    have h1 := V.HasLaw.andThen (iterV_law hm hK h hℓ hL x) (f := fun y => sumV sps K ℓ hm f w (y, r + a * f y))
      (fun y => sumV_hasLaw hm hK h hℓ hf hL w y (r + a * f y)) ((sumV_meas hm hK h hℓ hf w).comp h0)
    refine V.HasLaw.congr hK (h1.mono (by rw [List.length_cons, Nat.succ_mul]; omega)) fun G hG => ?_
    exact (next_mean hm hK h hℓ hL ((pathE_at_meas hm hK h hℓ hf hL hG w).comp h0) x).symm

theorem pathE_add_const {X Ω : Type} [MeasurableSpace X] [MeasurableSpace Ω] {ρ : Measure Ω} [IsProbabilityMeasure ρ] {F : X → Ω → X}
    {g : X → ℝ} {G : ℝ → ENNReal} (C : ENNReal) : ∀ w x s, pathE ρ F g (fun r => G r + C) w x s = pathE ρ F g G w x s + C
  | [], _, _ => rfl
  | a :: w, x, s => by
    change ∫⁻ ω, pathE ρ F g (fun r => G r + C) w _ _ ∂ρ = ∫⁻ ω, pathE ρ F g G w _ _ ∂ρ + C
    simp only [pathE_add_const C w]
    rw [lintegral_add_right _ measurable_const, lintegral_const, measure_univ, mul_one]

/-! ### chains one after the other -/

/-- The number of chains whose sum is not within `c` of 0. -/
noncomputable def badV (sps : Fin m → PlainSpace) (K : ℕ) (ℓ : Values sps → ℝ) (hm : 0 < m) (f : Values sps → ℝ) (c : ℝ) (w : List ℝ) :
    (k : ℕ) → (Fin k → Values sps) → List Draw → ENNReal
  | 0, _, _ => 0
  | k + 1, xs, t => far c (sumV sps K ℓ hm f w (xs 0, 0) t).1 +
      badV sps K ℓ hm f c w k (fun j => xs j.succ) (sumV sps K ℓ hm f w (xs 0, 0) t).2

theorem badV_meas (hm : 0 < m) (hK : K ≠ 0) (h : ∀ i, (sps i).Ok) (hℓ : Measurable ℓ) (hf : Measurable f) (c : ℝ) (w : List ℝ) : ∀ k,
    Measurable fun z : (Fin k → Values sps) × List Draw => badV sps K ℓ hm f c w k z.1 z.2
  | 0 => measurable_const
  | k + 1 => by
    have h1 : Measurable fun z : (Values sps × ℝ) × List Draw => sumV sps K ℓ hm f w z.1 z.2 := sumV_meas hm hK h hℓ hf w
    have h0 : Measurable fun z : (Fin (k + 1) → Values sps) × List Draw => ((z.1 0, (0 : ℝ)), z.2) :=
      (((measurable_pi_apply (X := fun _ : Fin (k + 1) => Values sps) 0).comp measurable_fst).prodMk measurable_const).prodMk measurable_snd
    have h2 : Measurable fun z : (Fin (k + 1) → Values sps) × List Draw => sumV sps K ℓ hm f w (z.1 0, 0) z.2 := h1.comp h0
    have h3 : Measurable fun z : (Fin (k + 1) → Values sps) × List Draw => fun j : Fin k => z.1 j.succ :=
      measurable_pi_lambda _ fun j => (measurable_pi_apply j.succ).comp measurable_fst
    have h4 := (badV_meas hm hK h hℓ hf c w k).comp (h3.prodMk (measurable_snd.comp h2))
    exact ((far_meas c).comp (measurable_fst.comp h2)).add h4

theorem badV_mean (hm : 0 < m) (hK : K ≠ 0) (h : ∀ i, (sps i).Ok) (hℓ : Measurable ℓ) (hf : Measurable f) {L : ℕ}
    (hL : ∀ i, (sps i).size + 5 ≤ L) (c : ℝ) (w : List ℝ) : ∀ (k : ℕ) (xs : Fin k → Values sps) (N : ℕ), k * (w.length * L) ≤ N →
    ∫⁻ t, badV sps K ℓ hm f c w k xs t ∂iid K N = ∑ j, pathE (iid K L) (nextOf sps K ℓ hm) f (far c) w (xs j) 0
  | 0, xs, N, _ => by
    change ∫⁻ _, 0 ∂iid K N = _
    simp
  | k + 1, xs, N, hN => by
    rw [Nat.succ_mul] at hN
    have hp := iid_prob hK L
    have hb : Measurable fun z : ℝ × List Draw => far c z.1 + badV sps K ℓ hm f c w k (fun j => xs j.succ) z.2 :=
      ((far_meas c).comp measurable_fst).add ((badV_meas hm hK h hℓ hf c w k).comp (measurable_const.prodMk measurable_snd))
    have h1 := sumV_hasLaw hm hK h hℓ hf hL w (xs 0) 0 (k * (w.length * L))
      (fun z => far c z.1 + badV sps K ℓ hm f c w k (fun j => xs j.succ) z.2)
      (fun r => far c r + ∑ j : Fin k, pathE (iid K L) (nextOf sps K ℓ hm) f (far c) w (xs j.succ) 0) hb (fun r M hM => by
        have hpM := iid_prob hK M
        simp only
        rw [lintegral_add_left measurable_const, lintegral_const, measure_univ, mul_one,
          badV_mean hm hK h hℓ hf hL c w k (fun j => xs j.succ) M hM]) N (by omega)
    rw [Fin.sum_univ_succ, ← pathE_add_const]
    exact h1

/-- No chain is bad. -/
theorem badV_zero {hm : 0 < m} {b s : ℤ} {n : ℕ} {c : ℝ} : ∀ {k : ℕ} {xs : Fin k → Values sps} {t : List Draw},
    badV sps K ℓ hm f c (dueW b s 1 n) k xs t = 0 → ∀ l ∈ trails sps K ℓ hm b s n k xs t, |(l.map f).sum| ≤ c
  | 0, _, _, _, l, hl => (List.not_mem_nil hl).elim
  | k + 1, xs, t, h0, l, hl => by
    obtain ⟨h1, h2⟩ := add_eq_zero.1 (show far c _ + badV sps K ℓ hm f c (dueW b s 1 n) k _ _ = 0 from h0)
    rw [sumV_rest, dueW_length] at h2
    rcases List.mem_cons.1 hl with rfl | hl
    · by_contra hc
      rw [trail_sum, zero_add] at h1
      unfold far at h1
      rw [Set.indicator_of_mem (show _ ∈ {s : ℝ | c < |s|} from not_le.1 hc)] at h1
      exact one_ne_zero h1
    · exact badV_zero h2 l hl

theorem trails_length {K : ℕ} {ℓ : Values sps → ℝ} {hm : 0 < m} {b s : ℤ} {n : ℕ} : ∀ {k : ℕ} {xs : Fin k → Values sps} {t : List Draw},
    (trails sps K ℓ hm b s n k xs t).length = k ∧ ∀ l ∈ trails sps K ℓ hm b s n k xs t, (l.length : ℝ) = (dueW b s 1 n).sum
  | 0, _, _ => ⟨rfl, fun _ hl => (List.not_mem_nil hl).elim⟩
  | k + 1, xs, t => by
    obtain ⟨h1, h2⟩ := trails_length (xs := fun j => xs j.succ) (t := restOf sps K ℓ hm n (xs 0) t)
    refine ⟨congrArg (· + 1) h1, fun l hl => ?_⟩
    rcases List.mem_cons.1 hl with rfl | hl
    · exact trail_length n 1 (xs 0) t
    · exact h2 l hl

/-- The average over all chains. -/
theorem average_flatten {X : Type} {g : X → ℝ} {c δ : ℝ} {S : ℝ} (hS : 0 < S) {yss : List (List X)} (hne : yss ≠ [])
    (hlen : ∀ l ∈ yss, (l.length : ℝ) = S) (hsum : ∀ l ∈ yss, |(l.map fun x => g x - c).sum| ≤ δ * S) :
    0 < yss.flatten.length ∧ |averageOver g yss.flatten - c| ≤ δ := by
  have h1 : ∀ l : List (List X), (∀ x ∈ l, (x.length : ℝ) = S) → (∀ x ∈ l, |(x.map fun x => g x - c).sum| ≤ δ * S) →
      |(l.flatten.map fun x => g x - c).sum| ≤ δ * l.flatten.length ∧ (l.flatten.length : ℝ) = l.length * S := by
    intro l
    induction l with
    | nil => intro _ _; simp
    | cons a l ih =>
      intro ha hb
      obtain ⟨i1, i2⟩ := ih (fun x hx => ha x (List.mem_cons_of_mem _ hx)) fun x hx => hb x (List.mem_cons_of_mem _ hx)
      have ha' := ha a (List.mem_cons_self ..)
      have hb' := hb a (List.mem_cons_self ..)
      rw [List.flatten_cons, List.map_append, List.sum_append, List.length_append, List.length_cons, Nat.cast_add, Nat.cast_succ]
      constructor
      · refine (abs_add_le _ _).trans ?_
        rw [ha', mul_add]
        exact add_le_add hb' i1
      · rw [ha', i2]
        ring
  obtain ⟨h2, h3⟩ := h1 yss hlen hsum
  have h4 : 0 < (yss.flatten.length : ℝ) := by
    rw [h3]
    have : 0 < yss.length := List.length_pos_iff.2 hne
    have : (0 : ℝ) < yss.length := by exact_mod_cast this
    positivity
  refine ⟨by exact_mod_cast h4, ?_⟩
  have h5 : ∀ l : List X, (l.map fun x => g x - c).sum = (l.map g).sum - l.length * c := by
    intro l
    induction l with
    | nil => simp
    | cons a l ih =>
      simp only [List.map_cons, List.sum_cons, List.length_cons, ih]
      push_cast
      ring
  rw [h5] at h2
  unfold averageOver
  have e : (yss.flatten.map g).sum / yss.flatten.length - c = ((yss.flatten.map g).sum - yss.flatten.length * c) / yss.flatten.length := by
    field_simp
  rw [e, abs_div, abs_of_pos h4, div_le_iff₀ h4]
  exact h2

/-! ### the probability of a bad run -/

theorem starts_sum (hm : 0 < m) (hK : K ≠ 0) (h : ∀ i, (sps i).Ok) (hs : ∀ i, (sps i).Startable) (hℓ : Measurable ℓ) (hf : Measurable f)
    {L : ℕ} (hL : ∀ i, (sps i).size + 5 ≤ L) {c : ℝ} {w : List ℝ} {e : ENNReal}
    (he : ∫⁻ x, pathE (iid K L) (nextOf sps K ℓ hm) f (far c) w x 0 ∂startOf sps ≤ e) (k : ℕ) :
    ∫⁻ xs, ∑ j, pathE (iid K L) (nextOf sps K ℓ hm) f (far c) w (xs j) 0 ∂(Measure.pi fun _ : Fin k => startOf sps) ≤ k * e := by
  have hp := startOf_prob h hs
  have hpm : Measurable fun x : Values sps => pathE (iid K L) (nextOf sps K ℓ hm) f (far c) w x 0 :=
    (pathE_at_meas hm hK h hℓ hf hL (far_meas c) w).comp (measurable_id.prodMk measurable_const)
  have hpj : ∀ j : Fin k, Measurable fun xs : Fin k → Values sps => pathE (iid K L) (nextOf sps K ℓ hm) f (far c) w (xs j) 0 :=
    fun j => hpm.comp (measurable_pi_apply j)
  rw [lintegral_finsetSum _ fun j _ => hpj j]
  have h1 : ∀ j : Fin k, ∫⁻ xs, pathE (iid K L) (nextOf sps K ℓ hm) f (far c) w (xs j) 0 ∂(Measure.pi fun _ : Fin k => startOf sps) ≤ e := by
    intro j
    have hmp := measurePreserving_eval (fun _ : Fin k => startOf sps) j
    have := hmp.lintegral_comp hpm
    exact le_of_eq_of_le this he
  refine (Finset.sum_le_sum fun j _ => h1 j).trans ?_
  simp

/-- One after the other. -/
theorem seq_small (hm : 0 < m) (hK : K ≠ 0) (hd : Multiple sps K) (h : ∀ i, (sps i).Ok) (hs : ∀ i, (sps i).Startable) (hℓ : Measurable ℓ)
    (hf : Measurable f) {L : ℕ} (hL : ∀ i, (sps i).size + 5 ≤ L) {c : ℝ} {w : List ℝ} {e : ENNReal}
    (he : ∫⁻ x, pathE (iid K L) (nextOf sps K ℓ hm) f (far c) w x 0 ∂startOf sps ≤ e) (k : ℕ) {N : ℕ}
    (hN : k * startLen sps + k * (w.length * L) ≤ N) :
    tapeLaw K N {v | badV sps K ℓ hm f c w k (startsV sps k (List.ofFn v)).1 (startsV sps k (List.ofFn v)).2 ≠ 0} ≤ k * e := by
  have hB := badV_meas hm hK h hℓ hf c w k
  have h1 := startsV_law hK h hs hd k (k * (w.length * L)) (fun z => badV sps K ℓ hm f c w k z.1 z.2) _ hB
    (fun xs M hM => badV_mean hm hK h hℓ hf hL c w k xs M hM) N hN
  have h2 := h1.trans_le (starts_sum hm hK h hs hℓ hf hL he k)
  have hof : Measurable (List.ofFn : (Fin N → Draw) → List Draw) := ofFn_meas N
  have hg : Measurable fun t => badV sps K ℓ hm f c w k (startsV sps k t).1 (startsV sps k t).2 := hB.comp (startsV_meas h k)
  unfold iid at h2
  rw [lintegral_map hg hof] at h2
  refine le_trans ?_ h2
  have hint : ∀ (k : ℕ) (xs : Fin k → Values sps) (t : List Draw), badV sps K ℓ hm f c w k xs t ≠ 0 → 1 ≤ badV sps K ℓ hm f c w k xs t := by
    intro k
    induction k with
    | zero => intro xs t hne; exact (hne rfl).elim
    | succ k ih =>
      intro xs t hne
      change 1 ≤ far c _ + badV sps K ℓ hm f c w k _ _
      by_cases hz : badV sps K ℓ hm f c w k (fun j => xs j.succ) (sumV sps K ℓ hm f w (xs 0, 0) t).2 = 0
      · have hne' : far c (sumV sps K ℓ hm f w (xs 0, 0) t).1 + badV sps K ℓ hm f c w k (fun j => xs j.succ) (sumV sps K ℓ hm f w (xs 0, 0) t).2 ≠ 0 := hne
        rw [hz, add_zero] at hne' ⊢
        unfold far at hne' ⊢
        rw [Set.indicator_of_mem (Set.mem_of_indicator_ne_zero hne')]
        exact le_rfl
      · exact (ih _ _ hz).trans le_add_self
  have hset : {v : Fin N → Draw | badV sps K ℓ hm f c w k (startsV sps k (List.ofFn v)).1 (startsV sps k (List.ofFn v)).2 ≠ 0} ⊆
      {v | 1 ≤ badV sps K ℓ hm f c w k (startsV sps k (List.ofFn v)).1 (startsV sps k (List.ofFn v)).2} := fun v hv => hint _ _ _ hv
  refine (measure_mono hset).trans ?_
  have h3 := mul_meas_ge_le_lintegral (μ := tapeLaw K N) (hg.comp hof) 1
  rw [one_mul] at h3
  exact h3

/-- By other processes. -/
theorem par_small (hm : 0 < m) (hK : K ≠ 0) (hd : Multiple sps K) (h : ∀ i, (sps i).Ok) (hs : ∀ i, (sps i).Startable) (hℓ : Measurable ℓ)
    (hf : Measurable f) {L : ℕ} (hL : ∀ i, (sps i).size + 5 ≤ L) {c : ℝ} {w : List ℝ} {e : ENNReal}
    (he : ∫⁻ x, pathE (iid K L) (nextOf sps K ℓ hm) f (far c) w x 0 ∂startOf sps ≤ e) (k : ℕ) {N : ℕ}
    (hN : k * startLen sps ≤ N) (hN' : w.length * L ≤ N) :
    runLaw K k N {z | ∃ j, c < |(sumV sps K ℓ hm f w ((startsV sps k (List.ofFn z.1)).1 j, 0) (List.ofFn (z.2 j))).1|} ≤ k * e := by
  have hp := tapeLaw_prob hK N
  have hsp := startOf_prob h hs
  have hof : Measurable (List.ofFn : (Fin N → Draw) → List Draw) := ofFn_meas N
  have hpm : Measurable fun x : Values sps => pathE (iid K L) (nextOf sps K ℓ hm) f (far c) w x 0 :=
    (pathE_at_meas hm hK h hℓ hf hL (far_meas c) w).comp (measurable_id.prodMk measurable_const)
  have hV : Measurable fun z : (Values sps × ℝ) × List Draw => sumV sps K ℓ hm f w z.1 z.2 := sumV_meas hm hK h hℓ hf w
  have h1 : ∀ j : Fin k, runLaw K k N
      {z | c < |(sumV sps K ℓ hm f w ((startsV sps k (List.ofFn z.1)).1 j, 0) (List.ofFn (z.2 j))).1|} ≤ e := by
    intro j
    have hxj : Measurable fun v : Fin N → Draw => (startsV sps k (List.ofFn v)).1 j :=
      (measurable_pi_apply j).comp (measurable_fst.comp ((startsV_meas h k).comp hof))
    have hmp : MeasurePreserving (fun z : RunDraws k N => (z.1, z.2 j)) (runLaw K k N) ((tapeLaw K N).prod (tapeLaw K N)) :=
      (MeasurePreserving.id _).prod (measurePreserving_eval (fun _ : Fin k => tapeLaw K N) j)
    have hSm : MeasurableSet {z : (Fin N → Draw) × (Fin N → Draw) |
        c < |(sumV sps K ℓ hm f w ((startsV sps k (List.ofFn z.1)).1 j, 0) (List.ofFn z.2)).1|} := by
      refine measurableSet_lt measurable_const ?_
      have h2 : Measurable fun z : (Fin N → Draw) × (Fin N → Draw) =>
          (((startsV sps k (List.ofFn z.1)).1 j, (0 : ℝ)), List.ofFn z.2) :=
        ((hxj.comp measurable_fst).prodMk measurable_const).prodMk (hof.comp measurable_snd)
      exact continuous_abs.measurable.comp (measurable_fst.comp (hV.comp h2))
    have e1 := hmp.measure_preimage hSm.nullMeasurableSet
    refine le_of_eq_of_le e1 ?_
    rw [Measure.prod_apply hSm]
    have e2 : ∀ v : Fin N → Draw, tapeLaw K N (Prod.mk v ⁻¹' {z : (Fin N → Draw) × (Fin N → Draw) |
        c < |(sumV sps K ℓ hm f w ((startsV sps k (List.ofFn z.1)).1 j, 0) (List.ofFn z.2)).1|}) =
        pathE (iid K L) (nextOf sps K ℓ hm) f (far c) w ((startsV sps k (List.ofFn v)).1 j) 0 := by
      intro v
      rw [← sumV_law hm hK h hℓ hf hL w ((startsV sps k (List.ofFn v)).1 j) 0 hN' (far_meas c)]
      have hVx : Measurable fun t => far c (sumV sps K ℓ hm f w ((startsV sps k (List.ofFn v)).1 j, 0) t).1 :=
        (far_meas c).comp (measurable_fst.comp (hV.comp (measurable_const.prodMk measurable_id)))
      unfold iid
      rw [lintegral_map hVx hof, ← lintegral_indicator_one (measurable_prodMk_left hSm)]
      rfl
    simp only [e2]
    have hGj : Measurable fun xs : Fin k → Values sps => pathE (iid K L) (nextOf sps K ℓ hm) f (far c) w (xs j) 0 :=
      hpm.comp (measurable_pi_apply j)
    have e3 := (startsV_law hK h hs hd k).value hK hGj hN
    unfold iid at e3
    have hg : Measurable fun t => pathE ((tapeLaw K L).map List.ofFn) (nextOf sps K ℓ hm) f (far c) w ((startsV sps k t).1 j) 0 :=
      hGj.comp (measurable_fst.comp (startsV_meas h k))
    rw [lintegral_map hg hof] at e3
    refine le_of_eq_of_le e3 ?_
    have := (measurePreserving_eval (fun _ : Fin k => startOf sps) j).lintegral_comp hpm
    exact le_of_eq_of_le this he
  have h2 : {z : RunDraws k N | ∃ j, c < |(sumV sps K ℓ hm f w ((startsV sps k (List.ofFn z.1)).1 j, 0) (List.ofFn (z.2 j))).1|} =
      ⋃ j : Fin k, {z | c < |(sumV sps K ℓ hm f w ((startsV sps k (List.ofFn z.1)).1 j, 0) (List.ofFn (z.2 j))).1|} := by
    ext z
    simp
  rw [h2]
  refine (measure_iUnion_fintype_le _ _).trans ((Finset.sum_le_sum fun j _ => h1 j).trans ?_)
  simp

/-- The averages over the results. -/
theorem results_average (hK : K ≠ 0) (hd : Multiple sps K) (h : PlainProblem p sps logLik) (hk : OwnKeys p sps)
    (hst : ∀ i, (sps i).Startable) (hstep : ∀ i j, (sps i).step j ≠ 0) (hfin : posteriorOf sps logLik 1 Set.univ ≠ ⊤) {b s : ℤ} (hs : s ≠ 0)
    {k : ℕ} (hk0 : k ≠ 0) (nJobs : Option ℤ) (w₀ : E) (hf : Measurable f) {C : ℝ} (hC : ∀ x, |f x| ≤ C) {ε δ : ℝ} (hε : 0 < ε) (hδ : 0 < δ) :
    ∃ n₀, ∀ n : ℕ, n₀ ≤ n → ∃ N₀, ∀ N ≥ N₀, runLaw K k N {z | ¬ ∃ res t',
        p.results k nJobs (workOf z.2) n b s w₀ (List.ofFn z.1) = (.ok (.named res), t') ∧
        ∃ ys, HasResults sps res ys ∧ 0 < ys.length ∧ |averageOver f ys - posteriorMean sps logLik 1 f| ≤ δ} ≤ ENNReal.ofReal ε := by
  have hm := h.some
  obtain ⟨L, hL⟩ : ∃ L, ∀ i, (sps i).size + 5 ≤ L := ⟨∑ i, ((sps i).size + 5), fun i =>
    Finset.single_le_sum (f := fun i => (sps i).size + 5) (fun _ _ => Nat.zero_le _) (Finset.mem_univ i)⟩
  have hl := h.meas
  have hℓ : Measurable fun x => logLik x / 1 := hl.div_const 1
  have hpr := iid_prob hK L
  have hsp := startOf_prob h.ok hst
  have hf' : IsFiniteMeasure (posteriorOf sps logLik 1) := ⟨lt_top_iff_ne_top.2 hfin⟩
  have hne := posterior_ne_zero (T := 1) h.ok hl
  set c := posteriorMean sps logLik 1 f with hc
  have hb : Bdd f := ⟨hf, C, hC⟩
  have hb0 : Bdd fun x => f x - c := hb.sub (Bdd.const c)
  have hpos : 0 < (posteriorOf sps logLik 1 Set.univ).toReal :=
    ENNReal.toReal_pos (fun h0 => hne (Measure.measure_univ_eq_zero.1 h0)) hfin
  have hmean : ∫ x, (f x - c) ∂posteriorOf sps logLik 1 = 0 := by
    rw [integral_sub (hb.integrable _) (integrable_const c), integral_const, smul_eq_mul, measureReal_def, hc]
    unfold posteriorMean
    rw [mul_div_cancel₀ _ hpos.ne', sub_self]
  have hkpos : (0 : ℝ) < k := by exact_mod_cast Nat.pos_of_ne_zero hk0
  obtain ⟨W, hW, hlln⟩ := path_lln (next_revers (T := 1) hm hK hd h.ok hl hL) (next_irred hm hK hd h.ok hl hL hstep) hb0 hne hmean (startOf sps)
    ((startOf_ac h.ok hst).trans (posterior_ac hl)) (ε := ε / k) (by positivity) hδ
  obtain ⟨q, hq⟩ := exists_nat_ge (W + 1)
  obtain ⟨n₀, hn₀⟩ := dueW_many (b := b) hs q 1
  refine ⟨n₀, fun n hn => ⟨k * startLen sps + k * (n * L) + n * L, fun N hN => ?_⟩⟩
  have hp := tapeLaw_prob hK N
  set S := (dueW b s 1 n).sum with hS
  have hSW : W + 1 ≤ S := hq.trans (hn₀ n hn)
  have hS0 : 0 < S := by linarith
  have hbound := hlln (dueW b s 1 n) dueW_mem (by rw [← hS]; linarith)
  rw [← hS] at hbound
  have hke : (k : ENNReal) * ENNReal.ofReal (ε / k) = ENNReal.ofReal ε := by
    rw [← ENNReal.ofReal_natCast k, ← ENNReal.ofReal_mul hkpos.le]
    congr 1
    field_simp
  have hlenW : (dueW b s 1 n).length = n := dueW_length n 1
  -- what happens almost surely
  have hu1 : ∀ᵐ z ∂runLaw K k N, ∀ d ∈ List.ofFn z.1, d.u ≠ 0 := Measure.quasiMeasurePreserving_fst.ae (tapeLaw_zero hK N)
  have hu2 : ∀ᵐ z ∂runLaw K k N, ∀ j, ∀ d ∈ List.ofFn (z.2 j), d.u ≠ 0 := by
    have h1 : ∀ᵐ w ∂(Measure.pi fun _ : Fin k => tapeLaw K N), ∀ j, ∀ d ∈ List.ofFn (w j), d.u ≠ 0 :=
      ae_all_iff.2 fun j => (Measure.quasiMeasurePreserving_eval (μ := fun _ : Fin k => tapeLaw K N) j).ae (tapeLaw_zero hK N)
    exact Measure.quasiMeasurePreserving_snd.ae h1
  have hwork : ∀ (w : Fin k → Fin N → Draw) (j : Fin k), workOf w 0 j = List.ofFn (w j) := by
    intro w j
    unfold workOf
    rw [dif_pos j.2]
  have hgood : ∀ z : RunDraws k N, (∀ d ∈ List.ofFn z.1, d.u ≠ 0) → (∀ j, ∀ d ∈ List.ofFn (z.2 j), d.u ≠ 0) → ∀ yss : List (List (Values sps)),
      yss = (if 1 < nJobs.getD (k : ℤ) then
        List.ofFn fun j : Fin k => trail sps K (fun x => logLik x / 1) hm b s 1 n ((startsV sps k (List.ofFn z.1)).1 j) (List.ofFn (z.2 j))
        else trails sps K (fun x => logLik x / 1) hm b s n k (startsV sps k (List.ofFn z.1)).1 (startsV sps k (List.ofFn z.1)).2) →
      (yss ≠ [] ∧ ∀ l ∈ yss, (l.length : ℝ) = S) → (∀ l ∈ yss, |(l.map fun x => f x - c).sum| ≤ δ * S) →
      ∃ res t', p.results k nJobs (workOf z.2) n b s w₀ (List.ofFn z.1) = (.ok (.named res), t') ∧
        ∃ ys, HasResults sps res ys ∧ 0 < ys.length ∧ |averageOver f ys - c| ≤ δ := by
    intro z hz1 hz2 yss hyss hlen hsum
    obtain ⟨cs, t', h1, h2⟩ := sample_run (K := K) hm h hk hst (b := b) hs hL n w₀ k nJobs (workOf z.2) (List.ofFn z.1) hz1 (by
      rw [List.length_ofFn]; omega) (fun j => by
        rw [hwork, List.length_ofFn]
        exact ⟨hz2 j, by omega⟩)
    simp only [hwork] at h2
    rw [← hyss] at h2
    obtain ⟨res, h3, h4⟩ := results_run h1 h2 hlen.1
    exact ⟨res, t', h3, _, h4, average_flatten hS0 hlen.1 hlen.2 hsum⟩
  by_cases hj : 1 < nJobs.getD (k : ℤ)
  · have hsm := par_small hm hK hd h.ok hst hℓ hb0.1 hL hbound k (N := N) (by omega) (by rw [hlenW]; omega)
    rw [hke] at hsm
    refine le_trans (measure_mono_ae ?_) hsm
    filter_upwards [hu1, hu2] with z hz1 hz2 hbad
    by_contra hnot
    refine hbad (hgood z hz1 hz2 _ (if_pos hj).symm ⟨?_, ?_⟩ ?_)
    · intro h0
      have := congrArg List.length h0
      rw [List.length_ofFn] at this
      exact hk0 this
    · intro l hl
      obtain ⟨j, rfl⟩ := List.mem_ofFn.1 hl
      exact trail_length n 1 _ _
    · intro l hl
      obtain ⟨j, rfl⟩ := List.mem_ofFn.1 hl
      by_contra hcj
      refine hnot ⟨j, ?_⟩
      rw [trail_sum, zero_add]
      exact not_le.1 hcj
  · have hsm := seq_small hm hK hd h.ok hst hℓ hb0.1 hL hbound k (N := N) (by rw [hlenW]; omega)
    rw [hke] at hsm
    have hpre : runLaw K k N (Prod.fst ⁻¹' {v | badV sps K (fun x => logLik x / 1) hm (fun x => f x - c) (δ * S) (dueW b s 1 n) k
        (startsV sps k (List.ofFn v)).1 (startsV sps k (List.ofFn v)).2 ≠ 0}) ≤ ENNReal.ofReal ε := by
      refine le_trans (le_of_eq ?_) hsm
      have hBm : MeasurableSet {v : Fin N → Draw | badV sps K (fun x => logLik x / 1) hm (fun x => f x - c) (δ * S) (dueW b s 1 n) k
          (startsV sps k (List.ofFn v)).1 (startsV sps k (List.ofFn v)).2 ≠ 0} := by
        have hg : Measurable fun v : Fin N → Draw => badV sps K (fun x => logLik x / 1) hm (fun x => f x - c) (δ * S) (dueW b s 1 n) k
          (startsV sps k (List.ofFn v)).1 (startsV sps k (List.ofFn v)).2 :=
          (badV_meas hm hK h.ok hℓ hb0.1 (δ * S) (dueW b s 1 n) k).comp ((startsV_meas h.ok k).comp (ofFn_meas N))
        exact (hg (measurableSet_singleton 0)).compl
      exact (measurePreserving_fst (μ := tapeLaw K N) (ν := Measure.pi fun _ : Fin k => tapeLaw K N)).measure_preimage hBm.nullMeasurableSet
    refine le_trans (measure_mono_ae ?_) hpre
    filter_upwards [hu1, hu2] with z hz1 hz2 hbad
    by_contra hnot
    have hzero : badV sps K (fun x => logLik x / 1) hm (fun x => f x - c) (δ * S) (dueW b s 1 n) k
        (startsV sps k (List.ofFn z.1)).1 (startsV sps k (List.ofFn z.1)).2 = 0 := not_not.1 hnot
    obtain ⟨hl1, hl2⟩ := trails_length (K := K) (ℓ := fun x => logLik x / 1) (hm := hm) (b := b) (s := s) (n := n)
      (xs := (startsV sps k (List.ofFn z.1)).1) (t := (startsV sps k (List.ofFn z.1)).2)
    refine hbad (hgood z hz1 hz2 _ (if_neg hj).symm ⟨?_, hl2⟩ (badV_zero hzero))
    intro h0
    rw [h0] at hl1
    exact hk0 hl1.symm

end BB.Lemmas
