import Verif.Lemmas.PlainKernel

/-!
# Iterations as programs on tapes of independent draws: their laws
-/

namespace BB.Lemmas

open BB Spec MeasureTheory

variable {m : ℕ} {sps : Fin m → PlainSpace} {K : ℕ} {ℓ : Values sps → ℝ}

theorem dims_meas (i : Fin m) (n : ℕ) : MeasurableSet {x : Values sps | (x i).1 = n} :=
  ((dim_meas (R := Fin (sps i).size → ℝ)).comp (measurable_pi_apply i)) (measurableSet_singleton n)

/-- Two draws in turn and the acceptance test, measurably. -/
theorem try2_meas {X Θ : Type} [MeasurableSpace X] [MeasurableSpace Θ] {k : ℕ} {p : Kern X (Draw × (Fin k → Draw))} (h : p.Ok)
    {ℓ : X → ℝ} (hℓ : Measurable ℓ) :
    V.Meas fun x => V.andThen V.draw fun d => V.andThen (V.draws k) fun w => accept p ℓ x (d, w) := by
  refine V.Meas.andThen (V.Meas.draw (Ξ := X)) (V.Meas.andThen (V.Meas.draws (Ξ := X × Draw) k) ?_)
  have h1 : Measurable fun z : (X × Draw) × (Fin k → Draw) => (z.1.1, (z.1.2, z.2)) :=
    (measurable_fst.comp measurable_fst).prodMk ((measurable_snd.comp measurable_fst).prodMk measurable_snd)
  exact (accept_meas h hℓ).comp h1

theorem try1_meas {X : Type} [MeasurableSpace X] {p : Kern X Draw} (h : p.Ok) {ℓ : X → ℝ} (hℓ : Measurable ℓ) :
    V.Meas fun x => V.andThen V.draw fun d => accept p ℓ x d :=
  V.Meas.andThen (V.Meas.draw (Ξ := X)) (accept_meas h hℓ)

theorem idle_meas {X : Type} [MeasurableSpace X] : V.Meas fun x : X => V.andThen V.draw fun _ => V.ret x :=
  V.Meas.andThen (V.Meas.draw (Ξ := X)) (V.Meas.ret measurable_fst)

theorem step_integrand_meas {X Θ : Type} [MeasurableSpace X] [MeasurableSpace Θ] {p : Kern X Θ} (h : p.Ok) {ℓ : X → ℝ}
    (hℓ : Measurable ℓ) {G : X → ENNReal} (hG : Measurable G) (x : X) :
    Measurable fun θ => rate ℓ x (p.move x θ) (p.ratio x θ) * G (p.move x θ) + (1 - rate ℓ x (p.move x θ) (p.ratio x θ)) * G x := by
  have h0 : Measurable fun θ : Θ => (x, θ) := measurable_const.prodMk measurable_id
  have h1 : Measurable fun θ => rate ℓ x (p.move x θ) (p.ratio x θ) := (h.rate_meas hℓ).comp h0
  have h2 : Measurable fun θ => G (p.move x θ) := hG.comp (h.move.comp h0)
  exact (h1.mul h2).add ((measurable_const.sub h1).mul measurable_const)

theorem try2_law (hK : K ≠ 0) {X : Type} [MeasurableSpace X] {k : ℕ} {p : Kern X (Draw × (Fin k → Draw))} (h : p.Ok)
    (hdr : p.draws = (drawLaw K).prod (tapeLaw K k)) {ℓ : X → ℝ} (hℓ : Measurable ℓ) (x : X) :
    V.HasLaw K (V.andThen V.draw fun d => V.andThen (V.draws k) fun w => accept p ℓ x (d, w)) (1 + (k + 1))
      fun G => p.step ℓ G x := by
  have hp := tapeLaw_prob hK k
  have hm := accept_meas h hℓ
  have h1 : ∀ d : Draw, V.Meas fun w => accept p ℓ x (d, w) := fun d => hm.comp
    (measurable_const.prodMk (measurable_const.prodMk measurable_id) : Measurable fun w : Fin k → Draw => (x, (d, w)))
  have h2 : V.Meas fun d : Draw => V.andThen (V.draws k) fun w => accept p ℓ x (d, w) := by
    refine V.Meas.andThen (V.Meas.draws (Ξ := Draw) k) (hm.comp (g := fun z : Draw × (Fin k → Draw) => (x, z)) ?_)
    exact measurable_const.prodMk measurable_id
  refine V.HasLaw.congr hK (V.HasLaw.andThen (V.HasLaw.draw hK) (fun d => V.HasLaw.andThen (V.HasLaw.draws hK k)
    (fun w => accept_law hK p ℓ x (d, w)) (h1 d)) h2) fun G hG => ?_
  unfold Kern.step
  rw [hdr]
  exact (lintegral_prod _ (step_integrand_meas h hℓ hG x).aemeasurable).symm

theorem try1_law (hK : K ≠ 0) {X : Type} [MeasurableSpace X] {p : Kern X Draw} (h : p.Ok)
    (hdr : p.draws = drawLaw K) {ℓ : X → ℝ} (hℓ : Measurable ℓ) (x : X) :
    V.HasLaw K (V.andThen V.draw fun d => accept p ℓ x d) (1 + 1) fun G => p.step ℓ G x := by
  have h1 : V.Meas fun d => accept p ℓ x d := (accept_meas h hℓ).comp
    (measurable_const.prodMk measurable_id : Measurable fun w : Draw => (x, w))
  have := V.HasLaw.andThen (V.HasLaw.draw hK) (fun d => accept_law hK p ℓ x d) h1
  unfold Kern.step
  rw [hdr]
  exact this

theorem idle_law (hK : K ≠ 0) {X : Type} [MeasurableSpace X] (x : X) :
    V.HasLaw K (V.andThen V.draw fun _ => V.ret x) (1 + 0) fun G => G x := by
  have hp := drawLaw_prob hK
  have h1 : V.Meas fun _ : Draw => V.ret x := V.Meas.ret measurable_const
  refine V.HasLaw.congr hK (V.HasLaw.andThen (V.HasLaw.draw hK) (fun d => V.HasLaw.ret x) h1) fun G _ => ?_
  simp

theorem step_idle {X Θ : Type} [MeasurableSpace X] [MeasurableSpace Θ] {p : Kern X Θ} (h : p.Ok) (ℓ : X → ℝ) (G : X → ENNReal)
    {x : X} (h0 : ∀ θ, p.ratio x θ = 0) : p.step ℓ G x = G x := by
  have := h.prob
  unfold Kern.step
  have : ∀ θ, rate ℓ x (p.move x θ) (p.ratio x θ) = 0 := by
    intro θ
    unfold rate
    rw [h0, zero_mul, min_eq_right zero_le_one, ENNReal.ofReal_zero]
  simp only [this, zero_mul, zero_add, tsub_zero, one_mul]
  simp

theorem bornV_meas (hK : K ≠ 0) (h : ∀ i, (sps i).Ok) (hℓ : Measurable ℓ) (i : Fin m) : V.Meas (bornV sps K ℓ i) :=
  V.Meas.ite (dims_meas i _) idle_meas (try2_meas (Θ := Unit) (bornK_ok hK h i) hℓ)

theorem diedV_meas (hK : K ≠ 0) (hℓ : Measurable ℓ) (i : Fin m) : V.Meas (diedV sps K ℓ i) :=
  V.Meas.ite (dims_meas i _) idle_meas (try1_meas (diedK_ok hK i) hℓ)

theorem walkedV_meas (hK : K ≠ 0) (h : ∀ i, (sps i).Ok) (hℓ : Measurable ℓ) (i : Fin m) : V.Meas (walkedV sps K ℓ i) :=
  try2_meas (Θ := Unit) (walkedK_ok hK h i) hℓ

theorem moveV_meas (hK : K ≠ 0) (h : ∀ i, (sps i).Ok) (hℓ : Measurable ℓ) (i : Fin m) (j : ℕ) :
    V.Meas (moveV sps K ℓ i j) := by
  have e : moveV sps K ℓ i j = if (sps i).info.transD = true ∧ j = 0 then bornV sps K ℓ i
      else if (sps i).info.transD = true ∧ j = 1 then diedV sps K ℓ i else walkedV sps K ℓ i := by
    funext x
    unfold moveV
    split
    · rfl
    · split <;> rfl
  rw [e]
  split
  · exact bornV_meas hK h hℓ i
  · split
    · exact diedV_meas hK hℓ i
    · exact walkedV_meas hK h hℓ i

theorem bornV_law (hK : K ≠ 0) (h : ∀ i, (sps i).Ok) (hℓ : Measurable ℓ) (i : Fin m) (x : Values sps) :
    V.HasLaw K (bornV sps K ℓ i x) (1 + ((sps i).size + 1)) fun G => (bornK sps K i).step ℓ G x := by
  unfold bornV
  split
  · rename_i hx
    have e : (fun G => (bornK sps K i).step ℓ G x) = fun G : Values sps → ENNReal => G x := by
      funext G
      refine step_idle (bornK_ok hK h i) ℓ G fun θ => ?_
      exact if_pos hx
    rw [e]
    exact (idle_law hK x).mono (by omega)
  · exact try2_law hK (bornK_ok hK h i) rfl hℓ x

theorem diedV_law (hK : K ≠ 0) (hℓ : Measurable ℓ) (i : Fin m) (x : Values sps) :
    V.HasLaw K (diedV sps K ℓ i x) (1 + ((sps i).size + 1)) fun G => (diedK sps K i).step ℓ G x := by
  unfold diedV
  split
  · rename_i hx
    have e : (fun G => (diedK sps K i).step ℓ G x) = fun G : Values sps → ENNReal => G x := by
      funext G
      refine step_idle (diedK_ok hK i) ℓ G fun θ => ?_
      exact if_pos hx
    rw [e]
    exact (idle_law hK x).mono (by omega)
  · exact (try1_law hK (diedK_ok hK i) rfl hℓ x).mono (by omega)

theorem walkedV_law (hK : K ≠ 0) (h : ∀ i, (sps i).Ok) (hℓ : Measurable ℓ) (i : Fin m) (x : Values sps) :
    V.HasLaw K (walkedV sps K ℓ i x) (1 + ((sps i).size + 1)) fun G => (walkedK sps K i).step ℓ G x :=
  try2_law hK (walkedK_ok hK h i) rfl hℓ x

theorem moveV_law (hK : K ≠ 0) (h : ∀ i, (sps i).Ok) (hℓ : Measurable ℓ) (i : Fin m) (j : ℕ) (x : Values sps) :
    V.HasLaw K (moveV sps K ℓ i j x) (1 + ((sps i).size + 1)) fun G => moveP sps K ℓ i j G x := by
  unfold moveV moveP
  split
  · exact bornV_law hK h hℓ i x
  · split
    · exact diedV_law hK hℓ i x
    · exact walkedV_law hK h hℓ i x

theorem spaceV_meas (hK : K ≠ 0) (h : ∀ i, (sps i).Ok) (hℓ : Measurable ℓ) (i : Fin m) : V.Meas (spaceV sps K ℓ i) := by
  refine V.Meas.andThen (V.Meas.draw (Ξ := Values sps)) (V.Meas.andThen (V.Meas.draw (Ξ := Values sps × Draw)) ?_)
  have h1 : V.Meas fun z : Values sps × ℕ => moveV sps K ℓ i z.2 z.1 := V.Meas.countable (f := fun x j => moveV sps K ℓ i j x) fun j => moveV_meas hK h hℓ i j
  have h2 : Measurable fun z : (Values sps × Draw) × Draw => (z.1.1, pick (ownW (sps i)) z.2) :=
    (measurable_fst.comp measurable_fst).prodMk ((pick_meas (ownW_nonneg _) (ownW_sum _)).comp measurable_snd)
  exact h1.comp h2

theorem spaceV_law (hK : K ≠ 0) (h : ∀ i, (sps i).Ok) (hℓ : Measurable ℓ) (i : Fin m) (x : Values sps) :
    V.HasLaw K (spaceV sps K ℓ i x) ((sps i).size + 4) fun G => spaceP sps K ℓ i G x := by
  have hp := drawLaw_prob hK
  have h1 : V.Meas fun z : Values sps × ℕ => moveV sps K ℓ i z.2 z.1 := V.Meas.countable (f := fun x j => moveV sps K ℓ i j x) fun j => moveV_meas hK h hℓ i j
  have h2 : Measurable fun d : Draw => (x, pick (ownW (sps i)) d) :=
    measurable_const.prodMk (pick_meas (ownW_nonneg _) (ownW_sum _))
  have h3 : V.Meas fun d : Draw => moveV sps K ℓ i (pick (ownW (sps i)) d) x := h1.comp h2
  have h4 : V.Meas fun _ : Draw => V.andThen V.draw fun d => moveV sps K ℓ i (pick (ownW (sps i)) d) x :=
    V.Meas.andThen (V.Meas.draw (Ξ := Draw)) (h3.comp measurable_snd)
  have h5 := V.HasLaw.andThen (V.HasLaw.draw hK) (fun _ => V.HasLaw.andThen (V.HasLaw.draw hK)
    (fun d => moveV_law hK h hℓ i (pick (ownW (sps i)) d) x) h3) h4
  refine V.HasLaw.congr hK (h5.mono (by omega)) fun G hG => ?_
  simp only [lintegral_const, measure_univ, mul_one]
  exact pick_law hK (ownW_nonneg _) (ownW_sum _) fun j => moveP sps K ℓ i j G x

theorem pickSpace_meas (hm : 0 < m) : Measurable (pickSpace sps hm) := by
  have h1 : Measurable fun n : ℕ => (⟨n % m, Nat.mod_lt _ hm⟩ : Fin m) := measurable_from_top
  exact h1.comp (pick_meas (outerW_nonneg sps) (outerW_sum hm sps))

theorem iterV_meas (hm : 0 < m) (hK : K ≠ 0) (h : ∀ i, (sps i).Ok) (hℓ : Measurable ℓ) : V.Meas (iterV sps K ℓ hm) := by
  refine V.Meas.andThen (V.Meas.draw (Ξ := Values sps)) ?_
  have h1 : V.Meas fun z : Values sps × Fin m => spaceV sps K ℓ z.2 z.1 := V.Meas.countable (f := fun x i => spaceV sps K ℓ i x) fun i => spaceV_meas hK h hℓ i
  have h2 : Measurable fun z : Values sps × Draw => (z.1, pickSpace sps hm z.2) :=
    measurable_fst.prodMk ((pickSpace_meas hm).comp measurable_snd)
  exact h1.comp h2

theorem mixOf_ofFn (w : Fin m → ℝ) (F : ℕ → ENNReal) :
    mixOf (List.ofFn w) F = ∑ i : Fin m, ENNReal.ofReal (w i / (List.ofFn w).sum) * F i := by
  unfold mixOf
  refine Fintype.sum_equiv (finCongr List.length_ofFn) _ _ fun j => ?_
  simp only [Fin.getElem_fin, List.getElem_ofFn, finCongr_apply]
  rfl

theorem iterV_law (hm : 0 < m) (hK : K ≠ 0) (h : ∀ i, (sps i).Ok) (hℓ : Measurable ℓ) {L : ℕ} (hL : ∀ i, (sps i).size + 5 ≤ L)
    (x : Values sps) : V.HasLaw K (iterV sps K ℓ hm x) L fun G => iterP sps K ℓ G x := by
  have h1 : V.Meas fun z : Values sps × Fin m => spaceV sps K ℓ z.2 z.1 := V.Meas.countable (f := fun x i => spaceV sps K ℓ i x) fun i => spaceV_meas hK h hℓ i
  have h2 : Measurable fun d : Draw => (x, pickSpace sps hm d) := measurable_const.prodMk (pickSpace_meas hm)
  have h3 : V.Meas fun d : Draw => spaceV sps K ℓ (pickSpace sps hm d) x := h1.comp h2
  have hL1 : 1 ≤ L := le_trans (by omega) (hL ⟨0, hm⟩)
  have h5 : V.HasLaw K (iterV sps K ℓ hm x) (1 + (L - 1)) _ := V.HasLaw.andThen (V.HasLaw.draw hK)
    (fun d => (spaceV_law hK h hℓ (pickSpace sps hm d) x).mono (L' := L - 1) (by
      have := hL (pickSpace sps hm d)
      omega)) h3
  refine V.HasLaw.congr hK (h5.mono (by omega)) fun G hG => ?_
  have h6 := pick_law hK (outerW_nonneg sps) (outerW_sum hm sps) fun n => spaceP sps K ℓ ⟨n % m, Nat.mod_lt _ hm⟩ G x
  refine h6.trans ?_
  refine (mixOf_ofFn (fun i => (ownW (sps i)).sum) fun n => spaceP sps K ℓ ⟨n % m, Nat.mod_lt _ hm⟩ G x).trans ?_
  unfold iterP
  refine Finset.sum_congr rfl fun i _ => ?_
  have : (⟨(i : ℕ) % m, Nat.mod_lt _ hm⟩ : Fin m) = i := Fin.ext (Nat.mod_eq_of_lt i.2)
  rw [this]
  rfl

theorem itersV_meas (hm : 0 < m) (hK : K ≠ 0) (h : ∀ i, (sps i).Ok) (hℓ : Measurable ℓ) : ∀ n, V.Meas (itersV sps K ℓ hm n)
  | 0 => V.Meas.ret measurable_id
  | n + 1 => V.Meas.andThen (iterV_meas hm hK h hℓ) ((itersV_meas hm hK h hℓ n).comp measurable_snd)

theorem itersV_law (hm : 0 < m) (hK : K ≠ 0) (h : ∀ i, (sps i).Ok) (hℓ : Measurable ℓ) {L : ℕ} (hL : ∀ i, (sps i).size + 5 ≤ L) :
    ∀ n x, V.HasLaw K (itersV sps K ℓ hm n x) (n * L) fun G => itersP sps K ℓ n G x
  | 0, x => (V.HasLaw.ret x).mono (by omega)
  | n + 1, x => by
    have := V.HasLaw.andThen (iterV_law hm hK h hℓ hL x) (itersV_law hm hK h hℓ hL n) (itersV_meas hm hK h hℓ n)
    exact this.mono (by rw [Nat.succ_mul]; omega)

/-! ### the numbers of draws -/

theorem accept_short {X Θ : Type} [MeasurableSpace X] [MeasurableSpace Θ] (p : Kern X Θ) (ℓ : X → ℝ) (x : X) (θ : Θ) :
    V.Short (accept p ℓ x θ) 1 := V.Short.andThen V.Short.draw fun _ => V.Short.ret _

theorem moveV_short (i : Fin m) (j : ℕ) (x : Values sps) : V.Short (moveV sps K ℓ i j x) ((sps i).size + 2) := by
  unfold moveV
  split
  · unfold bornV
    split
    · exact (V.Short.andThen V.Short.draw fun _ => V.Short.ret _).mono (by omega)
    · exact (V.Short.andThen V.Short.draw fun d => V.Short.andThen (V.Short.draws _) fun w => accept_short _ _ _ _).mono (by omega)
  · split
    · unfold diedV
      split
      · exact (V.Short.andThen V.Short.draw fun _ => V.Short.ret _).mono (by omega)
      · exact (V.Short.andThen V.Short.draw fun d => accept_short _ _ _ _).mono (by omega)
    · exact (V.Short.andThen V.Short.draw fun d => V.Short.andThen (V.Short.draws _) fun w => accept_short _ _ _ _).mono (by omega)

theorem iterV_short (hm : 0 < m) {L : ℕ} (hL : ∀ i, (sps i).size + 5 ≤ L) (x : Values sps) :
    V.Short (iterV sps K ℓ hm x) L := by
  have hL1 : 1 ≤ L := le_trans (by omega) (hL ⟨0, hm⟩)
  refine (V.Short.andThen (L := 1) (L' := L - 1) V.Short.draw fun d => ?_).mono (by omega)
  refine (V.Short.andThen V.Short.draw fun _ => V.Short.andThen V.Short.draw fun d' => moveV_short _ _ _).mono ?_
  have := hL (pickSpace sps hm d)
  omega

/-! ### invariance -/

/-- The posterior is invariant under the iterations. -/
theorem itersV_invariant (hm : 0 < m) (hK : K ≠ 0) (hd : Multiple sps K) (h : ∀ i, (sps i).Ok) (hℓ : Measurable ℓ) {L : ℕ}
    (hL : ∀ i, (sps i).size + 5 ≤ L) (n : ℕ) {N : ℕ} (hN : n * L ≤ N) {G : Values sps → ENNReal} (hG : Measurable G) :
    ∫⁻ x, ENNReal.ofReal (Real.exp (ℓ x)) * (∫⁻ t, G (itersV sps K ℓ hm n x t).1 ∂iid K N) ∂priorOf sps =
      ∫⁻ x, ENNReal.ofReal (Real.exp (ℓ x)) * G x ∂priorOf sps := by
  rw [← itersP_invariant hm hK hd h hℓ hG n]
  refine lintegral_congr fun x => ?_
  rw [(itersV_law hm hK h hℓ hL n x).value hK hG hN]

end BB.Lemmas
