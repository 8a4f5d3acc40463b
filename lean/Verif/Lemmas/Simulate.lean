import Verif.Lemmas.IidTape
import Verif.Lemmas.Metropolis
import Verif.Lemmas.Choices

/-!
# Random choices and acceptance, as programs on tapes of independent draws
-/

namespace BB.Lemmas

open BB Spec MeasureTheory

/-! ### choices -/

/-- The index that `random.choices` makes of a draw. -/
noncomputable def pick (ws : List ℝ) (d : Draw) : ℕ :=
  match (choices ws.length ws [d]).1 with
  | .ok i => i
  | .error _ => 0

theorem choices_pick {ws : List ℝ} (hw : ∀ w ∈ ws, 0 ≤ w) (hs : 0 < ws.sum) (d : Draw) (t : List Draw) :
    choices ws.length ws (d :: t) = (.ok (pick ws d), t) := by
  obtain ⟨i, h, -⟩ := choices_run ws hw hs d []
  have : pick ws d = i := by
    unfold pick
    rw [h]
  rw [this]
  exact choices_cons h t

theorem pick_lt {ws : List ℝ} (hw : ∀ w ∈ ws, 0 ≤ w) (hs : 0 < ws.sum) (d : Draw) : pick ws d < ws.length := by
  obtain ⟨i, h, h1, -⟩ := choices_run ws hw hs d []
  have := choices_pick hw hs d []
  rw [h] at this
  simp only [Prod.mk.injEq, Except.ok.injEq, and_true] at this
  rw [← this]
  exact h1

theorem pick_iff {ws : List ℝ} (hw : ∀ w ∈ ws, 0 ≤ w) (hs : 0 < ws.sum) (d : Draw) (i : ℕ) :
    pick ws d = i ↔ i < ws.length ∧ (ws.take i).sum ≤ d.u * ws.sum ∧ d.u * ws.sum < (ws.take (i + 1)).sum := by
  have h := choices_iff ws hw hs d [] [] i
  rw [choices_pick hw hs] at h
  simp only [Prod.mk.injEq, Except.ok.injEq, and_true, true_and] at h
  exact h

theorem pick_set {ws : List ℝ} (hw : ∀ w ∈ ws, 0 ≤ w) (hs : 0 < ws.sum) {i : ℕ} (hi : i < ws.length) :
    {d : Draw | pick ws d = i} =
      Draw.u ⁻¹' Set.Ico ((ws.take i).sum / ws.sum) ((ws.take (i + 1)).sum / ws.sum) := by
  ext d
  rw [Set.mem_preimage, Set.mem_Ico, div_le_iff₀ hs, lt_div_iff₀ hs]
  exact (pick_iff hw hs d i).trans (and_iff_right hi)

theorem pick_meas {ws : List ℝ} (hw : ∀ w ∈ ws, 0 ≤ w) (hs : 0 < ws.sum) : Measurable (pick ws) := by
  refine measurable_to_countable' fun i => ?_
  by_cases hi : i < ws.length
  · have : pick ws ⁻¹' {i} = {d : Draw | pick ws d = i} := rfl
    rw [this, pick_set hw hs hi]
    exact draw_u_meas measurableSet_Ico
  · have : pick ws ⁻¹' {i} = ∅ := by
      ext d
      simp only [Set.mem_preimage, Set.mem_singleton_iff, Set.mem_empty_iff_false, iff_false]
      intro h
      exact hi (h ▸ pick_lt hw hs d)
    rw [this]
    exact MeasurableSet.empty

theorem unitLaw_Ico {a b : ℝ} (ha : 0 ≤ a) (hb : b ≤ 1) : unitLaw (Set.Ico a b) = ENNReal.ofReal (b - a) := by
  unfold unitLaw
  rw [Measure.restrict_apply measurableSet_Ico, Set.Ico_inter_Ico, max_eq_left ha, min_eq_left hb, Real.volume_Ico]

theorem pick_prob {K : ℕ} (hK : K ≠ 0) {ws : List ℝ} (hw : ∀ w ∈ ws, 0 ≤ w) (hs : 0 < ws.sum) {i : ℕ} (hi : i < ws.length) :
    drawLaw K {d | pick ws d = i} = ENNReal.ofReal (ws[i] / ws.sum) := by
  rw [pick_set hw hs hi, ← Measure.map_apply draw_u_meas measurableSet_Ico, drawLaw_u hK, unitLaw_Ico]
  · rw [take_succ_sum ws i hi]
    congr 1
    ring
  · exact div_nonneg (List.sum_nonneg fun x hx => hw x (List.mem_of_mem_take hx)) hs.le
  · rw [div_le_one hs]
    exact take_sum_le hw _

/-- The law of the index. -/
theorem pick_law {K : ℕ} (hK : K ≠ 0) {ws : List ℝ} (hw : ∀ w ∈ ws, 0 ≤ w) (hs : 0 < ws.sum) (G : ℕ → ENNReal) :
    ∫⁻ d, G (pick ws d) ∂drawLaw K = ∑ i : Fin ws.length, ENNReal.ofReal (ws[i] / ws.sum) * G i := by
  classical
  have e : ∀ d, G (pick ws d) = ∑ i : Fin ws.length, {d : Draw | pick ws d = i}.indicator (fun _ => G i) d := by
    intro d
    rw [Finset.sum_eq_single ⟨pick ws d, pick_lt hw hs d⟩]
    · exact (Set.indicator_of_mem (by rfl) _).symm
    · intro i _ hi
      refine Set.indicator_of_notMem ?_ _
      intro h
      exact hi (Fin.ext (Eq.symm h))
    · intro h
      exact absurd (Finset.mem_univ _) h
  have hm : ∀ i : ℕ, MeasurableSet {d : Draw | pick ws d = i} := fun i => pick_meas hw hs (measurableSet_singleton i)
  simp only [e]
  rw [lintegral_finsetSum _ fun (i : Fin ws.length) _ => measurable_const.indicator (hm i)]
  refine Finset.sum_congr rfl fun i _ => ?_
  rw [lintegral_indicator_const (hm i), pick_prob hK hw hs i.2, mul_comm]
  rfl

/-! ### programs -/

namespace V

variable {α β Ξ : Type} [MeasurableSpace Ξ] [MeasurableSpace α] [MeasurableSpace β]

theorem HasLaw.congr {K L : ℕ} (hK : K ≠ 0) {m : V α} {q r : (α → ENNReal) → ENNReal} (h : HasLaw K m L q)
    (he : ∀ G, Measurable G → q G = r G) : HasLaw K m L r := by
  intro N₁ H G hH hG N hN
  rw [h N₁ H G hH hG N hN]
  refine he G ?_
  have : G = fun a => ∫⁻ t, H (a, t) ∂iid K N₁ := by
    funext a
    exact (hG a N₁ le_rfl).symm
  rw [this]
  have := iid_prob hK N₁
  exact Measurable.lintegral_prod_right' hH

theorem Meas.const {m : V α} (h : Measurable m) : Meas fun _ : Ξ => m := h.comp measurable_snd

theorem Meas.countable {ι : Type} [Countable ι] [MeasurableSpace ι] [MeasurableSingletonClass ι] {f : Ξ → ι → V α}
    (h : ∀ i, Meas fun x => f x i) : Meas fun z : Ξ × ι => f z.1 z.2 := by
  have h1 : Measurable fun z : (Ξ × List Draw) × ι => f z.1.1 z.2 z.1.2 := measurable_from_prod_countable_left fun i => h i
  have h2 : Measurable fun z : (Ξ × ι) × List Draw => ((z.1.1, z.2), z.1.2) :=
    ((measurable_fst.comp measurable_fst).prodMk measurable_snd).prodMk (measurable_snd.comp measurable_fst)
  exact h1.comp h2

theorem Meas.at {f : Ξ → V α} (h : Meas f) (x : Ξ) : Measurable (f x) := by
  have h1 : Measurable fun t : List Draw => (x, t) := measurable_const.prodMk measurable_id
  have h2 : Measurable fun z : Ξ × List Draw => f z.1 z.2 := h
  exact h2.comp h1

end V

/-! ### acceptance -/

section

variable {X Θ : Type} [MeasurableSpace X] [MeasurableSpace Θ]

open Classical in
/-- The acceptance test. -/
noncomputable def accept (p : Kern X Θ) (ℓ : X → ℝ) (x : X) (θ : Θ) : V X :=
  V.andThen V.draw fun a => V.ret (if a.u < p.ratio x θ * Real.exp (ℓ (p.move x θ) - ℓ x) then p.move x θ else x)

theorem accept_meas {p : Kern X Θ} (h : p.Ok) {ℓ : X → ℝ} (hℓ : Measurable ℓ) : V.Meas fun z : X × Θ => accept p ℓ z.1 z.2 := by
  classical
  refine V.Meas.andThen (V.Meas.draw (Ξ := X × Θ)) (V.Meas.ret ?_)
  have h1 := hℓ.comp h.move
  have h2 : Measurable fun z : X × Θ => ℓ z.1 := hℓ.comp measurable_fst
  have h3 : Measurable fun z : X × Θ => Real.exp (ℓ (p.move z.1 z.2) - ℓ z.1) := Real.continuous_exp.measurable.comp (h1.sub h2)
  have h4 : Measurable fun z : X × Θ => p.ratio z.1 z.2 * Real.exp (ℓ (p.move z.1 z.2) - ℓ z.1) := h.ratio.mul h3
  have h5 : Measurable fun z : (X × Θ) × Draw => p.ratio z.1.1 z.1.2 * Real.exp (ℓ (p.move z.1.1 z.1.2) - ℓ z.1.1) :=
    h4.comp measurable_fst
  have h6 : Measurable fun z : (X × Θ) × Draw => z.2.u := draw_u_meas.comp measurable_snd
  have h7 : Measurable fun z : (X × Θ) × Draw => p.move z.1.1 z.1.2 := h.move.comp measurable_fst
  have h8 : Measurable fun z : (X × Θ) × Draw => z.1.1 := measurable_fst.comp measurable_fst
  exact Measurable.ite (measurableSet_lt h6 h5) h7 h8

theorem accept_prob {K : ℕ} (hK : K ≠ 0) (c : ℝ) : drawLaw K {a | a.u < c} = ENNReal.ofReal (min 1 c) := by
  have e : {a : Draw | a.u < c} = Draw.u ⁻¹' Set.Ico 0 (min 1 c) := by
    ext a
    simp only [Set.mem_ofPred_eq, Set.mem_preimage, Set.mem_Ico, lt_min_iff]
    exact ⟨fun h => ⟨a.hu.1, a.hu.2, h⟩, fun h => h.2.2⟩
  rw [e, ← Measure.map_apply draw_u_meas measurableSet_Ico, drawLaw_u hK, unitLaw_Ico le_rfl (min_le_left _ _), sub_zero]

theorem accept_law {K : ℕ} (hK : K ≠ 0) (p : Kern X Θ) (ℓ : X → ℝ) (x : X) (θ : Θ) :
    V.HasLaw K (accept p ℓ x θ) 1 fun G => rate ℓ x (p.move x θ) (p.ratio x θ) * G (p.move x θ) +
      (1 - rate ℓ x (p.move x θ) (p.ratio x θ)) * G x := by
  classical
  have hp := drawLaw_prob hK
  generalize hc : p.ratio x θ * Real.exp (ℓ (p.move x θ) - ℓ x) = c
  have hset : MeasurableSet {a : Draw | a.u < c} := measurableSet_lt draw_u_meas measurable_const
  have hm : V.Meas fun a : Draw => V.ret (if a.u < c then p.move x θ else x) :=
    V.Meas.ret (Measurable.ite hset measurable_const measurable_const)
  have h1 : V.HasLaw K (accept p ℓ x θ) (1 + 0) fun G => ∫⁻ a : Draw, G (if a.u < c then p.move x θ else x) ∂drawLaw K := by
    unfold accept
    rw [hc]
    exact V.HasLaw.andThen (V.HasLaw.draw hK) (fun a => V.HasLaw.ret _) hm
  refine V.HasLaw.congr hK h1 fun G hG => ?_
  have hr : rate ℓ x (p.move x θ) (p.ratio x θ) = drawLaw K {a | a.u < c} := by
    unfold rate
    rw [hc, accept_prob hK]
  rw [hr]
  have e : ∀ a : Draw, G (if a.u < c then p.move x θ else x) =
      {a : Draw | a.u < c}.indicator (fun _ => G (p.move x θ)) a + {a : Draw | a.u < c}ᶜ.indicator (fun _ => G x) a := by
    intro a
    by_cases ha : a.u < c
    · rw [if_pos ha, Set.indicator_of_mem (by exact ha), Set.indicator_of_notMem (by simpa using ha), add_zero]
    · rw [if_neg ha, Set.indicator_of_notMem (by exact ha), Set.indicator_of_mem (by simpa using ha), zero_add]
  simp only [e]
  rw [lintegral_add_left (measurable_const.indicator hset), lintegral_indicator_const hset,
    lintegral_indicator_const hset.compl, prob_compl_eq_one_sub hset, mul_comm, mul_comm (G x)]

end

end BB.Lemmas
