import Verif.Lemmas.BlockChain
import Verif.Spec.RowLaw

/-!
# What happens in an iteration of a chain the perturbations of which change one block each
-/

namespace BB.Lemmas

open BB Spec Props MeasureTheory

section

variable {S σ E : Type} {cfg : ChainCfg S σ} {X Θ : Fin cfg.perturbs.length → Type} [∀ i, MeasurableSpace (X i)]
  [∀ i, MeasurableSpace (Θ i)] {L : ∀ i, Local (X i) (Θ i)} {proj : ∀ i, S → (L i).S} {enc : ∀ i, S → ℝ × Θ i → List Draw}
  {val : S → ∀ i, X i} {inv : S → Prop} {ℓ : (∀ i, X i) → ℝ} {T : ℝ}

/-- What happens in an iteration. -/
def Happens (cfg : ChainCfg S σ) {X Θ : Fin cfg.perturbs.length → Type} [∀ i, MeasurableSpace (X i)] [∀ i, MeasurableSpace (Θ i)]
    (L : ∀ i, Local (X i) (Θ i)) (proj : ∀ i, S → (L i).S) (s : S) (ω : ℝ × (∀ i, ℝ × Θ i) × ℝ) : Prop :=
  (0 ≤ ω.1 ∧ ω.1 < 1) ∧ (0 < ω.2.2 ∧ ω.2.2 < 1) ∧ ∃ (i : Fin cfg.perturbs.length) (j : Fin (L i).funcs.length) (new' : (L i).S) (lpr : PyF),
    choices cfg.perturbs.length cfg.weights [unitDraw ω.1] = (.ok i.val, []) ∧
    (∀ rest, (L i).funcs[j].2 (proj i s) ((L i).enc j (proj i s) (ω.2.1 i).2 ++ rest) = (.ok (new', lpr), rest)) ∧
    (L i).inv new' ∧ (lpr.isInf = false → (L i).val new' ∈ (L i).possible) ∧ (ω.2.1 i).1 ∈ chosen ((L i).cfg fun _ => 0) j

theorem unit_pos : ∀ᵐ u ∂unit, 0 < u ∧ u < 1 := by
  have h1 : ∀ᵐ u ∂unit, u ∈ Set.Ico (0 : ℝ) 1 := ae_restrict_mem measurableSet_Ico
  have h2 : ∀ᵐ u ∂unit, u ≠ 0 := by
    have h3 : unit {(0 : ℝ)} = 0 := by
      unfold unit
      exact Measure.restrict_apply_eq_zero' measurableSet_Ico |>.2 (measure_mono_null Set.inter_subset_left Real.volume_singleton)
    exact measure_eq_zero_iff_ae_notMem.1 h3
  filter_upwards [h1, h2] with u g1 g2
  exact ⟨lt_of_le_of_ne g1.1 (Ne.symm g2), g1.2⟩

theorem unitDraw_eq {u : ℝ} (h : 0 ≤ u ∧ u < 1) : unitDraw u = ⟨0, 0, u, h⟩ := dif_pos h

theorem blocks_happen (H : Chained cfg L proj enc val inv ℓ T) {s : S} (hi : inv s)
    (hfine : ∀ i, val s i ∈ fine (L i).moves (L i).possible) :
    ∀ᵐ ω ∂unit.prod ((Measure.pi fun i => unit.prod (L i).moves.draws).prod unit), Happens cfg L proj s ω := by
  have hL := H.ok
  have hprob : ∀ i, IsProbabilityMeasure (L i).moves.draws := fun i => (hL i).ok.prob
  have hv : ∀ i, (L i).val (proj i s) = val s i := fun i => H.local_val s hi i
  have h1 : ∀ᵐ ω : ℝ × (∀ i, ℝ × Θ i) × ℝ ∂unit.prod ((Measure.pi fun i => unit.prod (L i).moves.draws).prod unit),
      ω.1 ∈ Set.Ico (0 : ℝ) 1 := Measure.quasiMeasurePreserving_fst.ae (ae_restrict_mem measurableSet_Ico)
  have h2 : ∀ᵐ ω : ℝ × (∀ i, ℝ × Θ i) × ℝ ∂unit.prod ((Measure.pi fun i => unit.prod (L i).moves.draws).prod unit),
      0 < ω.2.2 ∧ ω.2.2 < 1 := Measure.quasiMeasurePreserving_snd.ae (Measure.quasiMeasurePreserving_snd.ae unit_pos)
  have h3 : ∀ i, ∀ᵐ z : ℝ × Θ i ∂unit.prod (L i).moves.draws, ∃ (j : Fin (L i).funcs.length) (new' : (L i).S) (lpr : PyF),
      (∀ rest, (L i).funcs[j].2 (proj i s) ((L i).enc j (proj i s) z.2 ++ rest) = (.ok (new', lpr), rest)) ∧
      (L i).inv new' ∧ (lpr.isInf = false → (L i).val new' ∈ (L i).possible) ∧ z.1 ∈ chosen ((L i).cfg fun _ => 0) j := by
    intro i
    have g1 : ∀ᵐ z : ℝ × Θ i ∂unit.prod (L i).moves.draws, z.1 ∈ Set.Ico (0 : ℝ) 1 :=
      Measure.quasiMeasurePreserving_fst.ae (ae_restrict_mem measurableSet_Ico)
    have g2 := (ae_all_iff (ι := Fin (L i).funcs.length) (μ := (L i).moves.draws)).2 fun j =>
      (hL i).proposal j (proj i s) (H.local_inv s hi i)
    have g3 : ∀ᵐ θ : Θ i ∂(L i).moves.draws, ∀ j : Fin (L i).funcs.length, ∃ new' lpr,
        (∀ rest, (L i).funcs[j].2 (proj i s) ((L i).enc j (proj i s) θ ++ rest) = (.ok (new', lpr), rest)) ∧
        (L i).inv new' ∧ (lpr.isInf = false → (L i).val new' ∈ (L i).possible) := by
      filter_upwards [g2, ae_all_iff.2 (hfine i).2.1, ae_all_iff.2 (hfine i).2.2] with θ k1 k2 k3 j
      obtain ⟨new', lpr, m1, m2, m3, m4⟩ := k1 j
      refine ⟨new', lpr, m1, m2, fun hinf => ?_⟩
      rw [(hL i).possible_same _ _ m3]
      rw [hv] at m4 ⊢
      refine k3 j fun hz => ?_
      rw [m4 (k2 j), logQuotient, if_pos hz] at hinf
      cases hinf
    have g4 := (Measure.quasiMeasurePreserving_snd (μ := unit) (ν := (L i).moves.draws)).ae g3
    filter_upwards [g1, g4] with z k1 k2
    have k1' := k1
    rw [← chosen_cover ((L i).cfg fun _ => 0) (hL i).len (hL i).nonneg (hL i).sum] at k1'
    obtain ⟨j, hj⟩ := Set.mem_iUnion.1 k1'
    obtain ⟨new', lpr, m1, m2, m3⟩ := k2 j
    exact ⟨j, new', lpr, m1, m2, m3, hj⟩
  have h4 : ∀ᵐ ω : ℝ × (∀ i, ℝ × Θ i) × ℝ ∂unit.prod ((Measure.pi fun i => unit.prod (L i).moves.draws).prod unit),
      ∀ i, ∃ (j : Fin (L i).funcs.length) (new' : (L i).S) (lpr : PyF),
      (∀ rest, (L i).funcs[j].2 (proj i s) ((L i).enc j (proj i s) (ω.2.1 i).2 ++ rest) = (.ok (new', lpr), rest)) ∧
      (L i).inv new' ∧ (lpr.isInf = false → (L i).val new' ∈ (L i).possible) ∧ (ω.2.1 i).1 ∈ chosen ((L i).cfg fun _ => 0) j :=
    Measure.quasiMeasurePreserving_snd.ae (Measure.quasiMeasurePreserving_fst.ae (ae_all_iff.2 fun i =>
      (Measure.quasiMeasurePreserving_eval (fun i => unit.prod (L i).moves.draws) i).ae (h3 i)))
  filter_upwards [h1, h2, h4] with ω k1 k2 k3
  refine ⟨k1, k2, ?_⟩
  have k1' := k1
  rw [← chosen_cover cfg H.len H.nonneg H.sum] at k1'
  obtain ⟨i, hi1, hi2⟩ := Set.mem_iUnion.1 k1'
  obtain ⟨j, new', lpr, m1, m2, m3, m4⟩ := k3 i
  refine ⟨i, j, new', lpr, ?_, m1, m2, m3, m4⟩
  rw [unitDraw_eq hi1]
  exact hi2

end

end BB.Lemmas
