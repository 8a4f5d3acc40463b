import Verif.Props.C09_Balance

/-!
# The law of an iteration is a mixture of the laws of the perturbations
-/

namespace BB.Lemmas

open BB Spec Props MeasureTheory

section

variable {S S' σ σ' E E' X Θ Θ' : Type} [MeasurableSpace X] [MeasurableSpace Θ] [MeasurableSpace Θ']

open Classical in
/-- The state after the proposal `new`, where `u` is the draw of the acceptance test. -/
noncomputable def decided (cfg : ChainCfg S σ) (c : Chain S σ E) (new : S) (lpr : PyF) (u : ℝ) : S :=
  if lpr.isInf then (if 0 < u ∧ (lpr.add (.fin 0)).gtFin (Real.log u) then new else c.cur)
  else match cfg.llr c.cur new c.temp with
    | (.ok q, cur, new) => if 0 < u ∧ (lpr.add q).gtFin (Real.log u) then new else cur
    | (.error _, cur, _) => cur

/-- A proposal can be decided upon. -/
def Decides (cfg : ChainCfg S σ) (c : Chain S σ E) (new : S) (lpr : PyF) : Prop :=
  lpr.isInf = false → ∃ q cur1 new1, cfg.llr c.cur new c.temp = (.ok q, cur1, new1)

theorem finish_moves (cfg : ChainCfg S σ) (c : Chain S σ E) (name : String) (new : S) (lp : PyF) (d : Draw) [Decidable (0 < d.u ∧ lp.gtFin (Real.log d.u))] :
    (Chain.finish cfg name new lp c [d]).2.1.cur = if 0 < d.u ∧ lp.gtFin (Real.log d.u) then new else c.cur := by
  classical
  rw [finish_run]
  by_cases hu : d.u ≤ 0
  · rw [if_pos hu, if_neg fun h => absurd h.1 (not_lt.2 hu)]
  · have hu' : 0 < d.u := lt_of_not_ge hu
    rw [if_neg hu]
    have hif : (if 0 < d.u ∧ lp.gtFin (Real.log d.u) then new else c.cur) =
        if decide (lp.gtFin (Real.log d.u)) = true then new else c.cur := by
      simp only [hu', true_and, decide_eq_true_eq]
    rw [hif]
    generalize decide (lp.gtFin (Real.log d.u)) = acc
    match newStats cfg name acc new c.proposed c.accepted with
    | .error err => rfl
    | .ok (p, a) =>
      simp only
      have hs : (Chain.saveIfDue cfg (afterStats c new acc p a) []).2.1.cur = if acc then new else c.cur := by
        unfold Chain.saveIfDue
        split <;> rfl
      match hm2 : Chain.saveIfDue cfg (afterStats c new acc p a) [] with
      | (.ok (), c2, t2) => rw [hm2] at hs; exact hs
      | (.error err, c2, t2) => rw [hm2] at hs; exact hs

/-- The state after an iteration. -/
theorem next_any (cfg : ChainCfg S σ) (c : Chain S σ E) (d0 : Draw) (tp : List Draw) (i : ℕ)
    (hi : choices cfg.perturbs.length cfg.weights [d0] = (.ok i, [])) (name : String) (f : S → M (S × PyF))
    (hf : cfg.perturbs[i]? = some (name, f)) (new : S) (lpr : PyF)
    (hprop : ∀ t, f c.cur (tp ++ t) = (.ok (new, lpr), t)) (hd : Decides cfg c new lpr) (d : Draw) :
    (Chain.next cfg c (d0 :: tp ++ [d])).2.1.cur = decided cfg c new lpr d.u := by
  classical
  have e : d0 :: tp ++ [d] = d0 :: (tp ++ [d]) := rfl
  rw [e]
  unfold Chain.next
  rw [attempts_succ, attempt_chosen cfg (t1 := tp ++ [d]) ⟨i, choices_cons hi _, hf⟩, hprop]
  unfold decided
  by_cases hinf : lpr.isInf = true
  · simp only [hinf, if_true]
    have h := finish_moves cfg c name new (lpr.add (.fin 0)) d
    rcases hfin : Chain.finish cfg name new (lpr.add (.fin 0)) c [d] with ⟨r | r, c2, t2⟩ <;> rw [hfin] at h <;> exact h
  · have hinf' : lpr.isInf = false := by simpa using hinf
    obtain ⟨q, cur1, new1, hq⟩ := hd hinf'
    simp only [hinf', Bool.false_eq_true, if_false, hq]
    have h := finish_moves cfg { c with cur := cur1 } name new1 (lpr.add q) d
    rcases hfin : Chain.finish cfg name new1 (lpr.add q) { c with cur := cur1 } [d] with ⟨r | r, c2, t2⟩ <;> rw [hfin] at h <;>
      exact h

/-- The law of the model after the perturbation `f`. -/
noncomputable def stepLaw (cfg : ChainCfg S σ) (f : S → M (S × PyF)) (enc : S → Θ → List Draw) (draws : Measure Θ) (val : S → X)
    (c : Chain S σ E) (A : Set X) : ENNReal :=
  (draws.prod unit) {z | z.2 ∈ Set.Ico (0 : ℝ) 1 ∧ ∃ new lpr, (∀ rest, f c.cur (enc c.cur z.1 ++ rest) = (.ok (new, lpr), rest)) ∧
    val (decided cfg c new lpr z.2) ∈ A}

/-- The perturbation `f` almost always leads to a proposal that can be decided upon. -/
def StepRuns (cfg : ChainCfg S σ) (f : S → M (S × PyF)) (enc : S → Θ → List Draw) (draws : Measure Θ) (c : Chain S σ E) : Prop :=
  ∀ᵐ θ ∂draws, ∃ new lpr, (∀ rest, f c.cur (enc c.cur θ ++ rest) = (.ok (new, lpr), rest)) ∧ Decides cfg c new lpr

theorem chosen_disjoint (cfg : ChainCfg S σ) : Pairwise (Function.onFun Disjoint fun i : Fin cfg.perturbs.length => chosen cfg i) := by
  intro i j hij
  refine Set.disjoint_left.2 ?_
  rintro u ⟨h, h1⟩ ⟨h', h2⟩
  rw [h1] at h2
  simp only [Prod.mk.injEq, Except.ok.injEq, and_true] at h2
  exact hij (Fin.ext h2)

theorem chosen_cover (cfg : ChainCfg S σ) (hlen : cfg.perturbs.length = cfg.weights.length)
    (hw : ∀ w ∈ cfg.weights, 0 ≤ w) (hs : 0 < cfg.weights.sum) :
    (⋃ i : Fin cfg.perturbs.length, chosen cfg i) = Set.Ico 0 1 := by
  ext u
  rw [Set.mem_iUnion]
  constructor
  · rintro ⟨i, h, -⟩
    exact h
  · intro h
    obtain ⟨j, h1, h2, -⟩ := choices_run cfg.weights hw hs ⟨0, 0, u, h⟩ []
    refine ⟨⟨j, by rw [hlen]; exact h2⟩, h, ?_⟩
    rw [← hlen] at h1
    exact h1

/-- The law of an iteration is a mixture. -/
theorem law_mixture (cfg : ChainCfg S σ) (hlen : cfg.perturbs.length = cfg.weights.length)
    (hw : ∀ w ∈ cfg.weights, 0 ≤ w) (hs : 0 < cfg.weights.sum)
    (enc : Fin cfg.perturbs.length → S → Θ → List Draw) (draws : Measure Θ) [SFinite draws] (val : S → X) (c : Chain S σ E)
    (h : ∀ i, StepRuns cfg cfg.perturbs[i].2 (enc i) draws c) (A : Set X) :
    IterationLaw cfg enc draws val c A =
      ∑ i, ENNReal.ofReal (weight cfg i / ∑ j, weight cfg j) * stepLaw cfg cfg.perturbs[i].2 (enc i) draws val c A := by
  set μ := unit.prod (draws.prod unit) with hμ
  set B : Set (ℝ × Θ × ℝ) := {ω | ∃ h0 h1 i,
    choices cfg.perturbs.length cfg.weights [⟨0, 0, ω.1, h0⟩] = (.ok (Fin.val i), []) ∧
    val (Chain.next cfg c (⟨0, 0, ω.1, h0⟩ :: enc i c.cur ω.2.1 ++ [⟨0, 0, ω.2.2, h1⟩])).2.1.cur ∈ A} with hB
  set F : Fin cfg.perturbs.length → Set (Θ × ℝ) := fun i => {z | z.2 ∈ Set.Ico (0 : ℝ) 1 ∧ ∃ new lpr,
    (∀ rest, cfg.perturbs[i].2 c.cur (enc i c.cur z.1 ++ rest) = (.ok (new, lpr), rest)) ∧
    val (decided cfg c new lpr z.2) ∈ A} with hF
  change μ B = ∑ i, _ * (draws.prod unit) (F i)
  have hC := chosen_eq cfg hlen hw hs
  have hae : B =ᵐ[μ] ⋃ i : Fin cfg.perturbs.length, chosen cfg i ×ˢ F i := by
    have h1 : ∀ᵐ ω : ℝ × Θ × ℝ ∂μ, ∀ i : Fin cfg.perturbs.length, ∃ new lpr,
        (∀ rest, cfg.perturbs[i].2 c.cur (enc i c.cur ω.2.1 ++ rest) = (.ok (new, lpr), rest)) ∧ Decides cfg c new lpr :=
      Measure.quasiMeasurePreserving_snd.ae (Measure.quasiMeasurePreserving_fst.ae (ae_all_iff.2 h))
    filter_upwards [h1] with ω hω
    apply propext
    change ω ∈ B ↔ ω ∈ ⋃ i : Fin cfg.perturbs.length, chosen cfg i ×ˢ F i
    rw [Set.mem_iUnion]
    have key : ∀ (h0 : 0 ≤ ω.1 ∧ ω.1 < 1) (h1 : 0 ≤ ω.2.2 ∧ ω.2.2 < 1) (i : Fin cfg.perturbs.length),
        choices cfg.perturbs.length cfg.weights [⟨0, 0, ω.1, h0⟩] = (.ok i.val, []) →
        (val (Chain.next cfg c (⟨0, 0, ω.1, h0⟩ :: enc i c.cur ω.2.1 ++ [⟨0, 0, ω.2.2, h1⟩])).2.1.cur ∈ A ↔ ω.2 ∈ F i) := by
      intro h0 h1 i hi
      obtain ⟨new, lpr, g1, g2⟩ := hω i
      have hf : cfg.perturbs[i.val]? = some (cfg.perturbs[i].1, cfg.perturbs[i].2) := by simp
      rw [next_any cfg c _ _ i hi _ _ hf new lpr g1 g2]
      constructor
      · exact fun hA => ⟨h1, new, lpr, g1, hA⟩
      · rintro ⟨-, new', lpr', g1', hA⟩
        have e := g1 []
        rw [g1' []] at e
        simp only [Prod.mk.injEq, Except.ok.injEq, and_true] at e
        rw [← e.1, ← e.2]
        exact hA
    constructor
    · rintro ⟨h0, h1, i, hi, hA⟩
      exact ⟨i, ⟨h0, hi⟩, (key h0 h1 i hi).1 hA⟩
    · rintro ⟨i, ⟨h0, hi⟩, hA⟩
      exact ⟨h0, hA.1, i, hi, (key h0 hA.1 i hi).2 hA⟩
  rw [measure_congr hae]
  have hdis : Pairwise (Function.onFun Disjoint fun i : Fin cfg.perturbs.length => chosen cfg i ×ˢ (Set.univ : Set (Θ × ℝ))) :=
    fun i j hij => Set.disjoint_left.2 fun ω h1 h2 => Set.disjoint_left.1 (chosen_disjoint cfg hij) h1.1 h2.1
  have hmeas : ∀ i : Fin cfg.perturbs.length, MeasurableSet (chosen cfg i ×ˢ (Set.univ : Set (Θ × ℝ))) :=
    fun i => (hC i).1.prod MeasurableSet.univ
  set G := ⋃ i : Fin cfg.perturbs.length, chosen cfg i ×ˢ F i with hG
  have hsub : G ⊆ ⋃ i : Fin cfg.perturbs.length, chosen cfg i ×ˢ (Set.univ : Set (Θ × ℝ)) :=
    Set.iUnion_mono fun i => Set.prod_mono le_rfl (Set.subset_univ _)
  have e1 : μ G = (μ.restrict (⋃ i : Fin cfg.perturbs.length, chosen cfg i ×ˢ (Set.univ : Set (Θ × ℝ)))) G := by
    rw [Measure.restrict_apply' (.iUnion hmeas), Set.inter_eq_self_of_subset_left hsub]
  rw [e1, Measure.restrict_iUnion hdis hmeas, Measure.sum_apply_of_countable, tsum_fintype]
  refine Finset.sum_congr rfl fun i _ => ?_
  rw [Measure.restrict_apply' (hmeas i)]
  have e2 : G ∩ chosen cfg i ×ˢ (Set.univ : Set (Θ × ℝ)) = chosen cfg i ×ˢ F i := by
    ext ω
    constructor
    · rintro ⟨h1, h2⟩
      obtain ⟨j, h3⟩ := Set.mem_iUnion.1 h1
      have : j = i := by
        by_contra hij
        exact Set.disjoint_left.1 (chosen_disjoint cfg hij) h3.1 h2.1
      subst this
      exact h3
    · exact fun h1 => ⟨Set.mem_iUnion.2 ⟨i, h1⟩, h1.1, trivial⟩
  rw [e2, hμ, Measure.prod_prod, (hC i).2]

/-- The law of a perturbation that first chooses one of several functions is the law of an iteration with these functions. -/
theorem group_law (cfg : ChainCfg S σ) (g : S → M (S × PyF)) (enc : S → ℝ × Θ → List Draw) (cfg' : ChainCfg S' σ')
    (hlen : cfg'.perturbs.length = cfg'.weights.length) (hw : ∀ w ∈ cfg'.weights, 0 ≤ w) (hs : 0 < cfg'.weights.sum)
    (enc' : Fin cfg'.perturbs.length → S' → Θ → List Draw) (draws : Measure Θ) [SFinite draws] (val : S → X) (val' : S' → X)
    (c : Chain S σ E) (c' : Chain S' σ' E')
    (h : ∀ᵐ θ ∂draws, ∀ i : Fin cfg'.perturbs.length, ∃ new' lpr,
      (∀ rest, cfg'.perturbs[i].2 c'.cur (enc' i c'.cur θ ++ rest) = (.ok (new', lpr), rest)) ∧ Decides cfg' c' new' lpr ∧
      ∀ u ∈ chosen cfg' i, ∃ new, (∀ rest, g c.cur (enc c.cur (u, θ) ++ rest) = (.ok (new, lpr), rest)) ∧
        ∀ v, val (decided cfg c new lpr v) = val' (decided cfg' c' new' lpr v)) (A : Set X) :
    stepLaw cfg g enc (unit.prod draws) val c A = IterationLaw cfg' enc' draws val' c' A := by
  unfold stepLaw IterationLaw
  have hpres := measurePreserving_prodAssoc (μa := unit) (μb := draws) (μc := unit)
  rw [← hpres.measure_preimage_equiv]
  refine measure_congr ?_
  have h1 : ∀ᵐ ω : (ℝ × Θ) × ℝ ∂(unit.prod draws).prod unit, ∀ i : Fin cfg'.perturbs.length, ∃ new' lpr,
      (∀ rest, cfg'.perturbs[i].2 c'.cur (enc' i c'.cur ω.1.2 ++ rest) = (.ok (new', lpr), rest)) ∧ Decides cfg' c' new' lpr ∧
      ∀ u ∈ chosen cfg' i, ∃ new, (∀ rest, g c.cur (enc c.cur (u, ω.1.2) ++ rest) = (.ok (new, lpr), rest)) ∧
        ∀ v, val (decided cfg c new lpr v) = val' (decided cfg' c' new' lpr v) :=
    Measure.quasiMeasurePreserving_fst.ae (Measure.quasiMeasurePreserving_snd.ae h)
  have h2 : ∀ᵐ ω : (ℝ × Θ) × ℝ ∂(unit.prod draws).prod unit, ω.1.1 ∈ Set.Ico (0 : ℝ) 1 := by
    have h3 : ∀ᵐ u ∂unit, u ∈ Set.Ico (0 : ℝ) 1 := ae_restrict_mem measurableSet_Ico
    exact Measure.quasiMeasurePreserving_fst.ae (Measure.quasiMeasurePreserving_fst.ae h3)
  filter_upwards [h1, h2] with ω hω hu
  apply propext
  change (ω.2 ∈ Set.Ico (0 : ℝ) 1 ∧ ∃ new lpr, (∀ rest, g c.cur (enc c.cur ω.1 ++ rest) = (.ok (new, lpr), rest)) ∧
      val (decided cfg c new lpr ω.2) ∈ A) ↔ ∃ h0 h1 i,
    choices cfg'.perturbs.length cfg'.weights [⟨0, 0, ω.1.1, h0⟩] = (.ok (Fin.val i), []) ∧
    val' (Chain.next cfg' c' (⟨0, 0, ω.1.1, h0⟩ :: enc' i c'.cur ω.1.2 ++ [⟨0, 0, ω.2, h1⟩])).2.1.cur ∈ A
  rw [← chosen_cover cfg' hlen hw hs] at hu
  obtain ⟨i, h0, hi⟩ := Set.mem_iUnion.1 hu
  obtain ⟨new', lpr, g1, g2, g3⟩ := hω i
  obtain ⟨new, g4, g5⟩ := g3 ω.1.1 ⟨h0, hi⟩
  have hf : cfg'.perturbs[i.val]? = some (cfg'.perturbs[i].1, cfg'.perturbs[i].2) := by simp
  have key : ∀ h1, val' (Chain.next cfg' c' (⟨0, 0, ω.1.1, h0⟩ :: enc' i c'.cur ω.1.2 ++ [⟨0, 0, ω.2, h1⟩])).2.1.cur =
      val (decided cfg c new lpr ω.2) := by
    intro h1
    rw [next_any cfg' c' _ _ i hi _ _ hf new' lpr g1 g2, g5]
  constructor
  · rintro ⟨h1, new2, lpr2, k1, k2⟩
    have e := g4 []
    rw [k1 []] at e
    simp only [Prod.mk.injEq, Except.ok.injEq, and_true] at e
    rw [e.1, e.2] at k2
    refine ⟨h0, h1, i, hi, ?_⟩
    exact (congrArg (· ∈ A) (key h1)).mpr k2
  · rintro ⟨_, h1, j, hj, hA⟩
    have : j = i := by
      rw [hi] at hj
      simp only [Prod.mk.injEq, Except.ok.injEq, and_true] at hj
      exact Fin.ext hj.symm
    subst this
    exact ⟨h1, new, lpr, g4, (congrArg (· ∈ A) (key h1)).mp hA⟩

end

end BB.Lemmas
