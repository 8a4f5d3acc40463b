import Verif.Lemmas.RowLaw
import Verif.Lemmas.Rejection
import Verif.Spec.Conform

/-!
# The law of new sites
-/

namespace BB.Lemmas

open BB BB.Spec MeasureTheory ProbabilityTheory

theorem uniform_cond {a b : ℝ} (h : a < b) :
    (volume.withDensity fun v => ENNReal.ofReal (uniformPDF a b v)) = volume[|Set.Icc a b] := by
  have h0 : 0 < b - a := sub_pos.2 h
  have e : (fun v => ENNReal.ofReal (uniformPDF a b v)) =
      (Set.Icc a b).indicator fun _ => (volume (Set.Icc a b))⁻¹ := by
    funext v
    unfold uniformPDF
    by_cases hv : a ≤ v ∧ v ≤ b
    · rw [if_pos hv, Set.indicator_of_mem (show v ∈ Set.Icc a b from hv), Real.volume_Icc, one_div,
        ENNReal.ofReal_inv_of_pos h0]
    · rw [if_neg hv, Set.indicator_of_notMem (show v ∉ Set.Icc a b from hv), ENNReal.ofReal_zero]
  rw [e, withDensity_indicator measurableSet_Icc, withDensity_const]
  rfl

/-- A site on a line. -/
noncomputable def lineSite (v : Vor1) (u : ℝ) : ℝ := v.vmin + (v.vmax - v.vmin) * (unitDraw u).u

theorem lineSite_meas (v : Vor1) : Measurable (lineSite v) := by
  have := unitDraw_meas
  unfold lineSite
  fun_prop

theorem lineSite_law {v : Vor1} (h : v.vmin < v.vmax) : unitLaw.map (lineSite v) = volume[|Set.Icc v.vmin v.vmax] := by
  rw [← uniform_cond h, ← map_unitLaw h]
  rfl

/-- A point of the rectangle. -/
noncomputable def boxSite (v : Vor2) (u : ℝ × ℝ) : ℝ × ℝ :=
  (v.vmin.1 + (v.vmax.1 - v.vmin.1) * (unitDraw u.1).u, v.vmin.2 + (v.vmax.2 - v.vmin.2) * (unitDraw u.2).u)

/-- The two draws of a point. -/
noncomputable def pairDraws (u : ℝ × ℝ) : List Draw := [unitDraw u.1, unitDraw u.2]

theorem boxSite_meas (v : Vor2) : Measurable (boxSite v) := by
  have h1 : Measurable fun z : ℝ × ℝ => (unitDraw z.1).u := unitDraw_meas.comp measurable_fst
  have h2 : Measurable fun z : ℝ × ℝ => (unitDraw z.2).u := unitDraw_meas.comp measurable_snd
  unfold boxSite
  fun_prop

theorem boxSite_law {v : Vor2} (h1 : v.vmin.1 < v.vmax.1) (h2 : v.vmin.2 < v.vmax.2) :
    (unitLaw.prod unitLaw).map (boxSite v) =
      volume[|Set.Icc v.vmin.1 v.vmax.1 ×ˢ Set.Icc v.vmin.2 v.vmax.2] := by
  have m1 : Measurable fun u : ℝ => v.vmin.1 + (v.vmax.1 - v.vmin.1) * (unitDraw u).u := by
    have := unitDraw_meas
    fun_prop
  have m2 : Measurable fun u : ℝ => v.vmin.2 + (v.vmax.2 - v.vmin.2) * (unitDraw u).u := by
    have := unitDraw_meas
    fun_prop
  have e := Measure.map_prod_map unitLaw unitLaw m1 m2
  rw [map_unitLaw h1, map_unitLaw h2, uniform_cond h1, uniform_cond h2] at e
  refine e.symm.trans ?_
  unfold ProbabilityTheory.cond
  rw [Measure.prod_smul_left, Measure.prod_smul_right, Measure.prod_restrict, smul_smul]
  have hv : (volume : Measure (ℝ × ℝ)) = (volume : Measure ℝ).prod volume := rfl
  rw [hv, Measure.prod_prod, ENNReal.mul_inv]
  · right
    rw [Real.volume_Icc]
    exact ENNReal.ofReal_ne_top
  · left
    rw [Real.volume_Icc]
    exact ENNReal.ofReal_ne_top

theorem boxSite_mem {v : Vor2} (h1 : v.vmin.1 ≤ v.vmax.1) (h2 : v.vmin.2 ≤ v.vmax.2) (u : ℝ × ℝ) :
    boxSite v u ∈ Set.Icc v.vmin.1 v.vmax.1 ×ˢ Set.Icc v.vmin.2 v.vmax.2 := by
  have key : ∀ a b : ℝ, a ≤ b → ∀ d : Draw, a ≤ a + (b - a) * d.u ∧ a + (b - a) * d.u ≤ b := by
    intro a b h d
    have := d.hu
    constructor
    · nlinarith [mul_nonneg (sub_nonneg.2 h) this.1]
    · nlinarith [mul_le_mul_of_nonneg_left this.2.le (sub_nonneg.2 h)]
  exact ⟨key _ _ h1 _, key _ _ h2 _⟩

/-- The index of the first accepted draw (0 if there is none). -/
noncomputable def firstIn {α : Type} (I : Set α) (x : ℕ → α) : ℕ := sInf {k | x k ∈ I}

theorem firstIn_spec {α : Type} {I : Set α} {x : ℕ → α} (h : ∃ k, x k ∈ I) :
    x (firstIn I x) ∈ I ∧ ∀ j < firstIn I x, x j ∉ I :=
  ⟨Nat.sInf_mem (s := {k | x k ∈ I}) h, fun _ hj => Nat.notMem_of_lt_sInf hj⟩

theorem firstIn_unique {α : Type} {I : Set α} {x : ℕ → α} {k : ℕ} (h1 : x k ∈ I) (h2 : ∀ j < k, x j ∉ I) :
    firstIn I x = k := by
  have h := firstIn_spec ⟨k, h1⟩
  rcases lt_trichotomy (firstIn I x) k with hlt | heq | hgt
  · exact absurd h.1 (h2 _ hlt)
  · exact heq
  · exact absurd h1 (h.2 _ hgt)

theorem firstIn_none {α : Type} {I : Set α} {x : ℕ → α} (h : ¬ ∃ k, x k ∈ I) : firstIn I x = 0 := by
  unfold firstIn
  rw [Nat.sInf_eq_zero]
  right
  ext k
  simp only [Set.mem_setOf_eq, Set.mem_empty_iff_false, iff_false]
  exact fun hk => h ⟨k, hk⟩

theorem firstIn_meas {α β : Type} [MeasurableSpace α] [MeasurableSpace β] {f : α → β} (hf : Measurable f) {I : Set β}
    (hI : MeasurableSet I) : Measurable fun ω : ℕ → α => f (ω (firstIn I fun k => f (ω k))) := by
  classical
  have hk : ∀ k : ℕ, MeasurableSet {ω : ℕ → α | f (ω k) ∈ I} := fun k => (hf.comp (measurable_pi_apply k)) hI
  have hnone : MeasurableSet {ω : ℕ → α | ¬ ∃ k, f (ω k) ∈ I} := by
    have : {ω : ℕ → α | ¬ ∃ k, f (ω k) ∈ I} = (⋃ k, {ω : ℕ → α | f (ω k) ∈ I})ᶜ := by
      ext ω
      simp
    rw [this]
    exact (MeasurableSet.iUnion hk).compl
  have hp : ∀ n : ℕ, MeasurableSet {ω : ℕ → α | f (ω n) ∈ I ∨ ¬ ∃ k, f (ω k) ∈ I} := fun n => (hk n).union hnone
  have hex : ∀ ω : ℕ → α, ∃ n, f (ω n) ∈ I ∨ ¬ ∃ k, f (ω k) ∈ I := by
    intro ω
    by_cases h : ∃ k, f (ω k) ∈ I
    · obtain ⟨k, hk⟩ := h
      exact ⟨k, .inl hk⟩
    · exact ⟨0, .inr h⟩
  have key := Measurable.find (f := fun n (ω : ℕ → α) => f (ω n)) (p := fun n ω => f (ω n) ∈ I ∨ ¬ ∃ k, f (ω k) ∈ I)
    (fun n => hf.comp (measurable_pi_apply n)) hp hex
  have e : (fun ω : ℕ → α => f (ω (firstIn I fun k => f (ω k)))) = fun ω => f (ω (Nat.find (hex ω))) := by
    funext ω
    congr 2
    by_cases h : ∃ k, f (ω k) ∈ I
    · have hs := Nat.find_spec (hex ω)
      refine firstIn_unique (hs.resolve_right fun hc => hc h) fun j hj hin => ?_
      exact Nat.find_min (hex ω) hj (.inl hin)
    · rw [firstIn_none h]
      refine ((Nat.find_eq_zero (hex ω)).2 (.inr h)).symm
  rw [e]
  exact key

/-- Almost surely some draw is accepted. -/
theorem some_accepted {α β : Type} [MeasurableSpace α] [MeasurableSpace β] (ν : Measure α) [IsProbabilityMeasure ν]
    {f : α → β} (hf : Measurable f) {I : Set β} (hI : MeasurableSet I) (h0 : ν.map f I ≠ 0) :
    ∀ᵐ ω ∂Measure.infinitePi (fun _ : ℕ => ν), ∃ k, f (ω k) ∈ I := by
  classical
  have : IsProbabilityMeasure (ν.map f) := Measure.isProbabilityMeasure_map hf.aemeasurable
  have h1 := first_accepted ν hf hI MeasurableSet.univ
  have h2 : (ν.map f)[Set.univ | I] = 1 := by
    have := cond_isProbabilityMeasure (μ := ν.map f) h0
    exact this.measure_univ
  rw [h2] at h1
  have hm : MeasurableSet {ω : ℕ → α | ∃ k, f (ω k) ∈ I} := by
    have : {ω : ℕ → α | ∃ k, f (ω k) ∈ I} = ⋃ k, {ω : ℕ → α | f (ω k) ∈ I} := by
      ext ω
      simp
    rw [this]
    exact MeasurableSet.iUnion fun k => (hf.comp (measurable_pi_apply k)) hI
  refine (mem_ae_iff_prob_eq_one hm).2 ?_
  refine le_antisymm prob_le_one ?_
  rw [← h1]
  refine measure_mono ?_
  rintro ω ⟨k, -, hk⟩
  exact ⟨k, hk.1⟩

theorem firstIn_law {α β : Type} [MeasurableSpace α] [MeasurableSpace β] (ν : Measure α) [IsProbabilityMeasure ν]
    {f : α → β} (hf : Measurable f) {I : Set β} (hI : MeasurableSet I) (h0 : ν.map f I ≠ 0) :
    (Measure.infinitePi fun _ : ℕ => ν).map (fun ω => f (ω (firstIn I fun k => f (ω k)))) = (ν.map f)[|I] := by
  ext A hA
  rw [Measure.map_apply (firstIn_meas hf hI) hA, ← first_accepted ν hf hI hA]
  refine measure_congr ?_
  refine (some_accepted ν hf hI h0).mono fun ω hω => ?_
  refine propext ⟨fun h => ?_, fun h => ?_⟩
  · exact ⟨firstIn I fun k => f (ω k), (firstIn_spec hω).2, (firstIn_spec hω).1, h⟩
  · obtain ⟨k, h1, h2⟩ := h
    have : firstIn I (fun k => f (ω k)) = k := firstIn_unique h2.1 h1
    change f (ω (firstIn I fun k => f (ω k))) ∈ A
    rw [this]
    exact h2.2

/-- The domain of a `Voronoi2D`. -/
def domain2 (v : Vor2) : Set (ℝ × ℝ) := {q | InDomain v q}

/-- The first point that is in the domain. -/
noncomputable def planeSite (v : Vor2) (ω : ℕ → ℝ × ℝ) : ℝ × ℝ :=
  boxSite v (ω (firstIn (domain2 v) fun k => boxSite v (ω k)))

/-- The draws up to there. -/
noncomputable def planeTape (v : Vor2) (ω : ℕ → ℝ × ℝ) : List Draw :=
  tape pairDraws ω (firstIn (domain2 v) (fun k => boxSite v (ω k)) + 1)

theorem domain2_sub (v : Vor2) : domain2 v ⊆ Set.Icc v.vmin.1 v.vmax.1 ×ˢ Set.Icc v.vmin.2 v.vmax.2 :=
  fun _ hq => ⟨hq.1.1, hq.1.2⟩

theorem box_volume {v : Vor2} : volume (Set.Icc v.vmin.1 v.vmax.1 ×ˢ Set.Icc v.vmin.2 v.vmax.2) ≠ ⊤ := by
  have hv : (volume : Measure (ℝ × ℝ)) = (volume : Measure ℝ).prod volume := rfl
  rw [hv, Measure.prod_prod, Real.volume_Icc, Real.volume_Icc]
  exact ENNReal.mul_ne_top ENNReal.ofReal_ne_top ENNReal.ofReal_ne_top

theorem planeSite_ne {v : Vor2} (h1 : v.vmin.1 < v.vmax.1) (h2 : v.vmin.2 < v.vmax.2) (hD : MeasurableSet (domain2 v))
    (hvol : volume (domain2 v) ≠ 0) : (unitLaw.prod unitLaw).map (boxSite v) (domain2 v) ≠ 0 := by
  have hb : MeasurableSet (Set.Icc v.vmin.1 v.vmax.1 ×ˢ Set.Icc v.vmin.2 v.vmax.2) :=
    measurableSet_Icc.prod measurableSet_Icc
  rw [boxSite_law h1 h2, cond_apply hb, Set.inter_eq_right.2 (domain2_sub v)]
  exact mul_ne_zero (ENNReal.inv_ne_zero.2 box_volume) hvol

theorem planeSite_law {v : Vor2} (h1 : v.vmin.1 < v.vmax.1) (h2 : v.vmin.2 < v.vmax.2) (hD : MeasurableSet (domain2 v))
    (hvol : volume (domain2 v) ≠ 0) :
    (Measure.infinitePi fun _ : ℕ => unitLaw.prod unitLaw).map (planeSite v) = volume[|domain2 v] := by
  have hb : MeasurableSet (Set.Icc v.vmin.1 v.vmax.1 ×ˢ Set.Icc v.vmin.2 v.vmax.2) :=
    measurableSet_Icc.prod measurableSet_Icc
  have e := firstIn_law (unitLaw.prod unitLaw) (boxSite_meas v) hD (planeSite_ne h1 h2 hD hvol)
  refine e.trans ?_
  rw [boxSite_law h1 h2, cond_cond_eq_cond_inter' hb hD box_volume, Set.inter_eq_right.2 (domain2_sub v)]

theorem sampleBox_run (v : Vor2) (u : ℝ × ℝ) (rest : List Draw) :
    v.sampleBox (pairDraws u ++ rest) = (.ok (boxSite v u), rest) := by
  unfold Vor2.sampleBox
  exact (M.bind_of (M.uniform_run _ _ _ _)).trans ((M.bind_of (M.uniform_run _ _ _ _)).trans rfl)

theorem untilFuel_first {α β : Type} {enc : α → List Draw} {m : M (Option β)} {g : α → Option β}
    (hm : ∀ z rest, m (enc z ++ rest) = (.ok (g z), rest)) (rest : List Draw) (y : β) : ∀ (k : ℕ) (ω : ℕ → α) (fuel : ℕ),
    k < fuel → (∀ j < k, g (ω j) = none) → g (ω k) = some y →
    M.untilFuel m fuel (tape enc ω (k + 1) ++ rest) = (.ok y, rest)
  | 0, ω, fuel + 1, _, _, h => by
    rw [tape_succ, List.append_assoc]
    refine (M.bind_of (hm _ _)).trans ?_
    rw [h]
    rfl
  | k + 1, ω, fuel + 1, hf, hn, h => by
    rw [tape_succ, List.append_assoc]
    refine (M.bind_of (hm _ _)).trans ?_
    rw [hn 0 (Nat.succ_pos k)]
    exact untilFuel_first hm rest y k (fun i => ω (i + 1)) fuel (by omega) (fun j hj => hn (j + 1) (by omega)) h

theorem sampleSite_run {v : Vor2} (h1 : v.vmin.1 ≤ v.vmax.1) (h2 : v.vmin.2 ≤ v.vmax.2) {ω : ℕ → ℝ × ℝ}
    (h : ∃ k, boxSite v (ω k) ∈ domain2 v) (rest : List Draw) :
    v.sampleSite (planeTape v ω ++ rest) = (.ok (planeSite v ω), rest) := by
  classical
  unfold Vor2.sampleSite
  match hp : v.polygon with
  | none =>
    have h0 : boxSite v (ω 0) ∈ domain2 v := by
      have hm := boxSite_mem h1 h2 (ω 0)
      refine ⟨⟨hm.1, hm.2⟩, ?_⟩
      rw [hp]
      intro inside hi
      cases hi
    have hk : firstIn (domain2 v) (fun k => boxSite v (ω k)) = 0 :=
      firstIn_unique (x := fun k => boxSite v (ω k)) h0 fun j hj => absurd hj (by omega)
    simp only
    unfold planeTape planeSite
    rw [hk, tape_succ]
    exact sampleBox_run v (ω 0) rest
  | some inside =>
    have hin : ∀ q, q ∈ domain2 v ↔ inside q := by
      intro q
      refine ⟨fun hq => hq.2 inside hp, fun hq => ⟨v.bounds inside hp q hq, fun i hi => ?_⟩⟩
      rw [hp] at hi
      injection hi with hi
      exact hi ▸ hq
    simp only
    have hrun : ∀ z rest, (do
        let p ← v.sampleBox
        return if inside p then some p else none : M (Option (ℝ × ℝ))) (pairDraws z ++ rest) =
        (.ok (if inside (boxSite v z) then some (boxSite v z) else none), rest) := fun z rest =>
      (M.bind_of (sampleBox_run v z rest)).trans rfl
    obtain ⟨ha, hb⟩ := firstIn_spec (x := fun k => boxSite v (ω k)) h
    unfold M.until planeTape planeSite
    refine untilFuel_first hrun rest _ _ ω _ ?_ (fun j hj => if_neg fun hc => hb j hj ((hin _).2 hc)) (if_pos ((hin _).1 ha))
    have := tape_length (enc := pairDraws) (by simp [pairDraws]) ω (firstIn (domain2 v) (fun k => boxSite v (ω k)) + 1)
    rw [List.length_append]
    omega

end BB.Lemmas
