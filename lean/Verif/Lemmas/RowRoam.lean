import Verif.Spec.Roaming
import Verif.Lemmas.RowHears
import Verif.Lemmas.HearsParts

/-!
# The perturbations of a space with rows get everywhere
-/

namespace BB.Lemmas

open BB Spec Props MeasureTheory ProbabilityTheory

section deaths

variable {R Ω : Type} [MeasurableSpace R] [MeasurableSpace Ω] {ρ : Measure R} {μ : Measure Ω} {new : Ω → R} {lo hi : ℕ}
  {common : Measure (Tuple R × Tuple R)} {g c : Tuple R → ℝ}

/-- The first row is removed. -/
def Leaves (ρ : Measure R) (lo hi : ℕ) (g c : Tuple R → ℝ) : Prop :=
  ∀ n, lo ≤ n → n + 1 ≤ hi → ∀ᵐ v ∂Measure.pi fun _ : Fin (n + 1) => ρ, g (tup n (Fin.removeNth 0 v)) = c (tup (n + 1) v)

theorem deaths_hears [IsProbabilityMeasure μ] {w : Fin 2 → ℝ} (hw : 0 < w 1) (h : Hears (birthDeath ρ μ new lo hi common) w g c) :
    Leaves ρ lo hi g c := by
  intro n h1 h2
  filter_upwards [trans_dim (h 1 hw) (show lo ≤ n + 1 by omega) h2] with v hv
  have h3 := uniform_index (Measure.ae_ae_of_ae_prod (show ∀ᵐ θ ∂(uniformNat hi.factorial).prod μ, _ from hv))
    (show 0 < hi.factorial from Nat.factorial_pos hi)
  obtain ⟨ω, hω⟩ := h3.exists
  have e : removeRow lo hi (tup (n + 1) v) 0 = tup n (Fin.removeNth 0 v) := by
    have hc : ¬ ((tup (n + 1) v).1 = lo ∨ hi < (tup (n + 1) v).1) := by
      change ¬ (n + 1 = lo ∨ hi < n + 1)
      omega
    exact if_neg hc
  have hm : (birthDeath ρ μ new lo hi common).move 1 (tup (n + 1) v) (0, ω) = tup n (Fin.removeNth 0 v) := e
  rw [hm] at hω
  refine hω ?_
  have hd : (birthDeath ρ μ new lo hi common).dens ((birthDeath ρ μ new lo hi common).rev 1) (tup n (Fin.removeNth 0 v), tup (n + 1) v) = 1 :=
    if_pos (.inl rfl)
  rw [hd]
  exact one_ne_zero

/-- Functions that notice neither replacements of rows nor deaths are constant. -/
theorem trans_const [SigmaFinite ρ] (hlo : 1 ≤ lo) (hg : Measurable g)
    (h : ∀ n, lo ≤ n + 1 → n + 1 ≤ hi → ∃ a, ∀ᵐ v ∂Measure.pi fun _ : Fin (n + 1) => ρ, g (tup (n + 1) v) = a ∧ c (tup (n + 1) v) = a)
    (hl : lo < hi → Leaves ρ lo hi g c) : ∃ a, ∀ᵐ x ∂transPrior ρ lo hi, g x = a := by
  by_cases hρ : ρ = 0
  · refine ⟨0, trans_all (hg (measurableSet_singleton _)) fun n h1 h2 => ?_⟩
    have h0 : (Measure.pi fun _ : Fin n => ρ) = 0 := by
      rw [← Measure.measure_univ_eq_zero, Measure.pi_univ, Finset.prod_eq_zero_iff]
      exact ⟨⟨0, by omega⟩, Finset.mem_univ _, by rw [hρ]; rfl⟩
    rw [h0, ae_zero]
    exact Filter.eventually_bot
  choose! a ha using h
  have hne : ∀ n, (Measure.pi fun _ : Fin n => ρ) ≠ 0 := by
    intro n hc
    have h1 : (Measure.pi fun _ : Fin n => ρ) Set.univ = 0 := by rw [hc]; rfl
    rw [Measure.pi_univ, Finset.prod_eq_zero_iff] at h1
    obtain ⟨i, -, hi⟩ := h1
    exact hρ (Measure.measure_univ_eq_zero.1 hi)
  have key : ∀ n, lo ≤ n + 1 → n + 1 ≤ hi → a n = a (lo - 1) := by
    intro n
    induction n with
    | zero =>
      intro h1 _
      rw [show lo - 1 = 0 by omega]
    | succ n ih =>
      intro h1 h2
      by_cases hc : lo = n + 1 + 1
      · rw [show lo - 1 = n + 1 by omega]
      rw [← ih (by omega) (by omega)]
      have h3 := hl (by omega) (n + 1) (by omega) h2
      have h4 := ha (n + 1) h1 h2
      have hmp := measurePreserving_piFinSuccAbove (fun _ : Fin (n + 1 + 1) => ρ) 0
      have hq : Measure.QuasiMeasurePreserving (fun v : Fin (n + 1 + 1) → R => (Fin.removeNth 0 v : Fin (n + 1) → R))
          (Measure.pi fun _ => ρ) (Measure.pi fun _ => ρ) :=
        (Measure.quasiMeasurePreserving_snd (μ := ρ) (ν := Measure.pi fun _ : Fin (n + 1) => ρ)).comp hmp.quasiMeasurePreserving
      have h5 := hq.ae (ha n (by omega) (by omega))
      have : Filter.NeBot (ae (Measure.pi fun _ : Fin (n + 1 + 1) => ρ)) := ae_neBot.2 (hne _)
      obtain ⟨v, k3, k4, k5⟩ := (h3.and (h4.and h5)).exists
      rw [← k4.2, ← k3, k5.1]
  refine ⟨a (lo - 1), trans_all (hg (measurableSet_singleton _)) fun n h1 h2 => ?_⟩
  cases n with
  | zero => omega
  | succ n =>
    rw [← key n h1 h2]
    exact (ha n h1 h2).mono fun v hv => hv.1

end deaths

section rows

variable {P : Type} [MeasurableSpace P] {k : ℕ} {σ : Measure P} {dens : Fin k → P → ℝ → ℝ} {std : Fin k → P → ℝ} {dom : Set P}
  {F G C : P × (Fin k → ℝ) → ℝ} {lo hi : ℕ} {g c : Tuple (P × (Fin k → ℝ)) → ℝ}

theorem level_row [SFinite σ] (hF : Measurable F) (hn : ∀ r, 0 ≤ F r) (hG : Measurable G) (hC : Measurable C)
    (h : ∃ a, ∀ᵐ s ∂σ, Level volume F G C s a) :
    ∃ a, ∀ᵐ y ∂(σ.prod (volume : Measure (Fin k → ℝ))).withDensity fun r => ENNReal.ofReal (F r), G y = a ∧ C y = a := by
  obtain ⟨a, ha⟩ := h
  refine ⟨a, ?_⟩
  have hm : MeasurableSet {y : P × (Fin k → ℝ) | F y ≠ 0 → G y = a ∧ C y = a} := by
    have e : {y : P × (Fin k → ℝ) | F y ≠ 0 → G y = a ∧ C y = a} = {y | F y = 0} ∪ ({y | G y = a} ∩ {y | C y = a}) := by
      ext v
      simp only [Set.mem_union, Set.mem_inter_iff, Set.mem_ofPred_eq]
      tauto
    rw [e]
    exact (hF (measurableSet_singleton 0)).union ((hG (measurableSet_singleton _)).inter (hC (measurableSet_singleton _)))
  rw [ae_withDensity_iff hF.ennreal_ofReal]
  have h1 : ∀ᵐ y ∂σ.prod (volume : Measure (Fin k → ℝ)), F y ≠ 0 → G y = a ∧ C y = a := (Measure.ae_prod_iff_ae_ae hm).2 ha
  filter_upwards [h1] with y hy h0
  exact hy fun hc => h0 (by rw [hc, ENNReal.ofReal_zero])

/-- The law of the rows with this law of the sites. -/
noncomputable abbrev rowsOf (σ : Measure P) (dens : Fin k → P → ℝ → ℝ) : Measure (P × (Fin k → ℝ)) :=
  (σ.prod volume).withDensity fun r => ENNReal.ofReal (priorDens dens r)

/-- With a single site, new values are enough. -/
theorem plain_rows [Subsingleton P] [SigmaFinite σ] (h0 : σ ≠ 0) (hm : ∀ j, Measurable fun z : P × ℝ => dens j z.1 z.2)
    (hs : ∀ j x, std j x ≠ 0) (hg : Measurable g) (hc : Measurable c)
    (h : Hears (valuesScheme σ dens std lo hi) (fun _ => 1) g c) {n : ℕ} (h1 : lo ≤ n + 1) (h2 : n + 1 ≤ hi) :
    ∃ a, ∀ᵐ v ∂Measure.pi fun _ : Fin (n + 1) => rowsOf σ dens, g (tup (n + 1) v) = a ∧ c (tup (n + 1) v) = a := by
  have hF := priorDens_meas hm
  have hsf : SigmaFinite (rowsOf σ dens) := SigmaFinite.withDensity_ofReal _
  have hnb : Filter.NeBot (ae σ) := ae_neBot.2 h0
  refine rows_level hg hc fun i => ?_
  filter_upwards [row_hears hF (priorDens_nonneg dens) h h1 h2 i] with v hv
  have hG : Measurable fun y => g (putRow v i y) := hg.comp (putRow_meas v i)
  have hC : Measurable fun y => c (putRow v i y) := hc.comp (putRow_meas v i)
  refine level_row (F := priorDens dens) (G := fun y => g (putRow v i y)) (C := fun y => c (putRow v i y)) hF
    (priorDens_nonneg dens) hG hC ?_
  have hd : ∀ᵐ x ∂σ, x ∈ (Set.univ : Set P) := .of_forall fun x => Set.mem_univ x
  have hs' : ∀ j, ∀ x ∈ (Set.univ : Set P), std j x ≠ 0 := fun j x _ => hs j x
  have h2 := values_hears (F := priorDens dens) (G := fun y => g (putRow v i y))
    (C := fun y => c (putRow v i y)) hF hG hd hs' hv
  have h3 := level_of_values (G := fun y => g (putRow v i y)) (C := fun y => c (putRow v i y)) h2
  obtain ⟨s, a, ha⟩ := h3.exists
  refine ⟨a, .of_forall fun s' => ?_⟩
  rw [Subsingleton.elim s' s]
  exact ha

variable {α : Type} [MeasurableSpace α] {lam : Measure P} [SigmaFinite lam] {γ : Measure α} [IsProbabilityMeasure γ] {step : P → α → P}
  {κ : P × P → ℝ}

theorem overlap_values {x y : P} (h : ∀ j, volume {v | 0 < dens j x v ∧ 0 < dens j y v} ≠ 0) :
    (volume : Measure (Fin k → ℝ)) {v | priorDens dens (x, v) ≠ 0 ∧ priorDens dens (y, v) ≠ 0} ≠ 0 := by
  have e : {v : Fin k → ℝ | priorDens dens (x, v) ≠ 0 ∧ priorDens dens (y, v) ≠ 0} =
      Set.univ.pi fun j => {v | 0 < dens j x v ∧ 0 < dens j y v} := by
    ext v
    have e1 : ∀ x, priorDens dens (x, v) ≠ 0 ↔ ∀ j, 0 < dens j x (v j) := by
      intro x
      unfold priorDens
      rw [Finset.prod_ne_zero_iff]
      refine ⟨fun h j => ?_, fun h j _ => ?_⟩
      · by_contra hc
        exact h j (Finset.mem_univ j) (max_eq_right (not_lt.1 hc))
      · exact (lt_max_of_lt_left (h j)).ne'
    simp only [Set.mem_ofPred_eq, Set.mem_pi, Set.mem_univ, true_imp_iff, e1]
    exact ⟨fun h j => ⟨h.1 j, h.2 j⟩, fun h => ⟨fun j => (h j).1, fun j => (h j).2⟩⟩
  rw [e, volume_pi_pi, Finset.prod_ne_zero_iff]
  exact fun j _ => h j

theorem tilted_ac (hst : SiteStep lam dom γ step κ) : tilted lam dom γ step ≪ lam.restrict dom := by
  unfold tilted
  refine (withDensity_absolutelyContinuous _ _).trans ?_
  unfold ProbabilityTheory.cond
  exact Measure.smul_absolutelyContinuous

theorem ac_tilted (hst : SiteStep lam dom γ step κ) (htop : lam dom ≠ ⊤) : lam.restrict dom ≪ tilted lam dom γ step := by
  unfold tilted
  refine Measure.AbsolutelyContinuous.trans ?_ (withDensity_absolutelyContinuous' ?_ (.of_forall fun y => ?_))
  · unfold ProbabilityTheory.cond
    exact Measure.absolutelyContinuous_smul (ENNReal.inv_ne_zero.2 htop)
  · exact (stayIn_meas hst.step_meas hst.dom_meas).ennreal_ofReal.aemeasurable
  · exact (ENNReal.ofReal_pos.2 (stayIn_pos hst.step_meas (hst.stays _))).ne'

/-- New values and new sites. -/
theorem sites_rows (hst : SiteStep lam dom γ step κ) (htop : lam dom ≠ ⊤) (hm : ∀ j, Measurable fun z : P × ℝ => dens j z.1 z.2)
    (hs : ∀ j, ∀ x ∈ dom, std j x ≠ 0) (hov : Overlaps lam dom dens) (hg : Measurable g) (hc : Measurable c)
    (hv : Hears (valuesScheme (tilted lam dom γ step) dens std lo hi) (fun _ => 1) g c)
    (hn : Hears (siteScheme (tilted lam dom γ step) dens γ step dom lo hi) (fun _ => 1) g c)
    {n : ℕ} (h1 : lo ≤ n + 1) (h2 : n + 1 ≤ hi) :
    ∃ a, ∀ᵐ v ∂Measure.pi fun _ : Fin (n + 1) => rowsOf (tilted lam dom γ step) dens, g (tup (n + 1) v) = a ∧ c (tup (n + 1) v) = a := by
  have hF := priorDens_meas hm
  have hac := tilted_ac hst
  have hdom : ∀ᵐ x ∂tilted lam dom γ step, x ∈ dom := hac.ae_le (ae_restrict_mem hst.dom_meas)
  obtain ⟨U, u1, u2, u3⟩ := hov
  have hsf : SigmaFinite (rowsOf (tilted lam dom γ step) dens) := SigmaFinite.withDensity_ofReal _
  refine rows_level hg hc fun i => ?_
  filter_upwards [row_hears hF (priorDens_nonneg dens) hv h1 h2 i, row_hears hF (priorDens_nonneg dens) hn h1 h2 i] with v k1 k2
  have hG : Measurable fun y => g (putRow v i y) := hg.comp (putRow_meas v i)
  have hC : Measurable fun y => c (putRow v i y) := hc.comp (putRow_meas v i)
  refine level_row (F := priorDens dens) (G := fun y => g (putRow v i y)) (C := fun y => c (putRow v i y)) hF
    (priorDens_nonneg dens) hG hC ?_
  refine rows_const hF hG hC (values_hears (dom := dom) (F := priorDens dens) (G := fun y => g (putRow v i y))
    (C := fun y => c (putRow v i y)) hF hG hdom hs k1) (sites_hears hst (F := priorDens dens) (G := fun y => g (putRow v i y))
    (C := fun y => c (putRow v i y)) hF hG hac k2) (U := fun i => dom ∩ U i) ?_ ?_ ?_
  · filter_upwards [hdom] with s hs
    obtain ⟨i, hi⟩ := u1 s hs
    exact ⟨i, hs, hi⟩
  · intro i h0
    have h3 := ac_tilted hst htop h0
    refine u2 i (measure_mono_null ?_ ((Measure.restrict_eq_self lam ?_).symm.trans h3))
    · rintro x ⟨e1, e2, e3⟩
      exact ⟨⟨e1, e2⟩, e1, e3⟩
    · exact fun x hx => hx.1.1
  · rintro i s ⟨e1, e2⟩ s' ⟨e3, e4⟩
    exact overlap_values (u3 i s e2 s' e4 e1 e3)

end rows

end BB.Lemmas
