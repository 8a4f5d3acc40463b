import Mathlib.Topology.UniformSpace.HeineCantor
import Mathlib.Topology.MetricSpace.Pseudo.Basic
import Mathlib.Topology.Order.Compact
import Mathlib.Analysis.SpecificLimits.Basic
import Verif.Spec.Roaming

/-!
# Densities that overlap
-/

namespace BB.Lemmas

open BB Spec MeasureTheory

/-- Densities that are positive on the same intervals everywhere. -/
theorem overlaps_common {P : Type} [MeasurableSpace P] {k : ℕ} {lam : Measure P} {dom : Set P} {dens : Fin k → P → ℝ → ℝ}
    (h : lam dom ≠ 0) (l r : Fin k → ℝ) (hlr : ∀ j, l j < r j) (hd : ∀ j, ∀ x ∈ dom, ∀ v ∈ Set.Ioo (l j) (r j), 0 < dens j x v) :
    Overlaps lam dom dens := by
  refine ⟨fun _ => Set.univ, fun x _ => ⟨0, trivial⟩, fun _ => by simpa using h, fun _ x _ y _ hx hy j h0 => ?_⟩
  have hs : Set.Ioo (l j) (r j) ⊆ {v | 0 < dens j x v ∧ 0 < dens j y v} := fun v hv => ⟨hd j x hx v hv, hd j y hy v hv⟩
  have h1 : volume (Set.Ioo (l j) (r j)) = 0 := measure_mono_null hs h0
  rw [Real.volume_Ioo, ENNReal.ofReal_eq_zero] at h1
  linarith [hlr j]

/-- Intervals that depend continuously on the site overlap at sites that are close to each other. -/
theorem close_overlap {l r : ℝ} {a b : ℝ → ℝ} (ha : ContinuousOn a (Set.Icc l r)) (hb : ContinuousOn b (Set.Icc l r))
    (hab : ∀ x ∈ Set.Icc l r, a x < b x) :
    ∃ δ > 0, ∀ x ∈ Set.Icc l r, ∀ y ∈ Set.Icc l r, |x - y| < δ → max (a x) (a y) < min (b x) (b y) := by
  by_cases hne : (Set.Icc l r).Nonempty
  · obtain ⟨z, hz, hmin⟩ := isCompact_Icc.exists_isMinOn hne (hb.sub ha)
    have hm : 0 < b z - a z := sub_pos.2 (hab z hz)
    have hle : ∀ x ∈ Set.Icc l r, b z - a z ≤ b x - a x := fun x hx => hmin hx
    have hu := isCompact_Icc.uniformContinuousOn_of_continuous ha
    rw [Metric.uniformContinuousOn_iff] at hu
    obtain ⟨δ, hδ, h⟩ := hu _ hm
    refine ⟨δ, hδ, fun x hx y hy hxy => ?_⟩
    have h1 := h x hx y hy hxy
    rw [Real.dist_eq, abs_lt] at h1
    have h2 := hle x hx
    have h3 := hle y hy
    rw [max_lt_iff, lt_min_iff, lt_min_iff]
    exact ⟨⟨hab x hx, by linarith⟩, ⟨by linarith, hab y hy⟩⟩
  · exact ⟨1, one_pos, fun x hx => absurd ⟨x, hx⟩ hne⟩

/-- On a line, densities that are positive on intervals depending continuously on the site overlap. -/
theorem overlaps_line {k : ℕ} {l r : ℝ} (hlr : l < r) {dens : Fin k → ℝ → ℝ → ℝ} (a b : Fin k → ℝ → ℝ)
    (ha : ∀ j, ContinuousOn (a j) (Set.Icc l r)) (hb : ∀ j, ContinuousOn (b j) (Set.Icc l r))
    (hab : ∀ j, ∀ x ∈ Set.Icc l r, a j x < b j x)
    (hd : ∀ j, ∀ x ∈ Set.Icc l r, ∀ v ∈ Set.Ioo (a j x) (b j x), 0 < dens j x v) : Overlaps volume (Set.Icc l r) dens := by
  choose δ hδ hover using fun j => close_overlap (ha j) (hb j) (hab j)
  obtain ⟨N, hN⟩ : ∃ N : ℕ, ∀ j, 2 * ((r - l) / (N + 2)) < δ j := by
    have : ∀ᶠ N : ℕ in Filter.atTop, ∀ j, 2 * ((r - l) / ((N : ℝ) + 2)) < δ j := by
      rw [Filter.eventually_all]
      intro j
      have ht : Filter.Tendsto (fun N : ℕ => 2 * ((r - l) / ((N : ℝ) + 2))) Filter.atTop (nhds (2 * 0)) := by
        refine Filter.Tendsto.const_mul _ (Filter.Tendsto.const_div_atTop ?_ _)
        exact Filter.tendsto_atTop_add_const_right _ _ tendsto_natCast_atTop_atTop
      rw [mul_zero] at ht
      exact ht.eventually_lt_const (hδ j)
    exact this.exists
  have hN0 : (0 : ℝ) < (N : ℝ) + 2 := by positivity
  obtain ⟨h, hh⟩ : ∃ h, (r - l) / ((N : ℝ) + 2) = h := ⟨_, rfl⟩
  have hpos : 0 < h := hh ▸ div_pos (sub_pos.2 hlr) hN0
  have hsum : l + (N + 2) * h = r := by
    rw [← hh]
    field_simp
    ring
  refine ⟨fun i => Set.Icc (l + (min i N : ℕ) * h) (l + ((min i N : ℕ) + 2) * h), fun x hx => ?_, fun i => ?_,
    fun i x hx y hy hxd hyd j => ?_⟩
  · refine ⟨⌊(x - l) / h⌋₊, ?_⟩
    change x ∈ Set.Icc (l + (min ⌊(x - l) / h⌋₊ N : ℕ) * h) (l + ((min ⌊(x - l) / h⌋₊ N : ℕ) + 2) * h)
    have h0 : 0 ≤ (x - l) / h := div_nonneg (sub_nonneg.2 hx.1) hpos.le
    have h1 := Nat.floor_le h0
    have h2 := Nat.lt_floor_add_one ((x - l) / h)
    rw [le_div_iff₀ hpos] at h1
    rw [div_lt_iff₀ hpos] at h2
    by_cases hc : ⌊(x - l) / h⌋₊ ≤ N
    · rw [min_eq_left hc]
      constructor <;> linarith
    · rw [min_eq_right (by omega)]
      have h3 : (N : ℝ) ≤ (⌊(x - l) / h⌋₊ : ℕ) := by exact_mod_cast (by omega : N ≤ ⌊(x - l) / h⌋₊)
      have h4 := mul_le_mul_of_nonneg_right h3 hpos.le
      constructor
      · linarith
      · linarith [hx.2]
  · have hle : ((min i N : ℕ) : ℝ) ≤ N := by exact_mod_cast min_le_right i N
    have hle' : ((min (i + 1) N : ℕ) : ℝ) ≤ (min i N : ℕ) + 1 := by exact_mod_cast (by omega : min (i + 1) N ≤ min i N + 1)
    have hge' : ((min i N : ℕ) : ℝ) ≤ (min (i + 1) N : ℕ) := by exact_mod_cast (by omega : min i N ≤ min (i + 1) N)
    have hsub : Set.Icc (l + ((min i N : ℕ) + 1) * h) (l + ((min i N : ℕ) + 2) * h) ⊆
        Set.Icc l r ∩ (Set.Icc (l + (min i N : ℕ) * h) (l + ((min i N : ℕ) + 2) * h) ∩
          Set.Icc (l + (min (i + 1) N : ℕ) * h) (l + ((min (i + 1) N : ℕ) + 2) * h)) := by
      have h1 := mul_le_mul_of_nonneg_right hle hpos.le
      have h2 := mul_le_mul_of_nonneg_right hle' hpos.le
      have h3 := mul_le_mul_of_nonneg_right hge' hpos.le
      have h4 : 0 ≤ ((min i N : ℕ) : ℝ) * h := mul_nonneg (Nat.cast_nonneg _) hpos.le
      rintro x ⟨g1, g2⟩
      refine ⟨⟨?_, ?_⟩, ⟨?_, ?_⟩, ?_, ?_⟩ <;> linarith
    intro h0
    have h1 := measure_mono_null hsub h0
    rw [Real.volume_Icc, ENNReal.ofReal_eq_zero] at h1
    linarith
  · have hclose : |x - y| < δ j := by
      have h1 := hN j
      rw [hh] at h1
      refine lt_of_le_of_lt ?_ h1
      rw [abs_le]
      constructor <;> linarith [hx.1, hx.2, hy.1, hy.2]
    have h1 := hover j x hxd y hyd hclose
    intro h0
    have hs : Set.Ioo (max (a j x) (a j y)) (min (b j x) (b j y)) ⊆ {v | 0 < dens j x v ∧ 0 < dens j y v} := fun v hv =>
      ⟨hd j x hxd v ⟨(le_max_left _ _).trans_lt hv.1, hv.2.trans_le (min_le_left _ _)⟩,
        hd j y hyd v ⟨(le_max_right _ _).trans_lt hv.1, hv.2.trans_le (min_le_right _ _)⟩⟩
    have h2 := measure_mono_null hs h0
    rw [Real.volume_Ioo, ENNReal.ofReal_eq_zero] at h2
    linarith

end BB.Lemmas
