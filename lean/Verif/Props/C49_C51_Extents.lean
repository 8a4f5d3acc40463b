import Verif.Props.C46_C48_Interpolation

/-!
# C49, C50, C51: cell extents, interfaces, depth profiles
-/

set_option linter.unusedSectionVars false

namespace BB.Props

open BB.Utils1d BB.Spec BB.Tessellation

variable {K : Type} [Field K] [LinearOrder K] [IsStrictOrderedRing K]

/-! ## C49 -/

/-- Complete description of `compute_cell_extents`: the boundaries are the given bounds and the
midpoints between neighbouring sites, the extents are the differences of consecutive boundaries,
unbounded end cells get the fill value.  A single cell (and two cells without a lower bound) makes
the compiled code read variables that have not been assigned. -/
theorem C49_extents (sites : List K) (lb ub : Option K) (fill : K) :
    computeCellExtents sites lb ub fill =
      if (if lb.isSome then 2 else 3) ≤ sites.length then
        .ok ((if lb.isSome then [] else [fill])
          ++ differences (lb.toList ++ midpoints sites ++ ub.toList)
          ++ (if ub.isSome then [] else [fill]))
      else .error .undefinedBehaviour :=
  cellExtents_spec sites lb ub fill

/-- With at least two sorted sites inside `[lb, ub]`: one extent per site, none negative, and the
extents sum to the length of the domain.

Missing from the full claim: a single site (see `C49_single_cell_undefined`), whose only extent
should be `ub - lb`. -/
theorem C49_partition_partial (sites : List K) (lb ub fill : K) (hn : 2 ≤ sites.length)
    (hs : Ascending sites) (hb : ∀ s ∈ sites, lb ≤ s ∧ s ≤ ub) :
    ∃ e, computeCellExtents sites (some lb) (some ub) fill = .ok e ∧
      e.length = sites.length ∧ (∀ v ∈ e, 0 ≤ v) ∧ e.sum = ub - lb := by
  refine ⟨differences (lb :: (midpoints sites ++ [ub])), ?_, ?_, ?_, ?_⟩
  · rw [C49_extents]; simp [hn]
  · rw [differences_length]; simp [midpoints_length]; omega
  · apply differences_nonneg
    have hmid : ∀ m ∈ midpoints sites, lb ≤ m ∧ m ≤ ub := by
      intro m hm
      obtain ⟨k, hk, rfl⟩ := List.getElem_of_mem hm
      rw [midpoints_length] at hk
      rw [midpoints_get sites k (by omega)]
      have h0 := hb _ (List.getElem_mem (show k < sites.length by omega))
      have h1 := hb _ (List.getElem_mem (show k + 1 < sites.length by omega))
      constructor <;> linarith [h0.1, h0.2, h1.1, h1.2]
    have hne : sites ≠ [] := by rintro rfl; simp at hn
    have hlu : lb ≤ ub := by
      have := hb _ (List.getElem_mem (show 0 < sites.length by omega))
      exact this.1.trans this.2
    rw [Ascending, List.pairwise_cons]
    constructor
    · intro v hv
      rcases List.mem_append.mp hv with h | h
      · exact (hmid v h).1
      · rw [List.mem_singleton.mp h]; exact hlu
    · rw [List.pairwise_append]
      refine ⟨midpoints_asc hs, by simp, fun a ha b hb' => ?_⟩
      rw [List.mem_singleton.mp hb']
      exact (hmid a ha).2
  · rw [sum_differences]; simp

/-- The property fails for a single cell: whatever the bounds, the compiled code reads
uninitialised variables (and then writes out of bounds) instead of returning `[ub - lb]`. -/
theorem C49_single_cell_undefined (s : K) (lb ub : Option K) (fill : K) :
    computeCellExtents [s] lb ub fill = .error .undefinedBehaviour := by
  rw [C49_extents]; cases lb <;> simp

/-- Two cells without a lower bound are affected as well. -/
theorem C49_two_cells_unbounded_undefined (s t : K) (ub : Option K) (fill : K) :
    computeCellExtents [s, t] none ub fill = .error .undefinedBehaviour := by
  rw [C49_extents]; simp

example : computeCellExtents ([2, 11/2, 8, 10] : List ℚ) (some 0) (some 15) 0
    = .ok [15/4, 3, 9/4, 6] := by
  rw [C49_extents]; norm_num [midpoints, differences]
example : (2 ≤ ([2, 11/2, 8, 10] : List ℚ).length) ∧ Ascending ([2, 11/2, 8, 10] : List ℚ) ∧
    ∀ s ∈ ([2, 11/2, 8, 10] : List ℚ), 0 ≤ s ∧ s ≤ 15 := by
  norm_num [Ascending]

/-! ## C50 -/

/-- Interfaces computed from nuclei are the midpoints between neighbouring sites. -/
theorem C50_nuclei (sites : List K) (lb : Option K) :
    computeInterfacePositions sites .nuclei lb = .ok (midpoints sites) := by
  show Except.ok _ = Except.ok _
  congr 1
  apply List.ext_getElem
  · simp [midpoints_length]
  · intro k h1 h2
    rw [midpoints_length] at h2
    rw [midpoints_get sites k (by omega)]
    simp

/-- Interfaces computed from the extents (with the lower bound that was used for the extents)
are the same, for at least two sites. -/
theorem C50_extents (sites : List K) (hn : 2 ≤ sites.length) (lb : K) (ub : Option K) (fill : K) :
    (computeCellExtents sites (some lb) ub fill >>= fun e =>
      computeInterfacePositions e .extents (some lb)) = .ok (midpoints sites) := by
  rw [C49_extents]
  simp only [Option.isSome_some, if_true, hn, ok_bind, List.nil_append]
  show Except.ok _ = Except.ok _
  congr 1
  rw [cumsum_dropLast]
  have key : ∀ tl : List K, ∀ j, j + 1 < sites.length →
      psum (differences (lb :: midpoints sites) ++ tl) (j + 1)
        = (if h : j + 1 < sites.length then (sites[j] + sites[j + 1]) / 2 else 0) - lb := by
    intro tl j hj
    rw [psum_append_left _ _ _ (by rw [differences_length]; simp [midpoints_length]; omega),
      psum_differences _ _ _ (by rw [midpoints_length]; omega), midpoints_get sites j hj]
    simp [hj]
  have hsplit : ∃ tl : List K, tl.length = 1 ∧
      differences ((some lb).toList ++ midpoints sites ++ ub.toList)
        ++ (if ub.isSome = true then [] else [fill])
        = differences (lb :: midpoints sites) ++ tl := by
    cases ub with
    | none => exact ⟨[fill], rfl, by simp⟩
    | some u =>
      refine ⟨[u - (midpoints sites).getLastD lb], rfl, ?_⟩
      have := differences_snoc lb (midpoints sites) u
      simp at this ⊢
      exact this
  obtain ⟨tl, htl, hsp⟩ := hsplit
  rw [hsp]
  have hl : (differences (lb :: midpoints sites) ++ tl).length - 1 = sites.length - 1 := by
    simp [differences_length, midpoints_length, htl]
  rw [hl]
  conv_rhs => rw [midpoints_eq_map]
  apply List.map_congr_left
  intro j hj
  rw [List.mem_range] at hj
  rw [key tl j (by omega)]
  ring

/-- Missing lower bound: `AssertionError`; unknown input type: `ValueError`. -/
theorem C50_errors (cells : List K) (lb : Option K) :
    computeInterfacePositions cells .extents none = .error .assertionError ∧
    computeInterfacePositions cells .other lb = .error .valueError := ⟨rfl, rfl⟩

example : computeInterfacePositions ([2, 11/2, 8, 10] : List ℚ) .nuclei none
    = .ok [15/4, 27/4, 9] := by
  rw [C50_nuclei]; norm_num [midpoints]

/-! ## C51 -/

/-- `interpolate_depth_profile` on ascending, non-negative queries evaluates the layered profile:
the value for `p` is that of the layer whose top is at or above `p` and whose bottom is below `p`
(the last layer being a half space). -/
theorem C51_depth_profile (x y qs : List K) (hx : x ≠ []) (hl : y.length = x.length)
    (hq : Ascending qs) (h0 : ∀ p ∈ qs, 0 ≤ p) :
    ∃ rs vs, depthProfile x y qs = .ok vs ∧
      List.Forall₂ (fun p r => r < x.length ∧ (x.take r).sum ≤ p ∧
        (r + 1 < x.length → p < (x.take (r + 1)).sum)) qs rs ∧
      List.Forall₂ (fun r v => y[r]? = some v) rs vs := by
  have hlen := List.length_pos_iff.mpr hx
  obtain ⟨rs, h1, h2⟩ := depthLoop_spec x y qs 0 hlen (by simpa [psum_zero] using h0) hq
  have hup : psum x 1 = x[0] := by rw [psum_succ x 0 hlen, psum_zero]; ring
  have hrs : ∃ vs, rs.mapM (fun r => rd y r) = .ok vs ∧
      List.Forall₂ (fun r v => y[r]? = some v) rs vs := by
    have hall : ∀ r ∈ rs, r < y.length := by
      intro r hr
      obtain ⟨k, hk, rfl⟩ := List.getElem_of_mem hr
      have hk' : k < qs.length := by rw [h1.length_eq]; exact hk
      have := ((List.forall₂_iff_get.mp h1).2 k hk' hk).1
      simp only [List.get_eq_getElem] at this
      omega
    clear h1 h2
    induction rs with
    | nil => exact ⟨[], rfl, List.Forall₂.nil⟩
    | cons r rs ih =>
      obtain ⟨vs, h3, h4⟩ := ih (fun r' hr' => hall r' (List.mem_cons_of_mem _ hr'))
      have hr := hall r (by simp)
      refine ⟨y[r] :: vs, ?_, List.Forall₂.cons (by simp [hr]) h4⟩
      rw [List.mapM_cons, rd_ok hr, h3]; rfl
  obtain ⟨vs, h3, h4⟩ := hrs
  refine ⟨rs, vs, ?_, h1, h4⟩
  rw [depthProfile, rd_ok hlen, ok_bind, ← hup]
  rw [psum_zero] at h2
  rw [h2, h3]

/-- A layer of the profile given by the extents is the Voronoi cell of the right-most nearest
site. -/
theorem layer_is_nearest {sites : List K} (hs : StrictlyAscending sites) (fill p : K) (r : ℕ)
    (hn : 2 ≤ sites.length)
    (hr : IsLayer (differences (0 :: midpoints sites) ++ [fill]) p r) :
    IsRightmostNearest sites p r := by
  obtain ⟨hlt, hlo, hhi⟩ := hr
  have hel : (differences (0 :: midpoints sites) ++ [fill]).length = sites.length := by
    simp [differences_length, midpoints_length]; omega
  rw [hel] at hlt hhi
  have hps : ∀ j (hj : j + 1 < sites.length),
      psum (differences (0 :: midpoints sites) ++ [fill]) (j + 1)
        = (sites[j] + sites[j + 1]) / 2 := by
    intro j hj
    rw [psum_append_left _ _ _ (by rw [differences_length]; simp [midpoints_length]; omega),
      psum_differences _ _ _ (by rw [midpoints_length]; omega), midpoints_get sites j hj]
    ring
  have hasc := strict_asc hs
  have hright : ∀ j (hj : j < sites.length), r < j → |sites[r] - p| < |sites[j] - p| := by
    intro j hj hrj
    have hr1 : r + 1 < sites.length := by omega
    have h1 := hhi hr1
    rw [hps r hr1] at h1
    have h2 := asc_get hasc hr1 hj hrj
    have h3 := strict_get hs hlt hr1 (by omega)
    rw [abs_lt]
    have h4 : sites[j] - p ≤ |sites[j] - p| := le_abs_self _
    constructor <;> linarith
  have hleft : ∀ j (hj : j < sites.length), j < r → |sites[r] - p| ≤ |sites[j] - p| := by
    intro j hj hjr
    obtain ⟨k, rfl⟩ : ∃ k, r = k + 1 := ⟨r - 1, by omega⟩
    rw [hps k hlt] at hlo
    have h2 := asc_get hasc hj (show k < sites.length by omega) (by omega)
    have h3 := strict_get hs (show k < sites.length by omega) hlt (by omega)
    rw [abs_le]
    have h4 : -(sites[j] - p) ≤ |sites[j] - p| := neg_le_abs _
    constructor <;> linarith
  have hnear : IsNearest sites p r := by
    refine ⟨hlt, fun j hj => ?_⟩
    rcases lt_trichotomy j r with h | h | h
    · exact hleft j hj h
    · subst h; exact le_refl _
    · exact (hright j hj h).le
  refine ⟨hnear, fun j hj => ?_⟩
  by_contra hc
  obtain ⟨hjl, hjm⟩ := hj
  exact absurd (hjm r hlt) (not_le.mpr (hright j hjl (by omega)))

theorem rightmost_unique {x : List K} {p : K} {i j : ℕ} (hi : IsRightmostNearest x p i)
    (hj : IsRightmostNearest x p j) : i = j :=
  le_antisymm (hj.2 i hi.1) (hi.2 j hj.1)

/-- Interpolating from the nuclei or from the cell extents (lower bound 0) gives the same answer,
for at least two strictly increasing sites and queries in ascending order, none negative.

Missing from the full claim: queries in arbitrary order (refuted by
`C51_unsorted_queries_counterexample`), negative queries (refuted by
`C51_negative_query_counterexample`) and a single cell (`C49_single_cell_undefined`). -/
theorem C51_nuclei_eq_extents_partial (sites y qs : List K) (fill : K) (hn : 2 ≤ sites.length)
    (hl : y.length = sites.length) (hs : StrictlyAscending sites)
    (hq : Ascending qs) (h0 : ∀ p ∈ qs, 0 ≤ p) :
    (computeCellExtents sites (some 0) none fill >>= fun e =>
      interpolateTessellation e y qs .extents)
      = interpolateTessellation sites y qs .nuclei := by
  have hne : sites ≠ [] := by rintro rfl; simp at hn
  rw [C49_extents]
  simp only [Option.isSome_some, if_true, hn, ok_bind, List.nil_append, Option.isSome_none,
    Option.toList_some, Option.toList_none, List.append_nil, List.cons_append]
  show depthProfile (differences (0 :: midpoints sites) ++ [fill]) y qs
    = qs.mapM (fun p => interpNearest p sites y)
  set e := differences (0 :: midpoints sites) ++ [fill] with he
  have hel : e.length = sites.length := by
    simp [he, differences_length, midpoints_length]; omega
  have helen : 0 < e.length := by omega
  obtain ⟨rs, h1, h2⟩ := depthLoop_spec e y qs 0 helen (by simpa [psum_zero] using h0) hq
  have hup : psum e 1 = e[0] := by rw [psum_succ e 0 helen, psum_zero]; ring
  rw [depthProfile, rd_ok helen, ok_bind, ← hup]
  rw [psum_zero] at h2
  rw [h2]
  clear h2 hup hq h0
  induction h1 with
  | nil => rfl
  | @cons p r qs rs hpr _ ih =>
    rw [List.mapM_cons, List.mapM_cons, ih]
    congr 1
    obtain ⟨i, hi, hv, hnear, hright⟩ := C48_nearest_value sites y hne hl (strict_asc hs) p
    have : r = i := rightmost_unique (layer_is_nearest hs fill p r hn hpr) (hright hs)
    subst this
    rw [hv, rd_ok hi]

/-- The two representations disagree as soon as the queries are not in ascending order: the layer
pointer of `interpolate_depth_profile` never moves back. -/
theorem C51_unsorted_queries_counterexample :
    interpolateTessellation ([1, 3, 5] : List ℚ) [10, 20, 30] [9/2, 1/2] .nuclei
      = .ok [30, 10] ∧
    (computeCellExtents ([1, 3, 5] : List ℚ) (some 0) none 0 >>= fun e =>
      interpolateTessellation e [10, 20, 30] [9/2, 1/2] .extents) = .ok [30, 30] := by
  constructor
  · norm_num [interpolateTessellation, interpolateNearest, List.mapM_cons, interpNearest,
      nearestNeighbour, nearestLoop, rd, abs]
  · rw [C49_extents]
    norm_num [midpoints, differences, interpolateTessellation, depthProfile, depthLoop, depthWhile,
      rd]

/-- A negative query is attributed to the deepest layer instead of the first one. -/
theorem C51_negative_query_counterexample :
    interpolateTessellation ([1, 3, 5] : List ℚ) [10, 20, 30] [-1] .nuclei = .ok [10] ∧
    (computeCellExtents ([1, 3, 5] : List ℚ) (some 0) none 0 >>= fun e =>
      interpolateTessellation e [10, 20, 30] [-1] .extents) = .ok [30] := by
  constructor
  · norm_num [interpolateTessellation, interpolateNearest, List.mapM_cons, interpNearest,
      nearestNeighbour, nearestLoop, rd, abs]
  · rw [C49_extents]
    norm_num [midpoints, differences, interpolateTessellation, depthProfile, depthLoop, depthWhile,
      rd]

example : (2 ≤ ([1, 3, 5] : List ℚ).length) ∧ StrictlyAscending ([1, 3, 5] : List ℚ) ∧
    Ascending ([0, 2, 9/2] : List ℚ) ∧ ∀ p ∈ ([0, 2, 9/2] : List ℚ), 0 ≤ p := by
  norm_num [Ascending, StrictlyAscending]
example : interpolateTessellation ([1, 3, 5] : List ℚ) [10, 20, 30] [0, 2, 9/2] .nuclei
    = .ok [10, 20, 30] := by
  norm_num [interpolateTessellation, interpolateNearest, List.mapM_cons, interpNearest,
    nearestNeighbour, nearestLoop, rd, abs]

end BB.Props
