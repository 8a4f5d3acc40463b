import Verif.Lemmas.Extents
import Mathlib.Algebra.Order.Ring.Rat
import Mathlib.Tactic.NormNum

/-!
# C46, C47, C48: nearest neighbour, linear and nearest interpolation in one dimension
-/

set_option linter.unusedSectionVars false

namespace BB.Props

open BB.Utils1d BB.Spec BB.Tessellation

variable {K : Type} [Field K] [LinearOrder K] [IsStrictOrderedRing K]

/-! ## C46 -/

/-- For non-empty sorted sites `nearest_neighbour_1d` returns the index of a nearest site. -/
theorem C46_nearest (x : List K) (hx : x ≠ []) (hs : Ascending x) (p : K) :
    ∃ i, nearestNeighbour p x x.length = .ok i ∧ IsNearest x p i := by
  obtain ⟨r, h1, h2, _⟩ := nearestNeighbour_spec hs hx p
  exact ⟨r, h1, h2⟩

/-- For strictly increasing sites the answer is completely determined: the right-most nearest
site (a query half way between two sites belongs to the right one). -/
theorem C46_nearest_tie (x : List K) (hx : x ≠ []) (hs : StrictlyAscending x) (p : K) (i : ℕ) :
    nearestNeighbour p x x.length = .ok i ↔ IsRightmostNearest x p i := by
  obtain ⟨r, h1, h2, h3⟩ := nearestNeighbour_spec (strict_asc hs) hx p
  rw [h1]
  constructor
  · rintro ⟨⟩; exact h3 hs
  · intro hi
    have := hi.2 r h2
    have := (h3 hs).2 i hi.1
    congr 1; omega

/-- Without any site the compiled code accesses memory out of bounds. -/
theorem C46_no_sites (p : K) :
    nearestNeighbour p ([] : List K) 0 = .error .undefinedBehaviour := by
  simp [nearestNeighbour, rd]

/-- Without sortedness the result need not be nearest: the hypothesis is needed. -/
theorem C46_unsorted_counterexample :
    nearestNeighbour (2 : ℚ) [1, 3, 2] 3 = .ok 1 ∧ ¬ IsNearest [1, 3, (2 : ℚ)] 2 1 := by
  constructor
  · norm_num [nearestNeighbour, nearestLoop, rd]; rfl
  · rintro ⟨_, h⟩
    have := h 2 (by simp)
    norm_num at this

theorem isSortedLoop_spec (arr : List K) : ∀ (n i : ℕ), i + n + 1 = arr.length →
    ∃ b, isSortedLoop arr n i = .ok b ∧ (b = true ↔ ∀ j, i ≤ j → (h : j + 1 < arr.length) → arr[j] ≤ arr[j + 1])
  | 0, i, hi => ⟨true, rfl, by simp; intro j h1 h2; omega⟩
  | n + 1, i, hi => by
    rw [isSortedLoop, rd_ok (by omega : i < arr.length), ok_bind, rd_ok (by omega : i + 1 < arr.length), ok_bind]
    by_cases hab : arr[i] > arr[i + 1]
    · rw [if_pos hab]
      refine ⟨false, rfl, ?_⟩
      simp only [Bool.false_eq_true, false_iff]
      exact fun h => absurd (h i (le_refl _) (by omega)) (not_le.2 hab)
    · rw [if_neg hab]
      obtain ⟨b, h1, h2⟩ := isSortedLoop_spec arr n (i + 1) (by omega)
      refine ⟨b, h1, h2.trans ⟨fun h j hj hl => ?_, fun h j hj hl => h j (by omega) hl⟩⟩
      rcases Nat.eq_or_lt_of_le hj with rfl | hj
      · exact not_lt.1 hab
      · exact h j hj hl

/-- `is_sorted` of `_utils_1d`, by which the requirement can be tested: for arrays that are not empty the answer is whether the
array is ascending. -/
theorem C46_is_sorted (arr : List K) (h : arr ≠ []) : ∃ b, isSorted arr = .ok b ∧ (b = true ↔ Ascending arr) := by
  have hl : 0 < arr.length := List.length_pos_iff.2 h
  unfold isSorted
  rw [if_neg (by omega)]
  obtain ⟨b, h1, h2⟩ := isSortedLoop_spec arr (arr.length - 1) 0 (by omega)
  refine ⟨b, h1, h2.trans ?_⟩
  unfold Ascending
  rw [← List.isChain_iff_pairwise, List.isChain_iff_getElem]
  exact ⟨fun h j hj => h j (by omega) hj, fun h j _ hj => h j hj⟩

/-- For an empty array it reads out of bounds. -/
theorem C46_is_sorted_empty : isSorted ([] : List K) = .error .undefinedBehaviour := rfl

example : ∃ b, isSorted ([1, 3, 2] : List ℚ) = .ok b ∧ b = false := by
  obtain ⟨b, h1, h2⟩ := C46_is_sorted ([1, 3, 2] : List ℚ) (by simp)
  refine ⟨b, h1, ?_⟩
  rw [Bool.eq_false_iff]
  intro hb
  have := h2.1 hb
  norm_num [Ascending] at this

example : ([1, 2, 4] : List ℚ) ≠ [] ∧ StrictlyAscending ([1, 2, 4] : List ℚ) := by
  refine ⟨by simp, ?_⟩; norm_num [StrictlyAscending]
example : nearestNeighbour (3 : ℚ) [1, 2, 4] 3 = .ok 2 := by
  norm_num [nearestNeighbour, nearestLoop, rd]

/-! ## C47 -/

/-- Left of the first node: constant extrapolation. -/
theorem C47_left (x y : List K) (hx : x ≠ []) (hl : y.length = x.length) (p : K)
    (hp : p ≤ x[0]'(List.length_pos_iff.mpr hx)) :
    interpLinear p x y = .ok (y[0]'(by have := List.length_pos_iff.mpr hx; omega)) := by
  have h0 := List.length_pos_iff.mpr hx
  simp [interpLinear, rd_ok h0, hp, rd_ok (show 0 < y.length by omega)]

/-- Right of the last node: constant extrapolation. -/
theorem C47_right (x y : List K) (hx : x ≠ []) (hl : y.length = x.length) (p : K)
    (h0 : x[0]'(List.length_pos_iff.mpr hx) < p)
    (hp : x[x.length - 1]'(by have := List.length_pos_iff.mpr hx; omega) ≤ p) :
    interpLinear p x y
      = .ok (y[x.length - 1]'(by have := List.length_pos_iff.mpr hx; omega)) := by
  have hlen := List.length_pos_iff.mpr hx
  simp [interpLinear, rd_ok hlen, not_le.mpr h0, rd_ok (show x.length - 1 < x.length by omega), hp,
    rd_ok (show x.length - 1 < y.length by omega)]

/-- Between the nodes: no out-of-bounds access and no division by zero, whatever the order of the
nodes; the result lies on the straight line through two consecutive nodes enclosing the query. -/
theorem C47_inside (x y : List K) (hx : x ≠ []) (hl : y.length = x.length) (p : K)
    (h0 : x[0]'(List.length_pos_iff.mpr hx) < p)
    (h1 : p < x[x.length - 1]'(by have := List.length_pos_iff.mpr hx; omega)) :
    ∃ i, ∃ hi : i + 1 < x.length, x[i] < p ∧ p ≤ x[i + 1] ∧
      interpLinear p x y = .ok (line x[i] y[i] x[i + 1] y[i + 1] p) := by
  have hlen := List.length_pos_iff.mpr hx
  obtain ⟨i, hi, hf, hlt, hle⟩ := floorIndexLoop_spec x.length 0 (by omega) hlen h0 h1
  refine ⟨i, hi, hlt, hle, ?_⟩
  have hne : x[i + 1] - x[i] ≠ 0 := by
    have : x[i] < x[i + 1] := lt_of_lt_of_le hlt hle
    exact sub_ne_zero.mpr this.ne'
  simp only [interpLinear, rd_ok hlen, ok_bind, not_le.mpr h0, if_false,
    rd_ok (show x.length - 1 < x.length by omega), ge_iff_le, not_le.mpr h1, floorIndex, hf,
    rd_ok (show i < x.length by omega), rd_ok hi, rd_ok (show i < y.length by omega),
    rd_ok (show i + 1 < y.length by omega), hne]
  show Except.ok _ = Except.ok _
  congr 1
  unfold line
  field_simp

/-- For strictly increasing nodes the result between any two consecutive nodes is the value of
the straight line through them: this determines `interpolate_linear_1d` on the whole interval. -/
theorem C47_piecewise_linear (x y : List K) (hl : y.length = x.length)
    (hs : StrictlyAscending x) (p : K) (i : ℕ) (hi : i + 1 < x.length)
    (h0 : x[i] ≤ p) (h1 : p ≤ x[i + 1]) :
    interpLinear p x y = .ok (line x[i] y[i] x[i + 1] y[i + 1] p) := by
  have hx : x ≠ [] := by rintro rfl; simp at hi
  have hlen : 0 < x.length := by omega
  have hii := strict_get hs (show i < x.length by omega) hi (by omega)
  have hne : x[i + 1] - x[i] ≠ 0 := sub_ne_zero.mpr hii.ne'
  by_cases hfirst : p ≤ x[0]
  · have hi0 : i = 0 := by
      by_contra hc
      have := strict_get hs hlen (show i < x.length by omega) (by omega)
      exact absurd (lt_of_lt_of_le this h0) (not_lt.mpr hfirst)
    subst hi0
    have hp : p = x[0] := le_antisymm hfirst h0
    rw [C47_left x y hx hl p hfirst, hp]
    simp [line]
  · have hfirst' := not_le.mp hfirst
    by_cases hlast : x[x.length - 1] ≤ p
    · have hi1 : i + 1 = x.length - 1 := by
        by_contra hc
        have := strict_get hs hi (show x.length - 1 < x.length by omega) (by omega)
        exact absurd (lt_of_lt_of_le this hlast) (not_lt.mpr h1)
      have hp : p = x[i + 1] := by
        refine le_antisymm h1 ?_
        simpa only [hi1] using hlast
      rw [C47_right x y hx hl p hfirst' hlast, hp]
      congr 1
      simp only [← hi1, line]
      field_simp
      ring
    · obtain ⟨j, hj, hlt, hle, hres⟩ := C47_inside x y hx hl p hfirst' (not_le.mp hlast)
      rw [hres]
      rcases lt_trichotomy i j with hij | hij | hij
      · -- `p ≤ x[i+1] ≤ x[j] < p`
        have := asc_get (strict_asc hs) hi (show j < x.length by omega) (by omega)
        exact absurd (lt_of_lt_of_le hlt h1) (not_lt.mpr this)
      · subst hij; rfl
      · have := asc_get (strict_asc hs) hj (show i < x.length by omega) (by omega)
        have hp : p = x[i] := le_antisymm (hle.trans this) h0
        have hji : j + 1 = i := by
          by_contra hc
          have := strict_get hs hj (show i < x.length by omega) (by omega)
          exact absurd (lt_of_lt_of_le this h0) (not_lt.mpr hle)
        subst hji
        have hne' : x[j + 1] - x[j] ≠ 0 :=
          sub_ne_zero.mpr (strict_get hs (show j < x.length by omega) hj (by omega)).ne'
        congr 1
        rw [hp]
        simp only [line]
        field_simp
        ring

/-- The node values are reproduced. -/
theorem C47_nodes (x y : List K) (hl : y.length = x.length) (hs : StrictlyAscending x) (i : ℕ)
    (hi : i < x.length) : interpLinear x[i] x y = .ok y[i] := by
  have hx : x ≠ [] := by rintro rfl; simp at hi
  by_cases h : i + 1 < x.length
  · rw [C47_piecewise_linear x y hl hs x[i] i h (le_refl _)
      (strict_get hs hi h (by omega)).le]
    simp [line]
  · by_cases h0 : i = 0
    · subst h0; exact C47_left x y hx hl _ (le_refl _)
    · have hi' : i = x.length - 1 := by omega
      subst hi'
      rw [C47_right x y hx hl _ (strict_get hs (by omega) hi (by omega)) (le_refl _)]

/-- Interpolated values never leave an interval containing all the node values; the call never
fails, whatever the order of the nodes. -/
theorem C47_range (x y : List K) (hx : x ≠ []) (hl : y.length = x.length) (p lo hi : K)
    (hy : ∀ v ∈ y, lo ≤ v ∧ v ≤ hi) :
    ∃ v, interpLinear p x y = .ok v ∧ lo ≤ v ∧ v ≤ hi := by
  have hlen := List.length_pos_iff.mpr hx
  by_cases hfirst : p ≤ x[0]
  · exact ⟨_, C47_left x y hx hl p hfirst, hy _ (List.getElem_mem _)⟩
  · by_cases hlast : x[x.length - 1] ≤ p
    · exact ⟨_, C47_right x y hx hl p (not_le.mp hfirst) hlast, hy _ (List.getElem_mem _)⟩
    · obtain ⟨i, hi', hlt, hle, hres⟩ :=
        C47_inside x y hx hl p (not_le.mp hfirst) (not_le.mp hlast)
      refine ⟨_, hres, ?_⟩
      have h0 := hy y[i] (List.getElem_mem _)
      have h1 := hy y[i + 1] (List.getElem_mem _)
      have hd : 0 < x[i + 1] - x[i] := by linarith
      have ht0 : 0 ≤ (p - x[i]) / (x[i + 1] - x[i]) := div_nonneg (by linarith) hd.le
      have ht1 : (p - x[i]) / (x[i + 1] - x[i]) ≤ 1 := by rw [div_le_one hd]; linarith
      have e : line x[i] y[i] x[i + 1] y[i + 1] p
          = (1 - (p - x[i]) / (x[i + 1] - x[i])) * y[i]
            + (p - x[i]) / (x[i + 1] - x[i]) * y[i + 1] := by
        unfold line; field_simp; ring
      rw [e]
      set t := (p - x[i]) / (x[i + 1] - x[i])
      constructor <;> nlinarith [h0.1, h0.2, h1.1, h1.2]

/-- Interpolation preserves the pointwise order of the node values, so position-dependent lower
and upper bounds stay ordered at every position. -/
theorem C47_monotone (x y z : List K) (hx : x ≠ []) (hly : y.length = x.length)
    (hlz : z.length = x.length) (p : K)
    (hyz : ∀ (i : ℕ) (h : i < x.length), y[i] ≤ z[i]) :
    ∃ v w, interpLinear p x y = .ok v ∧ interpLinear p x z = .ok w ∧ v ≤ w := by
  have hlen := List.length_pos_iff.mpr hx
  by_cases hfirst : p ≤ x[0]
  · exact ⟨_, _, C47_left x y hx hly p hfirst, C47_left x z hx hlz p hfirst, hyz 0 hlen⟩
  · have hf := not_le.mp hfirst
    by_cases hlast : x[x.length - 1] ≤ p
    · exact ⟨_, _, C47_right x y hx hly p hf hlast, C47_right x z hx hlz p hf hlast,
        hyz _ (by omega)⟩
    · have hl' := not_le.mp hlast
      obtain ⟨i, hi, hfl, hlt, hle⟩ := floorIndexLoop_spec x.length 0 (by omega) hlen hf hl'
      have hne : x[i + 1] - x[i] ≠ 0 := by
        have : x[i] < x[i + 1] := lt_of_lt_of_le hlt hle
        exact sub_ne_zero.mpr this.ne'
      have hgen : ∀ u : List K, (hu : u.length = x.length) →
          interpLinear p x u = .ok (line x[i] u[i] x[i + 1] u[i + 1] p) := by
        intro u hu
        simp only [interpLinear, rd_ok hlen, ok_bind, not_le.mpr hf, if_false,
          rd_ok (show x.length - 1 < x.length by omega), ge_iff_le, not_le.mpr hl', floorIndex, hfl,
          rd_ok (show i < x.length by omega), rd_ok hi, rd_ok (show i < u.length by omega),
          rd_ok (show i + 1 < u.length by omega), hne]
        show Except.ok _ = Except.ok _
        congr 1
        unfold line
        field_simp
      refine ⟨_, _, hgen y hly, hgen z hlz, ?_⟩
      have h0 := hyz i (by omega)
      have h1 := hyz (i + 1) hi
      have hd : 0 < x[i + 1] - x[i] := by linarith
      have ht0 : 0 ≤ (p - x[i]) / (x[i + 1] - x[i]) := div_nonneg (by linarith) hd.le
      have ht1 : (p - x[i]) / (x[i + 1] - x[i]) ≤ 1 := by rw [div_le_one hd]; linarith
      have e : ∀ a b : K, line x[i] a x[i + 1] b p
          = (1 - (p - x[i]) / (x[i + 1] - x[i])) * a
            + (p - x[i]) / (x[i + 1] - x[i]) * b := by
        intro a b; unfold line; field_simp; ring
      rw [e, e]
      set t := (p - x[i]) / (x[i + 1] - x[i])
      nlinarith

example : interpLinear (3 : ℚ) [1, 2, 4] [10, 20, 40] = .ok 30 := by
  have h := C47_piecewise_linear (K := ℚ) [1, 2, 4] [10, 20, 40] rfl
    (by simp [StrictlyAscending]; norm_num) 3 1 (by simp) (by norm_num) (by norm_num)
  rw [h]; norm_num [line]

/-! ## C48 -/

/-- Scalar query: the value of a nearest site (the right-most one for distinct sites). -/
theorem C48_nearest_value (x y : List K) (hx : x ≠ []) (hl : y.length = x.length)
    (hs : Ascending x) (p : K) :
    ∃ i, ∃ h : i < y.length, interpNearest p x y = .ok y[i] ∧ IsNearest x p i ∧
      (StrictlyAscending x → IsRightmostNearest x p i) := by
  have hlen := List.length_pos_iff.mpr hx
  by_cases hfirst : p ≤ x[0]
  · have hn := nearest_first hs hlen hfirst
    refine ⟨0, by omega, ?_, hn, fun hst => rightmost_of_next hst hn (fun hi => ?_)⟩
    · simp [interpNearest, rd_ok hlen, hfirst, rd_ok (show 0 < y.length by omega)]
    · have := strict_get hst hlen hi (by omega)
      rw [abs_of_nonneg (by linarith), abs_of_nonneg (by linarith)]
      linarith
  · by_cases hlast : x[x.length - 1] ≤ p
    · have hn := nearest_last hs (k := x.length - 1) (by omega) hlast
      refine ⟨x.length - 1, by omega, ?_, hn,
        fun hst => rightmost_of_next hst hn (fun hi => by omega)⟩
      simp [interpNearest, rd_ok hlen, hfirst, rd_ok (show x.length - 1 < x.length by omega), hlast,
        rd_ok (show x.length - 1 < y.length by omega)]
    · obtain ⟨r, h1, h2, h3⟩ := nearestNeighbour_spec hs hx p
      have hr : r < y.length := by obtain ⟨h, _⟩ := h2; omega
      refine ⟨r, hr, ?_, h2, h3⟩
      simp [interpNearest, rd_ok hlen, hfirst, rd_ok (show x.length - 1 < x.length by omega), hlast,
        h1, rd_ok hr]

/-- Array of queries: one result per query, in order, each the value of a nearest site. -/
theorem C48_interpolate_tessellation (x y : List K) (hx : x ≠ []) (hl : y.length = x.length)
    (hs : Ascending x) (qs : List K) :
    ∃ vs, interpolateTessellation x y qs .nuclei = .ok vs ∧
      List.Forall₂ (fun p v => ∃ i, ∃ h : i < y.length, IsNearest x p i ∧ v = y[i]) qs vs := by
  show ∃ vs, qs.mapM (fun p => interpNearest p x y) = .ok vs ∧ _
  induction qs with
  | nil => exact ⟨[], rfl, List.Forall₂.nil⟩
  | cons q qs ih =>
    obtain ⟨vs, h1, h2⟩ := ih
    obtain ⟨i, hi, h3, h4, _⟩ := C48_nearest_value x y hx hl hs q
    refine ⟨y[i] :: vs, ?_, List.Forall₂.cons ⟨i, hi, h4, rfl⟩ h2⟩
    rw [List.mapM_cons, h3, h1]; rfl

example : interpolateTessellation ([1, 2, 4] : List ℚ) [10, 20, 40] [0, 3, 9] .nuclei
    = .ok [10, 40, 40] := by
  norm_num [interpolateTessellation, interpolateNearest, List.mapM_cons, interpNearest,
    nearestNeighbour, nearestLoop, rd, abs]

end BB.Props
