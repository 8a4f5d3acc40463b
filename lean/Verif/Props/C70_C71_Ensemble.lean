import Mathlib.Tactic.IntervalCases
import Verif.Lemmas.Histogram
import Verif.Props.C49_C51_Extents

/-!
# C70, C71: statistics and densities of ensembles of tessellations
-/

namespace BB.Props

open BB Spec Ensemble Tessellation

/-! ## C70 -/

/-- The statistics of a table: what is returned for a position describes its column. -/
theorem statistics_describe {rows : List (List ℝ)} (hr : rows ≠ []) {n : ℕ} {percentiles : List ℝ}
    (hq : ∀ q ∈ percentiles, 0 ≤ q ∧ q ≤ 100) :
    ∃ st, statistics rows n percentiles = .ok st ∧ st.mean.length = n ∧ st.median.length = n ∧ st.std.length = n ∧
      (∀ r ∈ st.percentiles, r.length = n) ∧
      ∀ j < n, DescribesSamples (column rows j) percentiles st.mean[j]? st.median[j]? st.std[j]? (st.percentiles.map (·[j]?)) := by
  have hc : ∀ j, column rows j ≠ [] := fun j => by simpa [column] using hr
  unfold statistics
  rw [if_neg hr, if_neg (by
    rintro ⟨q, h1, h2⟩
    have := hq q h1
    rcases h2 with h | h <;> linarith)]
  refine ⟨_, rfl, by simp, by simp, by simp, by
    intro r h
    obtain ⟨q, _, rfl⟩ := List.mem_map.1 h
    simp, fun j hj => ?_⟩
  refine ⟨⟨_, by simp [hj], Lemmas.npMean_spec (hc j)⟩, ⟨_, by simp [hj], Lemmas.npMedian_spec (hc j)⟩,
    ⟨_, by simp [hj], Lemmas.npStd_spec (hc j)⟩, ?_⟩
  simp only [List.map_map, List.forall₂_map_right_iff]
  refine List.forall₂_same.2 fun q hq' => ⟨npPercentile (column rows j) q, by simp [hj], ?_⟩
  exact Lemmas.npPercentile_spec (hc j) (hq q hq').1 (hq q hq').2

theorem mapM_forall₂ {α β : Type} {f : α → Except PyErr β} {P : α → β → Prop} {l : List α}
    (h : ∀ a ∈ l, ∃ b, f a = .ok b ∧ P a b) : ∃ bs, l.mapM f = .ok bs ∧ List.Forall₂ P l bs := by
  induction l with
  | nil => exact ⟨[], rfl, .nil⟩
  | cons a l ih =>
    obtain ⟨b, h1, h2⟩ := h a List.mem_cons_self
    obtain ⟨bs, h3, h4⟩ := ih fun a' ha' => h a' (List.mem_cons_of_mem _ ha')
    refine ⟨b :: bs, ?_, .cons h2 h4⟩
    rw [List.mapM_cons, h1, h3]
    rfl

/-- The values of a position over all samples, from those of all positions in each of the samples. -/
theorem column_forall₂ {α β : Type} {V : α → β → ℝ → Prop} {samples : List α} {positions : List β} {rows : List (List ℝ)}
    (h : List.Forall₂ (fun s r => List.Forall₂ (V s) positions r) samples rows) {j : ℕ} (hj : j < positions.length) :
    List.Forall₂ (fun s v => V s positions[j] v) samples (column rows j) := by
  unfold column
  rw [List.forall₂_map_right_iff]
  refine h.imp fun s r hsr => ?_
  have h1 := (List.forall₂_iff_get.1 hsr).2 j hj (hsr.length_eq ▸ hj)
  rw [List.getD_eq_getElem _ _ (hsr.length_eq ▸ hj)]
  exact h1

/-- Ensembles of tessellations of a line given by their sites: the values described at a position are those of the sites
nearest to it, one per sample. -/
theorem C70_statistics (cells values : List (List ℝ)) (positions percentiles : List ℝ) (hne : values ≠ [])
    (hs : List.Forall₂ (fun x y => x ≠ [] ∧ Ascending x ∧ y.length = x.length) cells values)
    (hq : ∀ q ∈ percentiles, 0 ≤ q ∧ q ≤ 100) :
    ∃ st, statistics1 cells values positions percentiles .nuclei = .ok st ∧
      st.mean.length = positions.length ∧ st.median.length = positions.length ∧ st.std.length = positions.length ∧
      (∀ r ∈ st.percentiles, r.length = positions.length) ∧
      ∀ j (hj : j < positions.length), ∃ vs,
        List.Forall₂ (fun s v => ValueAt s.1 s.2 positions[j] v) (cells.zip values) vs ∧
        DescribesSamples vs percentiles st.mean[j]? st.median[j]? st.std[j]? (st.percentiles.map (·[j]?)) := by
  obtain ⟨rows, h1, h2⟩ := mapM_forall₂ (f := fun cv : List ℝ × List ℝ => interpolateTessellation cv.1 cv.2 positions .nuclei)
    (P := fun s r => List.Forall₂ (ValueAt s.1 s.2) positions r) (l := cells.zip values) (fun s hs' => by
      obtain ⟨k, hk, rfl⟩ := List.getElem_of_mem hs'
      rw [List.length_zip] at hk
      have := (List.forall₂_iff_get.1 hs).2 k (by omega) (by omega)
      simp only [List.get_eq_getElem] at this
      rw [List.getElem_zip]
      exact C48_interpolate_tessellation _ _ this.1 this.2.2 this.2.1 positions)
  have hl : rows.length = values.length := by
    rw [← h2.length_eq, List.length_zip, hs.length_eq, min_self]
  have hr : rows ≠ [] := by
    rw [← List.length_pos_iff, hl, List.length_pos_iff]
    exact hne
  obtain ⟨st, h3, h4, h5, h6, h7, h8⟩ := statistics_describe hr (n := positions.length) hq
  refine ⟨st, ?_, h4, h5, h6, h7, fun j hj => ⟨_, column_forall₂ h2 hj, h8 j hj⟩⟩
  unfold statistics1 interpolateTessellations
  rw [h1]
  change statistics (rows ++ List.replicate (values.length - rows.length) _) _ _ = _
  rw [hl, Nat.sub_self, List.replicate_zero, List.append_nil]
  exact h3

/-- The same for tessellations given by the extents of their cells, as computed from the sites with lower bound 0, and
positions in ascending order, none negative.

Missing from the full claim: positions in another order and negative ones, for which interpolation from extents is wrong
(see C51), and samples with a single cell (see C49). -/
theorem C70_extents_partial (cells values extents : List (List ℝ)) (positions percentiles : List ℝ) (fill : ℝ)
    (hs : List.Forall₂ (fun x y => 2 ≤ x.length ∧ StrictlyAscending x ∧ y.length = x.length) cells values)
    (he : cells.mapM (fun x => computeCellExtents x (some 0) none fill) = .ok extents)
    (hp : Ascending positions) (h0 : ∀ p ∈ positions, 0 ≤ p) :
    statistics1 extents values positions percentiles .extents = statistics1 cells values positions percentiles .nuclei := by
  have key : (extents.zip values).mapM (fun cv => interpolateTessellation cv.1 cv.2 positions .extents) =
      (cells.zip values).mapM (fun cv => interpolateTessellation cv.1 cv.2 positions .nuclei) := by
    clear percentiles
    induction hs generalizing extents with
    | nil =>
      cases he
      rfl
    | @cons x y cells values hxy _ ih =>
      rw [List.mapM_cons] at he
      cases h1 : computeCellExtents x (some 0) none fill with
      | error e =>
        rw [h1] at he
        cases he
      | ok e =>
        cases h2 : cells.mapM (fun x => computeCellExtents x (some 0) none fill) with
        | error e' =>
          rw [h1, h2] at he
          cases he
        | ok es =>
          rw [h1, h2] at he
          cases he
          have h3 := C51_nuclei_eq_extents_partial x y positions fill hxy.1 hxy.2.2 hxy.2.1 hp h0
          rw [h1] at h3
          change interpolateTessellation e y positions .extents = _ at h3
          rw [List.zip_cons_cons, List.zip_cons_cons, List.mapM_cons, List.mapM_cons, ih es h2, h3]
  unfold statistics1 interpolateTessellations
  rw [key]

/-- Tessellations of the plane. -/
theorem C70_plane (query : List (ℝ × ℝ) → ℝ × ℝ → ℕ) (sites : List (List (ℝ × ℝ))) (values : List (List ℝ))
    (positions : List (ℝ × ℝ)) (percentiles : List ℝ) (hne : values ≠ [])
    (hs : List.Forall₂ (fun x y => x ≠ [] ∧ y.length = x.length) sites values)
    (htree : ∀ x : List (ℝ × ℝ), x ≠ [] → ∀ p, ∃ h : query x p < x.length, ∀ (j : ℕ) (hj : j < x.length),
      (x[query x p].1 - p.1) ^ 2 + (x[query x p].2 - p.2) ^ 2 ≤ (x[j].1 - p.1) ^ 2 + (x[j].2 - p.2) ^ 2)
    (hq : ∀ q ∈ percentiles, 0 ≤ q ∧ q ≤ 100) :
    ∃ st, statistics2 query sites values positions percentiles = .ok st ∧
      st.mean.length = positions.length ∧ st.median.length = positions.length ∧ st.std.length = positions.length ∧
      (∀ r ∈ st.percentiles, r.length = positions.length) ∧
      ∀ j (hj : j < positions.length), ∃ vs,
        List.Forall₂ (fun s v => ValueAt2 s.1 s.2 positions[j] v) (sites.zip values) vs ∧
        DescribesSamples vs percentiles st.mean[j]? st.median[j]? st.std[j]? (st.percentiles.map (·[j]?)) := by
  obtain ⟨rows, h1, h2⟩ := mapM_forall₂ (f := fun cv : List (ℝ × ℝ) × List ℝ => interpolate2 query cv.1 cv.2 positions)
    (P := fun s r => List.Forall₂ (ValueAt2 s.1 s.2) positions r) (l := sites.zip values) (fun s hs' => by
      obtain ⟨k, hk, rfl⟩ := List.getElem_of_mem hs'
      rw [List.length_zip] at hk
      have := (List.forall₂_iff_get.1 hs).2 k (by omega) (by omega)
      simp only [List.get_eq_getElem] at this
      rw [List.getElem_zip]
      refine mapM_forall₂ fun p _ => ?_
      obtain ⟨h, hmin⟩ := htree _ this.1 p
      refine ⟨values[k][query sites[k] p], ?_, _, this.2 ▸ h, rfl, h, hmin⟩
      simp only
      rw [List.getElem?_eq_getElem (this.2 ▸ h)])
  have hl : rows.length = values.length := by
    rw [← h2.length_eq, List.length_zip, hs.length_eq, min_self]
  have hr : rows ≠ [] := by
    rw [← List.length_pos_iff, hl, List.length_pos_iff]
    exact hne
  obtain ⟨st, h3, h4, h5, h6, h7, h8⟩ := statistics_describe hr (n := positions.length) hq
  refine ⟨st, ?_, h4, h5, h6, h7, fun j hj => ⟨_, column_forall₂ h2 hj, h8 j hj⟩⟩
  unfold statistics2 interpolates2
  rw [h1]
  change statistics (rows ++ List.replicate (values.length - rows.length) _) _ _ = _
  rw [hl, Nat.sub_self, List.replicate_zero, List.append_nil]
  exact h3

/-- The descriptions determine the numbers: there is only one mean, standard deviation and quantile. -/
theorem C70_unique {vs : List ℝ} (hv : vs ≠ []) :
    (∀ m m', IsMean vs m → IsMean vs m' → m = m') ∧ (∀ s s', IsStd vs s → IsStd vs s' → s = s') ∧
    ∀ v r r', IsQuantile vs v r → IsQuantile vs v r' → r = r' := by
  have hn : (vs.length : ℝ) ≠ 0 := by simpa using hv
  have hm : ∀ m m', IsMean vs m → IsMean vs m' → m = m' := fun m m' h h' => by
    unfold IsMean at h h'
    exact mul_right_cancel₀ hn (h.trans h'.symm)
  refine ⟨hm, ?_, fun v r r' => Lemmas.quantile_unique⟩
  rintro s s' ⟨h0, m, h1, h2⟩ ⟨h0', m', h1', h2'⟩
  cases hm m m' h1 h1'
  exact (sq_eq_sq₀ h0 h0').1 (mul_right_cancel₀ hn (h2.trans h2'.symm))

/-- The percentiles are in order: a larger percentile is not smaller. -/
theorem C70_percentiles_monotone {rows : List (List ℝ)} (hr : rows ≠ []) {n : ℕ} {q q' : ℝ} (h0 : 0 ≤ q) (hqq : q ≤ q')
    (h1 : q' ≤ 100) : ∃ st a b, statistics rows n [q, q'] = .ok st ∧ st.percentiles = [a, b] ∧ List.Forall₂ (· ≤ ·) a b := by
  have hc : ∀ j, column rows j ≠ [] := fun j => by simpa [column] using hr
  unfold statistics
  rw [if_neg hr, if_neg (by
    rintro ⟨x, h2, h3⟩
    rcases List.mem_cons.1 h2 with rfl | h2
    · rcases h3 with h | h <;> linarith
    · rw [List.mem_singleton.1 h2] at h3
      rcases h3 with h | h <;> linarith)]
  refine ⟨_, _, _, rfl, rfl, ?_⟩
  rw [List.forall₂_map_left_iff, List.forall₂_map_right_iff]
  exact List.forall₂_same.2 fun j _ => Lemmas.npPercentile_mono (hc j) h0 hqq

/-- The order of the samples does not matter. -/
theorem C70_order (rows rows' : List (List ℝ)) (h : rows.Perm rows') (n : ℕ) (percentiles : List ℝ) :
    statistics rows n percentiles = statistics rows' n percentiles := Lemmas.statistics_congr h n percentiles

/-- Errors: unknown types of input (as soon as there is a sample), and percentiles out of range. -/
theorem C70_errors :
    (∀ (x : List ℝ) cells y values positions percentiles,
      statistics1 (x :: cells) (y :: values) positions percentiles .other = .error .valueError) ∧
    ∀ (rows : List (List ℝ)) n percentiles, rows ≠ [] → (∃ q ∈ percentiles, q < 0 ∨ 100 < q) →
      statistics rows n percentiles = .error .valueError := by
  refine ⟨fun x cells y values positions percentiles => ?_, fun rows n percentiles h1 h2 => ?_⟩
  · unfold statistics1 interpolateTessellations
    rw [List.zip_cons_cons, List.mapM_cons]
    rfl
  · unfold statistics
    rw [if_neg h1, if_pos h2]

/-- Not checked: with fewer arrays of sites than of values, the missing samples count as zeros.  Here one of two samples, both
with the value 10 everywhere, has no sites: the mean is 5. -/
theorem C70_missing_counterexample : ∃ st,
    statistics1 [[1]] [[10], [10]] [0] [] .nuclei = .ok st ∧ st.mean = [5] := by
  have h : interpolateTessellations ([[1]] : List (List ℝ)) [[10], [10]] [0] .nuclei = .ok [[10], [0]] := by
    norm_num [interpolateTessellations, interpolateTessellation, Utils1d.interpolateNearest, List.mapM_cons,
      Utils1d.interpNearest, rd]
  unfold statistics1
  rw [h]
  refine ⟨_, rfl, ?_⟩
  simp [List.range_succ, column, npMean]
  norm_num

/-- Three samples with one, two and three cells, at two positions. -/
example := C70_statistics [[1], [0, 4], [1, 2, 3]] [[5], [6, 7], [1, 2, 9]] [0, 5/2] [10, 90] (by simp)
  (by refine .cons ⟨?_, ?_, ?_⟩ (.cons ⟨?_, ?_, ?_⟩ (.cons ⟨?_, ?_, ?_⟩ .nil)) <;> first | exact List.cons_ne_nil _ _ | norm_num [Ascending]) (by
    intro q hq
    simp only [List.mem_cons, List.not_mem_nil, or_false] at hq
    rcases hq with rfl | rfl <;> norm_num)

example := C70_extents_partial [[0, 4], [1, 2, 3]] [[6, 7], [1, 2, 9]] [[2, 0], [3/2, 1, 0]] [0, 5/2] [50] 0
  (by refine .cons ⟨?_, ?_, ?_⟩ (.cons ⟨?_, ?_, ?_⟩ .nil) <;> norm_num [StrictlyAscending])
  (by simp only [List.mapM_cons, List.mapM_nil, C49_extents]; norm_num [midpoints, differences])
  (by norm_num [Ascending]) (by
    intro p hp
    simp only [List.mem_cons, List.not_mem_nil, or_false] at hp
    rcases hp with rfl | rfl <;> norm_num)

/-- Five numbers: the median is the third, the 25th percentile the second, and the 10th percentile is between the first and
the second. -/
example : IsRank [5, 3, 9, 1, 7] 2 5 ∧ IsQuantile [5, 3, 9, 1, 7] (4 * (10 / 100)) (9/5) := by
  refine ⟨⟨by norm_num, ?_, ?_⟩, 0, 2/5, 1, by norm_num, by norm_num, by norm_num, ⟨by norm_num, ?_, ?_⟩,
    Or.inr ⟨3, ⟨by norm_num, ?_, ?_⟩, by norm_num⟩⟩ <;> norm_num [List.countP_cons]

/-! ## C71 -/

/-- What `get_tessellation_density` does when it returns. -/
theorem density_steps {cells values : List (List ℝ)} {pb vb : Bins} {ty : InputType} {d : List (List ℝ)} {ex ey : List ℝ}
    (h : tessellationDensity cells values pb vb ty = .ok (d, ex, ey)) :
    ty ≠ .other ∧ ∃ positions rows, densityPositions cells ty pb = .ok positions ∧
      interpolateTessellations cells values positions ty = .ok rows ∧
      binEdges (List.replicate rows.length positions).flatten (.number positions.length) = .ok ex ∧
      binEdges rows.flatten vb = .ok ey ∧
      density ((List.replicate rows.length positions).flatten.zip rows.flatten) ex ey = .ok d := by
  unfold tessellationDensity at h
  by_cases hty : ty = .other
  · rw [if_pos hty] at h
    cases h
  rw [if_neg hty] at h
  refine ⟨hty, ?_⟩
  change (densityPositions cells ty pb >>= _) = _ at h
  cases h1 : densityPositions cells ty pb with
  | error e =>
    rw [h1] at h
    cases h
  | ok positions =>
    rw [h1] at h
    change (interpolateTessellations cells values positions ty >>= _) = _ at h
    cases h2 : interpolateTessellations cells values positions ty with
    | error e =>
      rw [h2] at h
      cases h
    | ok rows =>
      rw [h2] at h
      change (binEdges _ _ >>= _) = _ at h
      cases h3 : binEdges (List.replicate rows.length positions).flatten (.number positions.length) with
      | error e =>
        rw [h3] at h
        cases h
      | ok ex' =>
        rw [h3] at h
        change (binEdges _ _ >>= _) = _ at h
        cases h4 : binEdges rows.flatten vb with
        | error e =>
          rw [h4] at h
          cases h
        | ok ey' =>
          rw [h4] at h
          change (density _ _ _ >>= _) = _ at h
          cases h5 : density ((List.replicate rows.length positions).flatten.zip rows.flatten) ex' ey' with
          | error e =>
            rw [h5] at h
            cases h
          | ok d' =>
            rw [h5] at h
            cases h
            exact ⟨positions, rows, rfl, h2, h3, h4, h5⟩

/-- The density is that of a probability: over all bins, it integrates to 1. -/
theorem C71_normalised (cells values : List (List ℝ)) (pb vb : Bins) (ty : InputType) (d : List (List ℝ)) (ex ey : List ℝ)
    (h : tessellationDensity cells values pb vb ty = .ok (d, ex, ey)) :
    ((List.range (ex.length - 1)).map fun i => ((List.range (ey.length - 1)).map fun j =>
      (d.getD i []).getD j 0 * ((ex.getD (i + 1) 0 - ex.getD i 0) * (ey.getD (j + 1) 0 - ey.getD j 0))).sum).sum = 1 := by
  obtain ⟨_, positions, rows, _, _, _, _, hd⟩ := density_steps h
  obtain ⟨h0, hx, hy, rfl⟩ := Lemmas.density_ok hd
  set pts := (List.replicate rows.length positions).flatten.zip rows.flatten
  have h0' : (Lemmas.total pts ex ey : ℝ) ≠ 0 := by exact_mod_cast h0
  have : ((List.range (ex.length - 1)).map fun i => ((List.range (ey.length - 1)).map fun j =>
      ((((List.range (ex.length - 1)).map fun i => (List.range (ey.length - 1)).map fun j =>
        (count pts ex ey i j : ℝ) / (width ex i * width ey j) / Lemmas.total pts ex ey).getD i []).getD j 0) *
        ((ex.getD (i + 1) 0 - ex.getD i 0) * (ey.getD (j + 1) 0 - ey.getD j 0))).sum).sum =
      ((List.range (ex.length - 1)).map fun i => ((List.range (ey.length - 1)).map fun j =>
        (count pts ex ey i j : ℝ)).sum / Lemmas.total pts ex ey).sum := by
    congr 1
    refine List.map_congr_left fun i hi => ?_
    rw [List.mem_range] at hi
    rw [← Lemmas.sum_map_div]
    congr 1
    refine List.map_congr_left fun j hj => ?_
    rw [List.mem_range] at hj
    have hx' := hx i hi
    have hy' := hy j hj
    have e : ((((List.range (ex.length - 1)).map fun i => (List.range (ey.length - 1)).map fun j =>
        (count pts ex ey i j : ℝ) / (width ex i * width ey j) / Lemmas.total pts ex ey).getD i []).getD j 0) =
        (count pts ex ey i j : ℝ) / (width ex i * width ey j) / Lemmas.total pts ex ey := by
      simp [hi, hj]
    rw [e]
    change _ * (width ex i * width ey j) = _
    field_simp
  rw [this, Lemmas.sum_map_div, div_eq_one_iff_eq h0']
  unfold Lemmas.total
  rw [Lemmas.cast_sum_map]
  congr 1
  refine List.map_congr_left fun i hi => ?_
  rw [Lemmas.cast_sum_map]

/-- The edges for a number of bins ascend strictly and enclose all values. -/
theorem binEdges_number {xs : List ℝ} (hx : xs ≠ []) {n : ℕ} {e : List ℝ} (h : binEdges xs (.number n) = .ok e) :
    e.length = n + 1 ∧ 1 ≤ n ∧ e.Pairwise (· < ·) ∧ ∀ x ∈ xs, ∃ k < n, InBin e k x := by
  simp only [binEdges] at h
  split at h
  · cases h
  · rename_i hn
    have hl := Lemmas.foldl_min_le (xs.headD 0) xs
    have hu := Lemmas.le_foldl_max (xs.headD 0) xs
    have key : ∃ lo hi, lo < hi ∧ e = linspace lo hi (n + 1) ∧ ∀ x ∈ xs, lo ≤ x ∧ x ≤ hi := by
      split at h
      · rename_i heq
        cases h
        refine ⟨_, _, ?_, rfl, fun x hx => ⟨?_, ?_⟩⟩
        · rw [heq]
          linarith
        · linarith [hl.2.1 x hx]
        · linarith [hu.2.1 x hx]
      · rename_i hne
        cases h
        refine ⟨_, _, lt_of_le_of_ne (hl.1.trans hu.1) hne, rfl, fun x hx => ⟨hl.2.1 x hx, hu.2.1 x hx⟩⟩
    obtain ⟨lo, hi, hlt, rfl, hb⟩ := key
    have hs := Lemmas.linspace_strict hlt (show 2 ≤ n + 1 by omega)
    have hn' : (n : ℝ) ≠ 0 := by exact_mod_cast hn
    refine ⟨Lemmas.linspace_length _ _ _, by omega, hs, fun x hx => ?_⟩
    have := Lemmas.exists_inBin (hs.imp le_of_lt) (a := lo) (b := hi) (x := x) (by
        rw [Lemmas.linspace_get _ _ _ (by omega)]
        simp) (by
        rw [List.getLast?_eq_getElem?, Lemmas.linspace_length, Nat.add_sub_cancel, Lemmas.linspace_get _ _ _ (by omega)]
        congr 1
        push_cast
        rw [add_sub_cancel_right, mul_div_cancel₀ _ hn']
        ring) (by
        rw [Lemmas.linspace_length]
        omega) (hb x hx).1 (hb x hx).2
    rwa [Lemmas.linspace_length, Nat.add_sub_cancel] at this

/-- Equally spaced positions are in the bins of their number. -/
theorem linspace_bins {lo hi : ℝ} (h : lo < hi) {n : ℕ} (hn : 2 ≤ n) {i : ℕ} (hi' : i < n) :
    InBin (linspace lo hi (n + 1)) i (lo + i * ((hi - lo) / ((n : ℝ) - 1))) := by
  have hn' : (2 : ℝ) ≤ n := by exact_mod_cast hn
  have hd : 0 < hi - lo := by linarith
  have hi0 : (0 : ℝ) ≤ i := Nat.cast_nonneg _
  have hi1 : (i : ℝ) + 1 ≤ n := by exact_mod_cast hi'
  refine ⟨_, _, Lemmas.linspace_get _ _ _ (by omega), Lemmas.linspace_get _ _ _ (by omega), ?_, ?_⟩
  · push_cast
    rw [add_sub_cancel_right]
    gcongr
    · linarith
    · linarith
  · push_cast
    rw [add_sub_cancel_right]
    rcases Nat.lt_or_ge (i + 1) n with h1 | h1
    · left
      have h1' : (i : ℝ) + 1 < n := by exact_mod_cast h1
      have : (i : ℝ) * ((hi - lo) / (n - 1)) < (i + 1) * ((hi - lo) / n) := by
        rw [← mul_div_assoc, ← mul_div_assoc, div_lt_div_iff₀ (by linarith) (by linarith)]
        nlinarith
      linarith
    · right
      obtain rfl : n = i + 1 := by omega
      refine ⟨?_, by rw [Lemmas.linspace_length]⟩
      push_cast at hn' ⊢
      have : (i : ℝ) ≠ 0 := by
        intro h0
        linarith
      rw [add_sub_cancel_right]
      field_simp

open Classical in
/-- The mass of the bins in the column of a position is the share of the samples. -/
theorem density_columns (cells values : List (List ℝ)) (pb : Bins) (lo hi : ℝ) (hlh : lo < hi) (n : ℕ) (hn : 2 ≤ n)
    (hpb : densityPositions cells .nuclei pb = .ok (linspace lo hi n)) (m : ℕ)
    (hne : values ≠ []) (hs : List.Forall₂ (fun x y => x ≠ [] ∧ Ascending x ∧ y.length = x.length) cells values)
    (hm : m ≠ 0) :
    ∃ d ex ey, tessellationDensity cells values pb (.number m) .nuclei = .ok (d, ex, ey) ∧
      ex = linspace lo hi (n + 1) ∧ ey.length = m + 1 ∧ ey.Pairwise (· < ·) ∧
      ∀ i < n, ∃ vs, List.Forall₂ (fun s v => ValueAt s.1 s.2 (lo + i * ((hi - lo) / ((n : ℝ) - 1))) v) (cells.zip values) vs ∧
        (∀ v ∈ vs, ∃ j < m, InBin ey j v) ∧
        ∀ j < m, (d.getD i []).getD j 0 * ((ex.getD (i + 1) 0 - ex.getD i 0) * (ey.getD (j + 1) 0 - ey.getD j 0)) * n =
          vs.countP (fun v => decide (InBin ey j v)) / values.length := by
  set positions := linspace lo hi n with hpos
  have hpl : positions.length = n := Lemmas.linspace_length _ _ _
  obtain ⟨rows, h1, h2⟩ := mapM_forall₂ (f := fun cv : List ℝ × List ℝ => interpolateTessellation cv.1 cv.2 positions .nuclei)
    (P := fun s r => List.Forall₂ (ValueAt s.1 s.2) positions r) (l := cells.zip values) (fun s hs' => by
      obtain ⟨k, hk, rfl⟩ := List.getElem_of_mem hs'
      rw [List.length_zip] at hk
      have := (List.forall₂_iff_get.1 hs).2 k (by omega) (by omega)
      simp only [List.get_eq_getElem] at this
      rw [List.getElem_zip]
      exact C48_interpolate_tessellation _ _ this.1 this.2.2 this.2.1 positions)
  have hl : rows.length = values.length := by
    rw [← h2.length_eq, List.length_zip, hs.length_eq, min_self]
  have hr : rows ≠ [] := by
    rw [← List.length_pos_iff, hl, List.length_pos_iff]
    exact hne
  have hrow : ∀ r ∈ rows, r.length = positions.length := by
    intro r hr'
    obtain ⟨k, hk, rfl⟩ := List.getElem_of_mem hr'
    exact ((List.forall₂_iff_get.1 h2).2 k (by rw [h2.length_eq]; exact hk) hk).length_eq.symm
  have hint : interpolateTessellations cells values positions .nuclei = .ok rows := by
    unfold interpolateTessellations
    rw [h1]
    change Except.ok (rows ++ List.replicate (values.length - rows.length) _) = _
    rw [hl, Nat.sub_self, List.replicate_zero, List.append_nil]
  -- the edges for the positions
  have hn' : (2 : ℝ) ≤ n := by exact_mod_cast hn
  have hmemx : ∀ x, x ∈ (List.replicate rows.length positions).flatten ↔ x ∈ positions := by
    intro x
    rw [List.mem_flatten]
    constructor
    · rintro ⟨l, hl', hx⟩
      rw [List.eq_of_mem_replicate hl'] at hx
      exact hx
    · intro hx
      exact ⟨positions, List.mem_replicate.2 ⟨by rw [Ne, List.length_eq_zero_iff]; exact hr, rfl⟩, hx⟩
  have hb : ∀ x ∈ positions, lo ≤ x ∧ x ≤ hi := by
    intro x hx
    obtain ⟨k, hk, rfl⟩ := List.getElem_of_mem hx
    have e := List.getElem?_eq_getElem hk
    rw [hpl] at hk
    rw [Lemmas.linspace_get _ _ _ hk, Option.some.injEq] at e
    rw [← e]
    have hk1 : (k : ℝ) + 1 ≤ n := by exact_mod_cast hk
    have hk0 : (0 : ℝ) ≤ k := Nat.cast_nonneg _
    have hd : 0 < (hi - lo) / ((n : ℝ) - 1) := div_pos (by linarith) (by linarith)
    have : (n - 1 : ℝ) * ((hi - lo) / ((n : ℝ) - 1)) = hi - lo := by
      rw [mul_div_cancel₀]
      linarith
    constructor <;> nlinarith
  have hlo : lo ∈ positions := by
    have := Lemmas.linspace_get lo hi n (show 0 < n by omega)
    exact List.mem_of_getElem? (by simpa using this)
  have hhi : hi ∈ positions := by
    have := Lemmas.linspace_get lo hi n (show n - 1 < n by omega)
    refine List.mem_of_getElem? (i := n - 1) ?_
    rw [this, Nat.cast_sub (by omega)]
    congr 1
    push_cast
    rw [mul_div_cancel₀]
    · ring
    · linarith
  have hex : binEdges (List.replicate rows.length positions).flatten (.number positions.length) = .ok (linspace lo hi (n + 1)) := by
    simp only [binEdges]
    rw [hpl, if_neg (by omega), Lemmas.foldl_min_eq ((hmemx lo).2 hlo) fun x hx => (hb x ((hmemx x).1 hx)).1,
      Lemmas.foldl_max_eq ((hmemx hi).2 hhi) fun x hx => (hb x ((hmemx x).1 hx)).2, if_neg hlh.ne]
  -- the edges for the values
  have hfl : rows.flatten ≠ [] := by
    intro hc
    obtain ⟨r, rows', rfl⟩ := List.exists_cons_of_ne_nil hr
    rw [List.flatten_cons, List.append_eq_nil_iff] at hc
    have := hrow r List.mem_cons_self
    rw [hc.1, hpl] at this
    simp at this
    omega
  obtain ⟨ey, hey⟩ : ∃ ey, binEdges rows.flatten (.number m) = .ok ey := by
    simp only [binEdges]
    rw [if_neg hm]
    split <;> exact ⟨_, rfl⟩
  obtain ⟨hel, hm1, heys, heyb⟩ := binEdges_number hfl hey
  have hcol : ∀ i < n, ∀ v ∈ column rows i, v ∈ rows.flatten := by
    intro i hi v hv
    obtain ⟨r, hr', rfl⟩ := List.mem_map.1 hv
    refine List.mem_flatten.2 ⟨r, hr', ?_⟩
    rw [List.getD_eq_getElem _ _ (by rw [hrow r hr', hpl]; exact hi)]
    exact List.getElem_mem _
  have hexs := (Lemmas.linspace_strict hlh (show 2 ≤ n + 1 by omega)).imp le_of_lt
  have hbin : ∀ i (hi' : i < positions.length), binOf (linspace lo hi (n + 1)) positions[i] = some i := by
    intro i hi'
    have e := List.getElem?_eq_getElem hi'
    rw [hpl] at hi'
    rw [Lemmas.linspace_get _ _ _ hi', Option.some.injEq] at e
    rw [← e]
    exact Lemmas.binOf_of_inBin hexs (linspace_bins hlh hn hi')
  have hcount := fun i (hi' : i < n) j => Lemmas.count_rows (ey := ey) hbin hrow (hpl ▸ hi') j
  set pts := (List.replicate rows.length positions).flatten.zip rows.flatten with hpts
  have hexl : (linspace lo hi (n + 1)).length - 1 = n := by rw [Lemmas.linspace_length, Nat.add_sub_cancel]
  have heyl : ey.length - 1 = m := by rw [hel, Nat.add_sub_cancel]
  have htotal : Lemmas.total pts (linspace lo hi (n + 1)) ey = n * rows.length := by
    unfold Lemmas.total
    rw [hexl, heyl]
    have : ∀ i ∈ List.range n, ((List.range m).map fun j => count pts (linspace lo hi (n + 1)) ey i j).sum = rows.length := by
      intro i hi'
      rw [List.mem_range] at hi'
      have e : ((List.range m).map fun j => count pts (linspace lo hi (n + 1)) ey i j) =
          (List.range m).map fun j => (column rows i).countP fun v => binOf ey v = some j :=
        List.map_congr_left fun j _ => hcount i hi' j
      rw [e, Lemmas.sum_count_bins]
      · simp [column]
      · intro v hv
        obtain ⟨k, hk, hkb⟩ := heyb v (hcol i hi' v hv)
        exact ⟨k, hk, Lemmas.binOf_of_inBin (heys.imp le_of_lt) hkb⟩
    rw [List.map_congr_left this, List.map_const', List.sum_replicate, List.length_range, smul_eq_mul]
  have hrl : rows.length ≠ 0 := by
    rw [Ne, List.length_eq_zero_iff]
    exact hr
  have hw : ∀ {e : List ℝ}, e.Pairwise (· < ·) → ∀ i < e.length - 1, width e i ≠ 0 := by
    intro e he i hi'
    unfold width
    rw [List.getD_eq_getElem _ _ (show i + 1 < e.length by omega), List.getD_eq_getElem _ _ (show i < e.length by omega)]
    exact (sub_pos.2 (List.pairwise_iff_getElem.1 he i (i + 1) _ _ (by omega))).ne'
  obtain ⟨d, hd, hdv⟩ : ∃ d, density pts (linspace lo hi (n + 1)) ey = .ok d ∧ ∀ i < n, ∀ j < m, (d.getD i []).getD j 0 =
      (count pts (linspace lo hi (n + 1)) ey i j : ℝ) / (width (linspace lo hi (n + 1)) i * width ey j) /
        Lemmas.total pts (linspace lo hi (n + 1)) ey := by
    have h0 : Lemmas.total pts (linspace lo hi (n + 1)) ey ≠ 0 := by
      rw [htotal]
      exact Nat.mul_ne_zero (by omega) hrl
    rw [Lemmas.density_eq, if_neg h0, if_neg]
    · rw [hexl, heyl]
      exact ⟨_, rfl, fun i hi' j hj => by simp [hi', hj]⟩
    · rintro (⟨i, hi', h⟩ | ⟨j, hj, h⟩)
      · exact hw (Lemmas.linspace_strict hlh (show 2 ≤ n + 1 by omega)) i hi' h
      · exact hw heys j hj h
  refine ⟨d, _, ey, ?run, rfl, hel, heys, fun i hi' => ⟨column rows i, ?_, ?_, fun j hj => ?_⟩⟩
  case run =>
    unfold tessellationDensity
    rw [if_neg (by simp)]
    change (densityPositions cells .nuclei pb >>= _) = _
    rw [hpb]
    change (interpolateTessellations cells values positions .nuclei >>= _) = _
    rw [hint]
    change (binEdges _ _ >>= _) = _
    rw [hex]
    change (binEdges _ _ >>= _) = _
    rw [hey]
    change (density pts _ _ >>= _) = _
    rw [hd]
    rfl
  · have hj : i < positions.length := hpl ▸ hi'
    have := column_forall₂ h2 hj
    have e := List.getElem?_eq_getElem hj
    rw [Lemmas.linspace_get _ _ _ hi', Option.some.injEq] at e
    rwa [← e] at this
  · exact fun v hv => heyb v (hcol i hi' v hv)
  · rw [hdv i hi' j hj]
    change _ * (width (linspace lo hi (n + 1)) i * width ey j) * _ = _
    have w1 := hw (Lemmas.linspace_strict hlh (show 2 ≤ n + 1 by omega)) i (by rw [hexl]; exact hi')
    have w2 := hw heys j (by rw [heyl]; exact hj)
    rw [hcount i hi' j, htotal, ← hl]
    have e2 : (column rows i).countP (fun v => decide (binOf ey v = some j)) =
        (column rows i).countP (fun v => decide (InBin ey j v)) :=
      List.countP_congr fun v _ => by
        rw [decide_eq_true_eq, decide_eq_true_eq]
        exact Lemmas.binOf_iff (heys.imp le_of_lt)
    rw [e2]
    have : (rows.length : ℝ) ≠ 0 := by exact_mod_cast hrl
    have : (n : ℝ) ≠ 0 := by linarith
    push_cast
    field_simp

open Classical in
/-- Equally spaced positions, and a number of bins for the values: each column of the density belongs to a position, and
the mass of each of its bins is, but for the number of positions, the share of the samples that have their value at this
position in the bin.  (All columns have the same mass, as the value of each sample is in one of the bins.)

Missing from the full claim: positions that are not equally spaced (false, see `C71_uneven_counterexample`). -/
theorem C71_columns_partial (cells values : List (List ℝ)) (lo hi : ℝ) (hlh : lo < hi) (n : ℕ) (hn : 2 ≤ n) (m : ℕ)
    (hne : values ≠ []) (hs : List.Forall₂ (fun x y => x ≠ [] ∧ Ascending x ∧ y.length = x.length) cells values)
    (hm : m ≠ 0) :
    ∃ d ex ey, tessellationDensity cells values (.edges (linspace lo hi n)) (.number m) .nuclei = .ok (d, ex, ey) ∧
      ex = linspace lo hi (n + 1) ∧ ey.length = m + 1 ∧ ey.Pairwise (· < ·) ∧
      ∀ i < n, ∃ vs, List.Forall₂ (fun s v => ValueAt s.1 s.2 (lo + i * ((hi - lo) / ((n : ℝ) - 1))) v) (cells.zip values) vs ∧
        (∀ v ∈ vs, ∃ j < m, InBin ey j v) ∧
        ∀ j < m, (d.getD i []).getD j 0 * ((ex.getD (i + 1) 0 - ex.getD i 0) * (ey.getD (j + 1) 0 - ey.getD j 0)) * n =
          vs.countP (fun v => decide (InBin ey j v)) / values.length :=
  density_columns cells values _ lo hi hlh n hn rfl m hne hs hm

open Classical in
/-- The same if the number of positions is given: they are equally spaced between 0 and the last site of all samples. -/
theorem C71_columns_number_partial (cells values : List (List ℝ)) (hi : ℝ) (h0 : 0 < hi) (hmax : hi ∈ cells.flatten)
    (hle : ∀ x ∈ cells.flatten, x ≤ hi) (n : ℕ) (hn : 2 ≤ n) (m : ℕ)
    (hs : List.Forall₂ (fun x y => x ≠ [] ∧ Ascending x ∧ y.length = x.length) cells values)
    (hm : m ≠ 0) :
    ∃ d ex ey, tessellationDensity cells values (.number n) (.number m) .nuclei = .ok (d, ex, ey) ∧
      ex = linspace 0 hi (n + 1) ∧ ey.length = m + 1 ∧ ey.Pairwise (· < ·) ∧
      ∀ i < n, ∃ vs, List.Forall₂ (fun s v => ValueAt s.1 s.2 (0 + i * ((hi - 0) / ((n : ℝ) - 1))) v) (cells.zip values) vs ∧
        (∀ v ∈ vs, ∃ j < m, InBin ey j v) ∧
        ∀ j < m, (d.getD i []).getD j 0 * ((ex.getD (i + 1) 0 - ex.getD i 0) * (ey.getD (j + 1) 0 - ey.getD j 0)) * n =
          vs.countP (fun v => decide (InBin ey j v)) / values.length := by
  obtain ⟨c, hc, hhi⟩ := List.mem_flatten.1 hmax
  have hcne : cells ≠ [] := List.ne_nil_of_mem hc
  have hvne : values ≠ [] := by
    rw [← List.length_pos_iff, ← hs.length_eq, List.length_pos_iff]
    exact hcne
  have hcell : [] ∉ cells := by
    intro h
    obtain ⟨k, hk, e⟩ := List.getElem_of_mem h
    have := (List.forall₂_iff_get.1 hs).2 k hk (hs.length_eq ▸ hk)
    exact this.1 e
  refine density_columns cells values _ 0 hi h0 n hn ?_ m hvne hs hm
  simp only [densityPositions]
  rw [if_neg (by
    rintro (h | h)
    · exact hcne h
    · exact hcell h)]
  congr 2
  have htop : c.foldl max (c.headD 0) = hi :=
    Lemmas.foldl_max_eq hhi fun x hx => hle x (List.mem_flatten.2 ⟨c, hc, hx⟩)
  refine Lemmas.foldl_max_eq (List.mem_map.2 ⟨c, hc, htop⟩) fun x hx => ?_
  obtain ⟨c', hc', rfl⟩ := List.mem_map.1 hx
  rcases (Lemmas.le_foldl_max (c'.headD 0) c').2.2 with e | e
  · rw [e]
    cases c' with
    | nil => exact (hcell hc').elim
    | cons a as => exact hle a (List.mem_flatten.2 ⟨_, hc', List.mem_cons_self⟩)
  · exact hle _ (List.mem_flatten.2 ⟨_, hc', e⟩)

/-- Positions that are not equally spaced share columns, and other columns stay empty: for the positions 0, 1 and 10 the first
column counts both 0 and 1, and the second one nothing. -/
theorem C71_uneven_counterexample : ∃ ey,
    tessellationDensity [[1]] [[5]] (.edges [0, 1, 10]) (.number 1) .nuclei =
      .ok ([[1/5], [0], [1/10]], [0, 10/3, 20/3, 10], ey) := by
  have h1 : interpolateTessellations ([[1]] : List (List ℝ)) [[5]] [0, 1, 10] .nuclei = .ok [[5, 5, 5]] := by
    norm_num [interpolateTessellations, interpolateTessellation, Utils1d.interpolateNearest, List.mapM_cons,
      Utils1d.interpNearest, rd]
  have h2 : binEdges [0, 1, 10] (.number 3) = .ok [0, 10/3, 20/3, 10] := by
    norm_num [binEdges, linspace, List.range_succ]
  have h3 : binEdges [5, 5, 5] (.number 1) = .ok [9/2, 11/2] := by
    norm_num [binEdges, linspace, List.range_succ]
  have h4 : density [(0, 5), (1, 5), (10, 5)] [0, 10/3, 20/3, 10] [9/2, 11/2] = .ok [[1/5], [0], [1/10]] := by
    have b : binOf [9/2, 11/2] 5 = some 0 := by norm_num [binOf, List.countP_cons]
    have b0 : binOf [0, 10/3, 20/3, 10] 0 = some 0 := by norm_num [binOf, List.countP_cons]
    have b1 : binOf [0, 10/3, 20/3, 10] 1 = some 0 := by norm_num [binOf, List.countP_cons]
    have b2 : binOf [0, 10/3, 20/3, 10] 10 = some 2 := by norm_num [binOf, List.countP_cons]
    have c0 : count [(0, 5), (1, 5), (10, 5)] [0, 10/3, 20/3, 10] [9/2, 11/2] 0 0 = 2 := by
      simp [count, List.countP_cons, b, b0, b1, b2]
    have c1 : count [(0, 5), (1, 5), (10, 5)] [0, 10/3, 20/3, 10] [9/2, 11/2] 1 0 = 0 := by
      simp [count, List.countP_cons, b, b0, b1, b2]
    have c2 : count [(0, 5), (1, 5), (10, 5)] [0, 10/3, 20/3, 10] [9/2, 11/2] 2 0 = 1 := by
      simp [count, List.countP_cons, b, b0, b1, b2]
    have t : Lemmas.total [(0, 5), (1, 5), (10, 5)] [0, 10/3, 20/3, 10] [9/2, 11/2] = 3 := by
      simp [Lemmas.total, List.range_succ, c0, c1, c2]
    rw [Lemmas.density_eq, t, if_neg (by norm_num), if_neg]
    · simp [List.range_succ, c0, c1, c2, width]
      norm_num
    · rintro (⟨i, hi, h⟩ | ⟨i, hi, h⟩)
      · simp only [List.length_cons, List.length_nil] at hi
        interval_cases i <;> norm_num [width] at h
      · simp only [List.length_cons, List.length_nil] at hi
        interval_cases i
        norm_num [width] at h
  refine ⟨[9/2, 11/2], ?_⟩
  unfold tessellationDensity
  rw [if_neg (by simp)]
  change (interpolateTessellations _ _ [0, 1, 10] _ >>= _) = _
  rw [h1]
  change (binEdges [0, 1, 10] (.number 3) >>= _) = _
  rw [h2]
  change (binEdges [5, 5, 5] (.number 1) >>= _) = _
  rw [h3]
  change (density [(0, 5), (1, 5), (10, 5)] _ _ >>= _) = _
  rw [h4]
  rfl

/-- Two samples, four positions, ten bins for the values. -/
example := C71_columns_number_partial [[0, 4], [1, 2, 3]] [[6, 7], [1, 2, 9]] 4 (by norm_num) (by simp) (by
    intro x hx
    simp only [List.flatten_cons, List.flatten_nil, List.append_nil, List.cons_append, List.nil_append, List.mem_cons,
      List.not_mem_nil, or_false] at hx
    rcases hx with rfl | rfl | rfl | rfl | rfl <;> norm_num) 4 (by norm_num) 10
  (by refine .cons ⟨?_, ?_, ?_⟩ (.cons ⟨?_, ?_, ?_⟩ .nil) <;> first | exact List.cons_ne_nil _ _ | norm_num [Ascending])
  (by norm_num)

end BB.Props
