import Verif.Lemmas.NearCenter
import Verif.Lemmas.SiteLaw
import Verif.Lemmas.Undo
import Verif.Lemmas.ProgressMoves

/-!
# Sites on a line and in the plane are in general position almost surely, and what the code takes for the nearest one
-/

namespace BB.Lemmas

open BB BB.Spec MeasureTheory ProbabilityTheory

/-- The distance on a line. -/
def lineDist (a b : ℝ) : ℝ := |a - b|

theorem lineDist_meas : Measurable fun z : ℝ × ℝ => lineDist z.1 z.2 := by
  unfold lineDist
  fun_prop

theorem planeDist_meas : Measurable fun z : (ℝ × ℝ) × (ℝ × ℝ) => BB.dist2 z.1 z.2 := by
  unfold BB.dist2
  fun_prop

theorem null_of_subset_pair {σ : Measure ℝ} (h : σ ≪ volume) {s : Set ℝ} {a b : ℝ} (hs : s ⊆ {a, b}) : σ s = 0 :=
  h (measure_mono_null hs ((Set.toFinite {a, b}).measure_zero volume))

theorem nullSites_line {σ : Measure ℝ} (h : σ ≪ volume) : NullSites lineDist σ where
  symm := fun a b => abs_sub_comm a b
  point := fun a => null_of_subset_pair h (a := a) (b := a) (by simp)
  sphere := by
    intro a r
    refine null_of_subset_pair h (a := a + r) (b := a - r) fun s hs => ?_
    have hs' : |s - a| = r := hs
    rcases abs_cases (s - a) with ⟨h1, -⟩ | ⟨h1, -⟩
    · left; linarith
    · right
      rw [Set.mem_singleton_iff]
      linarith
  bisector := by
    intro b c hbc
    refine null_of_subset_pair h (a := (b + c) / 2) (b := (b + c) / 2) fun s hs => ?_
    have hs' : |b - s| = |c - s| := hs
    left
    rcases abs_eq_abs.1 hs' with h1 | h1
    · exact absurd (by linarith) hbc
    · linarith

theorem dist2_sq (a b : ℝ × ℝ) : BB.dist2 a b ^ 2 = (a.1 - b.1) ^ 2 + (a.2 - b.2) ^ 2 := by
  unfold BB.dist2
  rw [Real.sq_sqrt (by positivity)]

theorem null_prod_left {s : Set (ℝ × ℝ)} (hm : MeasurableSet s)
    (h : ∀ x, ∃ a b : ℝ, ∀ y, (x, y) ∈ s → y = a ∨ y = b) : (volume : Measure (ℝ × ℝ)) s = 0 := by
  change ((volume : Measure ℝ).prod volume) s = 0
  rw [Measure.measure_prod_null hm]
  refine .of_forall fun x => ?_
  obtain ⟨a, b, hab⟩ := h x
  exact null_of_subset_pair Measure.AbsolutelyContinuous.rfl (a := a) (b := b) fun y hy => hab y hy

theorem null_prod_right {s : Set (ℝ × ℝ)} (hm : MeasurableSet s)
    (h : ∀ y, ∃ a b : ℝ, ∀ x, (x, y) ∈ s → x = a ∨ x = b) : (volume : Measure (ℝ × ℝ)) s = 0 := by
  have h1 : (volume : Measure (ℝ × ℝ)) (Prod.swap ⁻¹' s) = 0 := null_prod_left (measurable_swap hm) h
  have h2 : Measure.map Prod.swap (volume : Measure (ℝ × ℝ)) = volume := Measure.prod_swap (μ := (volume : Measure ℝ)) (ν := volume)
  rw [← h2, Measure.map_apply measurable_swap hm]
  exact h1

theorem sq_two (u : ℝ) : ∃ a b : ℝ, ∀ t : ℝ, t ^ 2 = u → t = a ∨ t = b := by
  refine ⟨Real.sqrt u, -Real.sqrt u, fun t ht => ?_⟩
  have h : t ^ 2 = Real.sqrt u ^ 2 := by rw [ht, Real.sq_sqrt (by rw [← ht]; exact sq_nonneg t)]
  exact sq_eq_sq_iff_eq_or_eq_neg.1 h

theorem nullSites_plane {σ : Measure (ℝ × ℝ)} (h : σ ≪ volume) : NullSites BB.dist2 σ where
  symm := by
    intro a b
    unfold BB.dist2
    congr 1
    ring
  point := by
    intro a
    refine h (null_prod_left (measurableSet_singleton a) fun x => ⟨a.2, a.2, fun y hy => .inl ?_⟩)
    have : (x, y) = a := hy
    rw [← this]
  sphere := by
    intro a r
    have hm : MeasurableSet {s : ℝ × ℝ | BB.dist2 s a = r} :=
      measurableSet_eq_fun (planeDist_meas.comp (measurable_id.prodMk measurable_const)) measurable_const
    refine h (null_prod_left hm fun x => ?_)
    obtain ⟨u, w, huw⟩ := sq_two (r ^ 2 - (x - a.1) ^ 2)
    refine ⟨a.2 + u, a.2 + w, fun y hy => ?_⟩
    have hy' : BB.dist2 (x, y) a = r := hy
    have e := dist2_sq (x, y) a
    rw [hy'] at e
    rcases huw (y - a.2) (by rw [e]; ring) with h1 | h1
    · left; linarith
    · right; linarith
  bisector := by
    intro b c hbc
    have hm : MeasurableSet {s : ℝ × ℝ | BB.dist2 b s = BB.dist2 c s} :=
      measurableSet_eq_fun (planeDist_meas.comp (measurable_const.prodMk measurable_id))
        (planeDist_meas.comp (measurable_const.prodMk measurable_id))
    have key : ∀ x y : ℝ, (x, y) ∈ {s : ℝ × ℝ | BB.dist2 b s = BB.dist2 c s} →
        2 * (c.1 - b.1) * x + 2 * (c.2 - b.2) * y = c.1 ^ 2 + c.2 ^ 2 - b.1 ^ 2 - b.2 ^ 2 := by
      intro x y hxy
      have hxy' : BB.dist2 b (x, y) = BB.dist2 c (x, y) := hxy
      have e1 := dist2_sq b (x, y)
      have e2 := dist2_sq c (x, y)
      rw [hxy', e2] at e1
      linarith
    by_cases h2 : b.2 = c.2
    · have h1 : c.1 - b.1 ≠ 0 := by
        intro h1
        exact hbc (Prod.ext (by linarith) h2)
      refine h (null_prod_right hm fun y => ?_)
      refine ⟨(c.1 ^ 2 + c.2 ^ 2 - b.1 ^ 2 - b.2 ^ 2 - 2 * (c.2 - b.2) * y) / (2 * (c.1 - b.1)), 
        (c.1 ^ 2 + c.2 ^ 2 - b.1 ^ 2 - b.2 ^ 2 - 2 * (c.2 - b.2) * y) / (2 * (c.1 - b.1)), fun x hx => .inl ?_⟩
      rw [eq_div_iff (by simpa using h1)]
      linarith [key x y hx]
    · have h1 : c.2 - b.2 ≠ 0 := sub_ne_zero.2 (Ne.symm h2)
      refine h (null_prod_left hm fun x => ?_)
      refine ⟨(c.1 ^ 2 + c.2 ^ 2 - b.1 ^ 2 - b.2 ^ 2 - 2 * (c.1 - b.1) * x) / (2 * (c.2 - b.2)), 
        (c.1 ^ 2 + c.2 ^ 2 - b.1 ^ 2 - b.2 ^ 2 - 2 * (c.1 - b.1) * x) / (2 * (c.2 - b.2)), fun y hy => .inl ?_⟩
      rw [eq_div_iff (by simpa using h1)]
      linarith [key x y hy]

/-! ### the nearest site -/

theorem nearest_line {v : Vor1} {xs : List ℝ} (hs : xs.Pairwise (· ≤ ·)) {p : ℝ} {i : Fin xs.length}
    (h : ∀ i', i' ≠ i → lineDist (xs.get i) p < lineDist (xs.get i') p) :
    nearest (.vor1 v) (some (.arr (.vec xs))) (.one p) = .ok (i : ℕ) := by
  have hne : xs ≠ [] := by
    rintro rfl
    exact i.elim0
  obtain ⟨j, h1, hj, h2⟩ := Props.C46_nearest xs hne hs p
  change Utils1d.nearestNeighbour p xs xs.length = _
  rw [h1]
  by_contra hc
  have hji : (⟨j, hj⟩ : Fin xs.length) ≠ i := by
    rintro rfl
    exact hc rfl
  exact absurd (h _ hji) (not_lt.2 (h2 i i.2))

theorem nearest_plane {v : Vor2} {ps : List (ℝ × ℝ)} {p : ℝ × ℝ} {i : Fin ps.length}
    (h : ∀ i', i' ≠ i → BB.dist2 (ps.get i) p < BB.dist2 (ps.get i') p) :
    nearest (.vor2 v) (some (.arr (.pts ps))) (.two p) = .ok (i : ℕ) := by
  have hne : ps.map (fun s => BB.dist2 s p) ≠ [] := by
    intro hc
    rw [List.map_eq_nil_iff] at hc
    subst hc
    exact i.elim0
  obtain ⟨j, hj⟩ := argmin_some hne
  obtain ⟨x, hx, hmin⟩ := argmin_spec hj
  unfold nearest
  simp only [hj]
  rw [List.getElem?_map] at hx
  obtain ⟨q, hq, rfl⟩ := Option.map_eq_some_iff.1 hx
  obtain ⟨hlt, hq'⟩ := List.getElem?_eq_some_iff.1 hq
  by_contra hc
  have hji : (⟨j, hlt⟩ : Fin ps.length) ≠ i := by
    rintro rfl
    exact hc rfl
  refine absurd (h _ hji) (not_lt.2 ?_)
  have := hmin (BB.dist2 (ps.get i) p) (List.mem_map.2 ⟨_, List.get_mem ps i, rfl⟩)
  rw [← hq'] at this
  exact this

end BB.Lemmas
