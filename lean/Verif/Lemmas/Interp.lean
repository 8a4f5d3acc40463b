import Verif.Lemmas.InsertDelete
import Verif.Model.Tessellation
import Verif.Spec.Tessellation
import Mathlib.Tactic.FieldSimp
import Mathlib.Algebra.Order.Group.Unbundled.Abs
import Mathlib.Algebra.Order.Ring.Abs
import Mathlib.Algebra.BigOperators.Group.List.Basic

/-! Loop lemmas for the interpolation routines. -/

set_option linter.unusedSectionVars false

namespace BB.Utils1d

open BB.Spec

variable {K : Type} [Field K] [LinearOrder K] [IsStrictOrderedRing K]

theorem asc_get {x : List K} (h : Ascending x) {i j : ℕ} (hi : i < x.length) (hj : j < x.length)
    (hij : i ≤ j) : x[i] ≤ x[j] := by
  rcases Nat.lt_or_eq_of_le hij with h' | h'
  · exact (List.pairwise_iff_getElem.mp h) i j hi hj h'
  · subst h'; exact le_refl _

theorem strict_get {x : List K} (h : StrictlyAscending x) {i j : ℕ} (hi : i < x.length)
    (hj : j < x.length) (hij : i < j) : x[i] < x[j] :=
  (List.pairwise_iff_getElem.mp h) i j hi hj hij

theorem strict_asc {x : List K} (h : StrictlyAscending x) : Ascending x :=
  h.imp (fun hab => le_of_lt hab)

/-- The left neighbour of a bracketed query is nearest when it is at least as close. -/
theorem nearest_left {x : List K} (h : Ascending x) {p : K} {k : ℕ} (hk : k + 1 < x.length)
    (h0 : x[k] ≤ p) (h1 : p ≤ x[k + 1]) (hc : |x[k] - p| ≤ |x[k + 1] - p|) :
    IsNearest x p k := by
  refine ⟨by omega, fun j hj => ?_⟩
  rcases Nat.lt_or_ge k j with hkj | hkj
  · have := asc_get h hk hj hkj
    rw [abs_of_nonpos (by linarith)] at *
    rw [abs_of_nonneg (by linarith)] at hc
    rw [abs_of_nonneg (by linarith)]; linarith
  · have := asc_get h hj (by omega) hkj
    rw [abs_of_nonpos (by linarith), abs_of_nonpos (by linarith)]; linarith

/-- The right neighbour of a bracketed query is nearest when it is at least as close. -/
theorem nearest_right {x : List K} (h : Ascending x) {p : K} {k : ℕ} (hk : k + 1 < x.length)
    (h0 : x[k] ≤ p) (h1 : p ≤ x[k + 1]) (hc : |x[k + 1] - p| ≤ |x[k] - p|) :
    IsNearest x p (k + 1) := by
  refine ⟨by omega, fun j hj => ?_⟩
  rcases Nat.lt_or_ge k j with hkj | hkj
  · have := asc_get h hk hj hkj
    rw [abs_of_nonneg (by linarith), abs_of_nonneg (by linarith)]; linarith
  · have := asc_get h hj (by omega) hkj
    rw [abs_of_nonneg (by linarith)] at *
    rw [abs_of_nonpos (by linarith)] at hc
    rw [abs_of_nonpos (by linarith)]; linarith

theorem nearest_last {x : List K} (h : Ascending x) {p : K} {k : ℕ} (hk : k + 1 = x.length)
    (h0 : x[k] ≤ p) : IsNearest x p k := by
  refine ⟨by omega, fun j hj => ?_⟩
  have := asc_get h hj (by omega : k < x.length) (by omega)
  rw [abs_of_nonpos (by linarith), abs_of_nonpos (by linarith)]; linarith

theorem nearest_first {x : List K} (h : Ascending x) {p : K} (hx : 0 < x.length)
    (h0 : p ≤ x[0]) : IsNearest x p 0 := by
  refine ⟨hx, fun j hj => ?_⟩
  have := asc_get h hx hj (by omega)
  rw [abs_of_nonneg (by linarith), abs_of_nonneg (by linarith)]; linarith

/-- For strictly increasing sites, a nearest site is the right-most one as soon as the next site is
strictly farther. -/
theorem rightmost_of_next {x : List K} (h : StrictlyAscending x) {p : K} {i : ℕ}
    (hn : IsNearest x p i)
    (hnext : ∀ hi : i + 1 < x.length, |x[i]'(by omega) - p| < |x[i + 1] - p|) :
    IsRightmostNearest x p i := by
  refine ⟨hn, fun j hj => ?_⟩
  by_contra hlt
  push Not at hlt
  obtain ⟨hjl, hjm⟩ := hj
  obtain ⟨hil, him⟩ := hn
  have hi1 : i + 1 < x.length := by omega
  have h1 := hnext hi1
  have h2 := hjm i hil
  have h3 := asc_get (strict_asc h) hi1 hjl hlt
  have h4 := strict_get h hil hi1 (by omega)
  by_cases hp : p ≤ x[i + 1]
  · have e1 : |x[i+1] - p| = x[i+1] - p := abs_of_nonneg (by linarith)
    have e2 : |x[j] - p| = x[j] - p := abs_of_nonneg (by linarith)
    rw [e1] at h1; rw [e2] at h2; linarith
  · push Not at hp
    have e1 : |x[i+1] - p| = p - x[i+1] := by rw [abs_of_neg (by linarith)]; ring
    have e2 : |x[i] - p| = p - x[i] := by rw [abs_of_neg (by linarith)]; ring
    rw [e1, e2] at h1; linarith

/-- Result of the loop of `nearest_neighbour_1d`. -/
theorem nearestLoop_spec {x : List K} (h : Ascending x) {p : K} :
    ∀ (n k : ℕ) (i : Option ℕ) (hk : k + n + 1 = x.length), x[k] ≤ p →
      (0 < n ∨ (i = some (k - 1) ∧ 1 ≤ k)) →
      ∃ r, nearestLoop p x n k i = .ok r ∧ IsNearest x p r ∧
        (StrictlyAscending x → IsRightmostNearest x p r) := by
  intro n
  induction n with
  | zero =>
    intro k i hk hle hi
    rcases hi with hi | ⟨rfl, hk1⟩
    · omega
    · refine ⟨k, ?_, nearest_last h hk hle, fun hs => ?_⟩
      · simp only [nearestLoop, rdVar, ok_bind]
        show Except.ok (k - 1 + 1) = Except.ok k
        congr 1; omega
      · exact rightmost_of_next hs (nearest_last h hk hle) (fun hi => by omega)
  | succ n ih =>
    intro k i hk hle _
    have hk0 : k < x.length := by omega
    have hk1 : k + 1 < x.length := by omega
    rw [nearestLoop, rd_ok hk0, ok_bind, rd_ok hk1, ok_bind]
    by_cases hin : x[k] ≤ p ∧ p ≤ x[k + 1]
    · rw [if_pos hin]
      by_cases hc : |x[k] - p| < |x[k + 1] - p|
      · rw [if_pos hc]
        have hn := nearest_left h hk1 hin.1 hin.2 hc.le
        exact ⟨k, rfl, hn, fun hs => rightmost_of_next hs hn (fun _ => hc)⟩
      · rw [if_neg hc]
        have hn := nearest_right h hk1 hin.1 hin.2 (not_lt.mp hc)
        refine ⟨k + 1, rfl, hn, fun hs => rightmost_of_next hs hn (fun hi => ?_)⟩
        have := strict_get hs hk1 hi (by omega)
        rw [abs_of_nonneg (by linarith [hin.2]), abs_of_nonneg (by linarith [hin.2])]; linarith
    · rw [if_neg hin]
      have hgt : x[k + 1] ≤ p := by
        by_contra hc
        exact hin ⟨hle, (not_le.mp hc).le⟩
      exact ih (k + 1) (some k) (by omega) hgt (by right; simp)

theorem nearestNeighbour_spec {x : List K} (h : Ascending x) (hx : x ≠ []) (p : K) :
    ∃ r, nearestNeighbour p x x.length = .ok r ∧ IsNearest x p r ∧
      (StrictlyAscending x → IsRightmostNearest x p r) := by
  have hlen : 0 < x.length := List.length_pos_iff.mpr hx
  unfold nearestNeighbour
  by_cases h1 : x.length = 1
  · have hn : IsNearest x p 0 := by
      refine ⟨hlen, fun j hj => ?_⟩
      have : j = 0 := by omega
      subst this; exact le_refl _
    refine ⟨0, by simp [h1]; rfl, hn, fun hs => rightmost_of_next hs hn (fun hi => by omega)⟩
  · by_cases hp : p < x[0]
    · have hn := nearest_first h hlen hp.le
      refine ⟨0, by simp [h1, rd_ok hlen, hp]; rfl, hn, fun hs => rightmost_of_next hs hn (fun hi => ?_)⟩
      have := strict_get hs hlen hi (by omega)
      rw [abs_of_nonneg (by linarith), abs_of_nonneg (by linarith)]; simp only [Nat.zero_add] at *; linarith
    · obtain ⟨r, hr, hn⟩ := nearestLoop_spec h (p := p) (x.length - 1) 0 none (by omega)
        (not_lt.mp hp) (by left; omega)
      refine ⟨r, ?_, hn⟩
      simp [h1, rd_ok hlen, hp, hr]

/-- `floor_index` finds the first upward crossing of `p`; no order of the nodes is needed. -/
theorem floorIndexLoop_spec {x : List K} {p : K} :
    ∀ (n k : ℕ) (hk : k + n = x.length) (hn : 0 < n), x[k] < p → p < x[x.length - 1] →
      ∃ i, ∃ hi : i + 1 < x.length, floorIndexLoop p x n k = .ok i ∧ x[i] < p ∧ p ≤ x[i + 1] := by
  intro n
  induction n with
  | zero => intro k hk hn; omega
  | succ n ih =>
    intro k hk _ hlt hlast
    have hk0 : k < x.length := by omega
    have hne : k + 1 < x.length := by
      by_contra hc
      have : k = x.length - 1 := by omega
      subst this
      exact absurd hlast (not_lt.mpr hlt.le)
    rw [floorIndexLoop, rd_ok hk0, ok_bind, if_pos hlt.le, rd_ok hne, ok_bind]
    by_cases hp : p ≤ x[k + 1]
    · rw [if_pos hp]
      exact ⟨k, hne, rfl, hlt, hp⟩
    · rw [if_neg hp]
      exact ih (k + 1) (by omega) (by omega) (not_le.mp hp) hlast

end BB.Utils1d
