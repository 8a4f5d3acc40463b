import Verif.Lemmas.Overlap
import Verif.Lemmas.Interp

/-!
# Linear interpolation is continuous
-/

namespace BB.Lemmas

open BB Spec Props Utils1d MeasureTheory

/-- Linear interpolation as a sum of ramps. -/
noncomputable def ramps : List ℝ → List ℝ → ℝ → ℝ
  | x0 :: x1 :: xs, y0 :: y1 :: ys, t => ramps (x1 :: xs) (y1 :: ys) t + (max x0 (min t x1) - x1) * ((y1 - y0) / (x1 - x0))
  | _, y :: _, _ => y
  | _, [], _ => 0

theorem ramps_continuous : ∀ xs ys, Continuous (ramps xs ys)
  | x0 :: x1 :: xs, y0 :: y1 :: ys => by
    have h := ramps_continuous (x1 :: xs) (y1 :: ys)
    simp only [ramps]
    exact h.add (((continuous_const.max (continuous_id.min continuous_const)).sub continuous_const).mul continuous_const)
  | [], y :: _ => by simpa only [ramps] using continuous_const
  | [_], y :: _ => by simpa only [ramps] using continuous_const
  | _ :: _ :: _, [y] => by simpa only [ramps] using continuous_const
  | [], [] => by simpa only [ramps] using continuous_const
  | [_], [] => by simpa only [ramps] using continuous_const
  | _ :: _ :: _, [] => by simpa only [ramps] using continuous_const

theorem ramps_left : ∀ (xs ys : List ℝ), xs.Pairwise (· < ·) → xs.length = ys.length → ∀ (h : 0 < xs.length) (h' : 0 < ys.length) (t : ℝ),
    t ≤ xs[0] → ramps xs ys t = ys[0]
  | [], _, _, _, h, _, _, _ => by simp at h
  | [_], y :: _, _, _, _, _, _, _ => by simp [ramps]
  | x0 :: x1 :: xs, y0 :: y1 :: ys, hs, hl, _, _, t, ht => by
    have hlt : x0 < x1 := (List.pairwise_cons.1 hs).1 x1 (by simp)
    have ht' : t ≤ x0 := ht
    have ih := ramps_left (x1 :: xs) (y1 :: ys) (List.pairwise_cons.1 hs).2 (by simpa using hl) (by simp) (by simp) t (ht'.trans hlt.le)
    have hne : x1 - x0 ≠ 0 := (sub_pos.2 hlt).ne'
    simp only [ramps, ih, List.getElem_cons_zero, min_eq_left (ht'.trans hlt.le), max_eq_left ht']
    field_simp
    ring
  | _ :: _ :: _, [_], _, hl, _, _, _, _ => by simp at hl
  | _ :: _, [], _, hl, _, _, _, _ => by simp at hl

theorem ramps_at : ∀ (xs ys : List ℝ), xs.Pairwise (· < ·) → xs.length = ys.length → ∀ (i : ℕ) (h : i + 1 < xs.length)
    (h' : i + 1 < ys.length) (t : ℝ), xs[i] ≤ t → t ≤ xs[i + 1] →
    ramps xs ys t = ys[i] + (t - xs[i]) * (ys[i + 1] - ys[i]) / (xs[i + 1] - xs[i])
  | x0 :: x1 :: xs, y0 :: y1 :: ys, hs, hl, 0, _, _, t, h1, h2 => by
    have hlt : x0 < x1 := (List.pairwise_cons.1 hs).1 x1 (by simp)
    have h1' : x0 ≤ t := h1
    have h2' : t ≤ x1 := h2
    have e := ramps_left (x1 :: xs) (y1 :: ys) (List.pairwise_cons.1 hs).2 (by simpa using hl) (by simp) (by simp) t h2'
    have hne : x1 - x0 ≠ 0 := (sub_pos.2 hlt).ne'
    simp only [ramps, e, List.getElem_cons_zero, List.getElem_cons_succ, Nat.zero_add, min_eq_left h2', max_eq_right h1']
    field_simp
    ring
  | x0 :: x1 :: xs, y0 :: y1 :: ys, hs, hl, i + 1, h, h', t, h1, h2 => by
    have hlt : x0 < x1 := (List.pairwise_cons.1 hs).1 x1 (by simp)
    have hs' := (List.pairwise_cons.1 hs).2
    have hi : i < (x1 :: xs).length := by simp at h ⊢; omega
    have h1' : (x1 :: xs)[i] ≤ t := h1
    have hx1 : x1 ≤ t := by
      refine le_trans ?_ h1'
      rcases Nat.eq_zero_or_pos i with rfl | hpos
      · exact le_rfl
      · exact (List.pairwise_iff_getElem.1 hs' 0 i (by simp) hi hpos).le
    have ih := ramps_at (x1 :: xs) (y1 :: ys) hs' (by simpa using hl) i (by simpa using h) (by simpa using h') t h1 h2
    simp only [ramps, min_eq_right hx1, max_eq_right hlt.le, sub_self, zero_mul, add_zero]
    exact ih
  | [], _, _, _, _, h, _, _, _, _ => by simp at h
  | [_], _, _, _, _, h, _, _, _, _ => by simp at h
  | _ :: _ :: _, [_], _, hl, _, _, _, _, _, _ => by simp at hl
  | _ :: _ :: _, [], _, hl, _, _, _, _, _, _ => by simp at hl

theorem ramps_right : ∀ (xs ys : List ℝ), xs.Pairwise (· < ·) → xs.length = ys.length → ∀ (h : xs.length - 1 < xs.length)
    (h' : xs.length - 1 < ys.length) (t : ℝ), xs[xs.length - 1] ≤ t → ramps xs ys t = ys[xs.length - 1]
  | [], _, _, _, h, _, _, _ => by simp at h
  | [_], y :: _, _, _, _, _, _, _ => by simp [ramps]
  | x0 :: x1 :: xs, y0 :: y1 :: ys, hs, hl, h, h', t, ht => by
    have hlt : x0 < x1 := (List.pairwise_cons.1 hs).1 x1 (by simp)
    have hs' := (List.pairwise_cons.1 hs).2
    have ht' : (x1 :: xs)[(x1 :: xs).length - 1] ≤ t := ht
    have hx1 : x1 ≤ t := by
      refine le_trans ?_ ht'
      rcases Nat.eq_zero_or_pos ((x1 :: xs).length - 1) with h0 | hpos
      · simp only [h0, List.getElem_cons_zero, le_refl]
      · exact (List.pairwise_iff_getElem.1 hs' 0 _ (by simp) (by simp) hpos).le
    have ih := ramps_right (x1 :: xs) (y1 :: ys) hs' (by simpa using hl) (by simp) (by simpa using h') t ht'
    simp only [ramps, min_eq_right hx1, max_eq_right hlt.le, sub_self, zero_mul, add_zero]
    exact ih
  | _ :: _ :: _, [_], _, hl, _, _, _, _ => by simp at hl
  | _ :: _, [], _, hl, _, _, _, _ => by simp at hl

/-- Linear interpolation between nodes in increasing order is the sum of the ramps. -/
theorem interp_ramps {xs ys : List ℝ} (hs : xs.Pairwise (· < ·)) (hl : xs.length = ys.length) (h0 : 0 < xs.length) (t : ℝ) :
    interpLinear t xs ys = .ok (ramps xs ys t) := by
  have hl1 : xs.length - 1 < xs.length := by omega
  have h0' : 0 < ys.length := by omega
  have hl1' : xs.length - 1 < ys.length := by omega
  unfold interpLinear
  rw [rd_ok h0, ok_bind]
  by_cases h1 : t ≤ xs[0]
  · rw [if_pos h1, rd_ok h0', ramps_left xs ys hs hl h0 h0' t h1]
  · rw [if_neg h1, rd_ok hl1, ok_bind]
    by_cases h2 : t ≥ xs[xs.length - 1]
    · rw [if_pos h2, rd_ok hl1', ramps_right xs ys hs hl hl1 hl1' t h2]
    · rw [if_neg h2]
      obtain ⟨i, hi, e, h3, h4⟩ := floorIndexLoop_spec (x := xs) (p := t) xs.length 0 (by omega) h0 (not_le.1 h1) (not_le.1 h2)
      have hi' : i + 1 < ys.length := by omega
      have e' : floorIndex t xs xs.length = .ok i := e
      have hne : xs[i + 1] - xs[i] ≠ 0 := (sub_pos.2 (h3.trans_le h4)).ne'
      rw [e', ok_bind, rd_ok (by omega), ok_bind, rd_ok hi, ok_bind, rd_ok (by omega), ok_bind, rd_ok hi', ok_bind, if_neg hne,
        ramps_at xs ys hs hl i hi hi' t h3.le h4]
      rfl

/-- Hyper-parameters given at nodes in increasing order are continuous functions of the site. -/
theorem ordered_continuous {h : Hyper} (ho : Ordered h) : ∃ g : ℝ → ℝ, Continuous g ∧ ∀ x, h.get (.one x) = .ok (g x) := by
  cases h with
  | const c => exact ⟨fun _ => c, continuous_const, fun _ => rfl⟩
  | line xs ys => exact ⟨ramps xs ys, ramps_continuous xs ys, fun x => interp_ramps ho.1 ho.2.1 ho.2.2 x⟩
  | plane f => exact ho.elim

theorem hyper_overlap {pr : Prior} {l r : ℝ} {dens : ℝ → ℝ → ℝ} (hc : NotCustom pr) (hd : HasDensity pr Pos.one (Set.Icc l r) dens)
    (ho : OrderedBounds pr) : ∃ a b : ℝ → ℝ, Continuous a ∧ Continuous b ∧ (∀ x ∈ Set.Icc l r, a x < b x) ∧
      ∀ x ∈ Set.Icc l r, ∀ v ∈ Set.Ioo (a x) (b x), 0 < dens x v := by
  unfold HasDensity at hd
  unfold OrderedBounds at ho
  cases hdist : pr.dist with
  | uniform vmin vmax =>
    rw [hdist] at hd ho
    obtain ⟨a, b, -, -, hab, rfl⟩ := hd
    obtain ⟨ga, hga, ea⟩ := ordered_continuous ho.1
    obtain ⟨gb, hgb, eb⟩ := ordered_continuous ho.2
    have hx : ∀ x ∈ Set.Icc l r, ga x = a x ∧ gb x = b x := fun x hx =>
      ⟨Except.ok.inj ((ea x).symm.trans (hab x hx).1), Except.ok.inj ((eb x).symm.trans (hab x hx).2.1)⟩
    refine ⟨ga, gb, hga, hgb, fun x h => ?_, fun x h v hv => ?_⟩
    · rw [(hx x h).1, (hx x h).2]
      exact (hab x h).2.2
    · rw [(hx x h).1, (hx x h).2] at hv
      change 0 < uniformPDF (a x) (b x) v
      unfold uniformPDF
      rw [if_pos ⟨hv.1.le, hv.2.le⟩]
      exact div_pos one_pos (sub_pos.2 (hab x h).2.2)
  | gaussian mean std =>
    rw [hdist] at hd
    obtain ⟨m, s, -, -, hs, rfl⟩ := hd
    exact ⟨fun _ => 0, fun _ => 1, continuous_const, continuous_const, fun _ _ => one_pos, fun x h v _ => by
      change 0 < normalPDF (m x) (s x) v
      unfold normalPDF
      refine ProbabilityTheory.gaussianPDFReal_pos _ _ _ ?_
      have := (hs x h).2.2
      simp [this.ne']⟩
  | laplace mean scale =>
    rw [hdist] at hd
    obtain ⟨m, s, -, -, hs, rfl⟩ := hd
    exact ⟨fun _ => 0, fun _ => 1, continuous_const, continuous_const, fun _ _ => one_pos, fun x h v _ => by
      change 0 < laplacePDF (m x) (s x) v
      unfold laplacePDF
      have := (hs x h).2.2
      positivity⟩
  | custom f g k => exact absurd hdist (hc f g k)

/-- On a line, the values possible at neighbouring sites overlap. -/
theorem online_overlaps {k : ℕ} {sp : Space} {prs : Fin k → Prior} {v : Vor1} {dens : Fin k → ℝ → ℝ → ℝ} {std : Fin k → ℝ → ℝ}
    (h : OnLine sp prs v dens std) (ho : ∀ j, OrderedBounds (prs j)) : Overlaps volume (Set.Icc v.vmin v.vmax) dens := by
  choose a b ha hb hab hd using fun j => hyper_overlap (h.custom j) (h.hdens j) (ho j)
  exact overlaps_line h.bounds a b (fun j => (ha j).continuousOn) (fun j => (hb j).continuousOn) hab hd

end BB.Lemmas
