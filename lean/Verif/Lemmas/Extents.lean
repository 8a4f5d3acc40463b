import Verif.Lemmas.Interp

/-! Loop lemmas for cell extents and depth profiles. -/

set_option linter.unusedSectionVars false

namespace BB.Utils1d

open BB.Spec BB.Tessellation

variable {K : Type} [Field K] [LinearOrder K] [IsStrictOrderedRing K]

/-! ### midpoints, differences, partial sums -/

theorem midpoints_length : ∀ x : List K, (midpoints x).length = x.length - 1
  | [] => rfl
  | [_] => rfl
  | a :: b :: rest => by
    have := midpoints_length (b :: rest)
    simp only [midpoints, List.length_cons] at *
    omega

theorem midpoints_get : ∀ (x : List K) (k : ℕ) (h : k + 1 < x.length),
    (midpoints x)[k]'(by rw [midpoints_length]; omega) = (x[k] + x[k + 1]) / 2
  | [], k, h => by simp at h
  | [_], k, h => by simp at h
  | a :: b :: rest, 0, h => by simp [midpoints]
  | a :: b :: rest, k + 1, h => by
    have := midpoints_get (b :: rest) k (by simpa using h)
    simpa [midpoints] using this

theorem differences_length : ∀ x : List K, (differences x).length = x.length - 1
  | [] => rfl
  | [_] => rfl
  | a :: b :: rest => by
    have := differences_length (b :: rest)
    simp only [differences, List.length_cons] at *
    omega

theorem differences_snoc : ∀ (d : K) (l : List K) (u : K),
    differences (d :: l ++ [u]) = differences (d :: l) ++ [u - l.getLastD d]
  | d, [], u => by simp [differences]
  | d, a :: l, u => by
    have := differences_snoc a l u
    simp only [List.cons_append, differences] at *
    rw [this, List.getLastD_cons]

/-- Sum of the first `k` entries. -/
def psum (x : List K) (k : ℕ) : K := (x.take k).sum

theorem psum_zero (x : List K) : psum x 0 = 0 := by simp [psum]

theorem psum_succ (x : List K) (k : ℕ) (h : k < x.length) : psum x (k + 1) = psum x k + x[k] := by
  rw [psum, psum, List.take_succ_eq_append_getElem h, List.sum_append]
  simp

theorem psum_append_left (x y : List K) (k : ℕ) (h : k ≤ x.length) :
    psum (x ++ y) k = psum x k := by
  simp [psum, List.take_append_of_le_length h]

theorem psum_differences : ∀ (d : K) (l : List K) (k : ℕ) (h : k < l.length),
    psum (differences (d :: l)) (k + 1) = l[k] - d
  | d, [], k, h => by simp at h
  | d, a :: l, 0, h => by simp [psum, differences]
  | d, a :: l, k + 1, h => by
    have := psum_differences a l k (by simpa using h)
    simp only [psum, differences, List.take_succ_cons, List.sum_cons] at *
    rw [this]
    simp

theorem sum_differences : ∀ (d : K) (l : List K),
    (differences (d :: l)).sum = l.getLastD d - d
  | d, [] => by simp [differences]
  | d, a :: l => by
    have := sum_differences a l
    simp only [differences, List.sum_cons, this, List.getLastD_cons]
    ring

theorem differences_nonneg : ∀ (l : List K), Ascending l → ∀ e ∈ differences l, 0 ≤ e
  | [], _ => by simp [differences]
  | [_], _ => by simp [differences]
  | a :: b :: rest, h => by
    intro e he
    simp only [differences, List.mem_cons] at he
    have h' := List.pairwise_cons.mp h
    rcases he with rfl | he
    · have := h'.1 b (by simp)
      linarith
    · exact differences_nonneg (b :: rest) h'.2 e he

theorem cumsumFrom_eq : ∀ (x : List K) (acc : K),
    cumsumFrom acc x = (List.range x.length).map (fun j => acc + psum x (j + 1))
  | [], acc => by simp [cumsumFrom]
  | a :: x, acc => by
    rw [cumsumFrom, cumsumFrom_eq x (acc + a)]
    simp only [List.length_cons, List.range_succ_eq_map, List.map_cons, List.map_map]
    congr 1
    · simp [psum]
    · apply List.map_congr_left
      intro j _
      simp [psum, add_assoc]

/-- The interfaces above the half space. -/
theorem cumsum_dropLast (x : List K) (l : K) :
    (cumsum x).dropLast.map (· + l)
      = (List.range (x.length - 1)).map (fun j => psum x (j + 1) + l) := by
  rw [cumsum, cumsumFrom_eq]
  cases hx : x.length with
  | zero => simp
  | succ n => simp [List.range_succ]

theorem midpoints_eq_map (x : List K) :
    midpoints x = (List.range (x.length - 1)).map
      (fun j => if h : j + 1 < x.length then (x[j] + x[j + 1]) / 2 else 0) := by
  apply List.ext_getElem
  · simp [midpoints_length]
  · intro k h1 h2
    rw [midpoints_length] at h1
    rw [midpoints_get x k (by omega)]
    have : k + 1 < x.length := by omega
    simp [this]

theorem midpoints_asc {x : List K} (h : Ascending x) : Ascending (midpoints x) := by
  rw [Ascending, List.pairwise_iff_getElem]
  intro i j hi hj hij
  rw [midpoints_length] at hi hj
  rw [midpoints_get x i (by omega), midpoints_get x j (by omega)]
  have h1 := asc_get h (i := i) (j := j) (by omega) (by omega) hij.le
  have h2 := asc_get h (i := i + 1) (j := j + 1) (by omega) (by omega) (by omega)
  linarith

/-! ### cell extents -/

theorem set_append_singleton {α : Type} (p : List α) (z v : α) :
    (p ++ [z]).set p.length v = p ++ [v] := by simp


theorem extentsLoop_spec (sites : List K) :
    ∀ (n k : ℕ) (i : Option ℕ) (d1 : K) (d2 : Option K) (p : List K), p.length = k →
      k + n + 1 = sites.length →
      extentsLoop sites n k ⟨i, d1, d2, p ++ List.replicate (n + 1) 0⟩ =
        .ok ⟨if n = 0 then i else some (k + n - 1), ((midpoints sites).drop k).getLastD d1,
          if n = 0 then d2 else some (((midpoints sites).drop k).getLastD d1),
          p ++ differences (d1 :: (midpoints sites).drop k) ++ [0]⟩ := by
  intro n
  induction n with
  | zero =>
    intro k i d1 d2 p hp hk
    have : (midpoints sites).drop k = [] :=
      List.drop_eq_nil_of_le (by rw [midpoints_length]; omega)
    simp [extentsLoop, this, differences]
  | succ n ih =>
    intro k i d1 d2 p hp hk
    have hk0 : k < sites.length := by omega
    have hk1 : k + 1 < sites.length := by omega
    rw [extentsLoop, rd_ok hk0, ok_bind, rd_ok hk1, ok_bind]
    simp only
    rw [wr_ok _ (by simp [hp]), ok_bind, set_append_replicate hp,
      ih (k + 1) _ _ _ (p ++ [_]) (by simp [hp]) (by omega)]
    have hm : k < (midpoints sites).length := by rw [midpoints_length]; omega
    have hd : (midpoints sites).drop k
        = (sites[k] + sites[k + 1]) / 2 :: (midpoints sites).drop (k + 1) := by
      rw [List.drop_eq_getElem_cons hm, midpoints_get sites k hk1]
    rw [hd]
    rcases Nat.eq_zero_or_pos n with rfl | hn
    · have : (midpoints sites).drop (k + 1) = [] :=
        List.drop_eq_nil_of_le (by rw [midpoints_length]; omega)
      simp [this, differences]
    · have hn0 : n ≠ 0 := by omega
      have e1 : k + 1 + n - 1 = k + (n + 1) - 1 := by omega
      have e2 : (n + 1 = 0) = False := by simp
      simp only [hn0, e1, e2, if_false, differences, List.getLastD_cons]
      simp

/-- Closed form of `compute_voronoi1d_cell_extents`. -/
theorem cellExtents_spec (sites : List K) (lb ub : Option K) (fill : K) :
    cellExtents sites lb ub fill =
      if (if lb.isSome then 2 else 3) ≤ sites.length then
        .ok ((if lb.isSome then [] else [fill])
          ++ differences (lb.toList ++ midpoints sites ++ ub.toList)
          ++ (if ub.isSome then [] else [fill]))
      else .error .undefinedBehaviour := by
  unfold cellExtents
  by_cases h0 : sites.length = 0
  · have : ¬ ((if lb.isSome then 2 else 3) ≤ sites.length) := by split <;> omega
    simp only [h0, if_true]
    rw [← h0, if_neg this]; rfl
  · rcases lb with _ | l
    · -- unbounded below
      by_cases h1 : sites.length = 1
      · have hr : (List.replicate sites.length (0 : K)) = [0] := by rw [h1]; rfl
        have e1 : rd sites 1 = .error .undefinedBehaviour := rd_err (by omega)
        simp [h1, e1, wr, rd_ok (show 0 < sites.length by omega)]
      · have h2 : 1 < sites.length := by omega
        have hr : List.replicate sites.length (0 : K)
            = 0 :: List.replicate (sites.length - 2 + 1) 0 := by
          obtain ⟨m, hm⟩ : ∃ m, sites.length = m + 2 := ⟨sites.length - 2, by omega⟩
          rw [hm]; rfl
        have hset : wr (List.replicate sites.length (0 : K)) 0 fill
            = .ok ([fill] ++ List.replicate (sites.length - 2 + 1) 0) := by
          rw [wr_ok _ (by simp; omega), hr]; rfl
        have hl := extentsLoop_spec sites (sites.length - 2) 1 none ((sites[0] + sites[1]) / 2)
          none [fill] rfl (by omega)
        have hs1 : sites.length - 1 - 1 = sites.length - 2 := by omega
        simp only [if_neg h0, hset, ok_bind, rd_ok (show 0 < sites.length by omega), rd_ok h2, hs1,
          pure_bind]
        rw [hl]
        by_cases h3 : sites.length = 2
        · simp [h3, rdVar]
        · have hn0 : sites.length - 2 ≠ 0 := by omega
          have hmid : midpoints sites
              = (sites[0] + sites[1]) / 2 :: (midpoints sites).drop 1 := by
            have hm : 0 < (midpoints sites).length := by rw [midpoints_length]; omega
            have := List.drop_eq_getElem_cons hm
            rw [midpoints_get sites 0 h2] at this
            simpa using this
          set M := (midpoints sites).drop 1 with hM
          have hge : 3 ≤ sites.length := by omega
          have hlen : (differences ((sites[0] + sites[1]) / 2 :: M)).length = sites.length - 2 := by
            rw [differences_length]; simp [hM, midpoints_length]; omega
          rcases ub with _ | u
          · simp only [ok_bind, hn0, if_false, rdVar]
            rw [hmid]
            have hidx : 1 + (sites.length - 2) - 1 + 1
              = ([fill] ++ differences ((sites[0] + sites[1]) / 2 :: M)).length := by
              simp [hlen]
            rw [wr_ok _ (by simp [hlen]), hidx,
              set_append_singleton]
            simp [hge]
          · simp only [ok_bind, hn0, if_false, rdVar]
            rw [hmid]
            have hidx : 1 + (sites.length - 2) - 1 + 1
              = ([fill] ++ differences ((sites[0] + sites[1]) / 2 :: M)).length := by
              simp [hlen]
            rw [wr_ok _ (by simp [hlen]), hidx,
              set_append_singleton]
            have := differences_snoc ((sites[0] + sites[1]) / 2) M u
            simp [hge] at this ⊢
            rw [this]
    · -- bounded below
      have hr : List.replicate sites.length (0 : K)
          = [] ++ List.replicate (sites.length - 1 + 1) 0 := by
        rw [List.nil_append]; congr 1; omega
      have hl := extentsLoop_spec sites (sites.length - 1) 0 none l none [] rfl (by omega)
      simp only [if_neg h0, hr, pure_bind, Nat.sub_zero]
      rw [hl]
      by_cases h1 : sites.length = 1
      · simp [h1, rdVar]
      · have hn0 : sites.length - 1 ≠ 0 := by omega
        have hge : 2 ≤ sites.length := by omega
        have hlen : (differences (l :: midpoints sites)).length = sites.length - 1 := by
          rw [differences_length]; simp [midpoints_length]
        have hidx : 0 + (sites.length - 1) - 1 + 1
            = ([] ++ differences (l :: midpoints sites)).length := by simp [hlen]; omega
        rcases ub with _ | u
        · simp only [ok_bind, hn0, if_false, rdVar, List.drop_zero]
          rw [wr_ok _ (by simp [hlen]; omega), hidx, set_append_singleton]
          simp [hge]
        · simp only [ok_bind, hn0, if_false, rdVar, List.drop_zero]
          rw [wr_ok _ (by simp [hlen]; omega), hidx, set_append_singleton]
          have := differences_snoc l (midpoints sites) u
          simp [hge] at this ⊢
          rw [this]

/-! ### depth profile -/

/-- What the `while True` loop of `interpolate_depth_profile` finds. -/
theorem depthWhile_spec (x y : List K) (xi : K) :
    ∀ (fuel k : ℕ), k < x.length → x.length < k + fuel → psum x k ≤ xi →
      ∃ r, k ≤ r ∧ r < x.length ∧ psum x r ≤ xi ∧ (r + 1 < x.length → xi < psum x (r + 1)) ∧
        depthWhile x y xi fuel ⟨k, psum x k, psum x (k + 1)⟩
          = (rd y r >>= fun v => .ok (v, ⟨r, psum x r, psum x (r + 1)⟩)) := by
  intro fuel
  induction fuel with
  | zero => intro k h1 h2; omega
  | succ fuel ih =>
    intro k hk hf hle
    rw [depthWhile]
    by_cases hc : (psum x k ≤ xi ∧ xi < psum x (k + 1)) ∨ k + 1 ≥ x.length
    · refine ⟨k, le_refl _, hk, hle, fun h => ?_, ?_⟩
      · rcases hc with hc | hc
        · exact hc.2
        · omega
      · simp only [hc, if_true]; rfl
    · push Not at hc
      have hk1 : k + 1 < x.length := hc.2
      have hge : psum x (k + 1) ≤ xi := hc.1 hle
      obtain ⟨r, h1, h2, h3, h4, h5⟩ := ih (k + 1) hk1 (by omega) hge
      refine ⟨r, by omega, h2, h3, h4, ?_⟩
      have hneg : ¬ ((psum x k ≤ xi ∧ xi < psum x (k + 1)) ∨ k + 1 ≥ x.length) := by
        push Not; exact hc
      rw [if_neg (by simpa using hneg)]
      simp only [rd_ok hk1, ok_bind]
      rw [← psum_succ x (k + 1) hk1]
      exact h5

/-- Layer of a query with respect to partial sums of thicknesses. -/
def IsLayer (x : List K) (p : K) (r : ℕ) : Prop :=
  r < x.length ∧ psum x r ≤ p ∧ (r + 1 < x.length → p < psum x (r + 1))

theorem depthLoop_spec (x y : List K) :
    ∀ (q : List K) (k : ℕ), k < x.length → (∀ p ∈ q, psum x k ≤ p) → Ascending q →
      ∃ rs : List ℕ, List.Forall₂ (fun p r => IsLayer x p r) q rs ∧
        depthLoop x y q ⟨k, psum x k, psum x (k + 1)⟩ = rs.mapM (fun r => rd y r) := by
  intro q
  induction q with
  | nil => intro k _ _ _; exact ⟨[], List.Forall₂.nil, rfl⟩
  | cons p q ih =>
    intro k hk hle hs
    obtain ⟨r, h1, h2, h3, h4, h5⟩ := depthWhile_spec x y p (x.length + 1) k hk (by omega)
      (hle p (by simp))
    have hs' := List.pairwise_cons.mp hs
    obtain ⟨rs, hrs, hl⟩ := ih r h2 (fun p' hp' => h3.trans (hs'.1 p' hp')) hs'.2
    refine ⟨r :: rs, List.Forall₂.cons ⟨h2, h3, h4⟩ hrs, ?_⟩
    rw [depthLoop, h5]
    cases hr : rd y r with
    | error e => simp [hr]
    | ok v => simp [hr, hl]

end BB.Utils1d
