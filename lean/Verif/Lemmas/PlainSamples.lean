import Verif.Spec.PlainSamples
import Verif.Lemmas.PlainConverge
import Verif.Lemmas.Averages
import Verif.Props.C06_C07_Saving

/-!
# Plain parameter spaces: the samples of a chain
-/

namespace BB.Lemmas

open BB Spec MeasureTheory Filter Topology

variable {m : ℕ} {sps : Fin m → PlainSpace} {p : Problem} {logLik : Values sps → ℝ} {E : Type} {K : ℕ}

/-! ### the saving iterations -/

open Classical in
/-- Weight 1 for the saving iterations and 0 for the others, from iteration `i` on. -/
noncomputable def dueW (b s : ℤ) : ℕ → ℕ → List ℝ
  | _, 0 => []
  | i, n + 1 => (if Due b s i then 1 else 0) :: dueW b s (i + 1) n

theorem dueW_mem {b s : ℤ} : ∀ {n i : ℕ}, ∀ a ∈ dueW b s i n, a = 0 ∨ a = 1
  | 0, _, a, h => (List.not_mem_nil h).elim
  | n + 1, i, a, h => by
    classical
    rcases List.mem_cons.1 h with rfl | h
    · by_cases hd : Due b s i
      · right; rw [if_pos hd]
      · left; rw [if_neg hd]
    · exact dueW_mem a h

theorem dueW_length {b s : ℤ} : ∀ n i : ℕ, (dueW b s i n).length = n
  | 0, _ => rfl
  | n + 1, i => by
    change (dueW b s (i + 1) n).length + 1 = n + 1
    rw [dueW_length n (i + 1)]

theorem dueW_add {b s : ℤ} : ∀ n i k : ℕ, dueW b s i (n + k) = dueW b s i n ++ dueW b s (i + n) k
  | 0, i, k => by rw [Nat.zero_add]; rfl
  | n + 1, i, k => by
    rw [Nat.succ_add]
    change _ :: dueW b s (i + 1) (n + k) = _ :: (dueW b s (i + 1) n ++ dueW b s (i + (n + 1)) k)
    rw [dueW_add n (i + 1) k, show i + 1 + n = i + (n + 1) by ring]

theorem dueW_nonneg {b s : ℤ} (i n : ℕ) : 0 ≤ (dueW b s i n).sum := weights_sum_nonneg dueW_mem

/-- A saving iteration among the next `j + 1`. -/
theorem dueW_ge {b s : ℤ} {i j : ℕ} (h : Due b s (i + j)) : 1 ≤ (dueW b s i (j + 1)).sum := by
  classical
  rw [dueW_add j i 1, List.sum_append]
  have h1 : dueW b s (i + j) 1 = [1] := by
    change [if Due b s (i + j) then (1 : ℝ) else 0] = [1]
    rw [if_pos h]
  rw [h1]
  have := dueW_nonneg (b := b) (s := s) i j
  simp only [List.sum_singleton]
  linarith

/-- There are arbitrarily many saving iterations. -/
theorem dueW_many {b s : ℤ} (hs : s ≠ 0) : ∀ (k i : ℕ), ∃ n₀, ∀ n ≥ n₀, (k : ℝ) ≤ (dueW b s i n).sum
  | 0, i => ⟨0, fun n _ => by
    rw [Nat.cast_zero]
    exact dueW_nonneg i n⟩
  | k + 1, i => by
    obtain ⟨j, hj⟩ : ∃ j : ℕ, Due b s (i + j) := by
      -- a multiple of `s` that is large
      have hpos : 0 < |s| := abs_pos.2 hs
      set q : ℤ := |b| + i + 1
      have hq : 0 < q := by positivity
      have h1 : q ≤ |s| * q := by nlinarith
      have hb := neg_abs_le b
      refine ⟨(|s| * q + b - i).toNat, ?_⟩
      have h2 : ((i + (|s| * q + b - i).toNat : ℕ) : ℤ) = |s| * q + b := by
        push_cast
        rw [Int.toNat_of_nonneg (by omega)]
        ring
      constructor
      · rw [h2]
        have : 0 < |s| * q := by positivity
        linarith
      · rw [h2, add_sub_cancel_right]
        exact Dvd.dvd.mul_right ((dvd_abs s s).2 dvd_rfl) q
    obtain ⟨n₁, h₁⟩ := dueW_many hs k (i + (j + 1))
    refine ⟨j + 1 + n₁, fun n hn => ?_⟩
    obtain ⟨l, rfl⟩ : ∃ l, n = j + 1 + l := ⟨n - (j + 1), by omega⟩
    rw [dueW_add, List.sum_append]
    have := dueW_ge hj
    have h2 := h₁ l (by omega)
    push_cast
    linarith

/-! ### the models at the saving iterations -/

open Classical in
/-- The models that the simulation reaches at the saving iterations. -/
noncomputable def trail (sps : Fin m → PlainSpace) (K : ℕ) (ℓ : Values sps → ℝ) (hm : 0 < m) (b s : ℤ) :
    ℕ → ℕ → Values sps → List Draw → List (Values sps)
  | _, 0, _, _ => []
  | i, n + 1, x, t => (if Due b s i then [(iterV sps K ℓ hm x t).1] else []) ++
      trail sps K ℓ hm b s (i + 1) n (iterV sps K ℓ hm x t).1 (iterV sps K ℓ hm x t).2

/-- The sum of a function over the models with weight 1. -/
noncomputable def sumV (sps : Fin m → PlainSpace) (K : ℕ) (ℓ : Values sps → ℝ) (hm : 0 < m) (f : Values sps → ℝ) :
    List ℝ → Values sps × ℝ → V ℝ
  | [], z => V.ret z.2
  | a :: w, z => V.andThen (iterV sps K ℓ hm z.1) fun y => sumV sps K ℓ hm f w (y, z.2 + a * f y)

theorem trail_sum {ℓ : Values sps → ℝ} {hm : 0 < m} {b s : ℤ} (f : Values sps → ℝ) : ∀ (n i : ℕ) (x : Values sps) (r : ℝ) (t : List Draw),
    (sumV sps K ℓ hm f (dueW b s i n) (x, r) t).1 = r + ((trail sps K ℓ hm b s i n x t).map f).sum
  | 0, i, x, r, t => by
    change r = r + (([] : List (Values sps)).map f).sum
    simp
  | n + 1, i, x, r, t => by
    classical
    change (sumV sps K ℓ hm f (dueW b s (i + 1) n) ((iterV sps K ℓ hm x t).1, r + (if Due b s i then 1 else 0) * f (iterV sps K ℓ hm x t).1)
      (iterV sps K ℓ hm x t).2).1 = r + (((if Due b s i then [(iterV sps K ℓ hm x t).1] else []) ++ trail sps K ℓ hm b s (i + 1) n _ _).map f).sum
    rw [trail_sum f n, List.map_append, List.sum_append]
    by_cases hd : Due b s i
    · simp only [if_pos hd, one_mul, List.map_singleton, List.sum_singleton]
      ring
    · simp only [if_neg hd, zero_mul, List.map_nil, List.sum_nil]
      ring

theorem trail_length {ℓ : Values sps → ℝ} {hm : 0 < m} {b s : ℤ} : ∀ (n i : ℕ) (x : Values sps) (t : List Draw),
    ((trail sps K ℓ hm b s i n x t).length : ℝ) = (dueW b s i n).sum
  | 0, i, x, t => by
    change (([] : List (Values sps)).length : ℝ) = ([] : List ℝ).sum
    simp
  | n + 1, i, x, t => by
    classical
    change (((if Due b s i then [(iterV sps K ℓ hm x t).1] else []) ++ trail sps K ℓ hm b s (i + 1) n _ _).length : ℝ) =
      ((if Due b s i then (1 : ℝ) else 0) :: dueW b s (i + 1) n).sum
    rw [List.length_append, Nat.cast_add, trail_length n, List.sum_cons]
    by_cases hd : Due b s i
    · simp [if_pos hd]
    · simp [if_neg hd]

theorem sumV_meas {ℓ : Values sps → ℝ} (hm : 0 < m) (hK : K ≠ 0) (h : ∀ i, (sps i).Ok) (hℓ : Measurable ℓ) {f : Values sps → ℝ}
    (hf : Measurable f) : ∀ w, V.Meas (sumV sps K ℓ hm f w)
  | [] => V.Meas.ret measurable_snd
  | a :: w => by
    have h1 : Measurable fun z : (Values sps × ℝ) × Values sps => (z.2, z.1.2 + a * f z.2) :=
      measurable_snd.prodMk ((measurable_snd.comp measurable_fst).add ((hf.comp measurable_snd).const_mul a))
    exact V.Meas.andThen ((iterV_meas hm hK h hℓ).comp measurable_fst) ((sumV_meas hm hK h hℓ hf w).comp h1)

/-- The law of the sum. -/
theorem sumV_law {ℓ : Values sps → ℝ} (hm : 0 < m) (hK : K ≠ 0) (h : ∀ i, (sps i).Ok) (hℓ : Measurable ℓ) {f : Values sps → ℝ}
    (hf : Measurable f) {L : ℕ} (hL : ∀ i, (sps i).size + 5 ≤ L) : ∀ (w : List ℝ) (x : Values sps) (r : ℝ) {N : ℕ}, w.length * L ≤ N →
    ∀ {G : ℝ → ENNReal}, Measurable G →
    ∫⁻ t, G (sumV sps K ℓ hm f w (x, r) t).1 ∂iid K N = pathE (iid K L) (nextOf sps K ℓ hm) f G w x r
  | [], x, r, N, _, G, _ => by
    have := iid_prob hK N
    change ∫⁻ t, G r ∂iid K N = G r
    rw [lintegral_const, measure_univ, mul_one]
  | a :: w, x, r, N, hN, G, hG => by
    have h1 : Measurable fun z : Values sps => (z, r + a * f z) := measurable_id.prodMk (measurable_const.add (hf.const_mul a))
    have hH : Measurable fun z : Values sps × List Draw => G (sumV sps K ℓ hm f w (z.1, r + a * f z.1) z.2).1 := by
      have h3 : Measurable fun z : Values sps × List Draw => sumV sps K ℓ hm f w (z.1, r + a * f z.1) z.2 :=
        (sumV_meas hm hK h hℓ hf w).comp h1
      exact hG.comp (measurable_fst.comp h3)
    have ih : ∀ y M, w.length * L ≤ M → ∫⁻ t, G (sumV sps K ℓ hm f w (y, r + a * f y) t).1 ∂iid K M =
        pathE (iid K L) (nextOf sps K ℓ hm) f G w y (r + a * f y) := fun y M hM => sumV_law hm hK h hℓ hf hL w y _ hM hG
    have h2 := iterV_law hm hK h hℓ hL x (w.length * L) _ _ hH ih N (by
      rw [List.length_cons, Nat.succ_mul] at hN
      omega)
    have hm2 : Measurable fun y => pathE (iid K L) (nextOf sps K ℓ hm) f G w y (r + a * f y) := by
      have hpr := iid_prob hK (w.length * L)
      have e : (fun y => pathE (iid K L) (nextOf sps K ℓ hm) f G w y (r + a * f y)) =
          fun y => ∫⁻ t, G (sumV sps K ℓ hm f w (y, r + a * f y) t).1 ∂iid K (w.length * L) := funext fun y => (ih y _ le_rfl).symm
      rw [e]
      exact Measurable.lintegral_prod_right' hH
    refine Eq.trans h2 ?_
    exact (next_mean hm hK h hℓ hL hm2 x).symm

/-- The draws left after iterations. -/
noncomputable def restOf (sps : Fin m → PlainSpace) (K : ℕ) (ℓ : Values sps → ℝ) (hm : 0 < m) : ℕ → Values sps → List Draw → List Draw
  | 0, _, t => t
  | n + 1, x, t => restOf sps K ℓ hm n (iterV sps K ℓ hm x t).1 (iterV sps K ℓ hm x t).2

theorem sumV_rest {ℓ : Values sps → ℝ} {hm : 0 < m} {f : Values sps → ℝ} : ∀ (w : List ℝ) (x : Values sps) (r : ℝ) (t : List Draw),
    (sumV sps K ℓ hm f w (x, r) t).2 = restOf sps K ℓ hm w.length x t
  | [], _, _, _ => rfl
  | _ :: w, x, _, t => sumV_rest w (iterV sps K ℓ hm x t).1 _ (iterV sps K ℓ hm x t).2

theorem restOf_drop {ℓ : Values sps → ℝ} {hm : 0 < m} {L : ℕ} (hL : ∀ i, (sps i).size + 5 ≤ L) : ∀ (n : ℕ) (x : Values sps) (t : List Draw),
    ∃ k ≤ n * L, restOf sps K ℓ hm n x t = t.drop k
  | 0, _, t => ⟨0, Nat.zero_le _, rfl⟩
  | n + 1, x, t => by
    obtain ⟨k, hk, h1⟩ := iterV_short (K := K) (ℓ := ℓ) hm hL x t
    obtain ⟨k', hk', h2⟩ := restOf_drop hL n (iterV sps K ℓ hm x t).1 (iterV sps K ℓ hm x t).2
    refine ⟨k + k', by rw [Nat.succ_mul]; omega, ?_⟩
    change restOf sps K ℓ hm n _ _ = _
    rw [h2, h1, List.drop_drop]

/-! ### what the chain saves -/

theorem visited_result {S : Type} (ev : Event S) : Spec.visited ev = ev.result := rfl

/-- The states at the saving iterations are those of the simulation. -/
theorem advance_trail (hm : 0 < m) (h : PlainProblem p sps logLik) {b s : ℤ} (hs : s ≠ 0) {L : ℕ}
    (hL : ∀ i, (sps i).size + 5 ≤ L) : ∀ (n : ℕ) {x : Values sps} {c : Chain State Store E} {t : List Draw}, Possible sps x →
    At p sps 1 x c → (∀ d ∈ t, d.u ≠ 0) → n * L ≤ t.length →
    ∃ evs c', Chain.advance p.cfg b s Act.skip Act.skip n c t = (.ok evs, c', restOf sps K (fun x => logLik x / 1) hm n x t) ∧
      List.Forall₂ (fun st y => st.params = paramsOf sps y ∧ st.extra = [])
        (dueStates b s (c.total + 1) evs) (trail sps K (fun x => logLik x / 1) hm b s (c.total + 1) n x t)
  | 0, x, c, t, hx, hc, _, _ => ⟨[], c, rfl, List.Forall₂.nil⟩
  | n + 1, x, c, t, hx, hc, hu, ht => by
    classical
    have ht1 : ∀ i, (sps i).size + 5 ≤ t.length := fun i => le_trans (hL i) (le_trans (by
      rw [Nat.succ_mul]
      exact Nat.le_add_left _ _) ht)
    obtain ⟨ev, c1, h1, h2, h3⟩ := iteration_plain (K := K) hm h one_ne_zero hx hc (b := b) hs hu ht1
    obtain ⟨k, hk, hdrop⟩ := iterV_short (K := K) (ℓ := fun x => logLik x / 1) hm hL x t
    obtain ⟨evs, c2, h4, h5⟩ := advance_trail hm h (b := b) hs hL n h3 h2
      (t := (iterV sps K (fun x => logLik x / 1) hm x t).2)
      (fun d hd => hu d (by rw [hdrop] at hd; exact List.mem_of_mem_drop hd)) (by
        rw [hdrop, List.length_drop]
        rw [Nat.succ_mul] at ht
        omega)
    refine ⟨ev :: evs, c2, (advance_succ_ok _).2 ⟨ev, evs, c1, _, rfl, h1, h4⟩, ?_⟩
    obtain ⟨d1, d2, d3, t3, t4, b1, b2, b3, b4⟩ := (iteration_ok _).1 h1
    have e1 := ((setFlag_ok).1 b1).2.2
    have e2 : d1 = d2 := (Prod.mk.inj (Prod.mk.inj b2).2).1
    have e4 : d3 = c1 := (Prod.mk.inj (Prod.mk.inj b4).2).1
    have e3 := next_effect _ b3
    have htot : c1.total = c.total + 1 := by rw [← e4, e3.total, ← e2, e1]
    have htemp : ev.temp = 1 := by rw [e3.evTemp, ← e2, e1]; exact hc.temp
    have hcur : Spec.visited ev = c1.cur := by rw [visited_result, ← e3.cur, e4]
    rw [htot] at h5
    unfold dueStates trail
    refine List.rel_append ?_ h5
    by_cases hd : Due b s (c.total + 1)
    · rw [if_pos ⟨hd, htemp⟩, if_pos hd]
      refine List.Forall₂.cons ?_ List.Forall₂.nil
      rw [hcur]
      exact ⟨h2.params, h2.extra⟩
    · rw [if_neg (fun h => hd h.1), if_neg hd]
      exact List.Forall₂.nil

/-! ### keys -/

theorem expandVals_plain (name : String) : ∀ {k : ℕ} (g : Fin k → String × Arr),
    expandVals name (List.ofFn fun j => ((g j).1, PVal.arr (g j).2)) = List.ofFn fun j => (name ++ "." ++ (g j).1, SVal.arr (g j).2)
  | 0, g => by simp [expandVals]
  | k + 1, g => by
    rw [List.ofFn_succ, List.ofFn_succ, expandVals, expandVals_plain name fun j => g j.succ]

theorem expand_plain {s : State} {x : Values sps} (hp : s.params = paramsOf sps x) (he : s.extra = []) :
    expand s = (List.ofFn fun i => ((sps i).dimKey, SVal.int (x i).1) ::
      List.ofFn fun j => ((sps i).key j, SVal.arr (.vec (List.ofFn fun r => (x i).2 r j)))).flatten := by
  unfold expand
  rw [hp, he, List.map_nil, List.append_nil]
  unfold paramsOf
  rw [List.flatMap_def, List.map_ofFn]
  congr 2
  funext i
  simp only [Function.comp, expandTop, PlainSpace.stateOf, expandPS]
  rw [expandVals_plain _ fun j => ((sps i).prior j |>.name, Arr.vec (List.ofFn fun r => (x i).2 r j))]
  rfl

theorem distinctVals_arr : ∀ {l : List (String × PVal)}, (∀ kv ∈ l, ∃ a, kv.2 = PVal.arr a) → DistinctVals l
  | [], _ => trivial
  | (k, v) :: l, h => by
    obtain ⟨a, ha⟩ := h _ (List.mem_cons_self ..)
    simp only at ha
    subst ha
    rw [DistinctVals]
    exact distinctVals_arr fun kv hkv => h kv (List.mem_cons_of_mem _ hkv)

theorem distinct_plain (h : ∀ i, (sps i).Ok) (hk : OwnKeys p sps) {s : State} {x : Values sps} (hp : s.params = paramsOf sps x)
    (he : s.extra = []) : Distinct s := by
  constructor
  · rw [expand_plain hp he, List.map_flatten, List.map_ofFn]
    have e : (List.map (fun kv : String × SVal => kv.1)) ∘ (fun i => ((sps i).dimKey, SVal.int (x i).1) ::
        List.ofFn fun j => ((sps i).key j, SVal.arr (.vec (List.ofFn fun r => (x i).2 r j)))) =
        fun i => (sps i).dimKey :: List.ofFn (sps i).key := by
      funext i
      simp only [Function.comp, List.map_cons, List.map_ofFn]
      rfl
    rw [e]
    exact hk.distinct
  · intro name ps hps
    rw [hp] at hps
    obtain ⟨i, e⟩ := List.mem_ofFn.1 hps
    injection e with e1 e2
    injection e2 with e2
    subst e2
    unfold PlainSpace.stateOf
    rw [DistinctPS]
    constructor
    · rw [List.map_ofFn, List.nodup_cons]
      constructor
      · intro hmem
        obtain ⟨j, hj⟩ := List.mem_ofFn.1 hmem
        have h1 := ((h i).names j).2
        simp only [Function.comp] at hj
        rw [hj] at h1
        exact h1 List.infix_rfl
      · exact List.nodup_ofFn.2 (h i).distinct
    · refine distinctVals_arr fun kv hkv => ?_
      obtain ⟨j, rfl⟩ := List.mem_ofFn.1 hkv
      exact ⟨_, rfl⟩

theorem cached_plain (hk : OwnKeys p sps) (i : Fin m) (s : State) :
    cachedUnder p.saveDpred (sps i).dimKey s = [] ∧ ∀ j, cachedUnder p.saveDpred ((sps i).key j) s = [] := by
  unfold cachedUnder
  rcases hk.dpred with h | h
  · rw [h]
    simp
  · rw [(h i).1]
    refine ⟨by simp, fun j => ?_⟩
    rw [(h i).2 j]
    simp

/-- What a saved state contributes. -/
theorem contribution_plain (h : PlainProblem p sps logLik) (hk : OwnKeys p sps) {s : State} {x : Values sps} (hp : s.params = paramsOf sps x)
    (he : s.extra = []) (i : Fin m) :
    (∀ j, contribution (some (p.spaces.map fun kv => (kv.1, kv.2.info.transD))) p.saveDpred ((sps i).key j) s =
      [.arr (.vec (List.ofFn fun r => (x i).2 r j))]) ∧
    ((sps i).info.transD = true →
      contribution (some (p.spaces.map fun kv => (kv.1, kv.2.info.transD))) p.saveDpred (sps i).dimKey s = [.int (x i).1]) := by
  have hD := distinct_plain h.ok hk hp he
  have hnd : (dkeys (expand s)).Nodup := hD.1
  have hmem : ∀ kv ∈ ((sps i).dimKey, SVal.int (x i).1) ::
      List.ofFn (fun j => ((sps i).key j, SVal.arr (.vec (List.ofFn fun r => (x i).2 r j)))), kv ∈ expand s := by
    intro kv hkv
    rw [expand_plain hp he]
    exact List.mem_flatten.2 ⟨_, List.mem_ofFn.2 ⟨i, rfl⟩, hkv⟩
  constructor
  · intro j
    have hplain : Plain ((sps i).key j) := plain_dot (h.ok i).name ((h.ok i).names j).2
    have hsub : substr "n_dimensions" ((sps i).key j) = false := by
      cases hb : substr "n_dimensions" ((sps i).key j) with
      | false => rfl
      | true => exact (hplain (substr_iff.1 hb)).elim
    rw [Props.C07_contribution _ _ _ hD _ (Or.inr hsub), (cached_plain hk i s).2 j, List.append_nil,
      dget_of_mem hnd (hmem _ (List.mem_cons_of_mem _ (List.mem_ofFn.2 ⟨j, rfl⟩)))]
    rfl
  · intro htr
    have hd : dget (p.spaces.map fun kv => (kv.1, kv.2.info.transD)) (sps i).info.name = some true := by
      have hm : ((sps i).info.name, true) ∈ p.spaces.map fun kv => (kv.1, kv.2.info.transD) := by
        rw [h.spaces]
        refine List.mem_map.2 ⟨_, List.mem_ofFn.2 ⟨i, rfl⟩, ?_⟩
        rw [← htr]
        rfl
      refine dget_of_mem ?_ hm
      unfold dkeys
      rw [List.map_map, h.spaces, List.map_ofFn]
      exact List.nodup_ofFn.2 h.distinct
    have e := Props.C07_contribution_n_dimensions _ p.saveDpred s hD (sps i).info.name true hd
    have hc := (cached_plain hk i s).1
    unfold PlainSpace.dimKey at hc ⊢
    have hg := dget_of_mem hnd (hmem _ (List.mem_cons_self ..))
    unfold PlainSpace.dimKey at hg
    rw [e, hc, List.append_nil, hg]
    rfl

theorem nodup_append_key (d : Store) (k : String) (v : SVal) : (dkeys (Store.append d k v)).Nodup ↔ (dkeys d).Nodup := by
  unfold Store.append
  rw [dkeys_dset]
  split
  · exact Iff.rfl
  · rename_i hk
    rw [List.nodup_append]
    refine ⟨fun h => h.1, fun h => ⟨h, List.nodup_singleton _, fun a ha b hb e => ?_⟩⟩
    rw [List.mem_singleton] at hb
    exact hk (hb ▸ e ▸ ha)

theorem nodup_saveVars (spaces : Option (List (String × Bool))) : ∀ (l : List (String × SVal)) (d : Store),
    (dkeys (saveVars spaces l d).2).Nodup ↔ (dkeys d).Nodup
  | [], _ => Iff.rfl
  | (k, v) :: l, d => by
    rw [saveVars]
    split
    · exact Iff.rfl
    · exact nodup_saveVars spaces l d
    · exact (nodup_saveVars spaces l _).trans (nodup_append_key d k v)

theorem nodup_saveCache : ∀ (l : List (String × CVal)) (d : Store), (dkeys (saveCache l d)).Nodup ↔ (dkeys d).Nodup
  | [], _ => Iff.rfl
  | (k, v) :: l, d => by
    unfold saveCache
    split
    · cases v
      · exact (nodup_saveCache l _).trans (nodup_append_key d k _)
      · exact (nodup_saveCache l _).trans (nodup_append_key d k _)
    · exact nodup_saveCache l d

theorem nodup_saveState (spaces : Option (List (String × Bool))) (sd : Bool) (s : State) (d : Store) :
    (dkeys (saveState spaces sd s d).2).Nodup ↔ (dkeys d).Nodup := by
  have h1 := nodup_saveVars spaces s.vars d
  unfold saveState
  generalize saveVars spaces s.vars d = z at h1
  obtain ⟨r, d'⟩ := z
  cases r with
  | error e => exact h1
  | ok u =>
    cases sd
    · exact h1
    · exact (nodup_saveCache _ _).trans h1

/-- The keys of the store stay distinct. -/
theorem advance_nodup {b s : ℤ} {n : ℕ} {c c' : Chain State Store E} {t t' : List Draw} {evs : List (Event State)}
    (h : Chain.advance p.cfg b s Act.skip Act.skip n c t = (.ok evs, c', t')) (hn : (dkeys c.saved).Nodup) : (dkeys c'.saved).Nodup := by
  classical
  have h1 := Props.C06_C07_saved p.cfg (fun d : Store => if (dkeys d).Nodup then ([] : List Unit) else [()]) (fun _ => []) (fun x st st' hs => by
    have h2 := nodup_saveState (some (p.spaces.map fun kv => (kv.1, kv.2.info.transD))) p.saveDpred x st
    have h3 : saveState (some (p.spaces.map fun kv => (kv.1, kv.2.info.transD))) p.saveDpred x st = (.ok (), st') := hs
    rw [h3] at h2
    simp only [h2, List.append_nil]) b s Act.skip Act.skip Props.skip_begin Props.skip_end n c c' t t' evs h
  simp only [if_pos hn, List.nil_append] at h1
  by_contra hc
  rw [if_neg hc] at h1
  have h4 : (List.flatMap (fun _ : State => ([] : List Unit)) (dueStates b s (c.total + 1) evs)) = [] := by simp
  rw [h4] at h1
  cases h1

/-- The chain saves the models of the simulation. -/
theorem advance_saves (hm : 0 < m) (h : PlainProblem p sps logLik) (hk : OwnKeys p sps) {b s : ℤ} (hs : s ≠ 0) {L : ℕ}
    (hL : ∀ i, (sps i).size + 5 ≤ L) (n : ℕ) {x : Values sps} {c : Chain State Store E} {t : List Draw} (hx : Possible sps x)
    (hc : At p sps 1 x c) (hu : ∀ d ∈ t, d.u ≠ 0) (ht : n * L ≤ t.length) :
    ∃ evs c', Chain.advance p.cfg b s Act.skip Act.skip n c t = (.ok evs, c', restOf sps K (fun x => logLik x / 1) hm n x t) ∧
      HasModels sps c.saved c'.saved (trail sps K (fun x => logLik x / 1) hm b s (c.total + 1) n x t) ∧
      ((dkeys c.saved).Nodup → (dkeys c'.saved).Nodup) := by
  obtain ⟨evs, c', h1, h2⟩ := advance_trail (K := K) hm h (b := b) hs hL n hx hc hu ht
  refine ⟨evs, c', h1, fun i => ?_, advance_nodup h1⟩
  have key : ∀ (k : String) (v : Values sps → SVal), (∀ (st : State) (y : Values sps), st.params = paramsOf sps y → st.extra = [] →
      contribution (some (p.spaces.map fun kv => (kv.1, kv.2.info.transD))) p.saveDpred k st = [v y]) →
      savedUnder k c'.saved = savedUnder k c.saved ++ (trail sps K (fun x => logLik x / 1) hm b s (c.total + 1) n x t).map v := by
    intro k v hv
    rw [Props.C07_saved_values p.kind p.tf p.perturbs p.weights _ p.saveDpred b s Act.skip Act.skip Props.skip_begin Props.skip_end n c c' t _ evs h1 k]
    congr 1
    clear h1
    generalize dueStates b s (c.total + 1) evs = ds at h2
    generalize trail sps K (fun x => logLik x / 1) hm b s (c.total + 1) n x t = ys at h2
    induction h2 with
    | nil => rfl
    | cons hy _ ih =>
      rw [List.flatMap_cons, List.map_cons, ih, hv _ _ hy.1 hy.2]
      rfl
  exact ⟨fun j => key _ _ fun st y hy he => (contribution_plain h hk hy he i).1 j,
    fun htr => key _ _ fun st y hy he => (contribution_plain h hk hy he i).2 htr⟩

end BB.Lemmas
