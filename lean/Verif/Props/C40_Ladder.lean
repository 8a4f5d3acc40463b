import Verif.Lemmas.Samplers
import Verif.Props.C39_Temperatures

/-!
# C40: the initial temperatures of parallel tempering
-/

namespace BB.Props

open BB BB.Lemmas BB.Spec

variable {S σ E : Type}

/-- The documented number of chains with temperature 1. -/
noncomputable def unitChains (n : ℕ) (fr : ℝ) : ℕ := max 2 ⌊(n : ℝ) * fr⌋₊

theorem ladder_eq {n : ℕ} {fr tmax : ℝ} (hu : unitChains n fr ≤ n) (ht : 1 ≤ tmax) :
    ptLadder n fr tmax = .ok (List.replicate (unitChains n fr - 1) 1 ++
      (List.range (n - (unitChains n fr - 1))).map
        (fun i : ℕ => tmax ^ ((i : ℝ) / (((n - (unitChains n fr - 1) : ℕ) : ℝ) - 1)))) := by
  unfold ptLadder geomspace
  have h2 : 2 ≤ unitChains n fr := le_max_left _ _
  rw [show max 2 ⌊(n : ℝ) * fr⌋₊ = unitChains n fr from rfl]
  simp only
  rw [if_pos (by omega), if_neg (by linarith), if_neg (by linarith)]

theorem unitChains_le {n : ℕ} (hn : 2 ≤ n) {fr : ℝ} (h1 : fr ≤ 1) : unitChains n fr ≤ n := by
  refine max_le hn ?_
  have : ⌊(n : ℝ) * fr⌋₊ ≤ ⌊(n : ℝ)⌋₊ :=
    Nat.floor_mono (by nlinarith [(Nat.cast_nonneg n : (0 : ℝ) ≤ n)])
  rwa [Nat.floor_natCast] at this

theorem temps_of_init (cfg : ChainCfg S σ) (fr tmax : ℝ) (s s' : Samp S σ E) (t t' : List Draw)
    (xs : List ℝ) (hl : ptLadder s.chains.length fr tmax = .ok xs) (hlen : xs.length = s.chains.length)
    (h : ptInit cfg fr tmax s t = (.ok (), s', t')) : temps s' = xs := by
  unfold ptInit at h
  rw [hl] at h
  simp only at h
  match ha : assignTemps cfg s.chains xs with
  | .error e => rw [ha] at h; simp at h
  | .ok cs =>
    rw [ha] at h
    simp only [Prod.mk.injEq] at h
    obtain ⟨-, rfl, -⟩ := h
    obtain ⟨rfl, -⟩ := assignTemps_ok ha
    unfold temps
    simp only [List.map_zipWith, Chain.setTemp]
    apply List.ext_getElem
    · simp [hlen]
    · intro i h1 h2
      simp

theorem assignTemps_exists (cfg : ChainCfg S σ) (cs : List (Chain S σ E)) (xs : List ℝ)
    (h : cs.length ≤ xs.length) : ∃ cs', assignTemps cfg cs xs = .ok cs' := by
  induction cs generalizing xs with
  | nil => exact ⟨[], by rw [assignTemps]⟩
  | cons c cs ih =>
    cases xs with
    | nil => simp at h
    | cons x xs =>
      obtain ⟨cs', h'⟩ := ih xs (by simpa using h)
      exact ⟨c.setTemp cfg x :: cs', by rw [assignTemps, h']⟩

/-- C40, all but the last temperature: with at least two chains, a fraction of at most 1 and a maximum of
at least 1, the initialization succeeds, the temperatures lie between 1 and the maximum and ascend,
and at least `max 2 (int (n * fraction))` of them are 1.  Missing with respect to the full property: the
last temperature, see `C40_last_partial`, and the case of one chain, see `C40_false_single`. -/
theorem C40_partial (cfg : ChainCfg S σ) (fr tmax : ℝ) (h1 : fr ≤ 1) (hT : 1 ≤ tmax)
    (s : Samp S σ E) (t : List Draw) (hn : 2 ≤ s.chains.length) :
    ∃ s', ptInit cfg fr tmax s t = (.ok (), s', t) ∧ (temps s').length = s.chains.length ∧
      (∀ x ∈ temps s', 1 ≤ x ∧ x ≤ tmax) ∧ (temps s').Pairwise (· ≤ ·) ∧
      unitChains s.chains.length fr ≤ ((temps s').filter (fun x => decide (x = 1))).length := by
  classical
  set n := s.chains.length with hndef
  have hu := unitChains_le hn h1
  have h2 : 2 ≤ unitChains n fr := le_max_left _ _
  have hl := ladder_eq hu hT
  set m := n - (unitChains n fr - 1) with hm
  set g : ℕ → ℝ := fun i => tmax ^ ((i : ℝ) / ((m : ℝ) - 1)) with hg
  have hm1 : 1 ≤ m := by omega
  have hlen : (List.replicate (unitChains n fr - 1) (1 : ℝ) ++ (List.range m).map g).length = n := by
    simp; omega
  obtain ⟨cs, hcs⟩ := assignTemps_exists cfg s.chains _ (by rw [hlen])
  have hinit : ptInit cfg fr tmax s t = (.ok (), { s with chains := cs }, t) := by
    unfold ptInit
    rw [← hndef, hl]
    simp only [hcs]
  have htemps := temps_of_init cfg fr tmax s _ t t _ (by rw [← hndef]; exact hl)
    (by rw [hlen]) hinit
  refine ⟨_, hinit, ?_⟩
  rw [htemps]
  have hexp : ∀ i < m, 0 ≤ (i : ℝ) / ((m : ℝ) - 1) ∧ (i : ℝ) / ((m : ℝ) - 1) ≤ 1 := by
    intro i hi
    have hm' : (0 : ℝ) ≤ (m : ℝ) - 1 := by
      have : (1 : ℝ) ≤ m := by exact_mod_cast hm1
      linarith
    have hi' : (i : ℝ) ≤ (m : ℝ) - 1 := by
      have : i + 1 ≤ m := hi
      have : (i : ℝ) + 1 ≤ m := by exact_mod_cast this
      linarith
    exact ⟨div_nonneg (Nat.cast_nonneg _) hm', div_le_one_of_le₀ hi' hm'⟩
  have hg1 : ∀ i < m, 1 ≤ g i ∧ g i ≤ tmax := by
    intro i hi
    obtain ⟨e1, e2⟩ := hexp i hi
    refine ⟨Real.one_le_rpow hT e1, ?_⟩
    calc g i ≤ tmax ^ (1 : ℝ) := Real.rpow_le_rpow_of_exponent_le hT e2
      _ = tmax := Real.rpow_one _
  have hmono : ∀ i j, i ≤ j → g i ≤ g j := by
    intro i j hij
    have hm' : (0 : ℝ) ≤ (m : ℝ) - 1 := by
      have : (1 : ℝ) ≤ m := by exact_mod_cast hm1
      linarith
    refine Real.rpow_le_rpow_of_exponent_le hT (div_le_div_of_nonneg_right ?_ hm')
    exact_mod_cast hij
  have hg0 : g 0 = 1 := by simp [hg]
  refine ⟨hlen, ?_, ?_, ?_⟩
  · intro x hx
    rcases List.mem_append.1 hx with hx | hx
    · rw [List.eq_of_mem_replicate hx]
      exact ⟨le_rfl, hT⟩
    · obtain ⟨i, hi, rfl⟩ := List.mem_map.1 hx
      exact hg1 i (List.mem_range.1 hi)
  · rw [List.pairwise_append]
    refine ⟨List.pairwise_replicate.2 (Or.inr le_rfl), ?_, ?_⟩
    · rw [List.pairwise_map]
      exact List.pairwise_lt_range.imp (fun h => hmono _ _ h.le)
    · intro x hx y hy
      rw [List.eq_of_mem_replicate hx]
      obtain ⟨i, hi, rfl⟩ := List.mem_map.1 hy
      exact (hg1 i (List.mem_range.1 hi)).1
  · rw [List.filter_append, List.length_append, List.filter_replicate]
    have : 1 ≤ (List.filter (fun x => decide (x = 1)) ((List.range m).map g)).length := by
      apply List.length_pos_of_mem (a := (1 : ℝ))
      rw [List.mem_filter]
      exact ⟨List.mem_map.2 ⟨0, List.mem_range.2 (by omega), hg0⟩, by simp⟩
    simp only [decide_true, if_true, List.length_replicate]
    omega

/-- C40, the last temperature: it is the maximum, if there are more chains than the documented number
of those with temperature 1.  Missing with respect to the full property: the other case, in which the
claim is false, see `C40_false_last`. -/
theorem C40_last_partial (cfg : ChainCfg S σ) (fr tmax : ℝ) (hT : 1 ≤ tmax)
    (s s' : Samp S σ E) (t t' : List Draw) (hn : unitChains s.chains.length fr < s.chains.length)
    (h : ptInit cfg fr tmax s t = (.ok (), s', t')) : (temps s').getLast? = some tmax := by
  set n := s.chains.length with hndef
  have h2 : 2 ≤ unitChains n fr := le_max_left _ _
  have hl := ladder_eq hn.le hT
  set m := n - (unitChains n fr - 1) with hm
  have hlen : (List.replicate (unitChains n fr - 1) (1 : ℝ) ++
      (List.range m).map (fun i : ℕ => tmax ^ ((i : ℝ) / ((m : ℝ) - 1)))).length = n := by
    simp; omega
  rw [temps_of_init cfg fr tmax s _ t t' _ (by rw [← hndef]; exact hl) (by rw [hlen]) h]
  obtain ⟨k, hk⟩ : ∃ k, m = k + 1 + 1 := ⟨m - 2, by omega⟩
  rw [hk, List.range_succ, List.map_append, List.map_singleton, ← List.append_assoc,
    List.getLast?_append_of_ne_nil _ (by simp)]
  simp only [List.getLast?_singleton, Option.some.injEq]
  have : ((k + 1 : ℕ) : ℝ) / (((k + 1 + 1 : ℕ) : ℝ) - 1) = 1 := by
    push_cast
    rw [show (k : ℝ) + 1 + 1 - 1 = k + 1 by ring]
    exact div_self (by positivity)
  rw [this, Real.rpow_one]

/-- In that case the number of ones is exactly the documented one (for a maximum above 1). -/
theorem C40_exact (cfg : ChainCfg S σ) (fr tmax : ℝ) (hT : 1 < tmax)
    (s s' : Samp S σ E) (t t' : List Draw) (hn : unitChains s.chains.length fr < s.chains.length)
    (h : ptInit cfg fr tmax s t = (.ok (), s', t')) :
    ((temps s').filter (fun x => decide (x = 1))).length = unitChains s.chains.length fr := by
  classical
  set n := s.chains.length with hndef
  have h2 : 2 ≤ unitChains n fr := le_max_left _ _
  have hl := ladder_eq hn.le hT.le
  set m := n - (unitChains n fr - 1) with hm
  have hlen : (List.replicate (unitChains n fr - 1) (1 : ℝ) ++
      (List.range m).map (fun i : ℕ => tmax ^ ((i : ℝ) / ((m : ℝ) - 1)))).length = n := by
    simp; omega
  rw [temps_of_init cfg fr tmax s _ t t' _ (by rw [← hndef]; exact hl) (by rw [hlen]) h]
  obtain ⟨k, hk⟩ : ∃ k, m = k + 1 + 1 := ⟨m - 2, by omega⟩
  have hpos : (0 : ℝ) < (m : ℝ) - 1 := by
    rw [hk]; push_cast; linarith [(Nat.cast_nonneg k : (0 : ℝ) ≤ k)]
  rw [List.filter_append, List.length_append, List.filter_replicate, hk, List.range_succ_eq_map,
    List.map_cons, List.filter_cons, ← hk]
  have hnone : List.filter (fun x => decide (x = 1))
      (List.map (fun i : ℕ => tmax ^ ((i : ℝ) / ((m : ℝ) - 1))) (List.map Nat.succ (List.range (k + 1))))
        = [] := by
    rw [List.filter_eq_nil_iff]
    intro x hx
    simp only [List.map_map, List.mem_map, Function.comp] at hx
    obtain ⟨i, -, rfl⟩ := hx
    have : 1 < tmax ^ (((Nat.succ i : ℕ) : ℝ) / ((m : ℝ) - 1)) :=
      Real.one_lt_rpow hT (div_pos (by positivity) hpos)
    simpa using this.ne'
  rw [hnone]
  simp
  omega

/-- C40 is false for two chains (the minimum for which the sampler works), whatever the fraction up to
1: both have temperature 1. -/
theorem C40_false_last (cfg : ChainCfg S σ) (fr tmax : ℝ) (h1 : fr ≤ 1) (hT : 1 < tmax)
    (s : Samp S σ E) (t : List Draw) (hn : s.chains.length = 2) :
    ∃ s', ptInit cfg fr tmax s t = (.ok (), s', t) ∧ temps s' = [1, 1] ∧
      (temps s').getLast? ≠ some tmax := by
  classical
  have hu : unitChains 2 fr = 2 :=
    le_antisymm (unitChains_le le_rfl h1) (le_max_left _ _)
  have hl := ladder_eq (n := 2) (fr := fr) (tmax := tmax) (by omega) hT.le
  rw [hu] at hl
  obtain ⟨s', h, -⟩ := C40_partial cfg fr tmax h1 hT.le s t (by omega)
  have ht := temps_of_init cfg fr tmax s s' t t _ (by rw [hn]; exact hl) (by rw [hn]; rfl) h
  have ht' : temps s' = [1, 1] := by rw [ht]; simp
  refine ⟨s', h, ht', ?_⟩
  rw [ht']
  simpa using hT.ne

/-- C40 is false for a single chain: the initialization raises. -/
theorem C40_false_single (cfg : ChainCfg S σ) (fr tmax : ℝ) (s : Samp S σ E) (t : List Draw)
    (hn : s.chains.length ≤ 1) : ptInit cfg fr tmax s t = (.error .unboundLocalError, s, t) := by
  unfold ptInit
  have : ptLadder s.chains.length fr tmax = .error .unboundLocalError := by
    unfold ptLadder
    have : 2 ≤ max 2 ⌊((s.chains.length : ℕ) : ℝ) * fr⌋₊ := le_max_left _ _
    simp only
    rw [if_neg (by omega)]
  rw [this]

/-! ### Instances -/

/-- Five chains, of which `max 2 (int (5 * 0.4)) = 2` have temperature 1. -/
noncomputable def exSamp5 : Samp (ℤ × ℝ) (List ℤ) Unit :=
  ⟨List.replicate 5 (Chain.init (0, 1) [] 1 ()), (), 0⟩

example : unitChains 5 (2 / 5) = 2 := by norm_num [unitChains]

example : ∃ s', ptInit exCfgT (2 / 5) 16 exSamp5 [] = (.ok (), s', []) ∧
    (temps s').getLast? = some 16 ∧
    ((temps s').filter (fun x => decide (x = 1))).length = 2 := by
  have hu : unitChains exSamp5.chains.length (2 / 5) = 2 := by norm_num [unitChains, exSamp5]
  have hn : unitChains exSamp5.chains.length (2 / 5) < exSamp5.chains.length := by
    rw [hu]; norm_num [exSamp5]
  obtain ⟨s', h, -⟩ := C40_partial exCfgT (2 / 5) 16 (by norm_num) (by norm_num) exSamp5 []
    (by norm_num [exSamp5])
  exact ⟨s', h, C40_last_partial exCfgT (2 / 5) 16 (by norm_num) exSamp5 s' [] [] hn h,
    (C40_exact exCfgT (2 / 5) 16 (by norm_num) exSamp5 s' [] [] hn h).trans hu⟩

end BB.Props
