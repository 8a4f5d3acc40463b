import Verif.Lemmas.Cache
import Mathlib.Tactic.NormNum

/-!
# C27-C31: the Gaussian likelihood of targets
-/

namespace BB.Props

open BB BB.Spec BB.Utils1d BB.Lemmas Matrix

/-! ### C28 -/

/-- C28 (full statement: for every `n`).  For `n ≥ 3`, `inverse_covariance(std, r, n)` returns the
inverse of the matrix `std² r^|i-j|`.  Missing: `n = 1, 2`, where the code has undefined behaviour
(`C28_small_n_undefined`). -/
theorem C28_inverse_covariance_partial (σ r : ℝ) (n : ℕ) (hn : 3 ≤ n) (hσ : σ ≠ 0) (hr : |r| < 1) :
    ∃ m : Mat ℝ, inverseCovariance σ r n = .ok m ∧ m.n = n ∧
      (Matrix.of fun i j : Fin n => m.f i j) = (expCov σ r n)⁻¹ ∧
      (Matrix.of fun i j : Fin n => m.f i j) * expCov σ r n = 1 := by
  have hr2 : 1 - r ^ 2 ≠ 0 := by
    have := (sq_lt_one_iff_abs_lt_one r).2 hr
    linarith
  have hne := mul_ne_zero (pow_ne_zero 2 hσ) hr2
  obtain ⟨m, hm, hmn, hmf⟩ := inverseCovariance_ok σ r n hn hne
  have he : (Matrix.of fun i j : Fin n => m.f i j)
      = Matrix.of fun i j : Fin n => tri r (1 / (σ ^ 2 * (1 - r ^ 2))) n i j := by
    ext i j
    exact hmf _ _ i.isLt j.isLt
  have h1 := tri_mul_expCov σ r n (by omega) hne
  rw [← he] at h1
  exact ⟨m, hm, hmn, (Matrix.inv_eq_left_inv h1).symm, h1⟩

example : (3 : ℕ) ≤ 3 ∧ (2 : ℝ) ≠ 0 ∧ |(1 / 2 : ℝ)| < 1 := by
  refine ⟨le_rfl, by norm_num, ?_⟩
  rw [abs_of_pos] <;> norm_num

/-- C28, the missing part: for fewer than three data the Cython code reads a loop variable that has
never been assigned. -/
theorem C28_small_n_undefined (σ r : ℝ) (n : ℕ) (hn : n ≤ 2) (hσ : σ ≠ 0) (hr : |r| < 1) :
    inverseCovariance σ r n = .error .undefinedBehaviour := by
  have hr2 : 1 - r ^ 2 ≠ 0 := by
    have := (sq_lt_one_iff_abs_lt_one r).2 hr
    linarith
  exact inverseCovariance_ub σ r n hn (mul_ne_zero (pow_ne_zero 2 hσ) hr2)

/-- C28: what the quantifier excludes really has to be excluded: a perfectly correlated or
noise-free covariance makes the code divide by zero. -/
theorem C28_degenerate (σ r : ℝ) (n : ℕ) (h : σ = 0 ∨ r ^ 2 = 1) :
    inverseCovariance σ r n = .error .nonFinite := by
  have : σ ^ 2 * (1 - r ^ 2) = 0 := by
    rcases h with h | h
    · simp [h]
    · simp [h]
  unfold inverseCovariance
  rw [if_pos this]
  rfl

/-! ### C29 -/

/-- C29: for a target with inferred noise, `log_determinant_covariance` is the logarithm of the
determinant of the data covariance. -/
theorem C29_log_determinant (t : Target) (p : Params) (noise : Noise) (hc : t.covInv = none)
    (hN : dget p t.name = some (.noise noise)) (hσ : 0 < noise.std)
    (hr : ∀ r, noise.corr = some r → |r| < 1) (hn : t.dobs ≠ []) :
    t.logDet p = .ok (Real.log (dataCov t noise).det) :=
  logDet_ok t p noise hc (fun _ => hN) hσ hr hn

/-- C29: the determinant itself in closed form, as documented: `σ^(2n) (1-r²)^(n-1)`. -/
theorem C29_determinant (σ r : ℝ) (n : ℕ) (hn : n ≠ 0) :
    (expCov σ r n).det = σ ^ (2 * n) * (1 - r ^ 2) ^ (n - 1) :=
  det_expCov σ r n hn

/-- C29: outside of `σ > 0`, `r² < 1` the call raises instead of returning a wrong number. -/
theorem C29_domain (t : Target) (p : Params) (noise : Noise)
    (hN : dget p t.name = some (.noise noise))
    (h : noise.std ≤ 0 ∨ 1 ≤ (noise.corr.getD 0) ^ 2) :
    t.logDet p = .error .valueError := by
  have hg : getNoise p t.name = .ok noise := by simp [getNoise, hN]
  unfold Target.logDet
  rw [hg, ok_bind]
  simp only [pyLog]
  by_cases h1 : 0 < noise.std
  · have h2 : ¬ 0 < 1 - (noise.corr.getD 0) ^ 2 := by
      rcases h with h | h <;> linarith
    simp only [if_pos h1, ok_bind, if_neg h2]
    rfl
  · simp only [if_neg h1]
    rfl

/-- A correlated target with three data. -/
def exTarget : Target :=
  { name := "d", dobs := [1, 2, 4], correlated := true }

/-- Its noise parameters in some state. -/
noncomputable def exParams : Params := [("d", .noise ⟨2, some (1 / 2)⟩)]

example : exTarget.logDet exParams
    = .ok (Real.log (expCov 2 (1 / 2) 3).det) := by
  refine C29_log_determinant exTarget exParams ⟨2, some (1 / 2)⟩ rfl rfl ?_ ?_ ?_
  · norm_num
  · intro r hr
    simp only [Option.some.injEq] at hr
    subst hr
    rw [abs_of_pos] <;> norm_num
  · simp [exTarget]

/-! ### C30 -/

/-- C30: the misfit term of a target is defined, non-negative, and zero exactly when the predicted
data equal the observed data. -/
theorem C30_misfit (t : Target) (p : Params) (noise : Noise) (hN : NoiseOf p t noise)
    (hA : Admissible t noise) (dpred : List ℝ) (hl : dpred.length = t.dobs.length) :
    ∃ q, t.misfit p dpred = .ok q ∧ 0 ≤ q ∧ (q = 0 ↔ dpred = t.dobs) := by
  refine ⟨_, misfit_ok t p noise hN hA dpred hl, ?_, ?_⟩
  · have := (posDef_dataCov t noise hA).inv.posSemidef.dotProduct_mulVec_nonneg
      (vecOf t.dobs.length dpred - vecOf t.dobs.length t.dobs)
    simpa using this
  · constructor
    · intro h
      by_contra hne
      have hx : vecOf t.dobs.length dpred - vecOf t.dobs.length t.dobs ≠ 0 := by
        intro h0
        apply hne
        have h1 : vecOf t.dobs.length dpred = vecOf t.dobs.length t.dobs := sub_eq_zero.1 h0
        rw [← ofFn_vecOf hl, h1, ofFn_vecOf rfl]
      have := (posDef_dataCov t noise hA).inv.dotProduct_mulVec_pos hx
      simp only [star_trivial] at this
      exact absurd h this.ne'
    · rintro rfl
      simp

example : ∃ q, exTarget.misfit exParams [1, 1, 1] = .ok q ∧ 0 < q := by
  have hA : Admissible exTarget ⟨2, some (1 / 2)⟩ := by
    simp only [Admissible, exTarget]
    refine ⟨by norm_num, ?_⟩
    intro r hr
    simp only [Option.some.injEq] at hr
    subst hr
    refine ⟨?_, by simp⟩
    rw [abs_of_pos] <;> norm_num
  obtain ⟨q, h1, h2, h3⟩ := C30_misfit exTarget exParams _ (fun _ => rfl) hA [1, 1, 1] (by
    simp [exTarget])
  refine ⟨q, h1, lt_of_le_of_ne h2 ?_⟩
  intro h
  have := h3.1 h.symm
  simp [exTarget] at this

/-- C30: predictions of the wrong size (neither equal nor broadcastable) are rejected. -/
theorem C30_wrong_size (t : Target) (p : Params) (dpred : List ℝ)
    (hl : dpred.length ≠ t.dobs.length) (h1 : dpred.length ≠ 1) (h2 : t.dobs.length ≠ 1) :
    t.misfit p dpred = .error .valueError := by
  unfold Target.misfit bcast
  rw [if_neg hl]
  split
  · simp at h1
  · rename_i h; rw [h] at h2; simp at h2
  · rfl

/-- C30: a state without noise parameters of a target of unknown noise raises `AttributeError`. -/
theorem C30_missing_noise (t : Target) (p : Params) (dpred : List ℝ) (hl : dpred.length = t.dobs.length)
    (ht : t.covInv = none) (hp : ∀ d, dget p t.name ≠ some (.noise d)) :
    t.misfit p dpred = .error .attributeError ∧ t.logDet p = .error .attributeError := by
  have hg : getNoise p t.name = .error .attributeError := by
    unfold getNoise
    split
    · next d h => exact absurd h (hp d)
    · rfl
  constructor
  · unfold Target.misfit bcast
    rw [if_pos hl]
    simp only [Target.invCovTimes, ht, hg]
    rfl
  · simp only [Target.logDet, hg]
    rfl

/-- A state with nothing but a parameter space. -/
example : Target.misfit { name := "a", dobs := [1] } [("space", .ps (.mk 0 [] none))] [2] = .error .attributeError :=
  (C30_missing_noise { name := "a", dobs := [1] } _ [2] rfl rfl (by simp [dget])).1

/-! ### C27 -/

theorem fresh_step_ok {p : Params} {x : Target × Fwd} (h : Evaluable p x) (m l : ℝ) :
    freshStep p (m, l) x = .ok
      (m + (vecOf _ ((x.2 p).getD []) - vecOf _ x.1.dobs) ⬝ᵥ
          ((dataCov x.1 (noiseIn p x.1))⁻¹ *ᵥ (vecOf _ ((x.2 p).getD []) - vecOf _ x.1.dobs)),
        l + if x.1.hierarchical then Real.log (dataCov x.1 (noiseIn p x.1)).det else 0) := by
  obtain ⟨⟨d, hd, hl⟩, hne, hN, hA⟩ := h
  unfold freshStep
  simp only [hd, Option.elim, ok_bind, Option.getD]
  rw [misfit_ok _ _ _ hN hA d hl, ok_bind]
  by_cases hh : x.1.hierarchical
  · have hc : x.1.covInv = none := by simpa [Target.hierarchical] using hh
    have hA' : 0 < (noiseIn p x.1).std ∧ ∀ r, (noiseIn p x.1).corr = some r →
        |r| < 1 ∧ 3 ≤ x.1.dobs.length := by
      simpa [Admissible, hc] using hA
    rw [if_pos hh, if_pos hh,
      logDet_ok x.1 p _ hc hN hA'.1 (fun r hr => (hA'.2 r hr).1) hne, ok_bind]
    rfl
  · rw [if_neg hh, if_neg hh]
    rfl

/-- Part of the log density of a target that does not depend on the state. -/
noncomputable def constPart (x : Target × Fwd) : ℝ :=
  -(x.1.dobs.length / 2) * Real.log (2 * Real.pi) -
    (if x.1.hierarchical then 0 else Real.log (dataCov x.1 ⟨1, none⟩).det) / 2

theorem foldlM_fresh (p : Params) (tf : List (Target × Fwd)) (h : ∀ x ∈ tf, Evaluable p x) :
    ∀ m l : ℝ, ∃ m' l', tf.foldlM (freshStep p) (m, l) = .ok (m', l') ∧
      logLik tf p = (tf.map constPart).sum - ((l' - l) + (m' - m)) / 2 := by
  induction tf with
  | nil => intro m l; exact ⟨m, l, rfl, by simp [logLik]⟩
  | cons x tf ih =>
    intro m l
    rw [List.foldlM_cons, fresh_step_ok (h x (by simp)), ok_bind]
    obtain ⟨m', l', h1, h2⟩ := ih (fun y hy => h y (List.mem_cons_of_mem _ hy)) _ _
    refine ⟨m', l', h1, ?_⟩
    simp only [logLik, List.map_cons, List.sum_cons] at h2 ⊢
    rw [h2]
    have hconst : Real.log (dataCov x.1 (noiseIn p x.1)).det
        = (if x.1.hierarchical then Real.log (dataCov x.1 (noiseIn p x.1)).det else 0)
          + (if x.1.hierarchical then 0 else Real.log (dataCov x.1 ⟨1, none⟩).det) := by
      by_cases hh : x.1.hierarchical
      · simp [hh]
      · have hc : x.1.covInv ≠ none := by simpa [Target.hierarchical] using hh
        simp only [hh]
        have : dataCov x.1 (noiseIn p x.1) = dataCov x.1 ⟨1, none⟩ := by
          unfold dataCov
          match hv : x.1.covInv with
          | some (.scalar c) => rfl
          | some (.vec w) => rfl
          | some (.mat w) => rfl
          | none => exact absurd hv hc
        simp [this]
    simp only [targetLogLik, normalLogDensity, constPart]
    linear_combination (-1 / 2) * hconst

/-- C27: with targets and forward functions, the log likelihood ratio is the difference of the
multivariate normal log densities of the observed data at the two states, summed over the targets
and divided by the temperature - whatever is cached, as long as it is coherent (C32). -/
theorem C27_gaussian_ratio (tf : List (Target × Fwd)) (old new : State) (T : ℝ) (hT : T ≠ 0)
    (hnd : (tf.map (·.1.name)).Nodup) (ho : Coherent tf old) (hn : Coherent tf new)
    (heo : ∀ x ∈ tf, Evaluable old.params x) (hen : ∀ x ∈ tf, Evaluable new.params x) :
    (logLikelihoodRatio .targets tf old new T).1
      = .ok (.fin ((logLik tf new.params - logLik tf old.params) / T)) := by
  obtain ⟨mo, lo, ho1, ho2⟩ := foldlM_fresh old.params tf heo 0 0
  obtain ⟨mn, ln, hn1, hn2⟩ := foldlM_fresh new.params tf hen 0 0
  have ho3 := (getMisfitAndDet_coh tf old hnd ho).1
  have hn3 := (getMisfitAndDet_coh tf new hnd hn).1
  rw [freshEval_eq, ho1] at ho3
  rw [freshEval_eq, hn1] at hn3
  unfold logLikelihoodRatio ratioFromTargets
  match h1 : getMisfitAndDet tf old with
  | (r1, o', c1) =>
    rw [h1] at ho3
    simp only at ho3
    subst ho3
    match h2 : getMisfitAndDet tf new with
    | (r2, n', c2) =>
      rw [h2] at hn3
      simp only at hn3
      subst hn3
      simp only [ok_bind, pyDiv, if_neg hT, PyF.divFin]
      congr 2
      rw [ho2, hn2]
      ring

/-- A forward function. -/
def exFwd : Fwd := fun _ => some [1, 1, 1]

/-- The hypotheses of `C27_gaussian_ratio` are met by a target with inferred correlated noise. -/
theorem exEvaluable : Evaluable exParams (exTarget, exFwd) := by
  refine ⟨⟨[1, 1, 1], rfl, rfl⟩, by simp [exTarget], fun _ => rfl, ?_⟩
  simp only [Admissible, exTarget]
  have : (noiseIn exParams { name := "d", dobs := [1, 2, 4], correlated := true })
    = ⟨2, some (1 / 2)⟩ := rfl
  rw [this]
  refine ⟨by norm_num, ?_⟩
  intro r hr
  simp only [Option.some.injEq] at hr
  subst hr
  refine ⟨?_, by simp⟩
  rw [abs_of_pos] <;> norm_num

example (new : State) (h : new.cache = []) (hp : new.params = exParams) :
    (logLikelihoodRatio .targets [(exTarget, exFwd)] ⟨exParams, 1, [], []⟩ new 2).1
      = .ok (.fin ((logLik [(exTarget, exFwd)] new.params
          - logLik [(exTarget, exFwd)] exParams) / 2)) := by
  apply C27_gaussian_ratio
  · norm_num
  · simp
  · intro x _ v hv; simp at hv
  · intro x _ v hv; simp [h] at hv
  · intro x hx; simp at hx; subst hx; exact exEvaluable
  · intro x hx; simp at hx; subst hx; rw [hp]; exact exEvaluable

/-! ### C31 -/

/-- C31 (targets): after the ratio of two states has been computed, the ratio in the other
direction is its opposite - and costs no forward call. -/
theorem C31_antisymmetric_targets (tf : List (Target × Fwd)) (a b a' b' : State) (x : ℝ)
    (ca cb : List String) (h : ratioFromTargets tf a b = (.ok x, (a', ca), (b', cb))) :
    ratioFromTargets tf b' a' = (.ok (-x), (b', []), (a', [])) := by
  unfold ratioFromTargets at h
  match h1 : getMisfitAndDet tf a with
  | (.error e, o', c1) => rw [h1] at h; simp at h
  | (.ok (m1, l1), o', c1) =>
    rw [h1] at h
    simp only at h
    match h2 : getMisfitAndDet tf b with
    | (.error e, n', c2) => rw [h2] at h; simp at h
    | (.ok (m2, l2), n', c2) =>
      rw [h2] at h
      simp only [Prod.mk.injEq, Except.ok.injEq] at h
      obtain ⟨rfl, ⟨rfl, rfl⟩, ⟨rfl, rfl⟩⟩ := h
      unfold ratioFromTargets
      rw [getMisfitAndDet_again _ _ _ _ _ h1, getMisfitAndDet_again _ _ _ _ _ h2]
      simp only [Prod.mk.injEq, Except.ok.injEq, and_true]
      ring

/-- C31 (targets): ratios add up along a path of states. -/
theorem C31_additive_targets (tf : List (Target × Fwd)) (a b c a' b' b'' c' : State) (x y : ℝ)
    (ca cb cb' cc : List String)
    (h : ratioFromTargets tf a b = (.ok x, (a', ca), (b', cb)))
    (h' : ratioFromTargets tf b' c = (.ok y, (b'', cb'), (c', cc))) :
    ratioFromTargets tf a' c' = (.ok (x + y), (a', []), (c', [])) := by
  unfold ratioFromTargets at h h'
  match h1 : getMisfitAndDet tf a with
  | (.error e, o', c1) => rw [h1] at h; simp at h
  | (.ok (m1, l1), o', c1) =>
    rw [h1] at h
    simp only at h
    match h2 : getMisfitAndDet tf b with
    | (.error e, n', c2) => rw [h2] at h; simp at h
    | (.ok (m2, l2), n', c2) =>
      rw [h2] at h
      simp only [Prod.mk.injEq, Except.ok.injEq] at h
      obtain ⟨rfl, ⟨rfl, rfl⟩, ⟨rfl, rfl⟩⟩ := h
      rw [getMisfitAndDet_again _ _ _ _ _ h2] at h'
      simp only at h'
      match h3 : getMisfitAndDet tf c with
      | (.error e, n3, c3) => rw [h3] at h'; simp at h'
      | (.ok (m3, l3), n3, c3) =>
        rw [h3] at h'
        simp only [Prod.mk.injEq, Except.ok.injEq] at h'
        obtain ⟨rfl, ⟨rfl, rfl⟩, ⟨rfl, rfl⟩⟩ := h'
        unfold ratioFromTargets
        rw [getMisfitAndDet_again _ _ _ _ _ h1, getMisfitAndDet_again _ _ _ _ _ h3]
        simp only [Prod.mk.injEq, Except.ok.injEq, and_true]
        ring

/-- C31 (user supplied log likelihood): antisymmetry, also with infinite values. -/
theorem C31_antisymmetric_loglike {S : Type} (f : S → Except PyErr PyF) (a b : S) (x : PyF)
    (h : ratioFromLoglike f a b = .ok x) : ratioFromLoglike f b a = .ok x.neg := by
  unfold ratioFromLoglike at h ⊢
  match ha : f a with
  | .error e => rw [ha] at h; simp [error_bind] at h
  | .ok u =>
    match hb : f b with
    | .error e => rw [ha, hb] at h; simp [ok_bind] at h
    | .ok v =>
      rw [ha, hb] at h
      simp only [ok_bind] at h ⊢
      change Except.ok _ = _ at h
      injection h with h
      subst h
      change Except.ok _ = _
      congr 1
      cases u <;> cases v <;> simp [PyF.sub, PyF.add, PyF.neg]

/-- C31 (user supplied log likelihood): additivity for finite log likelihoods. -/
theorem C31_additive_loglike {S : Type} (f : S → Except PyErr PyF) (a b c : S) (u v w : ℝ)
    (ha : f a = .ok (.fin u)) (hb : f b = .ok (.fin v)) (hc : f c = .ok (.fin w)) :
    ∃ x y : ℝ, ratioFromLoglike f a b = .ok (.fin x) ∧ ratioFromLoglike f b c = .ok (.fin y) ∧
      ratioFromLoglike f a c = .ok (.fin (x + y)) := by
  refine ⟨v - u, w - v, ?_, ?_, ?_⟩ <;>
    simp only [ratioFromLoglike, ha, hb, hc, ok_bind, PyF.sub, PyF.add, PyF.neg] <;>
    change Except.ok _ = Except.ok _ <;> congr 2 <;> ring

/-- C31: additivity needs finite values: through a state of likelihood zero it fails. -/
theorem C31_additive_infinite_counterexample :
    ∃ f : Fin 3 → Except PyErr PyF, ∃ x y z,
      ratioFromLoglike f 0 1 = .ok x ∧ ratioFromLoglike f 1 2 = .ok y ∧
      ratioFromLoglike f 0 2 = .ok z ∧ x.add y = .nan ∧ z = .fin 0 := by
  refine ⟨fun i => if i = 1 then .ok .ninf else .ok (.fin 0), .ninf, .pinf, .fin 0, ?_, ?_, ?_,
    rfl, rfl⟩
  · simp [ratioFromLoglike, ok_bind, PyF.sub, PyF.add, PyF.neg]
  · simp [ratioFromLoglike, ok_bind, PyF.sub, PyF.add, PyF.neg]
  · simp [ratioFromLoglike, ok_bind, PyF.sub, PyF.add, PyF.neg]

/-- C31: a temperature `T` divides the ratio by `T`, whichever way the likelihood is computed. -/
theorem C31_temperature (kind : LLKind State) (tf : List (Target × Fwd)) (a b : State) (x T : ℝ)
    (hT : T ≠ 0) (h : (logLikelihoodRatio kind tf a b 1).1 = .ok (.fin x)) :
    (logLikelihoodRatio kind tf a b T).1 = .ok (.fin (x / T)) := by
  have aux : ∀ r : Except PyErr PyF, (do let y ← r; pyDiv y 1) = .ok (.fin x) →
      (do let y ← r; pyDiv y T) = .ok (.fin (x / T)) := by
    intro r hr
    match r with
    | .error e => simp [error_bind] at hr
    | .ok y =>
      simp only [ok_bind, pyDiv, one_ne_zero, if_false, if_neg hT] at hr ⊢
      cases y <;> simp_all [PyF.divFin]
  cases kind with
  | targets =>
    simp only [logLikelihoodRatio] at h ⊢
    match hr : ratioFromTargets tf a b with
    | (.error e, o, n) => rw [hr] at h; simp [error_bind] at h
    | (.ok y, o, n) =>
      rw [hr] at h
      exact aux (.ok (.fin y)) h
  | ratio f => exact aux _ h
  | loglike f => exact aux _ h

example : ∃ f : Bool → Except PyErr PyF,
    ratioFromLoglike f true false = .ok (.fin 3) ∧ ratioFromLoglike f false true = .ok (.fin (-3)) := by
  refine ⟨fun b => if b then .ok (.fin 2) else .ok (.fin 5), ?_, ?_⟩ <;>
    simp [ratioFromLoglike, ok_bind, PyF.sub, PyF.add, PyF.neg] <;> norm_num

end BB.Props
