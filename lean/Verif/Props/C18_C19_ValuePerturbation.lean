import Verif.Lemmas.Prior

/-!
# C18, C19: perturbations of single values report the prior ratio
-/

namespace BB.Props

open BB BB.Spec BB.Lemmas

/-- C18.  `log_prior` of the three priors is the logarithm of their density at the hyper-parameters that hold
at the position. -/
theorem C18_log_prior_uniform (p : Prior) (vmin vmax : Hyper) (hd : p.dist = .uniform vmin vmax)
    (pos : Pos) (a b : ℝ) (ha : vmin.get pos = .ok a) (hb : vmax.get pos = .ok b) (hab : a < b)
    (v : ℝ) : p.logPrior v pos = .ok (logOf (uniformPDF a b v)) := by
  rw [logPrior_uniform hd]
  refine ⟨a, b, ha, hb, ?_⟩
  unfold uniformPDF logOf
  by_cases h : a ≤ v ∧ v ≤ b
  · refine .inl ⟨h.1, h.2, hab, ?_⟩
    have : 0 < 1 / (b - a) := by have : 0 < b - a := by linarith
                                 positivity
    rw [if_pos h, if_pos this, one_div, Real.log_inv]
  · refine .inr ⟨h, ?_⟩
    rw [if_neg h, if_neg (lt_irrefl _)]

theorem C18_log_prior_gaussian (p : Prior) (mean std : Hyper) (hd : p.dist = .gaussian mean std)
    (pos : Pos) (m s : ℝ) (hm : mean.get pos = .ok m) (hs : std.get pos = .ok s) (hpos : 0 < s)
    (v : ℝ) : p.logPrior v pos = .ok (logOf (normalPDF m s v)) := by
  rw [logPrior_gaussian hd]
  refine ⟨m, s, hm, hs, .inr ⟨hpos, ?_⟩⟩
  have hv : ((s ^ 2).toNNReal : ℝ) = s ^ 2 := Real.coe_toNNReal _ (by positivity)
  have hne : (s ^ 2).toNNReal ≠ 0 := by
    intro h
    have : ((s ^ 2).toNNReal : ℝ) = 0 := by rw [h]; rfl
    rw [hv] at this
    have : 0 < s ^ 2 := by positivity
    linarith
  unfold logOf normalPDF
  rw [if_pos (ProbabilityTheory.gaussianPDFReal_pos m _ v hne)]
  congr 1
  unfold ProbabilityTheory.gaussianPDFReal
  rw [hv, Real.log_mul (by positivity) (by positivity), Real.log_exp, Real.log_inv,
    Real.log_sqrt (by positivity), Real.log_mul (by positivity) (by positivity), Real.log_pow]
  push_cast
  field_simp
  ring

theorem C18_log_prior_laplace (p : Prior) (mean scale : Hyper) (hd : p.dist = .laplace mean scale)
    (pos : Pos) (m s : ℝ) (hm : mean.get pos = .ok m) (hs : scale.get pos = .ok s) (hpos : 0 < s)
    (v : ℝ) : p.logPrior v pos = .ok (logOf (laplacePDF m s v)) := by
  rw [logPrior_laplace hd]
  refine ⟨m, s, hm, hs, hpos, ?_⟩
  unfold logOf laplacePDF
  rw [if_pos (by positivity), Real.log_div (by positivity) (by positivity), Real.log_exp,
    Real.log_mul (by norm_num) (by positivity)]
  congr 1
  ring

/-- C18, uniform priors: the log ratio reported is that of the densities, in particular minus infinity
outside of the bounds. -/
theorem C18_ratio_uniform (p : Prior) (vmin vmax : Hyper) (hd : p.dist = .uniform vmin vmax)
    (pos : Pos) (a b : ℝ) (ha : vmin.get pos = .ok a) (hb : vmax.get pos = .ok b) (hab : a < b)
    (v : ℝ) (hv : a ≤ v ∧ v ≤ b) (isBirth : Bool) (t t' : List Draw) (new : ℝ) (r : PyF)
    (h : p.perturbValue v pos isBirth t = (.ok (new, r), t')) :
    r = (logOf (uniformPDF a b new)).sub (logOf (uniformPDF a b v)) ∧
      (¬ (a ≤ new ∧ new ≤ b) → r = .ninf) := by
  have hlv := C18_log_prior_uniform p vmin vmax hd pos a b ha hb hab v
  have hln := C18_log_prior_uniform p vmin vmax hd pos a b ha hb hab new
  have hpos : 0 < uniformPDF a b v := by
    unfold uniformPDF
    rw [if_pos hv]
    have : 0 < b - a := by linarith
    positivity
  have hfin : logOf (uniformPDF a b v) = .fin (Real.log (uniformPDF a b v)) := by
    unfold logOf; rw [if_pos hpos]
  rw [hfin] at hlv ⊢
  obtain ⟨y, hy, hr⟩ := perturbValue_ratio h hlv
  rw [hln] at hy
  injection hy with hy
  refine ⟨by rw [hr, hy], fun hout => ?_⟩
  rw [hr, ← hy]
  unfold uniformPDF logOf
  rw [if_neg hout, if_neg (lt_irrefl _)]
  rfl

/-- C18, Gaussian priors. -/
theorem C18_ratio_gaussian (p : Prior) (mean std : Hyper) (hd : p.dist = .gaussian mean std)
    (pos : Pos) (m s : ℝ) (hm : mean.get pos = .ok m) (hs : std.get pos = .ok s) (hpos : 0 < s)
    (v : ℝ) (isBirth : Bool) (t t' : List Draw) (new : ℝ) (r : PyF)
    (h : p.perturbValue v pos isBirth t = (.ok (new, r), t')) :
    r = (logOf (normalPDF m s new)).sub (logOf (normalPDF m s v)) := by
  have hlv := C18_log_prior_gaussian p mean std hd pos m s hm hs hpos v
  have hln := C18_log_prior_gaussian p mean std hd pos m s hm hs hpos new
  have hfin : ∃ x, logOf (normalPDF m s v) = .fin x := by
    unfold logOf normalPDF
    rw [if_pos]
    · exact ⟨_, rfl⟩
    · refine ProbabilityTheory.gaussianPDFReal_pos m _ v ?_
      simpa using hpos.ne'
  obtain ⟨x, hx⟩ := hfin
  rw [hx] at hlv ⊢
  obtain ⟨y, hy, hr⟩ := perturbValue_ratio h hlv
  rw [hln] at hy
  injection hy with hy
  rw [hr, hy]

/-- C18, Laplace priors. -/
theorem C18_ratio_laplace (p : Prior) (mean scale : Hyper) (hd : p.dist = .laplace mean scale)
    (pos : Pos) (m s : ℝ) (hm : mean.get pos = .ok m) (hs : scale.get pos = .ok s) (hpos : 0 < s)
    (v : ℝ) (isBirth : Bool) (t t' : List Draw) (new : ℝ) (r : PyF)
    (h : p.perturbValue v pos isBirth t = (.ok (new, r), t')) :
    r = (logOf (laplacePDF m s new)).sub (logOf (laplacePDF m s v)) := by
  have hlv := C18_log_prior_laplace p mean scale hd pos m s hm hs hpos v
  have hln := C18_log_prior_laplace p mean scale hd pos m s hm hs hpos new
  have hfin : logOf (laplacePDF m s v) = .fin (Real.log (laplacePDF m s v)) := by
    unfold logOf laplacePDF
    rw [if_pos (by positivity)]
  rw [hfin] at hlv ⊢
  obtain ⟨y, hy, hr⟩ := perturbValue_ratio h hlv
  rw [hln] at hy
  injection hy with hy
  rw [hr, hy]

/-- C18, symmetry of the proposal: the step is the standard normal deviate times a standard deviation that
does not depend on the value, so the opposite deviate leads back. -/
theorem C18_symmetric (p : Prior) (hp : p.builtin) (v : ℝ) (pos : Pos) (isBirth : Bool) (n : ℕ)
    (z u : ℝ) (hu : 0 ≤ u ∧ u < 1) (t : List Draw) (new : ℝ) (r : PyF) (t' : List Draw)
    (h : p.perturbValue v pos isBirth (⟨n, z, u, hu⟩ :: t) = (.ok (new, r), t')) :
    (∃ s, p.getStd isBirth pos = .ok s ∧ new = v + z * s) ∧
    ∃ r', p.perturbValue new pos isBirth (⟨n, -z, u, hu⟩ :: t) = (.ok (v, r'), t') := by
  match hd : p.dist with
  | .uniform vmin vmax =>
    obtain ⟨s, a, b, d, h1, h2, h3, h4, h5, h6⟩ := (perturbValue_uniform hd).1 h
    injection h4 with h4 h7
    subst h4 h7
    refine ⟨⟨s, h1, h5⟩, ?_⟩
    by_cases hv : a ≤ v ∧ v ≤ b
    · exact ⟨.fin 0, (perturbValue_uniform hd).2 ⟨s, a, b, _, h1, h2, h3, rfl, by rw [h5]; simp,
        .inl ⟨hv.1, hv.2, rfl⟩⟩⟩
    · exact ⟨.ninf, (perturbValue_uniform hd).2 ⟨s, a, b, _, h1, h2, h3, rfl, by rw [h5]; simp,
        .inr ⟨hv, rfl⟩⟩⟩
  | .gaussian mean std =>
    obtain ⟨s, m, sd, d, h1, h2, h3, h4, h5, h6, _⟩ := (perturbValue_gaussian hd).1 h
    injection h4 with h4 h7
    subst h4 h7
    exact ⟨⟨s, h1, h5⟩, _, (perturbValue_gaussian hd).2 ⟨s, m, sd, _, h1, h2, h3, rfl,
      by rw [h5]; simp, h6, rfl⟩⟩
  | .laplace mean scale =>
    obtain ⟨s, m, sd, d, h1, h2, h3, h4, h5, h6, _⟩ := (perturbValue_laplace hd).1 h
    injection h4 with h4 h7
    subst h4 h7
    exact ⟨⟨s, h1, h5⟩, _, (perturbValue_laplace hd).2 ⟨s, m, sd, _, h1, h2, h3, rfl,
      by rw [h5]; simp, h6, rfl⟩⟩
  | .custom f g sm =>
    unfold Prior.builtin at hp
    rw [hd] at hp
    exact hp.elim

/-- C19 is false of the code: a perturbation of the value of a custom prior (other than in a birth) always raises
`UnboundLocalError`. -/
theorem C19_always_raises (p : Prior) (f : ℝ → Pos → Except PyErr PyF) (g : ℝ → Except PyErr PyF)
    (sm : Pos → M ℝ) (hd : p.dist = .custom f g sm) (v : ℝ) (pos : Pos) (t : List Draw) :
    p.perturbValue v pos false t = (.error .unboundLocalError, t) := by
  unfold Prior.perturbValue
  rw [hd]
  rfl

/-- C19, the part that holds: with `is_birth` the call returns the new value and the difference of the log
priors, provided the user's function and the hyper-parameter can be evaluated.
Missing: the calls without `is_birth`, that is, all perturbations other than births. -/
theorem C19_birth_partial (p : Prior) (f : ℝ → Pos → Except PyErr PyF) (g : ℝ → Except PyErr PyF)
    (sm : Pos → M ℝ) (hd : p.dist = .custom f g sm) (v : ℝ) (pos : Pos) (n : ℕ) (z u : ℝ)
    (hu : 0 ≤ u ∧ u < 1) (t : List Draw) (s : ℝ) (hs : p.stdBirth.get pos = .ok s) (x y : PyF)
    (hx : p.logPrior (v + z * s) pos = .ok x) (hy : p.logPrior v pos = .ok y) :
    p.perturbValue v pos true (⟨n, z, u, hu⟩ :: t) = (.ok (v + z * s, x.sub y), t) :=
  (perturbValue_custom hd).2 ⟨rfl, s, _, x, y, hs, rfl, rfl, hx, hy, rfl⟩

/-! ### Non-trivial instances -/

section Examples

/-- Bounds that depend on the position. -/
noncomputable def exPrior18 : Prior where
  name := "vs"
  dist := .uniform (.const 1) (.line [0, 10] [2, 4])
  std := .const 0.5
  stdBirth := .const 0.5
  hasPosition := true

/-- At depth 5 the bounds are 1 and 3; from 2 a deviate of 1 leads to 2.5 (ratio 0), a deviate of 4 leads to 4
(minus infinity). -/
example : (Hyper.const 1).get (.one 5) = .ok 1 ∧
    (Hyper.line [0, 10] [2, 4]).get (.one 5) = .ok 3 ∧
    (∃ r, exPrior18.perturbValue 2 (.one 5) false [⟨0, 1, 0, by norm_num⟩] = (.ok (2.5, r), [])) ∧
    exPrior18.perturbValue 2 (.one 5) false [⟨0, 4, 0, by norm_num⟩] = (.ok (4, .ninf), []) := by
  have h : (Hyper.line [0, 10] [2, 4]).get (.one 5) = .ok 3 := by
    unfold Hyper.get Utils1d.interpLinear
    have hb : ∀ {α β : Type} (x : α) (f : α → Except PyErr β), (Except.ok x >>= f) = f x :=
      fun _ _ => rfl
    norm_num [Utils1d.floorIndex, Utils1d.floorIndexLoop, rd, hb]
    rfl
  refine ⟨rfl, h, ⟨.fin 0, ?_⟩, ?_⟩
  · refine (perturbValue_uniform (vmin := .const 1) (vmax := .line [0, 10] [2, 4]) rfl).2
      ⟨0.5, 1, 3, _, rfl, rfl, h, rfl, by norm_num, .inl ⟨by norm_num, by norm_num, rfl⟩⟩
  · refine (perturbValue_uniform (vmin := .const 1) (vmax := .line [0, 10] [2, 4]) rfl).2
      ⟨0.5, 1, 3, _, rfl, rfl, h, rfl, by norm_num, .inr ⟨by norm_num, rfl⟩⟩

/-- A custom prior (standard normal up to a constant). -/
noncomputable def exPrior19 : Prior where
  name := "c"
  dist := .custom (fun v _ => .ok (.fin (-v ^ 2 / 2))) (fun v => .ok (.fin (-v ^ 2 / 2)))
    (fun _ => M.normalvariate 0 1)
  std := .const 1
  stdBirth := .const 1
  hasPosition := false

example : exPrior19.perturbValue 1 .none true [⟨0, 1, 0, by norm_num⟩] =
    (.ok (1 + 1 * 1, (PyF.fin (-(1 + 1 * 1) ^ 2 / 2)).sub (.fin (-1 ^ 2 / 2))), []) ∧
    exPrior19.perturbValue 1 .none false [⟨0, 1, 0, by norm_num⟩] =
      (.error .unboundLocalError, [⟨0, 1, 0, by norm_num⟩]) :=
  ⟨C19_birth_partial exPrior19 _ _ _ rfl 1 .none 0 1 0 (by norm_num) [] 1 rfl _ _ rfl rfl,
    C19_always_raises exPrior19 _ _ _ rfl 1 .none _⟩

end Examples

end BB.Props
