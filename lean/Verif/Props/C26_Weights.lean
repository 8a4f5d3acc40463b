import Verif.Model.Moves
import Verif.Props.C01_C04_Iteration

/-!
# C26: perturbations are chosen according to the weights
-/

namespace BB.Props

open BB MeasureTheory

variable {S σ E : Type}

/-- C26.  For non-negative weights with a positive sum, over the first uniform draw of an attempt,
the probability that the `i`-th function is the one whose proposal is used is
`weight / sum(weights)`.  That the `i`-th function is the one used is expressed by the outcome of the
attempt: it is that of a chain which has *only* this function. -/
theorem C26_probability (cfg : ChainCfg S σ) (hlen : cfg.perturbs.length = cfg.weights.length)
    (hw : ∀ w ∈ cfg.weights, 0 ≤ w) (hs : 0 < cfg.weights.sum) (n : ℕ) (z : ℝ) (t : List Draw)
    (i : ℕ) (hi : i < cfg.weights.length) :
    ∃ A : Set ℝ, A ⊆ Set.Ico 0 1 ∧ volume A = ENNReal.ofReal (cfg.weights[i] / cfg.weights.sum) ∧
      ∀ u ∈ A, ∀ h, ∀ c : Chain S σ E, Chain.attempt cfg c (⟨n, z, u, h⟩ :: t) =
        Chain.attempt { cfg with perturbs := [cfg.perturbs[i]], weights := [1] } c
          (⟨n, z, u, h⟩ :: t) := by
  refine ⟨{u : ℝ | ∃ h, choices cfg.weights.length cfg.weights (⟨n, z, u, h⟩ :: t) = (.ok i, t)},
    ?_, choices_volume cfg.weights hw hs n z t i hi, ?_⟩
  · rintro u ⟨h, -⟩; exact h
  · rintro u ⟨h, hc⟩ h' c
    have h1 : Chosen cfg (⟨n, z, u, h'⟩ :: t) cfg.perturbs[i].1 cfg.perturbs[i].2 t :=
      ⟨i, by rw [hlen]; exact hc, by simp [hlen, hi]⟩
    have h2 : Chosen { cfg with perturbs := [cfg.perturbs[i]], weights := [1] }
        (⟨n, z, u, h'⟩ :: t) cfg.perturbs[i].1 cfg.perturbs[i].2 t := by
      refine ⟨0, ?_, rfl⟩
      have : choices ([1] : List ℝ).length [1] (⟨n, z, u, h'⟩ :: t) = (.ok 0, t) :=
        (choices_iff [1] (by simp) (by norm_num) _ t t 0).2
          ⟨rfl, by simp, by simpa using h'.1, by simpa using h'.2⟩
      exact this
    rw [attempt_chosen _ h1, attempt_chosen _ h2]
    rfl

theorem choices_weight_pos (ws : List ℝ) (hw : ∀ w ∈ ws, 0 ≤ w) (hs : 0 < ws.sum) (t t' : List Draw)
    (i : ℕ) (h : choices ws.length ws t = (.ok i, t')) : ∃ hi : i < ws.length, 0 < ws[i] := by
  cases t with
  | nil =>
    rcases choices_tape ws.length ws with ⟨e, he⟩ | ⟨g, h0, -⟩
    · rw [he] at h; simp at h
    · rw [h0] at h; simp at h
  | cons d t =>
    obtain ⟨-, h1, h2, h3⟩ := (choices_iff ws hw hs d t t' i).1 h
    refine ⟨h1, ?_⟩
    rw [take_succ_sum ws i h1] at h3
    linarith

/-- C26, weight zero.  A function with weight zero is never chosen: replacing it by any other
function (for instance one that always raises) does not change anything in any execution. -/
theorem C26_zero_weight (cfg : ChainCfg S σ) (hlen : cfg.perturbs.length = cfg.weights.length)
    (hw : ∀ w ∈ cfg.weights, 0 ≤ w) (hs : 0 < cfg.weights.sum) (i : ℕ) (hi : i < cfg.weights.length)
    (h0 : cfg.weights[i] = 0) (x : String × (S → M (S × PyF))) (b s : ℤ)
    (bi ei : Act (Chain S σ E) Unit) (n : ℕ) :
    Chain.advance { cfg with perturbs := cfg.perturbs.set i x } b s bi ei n =
      Chain.advance cfg b s bi ei n := by
  have hlen' : (cfg.perturbs.set i x).length = cfg.perturbs.length := by simp
  have hatt : (Chain.attempt { cfg with perturbs := cfg.perturbs.set i x } :
      Act (Chain S σ E) (Option (Event S))) = Chain.attempt cfg := by
    funext c t
    have hchosen : ∀ name f t1, Chosen { cfg with perturbs := cfg.perturbs.set i x } t name f t1 ↔
        Chosen cfg t name f t1 := by
      intro name f t1
      have : ∀ j t1, choices cfg.perturbs.length cfg.weights t = (.ok j, t1) →
          (cfg.perturbs.set i x)[j]? = cfg.perturbs[j]? := by
        intro j t1 hj
        rw [hlen] at hj
        obtain ⟨hjl, hpos⟩ := choices_weight_pos cfg.weights hw hs t t1 j hj
        rw [List.getElem?_set_ne]
        rintro rfl
        linarith
      constructor
      · rintro ⟨j, h1, h2⟩
        simp only [hlen'] at h1
        exact ⟨j, h1, by rw [← this j t1 h1]; exact h2⟩
      · rintro ⟨j, h1, h2⟩
        refine ⟨j, by simp only [hlen']; exact h1, ?_⟩
        change (cfg.perturbs.set i x)[j]? = _
        rw [this j t1 h1]; exact h2
    by_cases hch : ∃ name f t1, Chosen cfg t name f t1
    · obtain ⟨name, f, t1, hch⟩ := hch
      rw [attempt_chosen _ hch, attempt_chosen _ ((hchosen _ _ _).2 hch)]
      rfl
    · -- nothing is chosen: `choices` raises (the index is always in range)
      rw [attempt_run, attempt_run]
      simp only [hlen']
      match hc : choices cfg.perturbs.length cfg.weights t with
      | (.error e, t') => rfl
      | (.ok j, t') =>
        exfalso
        have hj := hc
        rw [hlen] at hj
        obtain ⟨hjl, -⟩ := choices_weight_pos cfg.weights hw hs t t' j hj
        have hjp : j < cfg.perturbs.length := by omega
        exact hch ⟨cfg.perturbs[j].1, cfg.perturbs[j].2, t', j, hc, by simp [hjp]⟩
  have hnext : (Chain.next { cfg with perturbs := cfg.perturbs.set i x } :
      Act (Chain S σ E) (Event S)) = Chain.next cfg := by
    unfold Chain.next
    have : ∀ k, (Chain.attempts { cfg with perturbs := cfg.perturbs.set i x } k :
        Act (Chain S σ E) (Event S)) = Chain.attempts cfg k := by
      intro k
      induction k with
      | zero => rfl
      | succ k ih => unfold Chain.attempts; rw [hatt, ih]
    exact this 500
  induction n with
  | zero => rfl
  | succ n ih =>
    unfold Chain.advance
    rw [ih]
    unfold Chain.iteration
    rw [hnext]

/-- C26, within a parameter space.  Over the first uniform draw, the probability that the `i`-th function of a
parameter space (birth, death, perturbation of values, site move) is the one that is applied is
`weight / sum(weights)`. -/
theorem C26_space_probability (g : PSPert) (hlen : g.funcs.length = g.weights.length)
    (hw : ∀ w ∈ g.weights, 0 ≤ w) (hs : 0 < g.weights.sum) (n : ℕ) (z : ℝ) (t : List Draw)
    (i : ℕ) (hi : i < g.weights.length) :
    ∃ A : Set ℝ, A ⊆ Set.Ico 0 1 ∧ volume A = ENNReal.ofReal (g.weights[i] / g.weights.sum) ∧
      ∀ u ∈ A, ∀ h, ∀ s : PSState, g.perturbPS s (⟨n, z, u, h⟩ :: t) =
        (do
          let (new, lpr) ← g.funcs[i].run s
          return (new, lpr, g.funcs[i].name) : M (PSState × PyF × String)) t := by
  refine ⟨{u : ℝ | ∃ h, choices g.weights.length g.weights (⟨n, z, u, h⟩ :: t) = (.ok i, t)},
    ?_, choices_volume g.weights hw hs n z t i hi, ?_⟩
  · rintro u ⟨h, -⟩; exact h
  · rintro u ⟨h, hc⟩ h' s
    unfold PSPert.perturbPS
    rw [← hlen] at hc
    rw [M.bind_run, hc]
    simp only [List.getElem?_eq_getElem (show i < g.funcs.length by omega)]

/-- C26, weight zero within a parameter space: a function of weight zero is never applied; replacing it by
any other function changes nothing. -/
theorem C26_space_zero_weight (g : PSPert) (hlen : g.funcs.length = g.weights.length)
    (hw : ∀ w ∈ g.weights, 0 ≤ w) (hs : 0 < g.weights.sum) (i : ℕ) (hi : i < g.weights.length)
    (h0 : g.weights[i] = 0) (f : PSFunc) :
    { g with funcs := g.funcs.set i f }.perturbPS = g.perturbPS := by
  funext s t
  unfold PSPert.perturbPS
  simp only [List.length_set]
  rw [M.bind_run, M.bind_run]
  match hc : choices g.funcs.length g.weights t with
  | (.error e, t') => rfl
  | (.ok j, t') =>
    have hj := hc
    rw [hlen] at hj
    obtain ⟨hjl, hpos⟩ := choices_weight_pos g.weights hw hs t t' j hj
    have : (g.funcs.set i f)[j]? = g.funcs[j]? := by
      rw [List.getElem?_set_ne]
      rintro rfl
      linarith
    simp only [this]

/-! ### Non-trivial instances -/

section Examples

/-- Weights with a zero: the probability of the second function is 3/4, and the first is never
chosen. -/
noncomputable def exCfg26 : ChainCfg ℤ (List ℤ) :=
  { exCfg with weights := [0, 3, 1] }

example : exCfg26.perturbs.length = exCfg26.weights.length ∧ (∀ w ∈ exCfg26.weights, 0 ≤ w) ∧
    0 < exCfg26.weights.sum ∧ exCfg26.weights[0] = 0 ∧
    exCfg26.weights[1] / exCfg26.weights.sum = 3 / 4 := by
  refine ⟨rfl, ?_, ?_, ?_, ?_⟩ <;> norm_num [exCfg26]

/-- The group of a parameter space of variable dimension with one prior. -/
noncomputable def exPert26 : PSPert where
  name := "s"
  funcs := [.values "s" [], .values "s" [], .values "s" []]
  weights := [1, 1, 3]

example : exPert26.funcs.length = exPert26.weights.length ∧ (∀ w ∈ exPert26.weights, 0 ≤ w) ∧
    0 < exPert26.weights.sum ∧ exPert26.weights[2] / exPert26.weights.sum = 3 / 5 := by
  refine ⟨rfl, ?_, ?_, ?_⟩ <;> norm_num [exPert26]

end Examples

end BB.Props
