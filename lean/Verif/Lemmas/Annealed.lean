import Verif.Spec.Annealed
import Verif.Lemmas.Cooling
import Verif.Lemmas.WholeStart

/-!
# Iterations of whole inversions while the temperature is lowered
-/

namespace BB.Lemmas

open BB BB.Spec BB.Props MeasureTheory ProbabilityTheory

variable {E : Type} {p : Problem} {B : ℕ → Block} {logLik : Whole p B → ℝ}

/-- The chain with the temperature of its iteration. -/
noncomputable def cooled (p : Problem) (T0 rate : ℝ) (b : ℕ) (c : Chain State Store E) : Chain State Store E :=
  if (c.total : ℤ) < b then c.setTemp p.cfg (T0 * Real.exp (-rate * c.total))
  else if (c.total : ℤ) = b then c.setTemp p.cfg 1
  else c

/-- The temperatures. -/
noncomputable def coolT (T0 rate : ℝ) (b k : ℕ) : ℝ := if k < b then T0 * Real.exp (-rate * k) else 1

theorem coolT_ne {T0 : ℝ} (h : T0 ≠ 0) (rate : ℝ) (b k : ℕ) : coolT T0 rate b k ≠ 0 := by
  unfold coolT
  split
  · exact mul_ne_zero h (Real.exp_pos _).ne'
  · exact one_ne_zero

theorem cooled_or (p : Problem) (T0 rate : ℝ) (b : ℕ) (c : Chain State Store E) :
    (c.total ≤ b ∧ cooled p T0 rate b c = c.setTemp p.cfg (coolT T0 rate b c.total)) ∨ (b < c.total ∧ cooled p T0 rate b c = c) := by
  unfold cooled coolT
  by_cases h1 : c.total < b
  · exact .inl ⟨h1.le, by rw [if_pos (by exact_mod_cast h1), if_pos h1]⟩
  · by_cases h2 : c.total = b
    · exact .inl ⟨h2.le, by rw [if_neg (by exact_mod_cast h1), if_pos (by exact_mod_cast h2), if_neg h1]⟩
    · exact .inr ⟨by omega, by rw [if_neg (by exact_mod_cast h1), if_neg (by exact_mod_cast h2)]⟩

theorem cooled_total (p : Problem) (T0 rate : ℝ) (b : ℕ) (c : Chain State Store E) : (cooled p T0 rate b c).total = c.total := by
  rcases cooled_or p T0 rate b c with ⟨-, e⟩ | ⟨-, e⟩ <;> rw [e]
  rfl

theorem cooled_saved (p : Problem) (T0 rate : ℝ) (b : ℕ) (c : Chain State Store E) : (cooled p T0 rate b c).saved = c.saved := by
  rcases cooled_or p T0 rate b c with ⟨-, e⟩ | ⟨-, e⟩ <;> rw [e]
  rfl

theorem cooled_params (p : Problem) (T0 rate : ℝ) (b : ℕ) (c : Chain State Store E) :
    (cooled p T0 rate b c).cur.params = c.cur.params := by
  rcases cooled_or p T0 rate b c with ⟨-, e⟩ | ⟨-, e⟩ <;> rw [e]
  rfl

theorem cooled_ready {T0 rate T : ℝ} {b : ℕ} {c : Chain State Store E} (h : Ready p B T c) (hT : b < c.total → T = 1) :
    Ready p B (coolT T0 rate b c.total) (cooled p T0 rate b c) := by
  rcases cooled_or p T0 rate b c with ⟨-, e⟩ | ⟨hb, e⟩
  · rw [e]
    exact ⟨h.holds, h.cache, h.extra, rfl, h.proposed, h.accepted⟩
  · have : coolT T0 rate b c.total = 1 := if_neg (by omega)
    rw [e, this, ← hT hb]
    exact h

/-- The draws do not depend on the temperature of the state. -/
theorem enc_temp (h : AnyProblem p B logLik) (i : Fin p.cfg.perturbs.length) (s : State) (x : ℝ) (θ : ℝ × (B i).Θ) :
    (B i).enc (p.cfg.setTemp s x) θ = (B i).enc s θ := by
  rcases whole_cases h i with ⟨sp, -, hm, -⟩ | ⟨-, -, hb, -⟩
  · have key : ∀ b : Block, Explored sp b → ∀ θ, b.enc (p.cfg.setTemp s x) θ = b.enc s θ := by
      intro b hb θ
      cases hb with
      | known hb => cases hb <;> rfl
      | lineBirths => rfl
      | lineNear => rfl
      | planeBirths => rfl
      | planeNear => rfl
    exact key _ hm θ
  · have key : ∀ b : Block, b = noiseBlock p.hier → ∀ θ, b.enc (p.cfg.setTemp s x) θ = b.enc s θ := by
      rintro b rfl θ
      rfl
    exact key _ hb θ

theorem draws_cooled (h : AnyProblem p B logLik) (T0 rate : ℝ) (b : ℕ) (c : Chain State Store E)
    (ω : ℝ × (∀ i : Fin p.cfg.perturbs.length, ℝ × (B i).Θ) × ℝ) :
    iterationDraws p.cfg (wholeDraws p B) (cooled p T0 rate b c).cur ω = iterationDraws p.cfg (wholeDraws p B) c.cur ω := by
  rcases cooled_or p T0 rate b c with ⟨-, e⟩ | ⟨-, e⟩ <;> rw [e]
  unfold iterationDraws
  congr 2
  split
  · split
    · exact enc_temp h _ _ _ _
    · rfl
  · rfl

/-- One iteration with functions before and after it, if it is completed. -/
noncomputable def hookedStep (p : Problem) (B : ℕ → Block) (b s : ℤ) (beginIt endIt : Act (Chain State Store E) Unit)
    (c : Chain State Store E) (ω : ℝ × (∀ i : Fin p.cfg.perturbs.length, ℝ × (B i).Θ) × ℝ) : Option (Chain State Store E) :=
  match Chain.iteration p.cfg b s beginIt endIt c (iterationDraws p.cfg (wholeDraws p B) c.cur ω) with
  | (.ok _, c', []) => some c'
  | _ => none

theorem hooked_steps (b s : ℤ) (beginIt endIt : Act (Chain State Store E) Unit) (Q : Chain State Store E → Prop) (n : ℕ)
    (c : Chain State Store E) : HookedLaw p.cfg b s beginIt endIt (wholeDraws p B) (wholeLaw p B) Q (n + 1) c =
      ∫⁻ ω, (hookedStep p B b s beginIt endIt c ω).elim 0
        (HookedLaw p.cfg b s beginIt endIt (wholeDraws p B) (wholeLaw p B) Q n) ∂unit.prod ((wholeLaw p B).prod unit) := by
  rw [HookedLaw]
  refine lintegral_congr fun ω => ?_
  unfold hookedStep
  match Chain.iteration p.cfg b s beginIt endIt c (iterationDraws p.cfg (wholeDraws p B) c.cur ω) with
  | (.ok _, c', []) => rfl
  | (.ok _, c', _ :: _) => rfl
  | (.error _, c', _) => rfl

theorem runs_next (b s : ℤ) (Q : Chain State Store E → Prop) (n : ℕ)
    (c : Chain State Store E) : RunsLaw p.cfg b s (wholeDraws p B) (wholeLaw p B) Q (n + 1) c =
      ∫⁻ ω, (wholeStep p B b s c ω).elim 0 (RunsLaw p.cfg b s (wholeDraws p B) (wholeLaw p B) Q n) ∂unit.prod ((wholeLaw p B).prod unit) := by
  rw [RunsLaw]
  refine lintegral_congr fun ω => ?_
  unfold wholeStep
  match Chain.iteration p.cfg b s Act.skip Act.skip c (iterationDraws p.cfg (wholeDraws p B) c.cur ω) with
  | (.ok _, c', []) => rfl
  | (.ok _, c', _ :: _) => rfl
  | (.error _, c', _) => rfl

open Classical in
theorem runs_iterations (b s : ℤ) (A : Set (Whole p B)) : ∀ n (c : Chain State Store E),
    RunsLaw p.cfg b s (wholeDraws p B) (wholeLaw p B) (fun c' => wholeOf p B c'.cur.params ∈ A) n c =
      IterationsLaw p.cfg b s (wholeDraws p B) (wholeLaw p B) (fun st => wholeOf p B st.params) n c A
  | 0, c => by
    unfold RunsLaw IterationsLaw
    rw [Set.indicator_apply]
    rfl
  | n + 1, c => by
    rw [RunsLaw, IterationsLaw]
    refine lintegral_congr fun ω => ?_
    match Chain.iteration p.cfg b s Act.skip Act.skip c (iterationDraws p.cfg (wholeDraws p B) c.cur ω) with
    | (.ok _, c', []) => exact runs_iterations b s A n c'
    | (.ok _, c', _ :: _) => rfl
    | (.error _, c', _) => rfl

/-- What an iteration does to the number of iterations and, if it is not due, to the store. -/
theorem step_quiet {b s : ℤ} {c c' : Chain State Store E} {ω : ℝ × (∀ i : Fin p.cfg.perturbs.length, ℝ × (B i).Θ) × ℝ}
    (h : wholeStep p B b s c ω = some c') : c'.total = c.total + 1 ∧ (¬ Due b s (c.total + 1) → c'.saved = c.saved) := by
  unfold wholeStep at h
  split at h
  · rename_i ev c'' heq
    injection h with h
    subst h
    obtain ⟨d1, d2, d3, t3, t4, b1, b2, b3, b4⟩ := (iteration_ok _).1 heq
    have e1 := ((setFlag_ok).1 b1).2.2
    have e2 : d1 = d2 := (Prod.mk.inj (Prod.mk.inj b2).2).1
    have e4 : d3 = c'' := (Prod.mk.inj (Prod.mk.inj b4).2).1
    have e3 := next_effect _ b3
    subst e2 e4
    have hsave := e3.saved
    have hnow : d1.saveNow = true ↔ Due b s (c.total + 1) := by
      rw [e1]
      simp only [decide_eq_true_eq]
      unfold Due
      push_cast
      exact Iff.rfl
    have hs1 : d1.saved = c.saved := by rw [e1]
    refine ⟨by rw [e3.total, e1], fun hd => ?_⟩
    rw [if_neg (fun hc => hd (hnow.1 hc.1)), hs1] at hsave
    exact hsave
  · cases h

/-- The functions that simulated annealing has called. -/
structure Cools (p : Problem) (T0 rate : ℝ) (b : ℕ) (beginIt endIt : Act (Chain State Store E) Unit) : Prop where
  begins : ∀ c t, beginIt c t = (.ok (), cooled p T0 rate b c, t)
  ends : ∀ c t, endIt c t = (.ok (), c, t)

variable {T0 rate : ℝ} {b : ℕ} {beginIt endIt : Act (Chain State Store E) Unit}

theorem hooked_step (h : AnyProblem p B logLik) (hc : Cools p T0 rate b beginIt endIt) {s : ℤ} (hs : s ≠ 0) (c : Chain State Store E)
    (ω : ℝ × (∀ i : Fin p.cfg.perturbs.length, ℝ × (B i).Θ) × ℝ) :
    hookedStep p B b s beginIt endIt c ω = wholeStep p B b s (cooled p T0 rate b c) ω := by
  have hflag : ∀ c : Chain State Store E, ∃ f, (∀ t, Chain.setFlag b s c t = (.ok (), { c with saveNow := f }, t)) ∧
      ∀ c2 : Chain State Store E, c2.total = c.total → ∀ t, Chain.setFlag b s c2 t = (.ok (), { c2 with saveNow := f }, t) := by
    intro c
    unfold Chain.setFlag
    simp only
    split
    · exact ⟨_, fun _ => rfl, fun c2 e t => by rw [e]; simp only [*, if_true]⟩
    · exact ⟨_, fun _ => rfl, fun c2 e t => by rw [e]; simp only [*, if_false]⟩
  obtain ⟨f, hf, hf2⟩ := hflag c
  have e : ∀ t, Chain.iteration p.cfg b s beginIt endIt c t = Chain.iteration p.cfg b s Act.skip Act.skip (cooled p T0 rate b c) t := by
    intro t
    have e0 : cooled p T0 rate b { c with saveNow := f } = { cooled p T0 rate b c with saveNow := f } := by
      unfold cooled
      simp only
      split
      · rfl
      · split <;> rfl
    have he : endIt = Act.skip := funext fun c => funext fun t => hc.ends c t
    unfold Chain.iteration
    rw [Act.bind_run, hf, Act.bind_run, hf2 _ (cooled_total p T0 rate b c)]
    simp only
    rw [Act.bind_run, hc.begins, e0, he]
    rfl
  unfold hookedStep wholeStep
  rw [e, draws_cooled h]
  rfl

/-- What is known of a chain before iteration `k`. -/
structure Cooled (p : Problem) (B : ℕ → Block) (b k : ℕ) (c : Chain State Store E) : Prop where
  ready : ∃ T, Ready p B T c ∧ (b < k → T = 1)
  total : c.total = k
  saved : k ≤ b → c.saved = []

/-- The transitions at iteration `k`. -/
noncomputable def coolK (p : Problem) (B : ℕ → Block) (logLik : Whole p B → ℝ)
    (R : ∀ i : Fin p.cfg.perturbs.length, Realization p.tf p.cfg.perturbs[i].2 (B i)) (T0 rate : ℝ) (b k : ℕ) :
    Whole p B → Measure (Whole p B) :=
  mixTrans (fun i => (R i).L.moves) (fun i => (R i).L.w) logLik (coolT T0 rate b k) (chance p.cfg)

theorem cooled_follows (h : AnyProblem p B logLik) (hpn : PlainNames p) (hT0 : T0 ≠ 0) (hc : Cools p T0 rate b beginIt endIt) {s : ℤ}
    (hs : s ≠ 0) (R : ∀ i : Fin p.cfg.perturbs.length, Realization p.tf p.cfg.perturbs[i].2 (B i)) :
    FollowsAt (unit.prod ((wholeLaw p B).prod unit)) (hookedStep p B b s beginIt endIt) (fun c => wholeOf p B c.cur.params) SameWhole
      (coolK p B logLik R T0 rate b) (Cooled p B b) (fun _ => wholeFine R) := by
  refine ⟨fun k c hk hf A hA hAr => ?_, fun k c hk hf => ?_⟩
  · obtain ⟨⟨T, hr, hT⟩, ht, -⟩ := hk
    subst ht
    have hF := whole_follows (E := E) (b := b) h hpn (coolT_ne hT0 rate b c.total) hs R
    have := hF.law (cooled p T0 rate b c) (cooled_ready hr hT) (by rw [cooled_params]; exact hf) A hA hAr
    simp only [hooked_step h hc hs]
    rw [cooled_params] at this
    exact this
  · obtain ⟨⟨T, hr, hT⟩, ht, hsv⟩ := hk
    subst ht
    have hF := whole_follows (E := E) (b := b) h hpn (coolT_ne hT0 rate b c.total) hs R
    have := hF.again (cooled p T0 rate b c) (cooled_ready hr hT) (by rw [cooled_params]; exact hf)
    simp only [hooked_step h hc hs]
    filter_upwards [this] with ω hω
    obtain ⟨c', e1, e2⟩ := hω
    obtain ⟨g1, g2⟩ := step_quiet e1
    rw [cooled_total] at g1 g2
    refine ⟨c', e1, ⟨_, e2, fun hb => if_neg (by omega)⟩, g1, fun hb => ?_⟩
    rw [g2 (fun hd => by have := hd.1; omega), cooled_saved]
    exact hsv (by omega)

/-- The transitions at all iterations are kernels that spare the null sets of the prior. -/
theorem cooled_kernel (h : AnyProblem p B logLik) (hT0 : T0 ≠ 0) (rate : ℝ) (b : ℕ) :
    ∃ R : ∀ i : Fin p.cfg.perturbs.length, Realization p.tf p.cfg.perturbs[i].2 (B i),
      (∀ k, Measurable (coolK p B logLik R T0 rate b k)) ∧ (∀ k x, IsProbabilityMeasure (coolK p B logLik R T0 rate b k x)) ∧
      (∀ k, Alike SameWhole (coolK p B logLik R T0 rate b k)) ∧ MeasurableSet (wholeFine R) ∧ Invariant SameWhole (wholeFine R) ∧
      (∀ᵐ x ∂wholePrior p B, x ∈ wholeFine R) ∧ (∀ k, Spares (wholePrior p B) (coolK p B logLik R T0 rate b k)) ∧
      IsProbabilityMeasure (wholeLaw p B) := by
  choose R hR using whole_settled h
  have hreg := whole_regular h
  have hfi : ∀ i : Fin p.cfg.perturbs.length, IsFiniteMeasure (B i).prior := fun i => (hreg i).finite
  have hok : ∀ i, (R i).L.Ok := fun i => (R i).ok
  obtain ⟨-, -, -, hGm, hGr, hdr⟩ := whole_kernel h one_ne_zero R
  refine ⟨R, fun k => (whole_kernel h (coolT_ne hT0 rate b k) R).1, fun k => (whole_kernel h (coolT_ne hT0 rate b k) R).2.1,
    fun k => (whole_kernel h (coolT_ne hT0 rate b k) R).2.2.1, hGm, hGr, ?_, fun k => ?_, hdr⟩
  · exact ae_all_iff.2 fun i =>
      (Measure.quasiMeasurePreserving_eval (fun i : Fin p.cfg.perturbs.length => (B i).prior) i).ae (R i).fine
  · exact settled_spares (fun i : Fin p.cfg.perturbs.length => (B i).prior) (fun i => (hok i).ok) (fun i => (hok i).w_nonneg)
      (fun i => (hok i).w_sum) (fun i => (hreg i).meas) (fun i => (hreg i).pos) (fun i => (hreg i).tilt) hR h.meas _ _

/-- Later on, the functions change nothing. -/
theorem hooked_late (h : AnyProblem p B logLik) (hc : Cools p T0 rate b beginIt endIt) {s : ℤ} (hs : s ≠ 0)
    (Q : Chain State Store E → Prop) : ∀ n (c : Chain State Store E), b < c.total →
      HookedLaw p.cfg b s beginIt endIt (wholeDraws p B) (wholeLaw p B) Q n c =
        RunsLaw p.cfg b s (wholeDraws p B) (wholeLaw p B) Q n c
  | 0, c, _ => rfl
  | n + 1, c, hb => by
    rw [hooked_steps, runs_next]
    refine lintegral_congr fun ω => ?_
    have e : cooled p T0 rate b c = c := by
      rcases cooled_or p T0 rate b c with ⟨hb', -⟩ | ⟨-, e⟩
      · omega
      · exact e
    rw [hooked_step h hc hs, e]
    cases hst : wholeStep p B b s c ω with
    | none => rfl
    | some c' => exact hooked_late h hc hs Q n c' (by have := (step_quiet hst).1; omega)

theorem hooked_warm (h : AnyProblem p B logLik) (hc : Cools p T0 rate b beginIt endIt) {s : ℤ} (hs : s ≠ 0)
    (Q : Chain State Store E → Prop) (n : ℕ) (c : Chain State Store E) (hb : b ≤ c.total) :
      HookedLaw p.cfg b s beginIt endIt (wholeDraws p B) (wholeLaw p B) Q (n + 1) c =
        RunsLaw p.cfg b s (wholeDraws p B) (wholeLaw p B) Q (n + 1) (cooled p T0 rate b c) := by
  rw [hooked_steps, runs_next]
  refine lintegral_congr fun ω => ?_
  rw [hooked_step h hc hs]
  cases hst : wholeStep p B b s (cooled p T0 rate b c) ω with
  | none => rfl
  | some c' => exact hooked_late h hc hs Q n c' (by have := (step_quiet hst).1; rw [cooled_total] at this; omega)

/-- Iterations while the temperature is lowered are completed. -/
theorem annealed_complete (h : AnyProblem p B logLik) (hpn : PlainNames p) (hT0 : T0 ≠ 0) (hc : Cools p T0 rate b beginIt endIt) {s : ℤ}
    (hs : s ≠ 0) (n : ℕ) : ∀ᵐ x ∂wholePrior p B, ∀ c : Chain State Store E, Cooled p B b 0 c →
      SameWhole x (wholeOf p B c.cur.params) →
      HookedLaw p.cfg b s beginIt endIt (wholeDraws p B) (wholeLaw p B) (fun _ => True) n c = 1 := by
  obtain ⟨R, hK, hprob, hr, hG, hGr, hGa, hsp, hdr⟩ := cooled_kernel h hT0 rate b
  filter_upwards [stays_ae hK hsp (fun _ => hG) (fun _ => hGa) .univ (Filter.Eventually.of_forall fun _ => trivial) n 0] with x hx c h1 h2
  have := back_eq (cooled_follows h hpn hT0 hc hs R) hK hprob hr (fun _ => hG) (fun _ => hGr) .univ (fun _ _ _ => Iff.rfl)
    (g := fun _ => 1) measurable_const (fun _ _ _ => rfl) (L := HookedLaw p.cfg b s beginIt endIt (wholeDraws p B) (wholeLaw p B) fun _ => True)
    (hooked_steps (p := p) (B := B) b s beginIt endIt fun _ => True) (n := 0) n 0
    (fun c _ _ => by simp [HookedLaw]) c h1
    ((stays_invariant hK hr (fun _ => hG) (fun _ => hGr) .univ (fun _ _ _ => Iff.rfl) n 0 _ _ h2).1 hx)
  rw [Nat.zero_add] at this
  rw [this, back_one hprob]

/-- After the temperature has been lowered, the models converge. -/
theorem annealed_limit (h : InversionOf p B Roaming logLik) (hpn : PlainNames p) (hT0 : T0 ≠ 0)
    (hc : Cools p T0 rate b beginIt endIt) {s : ℤ} (hs : s ≠ 0) (hfin : posterior (wholePrior p B) logLik 1 Set.univ ≠ ⊤)
    (μ : Measure (Whole p B)) [IsProbabilityMeasure μ] (hμ : μ ≪ wholePrior p B) {ε : ℝ} (hε : 0 < ε) :
    ∃ n₀, ∀ n ≥ n₀, ∀ A, MeasurableSet A → Invariant SameWhole A → ∃ g : Whole p B → ENNReal, Measurable g ∧
      (∀ᵐ x ∂wholePrior p B, ∀ c : Chain State Store E, Cooled p B b 0 c → SameWhole x (wholeOf p B c.cur.params) →
        HookedLaw p.cfg b s beginIt endIt (wholeDraws p B) (wholeLaw p B) (fun c' => wholeOf p B c'.cur.params ∈ A) n c = g x) ∧
      |(∫⁻ x, g x ∂μ).toReal -
        (posterior ((wholePrior p B).withDensity fun x => ENNReal.ofReal (wholeStaying p B x)) logLik 1 A /
          posterior ((wholePrior p B).withDensity fun x => ENNReal.ofReal (wholeStaying p B x)) logLik 1 Set.univ).toReal| ≤ ε := by
  have ha := any_of_whole (inversion_mono (fun _ _ => roaming_modelled) h)
  obtain ⟨R, hK, hprob, hr, hG, hGr, hGa, hsp, hdr⟩ := cooled_kernel ha hT0 rate b
  obtain ⟨P, W, h1, h2, h3, h4, h5⟩ := whole_limit_on (E := E) (b := b) (s := s) h hpn one_ne_zero hs hfin
  have hpr := ahead_prob hK hprob b 0 μ inferInstance
  obtain ⟨n₀, h₀⟩ := h5 (ahead (coolK p B logLik R T0 rate b) b 0 μ) (ahead_absCont hK hsp b 0 μ hμ) hε
  refine ⟨n₀ + 1 + b, fun n hn A hA hAr => ?_⟩
  obtain ⟨m, rfl⟩ : ∃ m, n = m + 1 + b := ⟨n - 1 - b, by omega⟩
  obtain ⟨g1, g2, g3⟩ := h3 (m + 1)
  refine ⟨_, back_meas hK (h1 (m + 1) A hA) b 0, ?_, ?_⟩
  · filter_upwards [stays_ae hK hsp (fun _ => hG) (fun _ => hGa) g1 g3 b 0] with x hx c hc0 hxc
    rw [back_alike hK hr hprob (h1 (m + 1) A hA) (h2 (m + 1) A hA hAr) b 0 x _ hxc]
    refine back_eq (cooled_follows ha hpn hT0 hc hs R) hK hprob hr (fun _ => hG) (fun _ => hGr) g1 g2 (h1 (m + 1) A hA)
      (h2 (m + 1) A hA hAr) (hooked_steps (p := p) (B := B) b s beginIt endIt _) (n := m + 1) b 0 (fun c hcb hv => ?_) c hc0
      ((stays_invariant hK hr (fun _ => hG) (fun _ => hGr) g1 g2 b 0 _ _ hxc).1 hx)
    obtain ⟨⟨T, hrd, hT⟩, ht, -⟩ := hcb
    rw [Nat.zero_add] at ht
    have hrd' := cooled_ready (T0 := T0) (rate := rate) (b := b) hrd (fun hb => by omega)
    have e1 : coolT T0 rate b c.total = 1 := if_neg (by omega)
    rw [e1] at hrd'
    rw [hooked_warm ha hc hs _ m c ht.ge, runs_iterations, h4 (m + 1) _ hrd' (by rw [cooled_params]; exact hv) A hA hAr, cooled_params]
  · rw [back_ahead hK (h1 (m + 1) A hA)]
    exact h₀ (m + 1) (by omega) A hA

/-- After the temperature has been lowered, averages over the saved states converge. -/
theorem annealed_averaging (h : InversionOf p B Roaming logLik) (hpn : PlainNames p) (hT0 : T0 ≠ 0)
    (hc : Cools p T0 rate b beginIt endIt) {s : ℤ} (hs : s ≠ 0) (hfin : posterior (wholePrior p B) logLik 1 Set.univ ≠ ⊤)
    (μ : Measure (Whole p B)) [IsProbabilityMeasure μ] (hμ : μ ≪ wholePrior p B) {f : Whole p B → ℝ} (hf : Bdd f)
    (hfr : ∀ x y, SameWhole x y → f x = f y) {ε δ : ℝ} (hε : 0 < ε) (hδ : 0 < δ) :
    ∃ n₀, ∀ n ≥ n₀, ∃ g : Whole p B → ENNReal, Measurable g ∧ 1 - ENNReal.ofReal ε ≤ ∫⁻ x, g x ∂μ ∧
      ∀ᵐ x ∂wholePrior p B, ∀ c : Chain State Store E, Cooled p B b 0 c → SameWhole x (wholeOf p B c.cur.params) →
        g x ≤ HookedLaw p.cfg b s beginIt endIt (wholeDraws p B) (wholeLaw p B) (fun c' => ∃ sts, SavesStates p [] c'.saved sts ∧
          (∀ st ∈ sts, HoldsAll p B st.params) ∧ sts ≠ [] ∧
          |averageModel p B f sts - meanOf (wholeSampled p B logLik 1) f| ≤ δ) n c := by
  have ha := any_of_whole (inversion_mono (fun _ _ => roaming_modelled) h)
  obtain ⟨R, hK, hprob, hr, hG, hGr, hGa, hsp, hdr⟩ := cooled_kernel ha hT0 rate b
  have hpr := ahead_prob hK hprob b 0 μ inferInstance
  obtain ⟨n₀, h₀⟩ := whole_averaging_on (E := E) (b := b) (s := s) h hpn hs b hfin (ahead (coolK p B logLik R T0 rate b) b 0 μ)
    (ahead_absCont hK hsp b 0 μ hμ) hf hfr hε hδ
  refine ⟨n₀ + 1 + b, fun n hn => ?_⟩
  obtain ⟨m, rfl⟩ : ∃ m, n = m + 1 + b := ⟨n - 1 - b, by omega⟩
  obtain ⟨g, W, h1, h2, h3, ⟨g1, g2, g3⟩, h5⟩ := h₀ (m + 1) (by omega)
  refine ⟨_, back_meas hK h1 b 0, ?_, ?_⟩
  · rw [back_ahead hK h1]
    exact h3
  · filter_upwards [stays_ae hK hsp (fun _ => hG) (fun _ => hGa) g1 g3 b 0] with x hx c hc0 hxc
    rw [back_alike hK hr hprob h1 h2 b 0 x _ hxc]
    refine back_le (cooled_follows ha hpn hT0 hc hs R) hK hprob hr (fun _ => hG) (fun _ => hGr) g1 g2 h1
      h2 (hooked_steps (p := p) (B := B) b s beginIt endIt _) (n := m + 1) b 0 (fun c hcb hv => ?_) c hc0
      ((stays_invariant hK hr (fun _ => hG) (fun _ => hGr) g1 g2 b 0 _ _ hxc).1 hx)
    obtain ⟨⟨T, hrd, hT⟩, ht, hsv⟩ := hcb
    rw [Nat.zero_add] at ht hsv
    have hrd' := cooled_ready (T0 := T0) (rate := rate) (b := b) hrd (fun hb => by omega)
    have e1 : coolT T0 rate b c.total = 1 := if_neg (by omega)
    rw [e1] at hrd'
    have := h5 _ hrd' (by rw [cooled_params]; exact hv) (by rw [cooled_total]; exact ht)
    rw [cooled_params, cooled_saved, hsv le_rfl] at this
    rw [hooked_warm ha hc hs _ m c ht.ge]
    exact this

end BB.Lemmas
