import Verif.Props.C85_Annealed
import Verif.Lemmas.WholeResults

/-!
# C86 — the results of whole inversions with several chains

`BayesianInversion(…, n_chains=k)`, `run(…)` and `get_results()`, with the default sampler and by simulated annealing, in one or several
processes: with probability one, a dictionary is returned, which has what `k` times the number of saving iterations states contribute; and
with a probability as close to one as desired, the average over all of its samples is close to the mean of the distribution that the
iterations preserve — the posterior, if there are no tessellations and the noise is known.
-/

namespace BB.Props

open BB Spec Lemmas MeasureTheory ProbabilityTheory

variable {E : Type} {p : Problem} {S : ℕ → Beginning} {logLik : Whole p (fun i => (S i).block) → ℝ}

theorem plain_known (h : InversionOf p (fun i => (S i).block) Roaming logLik) (hplain : ∀ kv ∈ p.spaces, kv.2.info.kind = .plain)
    (hknown : p.hier = []) :
    (wholePrior p fun i => (S i).block).withDensity (fun x => ENNReal.ofReal (wholeStaying p (fun i => (S i).block) x)) =
      wholePrior p fun i => (S i).block := by
  have hw : WholeProblem p (fun i => (S i).block) logLik := inversion_mono (fun _ _ => roaming_modelled) h
  have hpl : ∀ (i : ℕ) (nm : String) (sp : Space), p.spaces[i]? = some (nm, sp) → sp.info.kind = .plain :=
    fun i nm sp hi => hplain _ (List.mem_of_getElem? hi)
  simp only [wholeStaying_one hw hpl hknown, ENNReal.ofReal_one]
  exact withDensity_one

open Classical in
/-- With probability one, the inversion is completed, and its results are those of `k` times the number of saving iterations states. -/
theorem C86_completed (h : AnyProblem p (fun i => (S i).block) logLik) (hn : PlainNames p) (hS : AllStart p S) {b s : ℤ} (hs : s ≠ 0)
    {k : ℕ} (hk : 0 < k) (nJobs : Option ℤ) (n : ℕ) (w : E) :
    ResultsLaw p S k nJobs n b s w (fun res => ∃ sts, ResultsOf p res sts ∧ sts.length = k * Nat.count (fun i => Due b s (i + 1)) n) = 1 := by
  refine le_antisymm (runMean_le h hS) ?_
  have h1 := C84_completed h hn hS (b := b) hs w n
  simp only [iterations_hooked] at h1
  have h2 := outcome (S := S) (all_prefixed hS) (tempers_skip b s) hk (w := w) (n := n) (init := id)
    (sample := fun work => p.sample k nJobs work n b s w) (Q := fun _ => True) (fun _ => rfl)
    (fun t cs ts g1 g2 => sampled_vanilla (all_prefixed hS) g1 g2)
    (P := fun sts => sts.length = Nat.count (fun i => Due b s (i + 1)) n)
    (R := fun res => ∃ sts, ResultsOf p res sts ∧ sts.length = k * Nat.count (fun i => Due b s (i + 1)) n)
    (fun c t evs c' g1 g2 g3 g4 _ => ?_) (fun stss res g1 g2 g3 => ⟨stss.flatten, g3, ?_⟩)
  · refine le_trans (le_of_eq ?_) h2
    exact (one_pow k).symm.trans (congrArg (· ^ k) h1.symm)
  · have g5 := tempers_states (p := p) (tempers_skip b s) g4
    rw [id_eq, g1] at g5
    refine ⟨_, g5, ?_⟩
    have g6 := tempers_length (p := p) (tempers_skip b s) n g3 g4
    rw [g2] at g6 ⊢
    rw [g6]
    congr 1
    funext i
    rw [zero_add, add_comm]
  · rw [List.length_flatten, List.sum_eq_card_nsmul _ (Nat.count (fun i => Due b s (i + 1)) n), List.length_map, g1, smul_eq_mul]
    intro x hx
    obtain ⟨sts, hsts, rfl⟩ := List.mem_map.1 hx
    exact g2 sts hsts

/-- The averages over all samples in the results converge. -/
theorem C86_averages (h : InversionOf p (fun i => (S i).block) Roaming logLik) (hn : PlainNames p) (hS : AllStart p S) {b s : ℤ}
    (hs : s ≠ 0) (hfin : posterior (wholePrior p fun i => (S i).block) logLik 1 Set.univ ≠ ⊤) {k : ℕ} (hk : 0 < k) (nJobs : Option ℤ) (w : E)
    (f : Whole p (fun i => (S i).block) → ℝ) (hf : Measurable f) (C : ℝ) (hC : ∀ x, |f x| ≤ C)
    (hfr : ∀ x y, SameWhole x y → f x = f y) (ε δ : ℝ) (hε : 0 < ε) (hδ : 0 < δ) :
    ∃ n₀, ∀ n ≥ n₀, 1 - ENNReal.ofReal ε ≤ ResultsLaw p S k nJobs n b s w (fun res => ∃ sts, ResultsOf p res sts ∧
      (∀ st ∈ sts, HoldsAll p (fun i => (S i).block) st.params) ∧ sts ≠ [] ∧
      |averageModel p (fun i => (S i).block) f sts - meanOf (wholeSampled p (fun i => (S i).block) logLik 1) f| ≤ δ) := by
  have hk' : (0 : ℝ) < k := by exact_mod_cast hk
  obtain ⟨n₀, h₀⟩ := C84_averages h hn hS hs hfin w f hf C hC hfr (min ε 1 / k) δ (by positivity) hδ (b := b)
  refine ⟨n₀, fun n hn' => ?_⟩
  have h1 := h₀ n hn'
  simp only [runs_hooked] at h1
  refine (power_bound hk hε h1).trans ?_
  refine outcome (S := S) (all_prefixed hS) (tempers_skip b s) hk (w := w) (n := n) (init := id)
    (sample := fun work => p.sample k nJobs work n b s w) (fun _ => rfl)
    (fun t cs ts g1 g2 => sampled_vanilla (all_prefixed hS) g1 g2) (fun c t evs c' _ _ _ _ g => g) (fun stss res g1 g2 g3 => ?_)
  have hne : stss ≠ [] := by
    rintro rfl
    exact hk.ne g1
  obtain ⟨g4, g5⟩ := average_pooled hne fun sts hsts => (g2 sts hsts).2
  refine ⟨stss.flatten, g3, fun st hst => ?_, g4, g5⟩
  obtain ⟨sts, hsts, hst⟩ := List.mem_flatten.1 hst
  exact (g2 sts hsts).1 st hst

/-- Without tessellations and with known noise, the means are those of the posterior. -/
theorem C86_posterior (h : InversionOf p (fun i => (S i).block) Roaming logLik) (hn : PlainNames p) (hS : AllStart p S)
    (hplain : ∀ kv ∈ p.spaces, kv.2.info.kind = .plain) (hknown : p.hier = []) {b s : ℤ}
    (hs : s ≠ 0) (hfin : posterior (wholePrior p fun i => (S i).block) logLik 1 Set.univ ≠ ⊤) {k : ℕ} (hk : 0 < k) (nJobs : Option ℤ) (w : E)
    (f : Whole p (fun i => (S i).block) → ℝ) (hf : Measurable f) (C : ℝ) (hC : ∀ x, |f x| ≤ C)
    (hfr : ∀ x y, SameWhole x y → f x = f y) (ε δ : ℝ) (hε : 0 < ε) (hδ : 0 < δ) :
    ∃ n₀, ∀ n ≥ n₀, 1 - ENNReal.ofReal ε ≤ ResultsLaw p S k nJobs n b s w (fun res => ∃ sts, ResultsOf p res sts ∧
      (∀ st ∈ sts, HoldsAll p (fun i => (S i).block) st.params) ∧ sts ≠ [] ∧
      |averageModel p (fun i => (S i).block) f sts - meanOf (posterior (wholePrior p fun i => (S i).block) logLik 1) f| ≤ δ) := by
  have := C86_averages h hn hS hs hfin hk nJobs w f hf C hC hfr ε δ hε hδ (b := b)
  unfold wholeSampled at this
  rwa [plain_known h hplain hknown] at this

open Classical in
/-- Simulated annealing is completed with probability one; nothing but the states at the saving iterations after the burn-in is in its
results. -/
theorem C86_annealed_completed (h : AnyProblem p (fun i => (S i).block) logLik) (hn : PlainNames p) (hS : AllStart p S) {b : ℕ} {s : ℤ}
    (hs : s ≠ 0) {T0 : ℝ} (hT : 0 < T0) {k : ℕ} (hk : 0 < k) (nJobs : Option ℤ) (n : ℕ) (w : E) :
    AnnealedResultsLaw p S T0 k nJobs n b s w
      (fun res => ∃ sts, ResultsOf p res sts ∧ sts.length = k * Nat.count (fun i => Due b s (i + 1)) n) = 1 := by
  refine le_antisymm (runMean_le h hS) ?_
  have h1 := C85_completed h hn hS (b := b) hs hT (d := vanillaSampler) rfl rfl w n
  have ht := tempers_cools (s := s) (annealing_cools (E := E) p T0 (Real.log T0 / b) b (d := vanillaSampler) rfl rfl)
  have h2 := outcome (S := S) (all_prefixed hS) ht hk (w := w) (n := n) (init := fun c => c.setTemp p.cfg T0)
    (sample := fun work => p.annealedSample T0 k nJobs work n b s w) (Q := fun _ => True) (fun _ => rfl)
    (fun t cs ts g1 g2 => sampled_annealing (all_prefixed hS) hT ht g1 g2)
    (P := fun sts => sts.length = Nat.count (fun i => Due b s (i + 1)) n)
    (R := fun res => ∃ sts, ResultsOf p res sts ∧ sts.length = k * Nat.count (fun i => Due b s (i + 1)) n)
    (fun c t evs c' g1 g2 g3 g4 _ => ?_) (fun stss res g1 g2 g3 => ⟨stss.flatten, g3, ?_⟩)
  · refine le_trans (le_of_eq ?_) h2
    exact (one_pow k).symm.trans (congrArg (· ^ k) h1.symm)
  · have g5 := tempers_states (p := p) ht g4
    have e1 : (c.setTemp p.cfg T0).saved = [] := g1
    have e2 : (c.setTemp p.cfg T0).total = 0 := g2
    rw [e1] at g5
    refine ⟨_, g5, ?_⟩
    have g6 := tempers_length (p := p) ht n (fun hh => by rw [e2] at hh; omega) g4
    rw [e2] at g6 ⊢
    rw [g6]
    congr 1
    funext i
    rw [zero_add, add_comm]
  · rw [List.length_flatten, List.sum_eq_card_nsmul _ (Nat.count (fun i => Due b s (i + 1)) n), List.length_map, g1, smul_eq_mul]
    intro x hx
    obtain ⟨sts, hsts, rfl⟩ := List.mem_map.1 hx
    exact g2 sts hsts

/-- The averages over all samples in the results of simulated annealing converge. -/
theorem C86_annealed_averages (h : InversionOf p (fun i => (S i).block) Roaming logLik) (hn : PlainNames p) (hS : AllStart p S) {b : ℕ}
    {s : ℤ} (hs : s ≠ 0) {T0 : ℝ} (hT : 0 < T0) (hfin : posterior (wholePrior p fun i => (S i).block) logLik 1 Set.univ ≠ ⊤) {k : ℕ}
    (hk : 0 < k) (nJobs : Option ℤ) (w : E) (f : Whole p (fun i => (S i).block) → ℝ) (hf : Measurable f) (C : ℝ) (hC : ∀ x, |f x| ≤ C)
    (hfr : ∀ x y, SameWhole x y → f x = f y) (ε δ : ℝ) (hε : 0 < ε) (hδ : 0 < δ) :
    ∃ n₀, ∀ n ≥ n₀, 1 - ENNReal.ofReal ε ≤ AnnealedResultsLaw p S T0 k nJobs n b s w (fun res => ∃ sts, ResultsOf p res sts ∧
      (∀ st ∈ sts, HoldsAll p (fun i => (S i).block) st.params) ∧ sts ≠ [] ∧
      |averageModel p (fun i => (S i).block) f sts - meanOf (wholeSampled p (fun i => (S i).block) logLik 1) f| ≤ δ) := by
  have hk' : (0 : ℝ) < k := by exact_mod_cast hk
  obtain ⟨n₀, h₀⟩ := C85_averages h hn hS hs hT (d := vanillaSampler) rfl rfl hfin w f hf C hC hfr (min ε 1 / k) δ (by positivity) hδ (b := b)
  refine ⟨n₀, fun n hn' => ?_⟩
  have ht := tempers_cools (s := s) (annealing_cools (E := E) p T0 (Real.log T0 / b) b (d := vanillaSampler) rfl rfl)
  refine (power_bound hk hε (h₀ n hn')).trans ?_
  refine outcome (S := S) (all_prefixed hS) ht hk (w := w) (n := n) (init := fun c => c.setTemp p.cfg T0)
    (sample := fun work => p.annealedSample T0 k nJobs work n b s w) (fun _ => rfl)
    (fun t cs ts g1 g2 => sampled_annealing (all_prefixed hS) hT ht g1 g2) (fun c t evs c' _ _ _ _ g => g) (fun stss res g1 g2 g3 => ?_)
  have hne : stss ≠ [] := by
    rintro rfl
    exact hk.ne g1
  obtain ⟨g4, g5⟩ := average_pooled hne fun sts hsts => (g2 sts hsts).2
  refine ⟨stss.flatten, g3, fun st hst => ?_, g4, g5⟩
  obtain ⟨sts, hsts, hst⟩ := List.mem_flatten.1 hst
  exact (g2 sts hsts).1 st hst

/-- Without tessellations and with known noise, the means are those of the posterior. -/
theorem C86_annealed_posterior (h : InversionOf p (fun i => (S i).block) Roaming logLik) (hn : PlainNames p) (hS : AllStart p S)
    (hplain : ∀ kv ∈ p.spaces, kv.2.info.kind = .plain) (hknown : p.hier = []) {b : ℕ}
    {s : ℤ} (hs : s ≠ 0) {T0 : ℝ} (hT : 0 < T0) (hfin : posterior (wholePrior p fun i => (S i).block) logLik 1 Set.univ ≠ ⊤) {k : ℕ}
    (hk : 0 < k) (nJobs : Option ℤ) (w : E) (f : Whole p (fun i => (S i).block) → ℝ) (hf : Measurable f) (C : ℝ) (hC : ∀ x, |f x| ≤ C)
    (hfr : ∀ x y, SameWhole x y → f x = f y) (ε δ : ℝ) (hε : 0 < ε) (hδ : 0 < δ) :
    ∃ n₀, ∀ n ≥ n₀, 1 - ENNReal.ofReal ε ≤ AnnealedResultsLaw p S T0 k nJobs n b s w (fun res => ∃ sts, ResultsOf p res sts ∧
      (∀ st ∈ sts, HoldsAll p (fun i => (S i).block) st.params) ∧ sts ≠ [] ∧
      |averageModel p (fun i => (S i).block) f sts - meanOf (posterior (wholePrior p fun i => (S i).block) logLik 1) f| ≤ δ) := by
  have := C86_annealed_averages h hn hS hs hT hfin hk nJobs w f hf C hC hfr ε δ hε hδ (b := b)
  unfold wholeSampled at this
  rwa [plain_known h hplain hknown] at this

/-! ### examples

Those of C84 and C85, with four chains in two processes. -/

section Examples

example (s : ArgSort) := C86_completed (ex84_any s) (ex79_names s) (ex84_all s) (b := 10) (s := 5) (by norm_num) (k := 4) (by norm_num)
  (some 2) 100 ()

example (s : ArgSort) := C86_averages (ex84_problem s) (ex79_names s) (ex84_all s) (b := 10) (s := 5) (by norm_num) (ex84_fin s) (k := 4)
  (by norm_num) (some 2) ()

example := C86_posterior ex84q_start.choose_spec.choose_spec.2.1 ex79q_names ex84q_start.choose_spec.choose_spec.1 ex83_plain rfl
  (b := 10) (s := 5) (by norm_num) ex84q_start.choose_spec.choose_spec.2.2 (k := 4) (by norm_num) none ()

example (s : ArgSort) := C86_annealed_completed (ex84_any s) (ex79_names s) (ex84_all s) (b := 10) (s := 5) (by norm_num) (T0 := 3)
  (by norm_num) (k := 4) (by norm_num) (some 2) 100 ()

example (s : ArgSort) := C86_annealed_averages (ex84_problem s) (ex79_names s) (ex84_all s) (b := 10) (s := 5) (by norm_num) (T0 := 3)
  (by norm_num) (ex84_fin s) (k := 4) (by norm_num) (some 2) ()

example := C86_annealed_posterior ex84q_start.choose_spec.choose_spec.2.1 ex79q_names ex84q_start.choose_spec.choose_spec.1 ex83_plain rfl
  (b := 10) (s := 5) (by norm_num) (T0 := 3) (by norm_num) ex84q_start.choose_spec.choose_spec.2.2 (k := 4) (by norm_num) none ()

end Examples

end BB.Props
