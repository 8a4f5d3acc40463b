import Verif.Lemmas.WholeTempering
import Verif.Props.C86_WholeResults
import Verif.Props.C87_TemperingSwaps

/-!
# C88 — whole inversions by parallel tempering

`BayesianInversion(…, n_chains=m + 1)`, `run(sampler=ParallelTempering(tmax, fraction, e), …)` and `get_results()`, in one or several
processes: with probability one, the batches of iterations and the swaps between them are all completed, and a dictionary is returned, which
has what the states of as many chains as are at temperature 1 contribute — at each of the saving iterations of each batch.
-/

namespace BB.Props

open BB Spec Lemmas MeasureTheory ProbabilityTheory

variable {E : Type} {p : Problem} {S : ℕ → Beginning} {logLik : Whole p (fun i => (S i).block) → ℝ}

theorem act_bind_err {C α β : Type} {a : Act C α} {f : α → Act C β} {c c' : C} {t t' : List Draw} {x : PyErr}
    (h : a c t = (.error x, c', t')) : (a >>= f) c t = (.error x, c', t') := by
  rw [Act.bind_run, h]

theorem init_zip {m : ℕ} {fraction tmax : ℝ} (ht : 0 < tmax) (hk : max 2 (⌊((m + 1 : ℕ) : ℝ) * fraction⌋₊) ≤ m + 1) {w : E}
    {cs : List (Chain State Store E)} (hl : cs.length = m + 1) (t : List Draw) : ptInit p.cfg fraction tmax ⟨cs, w, 0⟩ t =
      (.ok (), ⟨List.zipWith (fun c T => c.setTemp p.cfg T) cs (ladder m fraction tmax), w, 0⟩, t) := by
  unfold ptInit
  dsimp only
  rw [hl, ladder_ok ht hk]
  dsimp only
  rw [assign_zip p.cfg cs _ (by rw [hl, ladder_length hk])]

/-- The runs of the program are those of the sampler. -/
theorem tempered_run {m : ℕ} {fraction tmax : ℝ} (ht : 0 < tmax) (hk : max 2 (⌊((m + 1 : ℕ) : ℝ) * fraction⌋₊) ≤ m + 1)
    (hp : ∀ kv ∈ p.spaces, SpacePrefixed kv.2) {w : E} {t : List Draw} {cs : List (Chain State Store E)}
    (h1 : p.newChains (m + 1) w t = (.ok cs, [])) {e n : ℕ} {b s : ℤ} {nJobs : Option ℤ} {work : ℕ → ℕ → List Draw} {fuel : ℕ}
    {u : List Draw} {evs : List (List (Event State))} {s' : Samp State Store E}
    (h2 : ptRun p.cfg ⟨some (nJobs.getD (m + 1)), work⟩ (tempering p.cfg fraction tmax vanillaSampler) e n b s fuel
      ⟨List.zipWith (fun c T => c.setTemp p.cfg T) cs (ladder m fraction tmax), w, 0⟩ u = (.ok (some evs), s', [])) :
    p.temperedSample fraction tmax e (m + 1) nJobs work n b s w fuel (t ++ u) = (.ok (some s'.chains), []) := by
  have h3 := newChains_prefixed hp (m + 1) w t u
  rw [h1] at h3
  have hl := (newChains_new h1).1
  unfold Problem.temperedSample
  rw [h3 (by simp)]
  dsimp only
  rw [List.nil_append, hl]
  rw [show ((m : ℤ) + 1) = ((m + 1 : ℕ) : ℤ) by push_cast; rfl] at h2
  have h6 : inversionRun (tempering p.cfg fraction tmax vanillaSampler)
      (ptRun p.cfg ⟨some (nJobs.getD ((m + 1 : ℕ) : ℤ)), work⟩ (tempering p.cfg fraction tmax vanillaSampler) e n b s fuel)
      ⟨cs, w, 0⟩ u = (.ok (some evs), s', []) := by
    unfold inversionRun SamplerDef.initialize
    refine (act_bind_of (c' := ⟨List.zipWith (fun c T => c.setTemp p.cfg T) cs (ladder m fraction tmax), w, 0⟩) (t' := u) (x := ()) ?_).trans h2
    exact (act_bind_of (init_zip ht hk hl u)).trans rfl
  rw [h6]

open Classical in
/-- With probability one, the inversion is completed, and its results are those of the states of the chains at temperature 1. -/
theorem C88_completed (h : AnyProblem p (fun i => (S i).block) logLik) (hn : PlainNames p) (hS : AllStart p S) {m : ℕ} {fraction tmax : ℝ}
    (ht : 0 < tmax) (hk : max 2 (⌊((m + 1 : ℕ) : ℝ) * fraction⌋₊) ≤ m + 1) {e : ℕ} (he : 1 ≤ e) {b s : ℤ} (hs : s ≠ 0)
    (nJobs : Option ℤ) (n : ℕ) (w : E) :
    TemperedResultsLaw p S fraction tmax e m nJobs n b s w (fun res => ∃ sts, ResultsOf p res sts ∧
      sts.length = (if tmax = 1 then m + 1 else max 2 (⌊((m + 1 : ℕ) : ℝ) * fraction⌋₊)) *
        Nat.count (fun i => BatchDue e b s (i + 1)) n) = 1 := by
  obtain ⟨-, -, hq, hf, -⟩ := whole_start h hS
  have hl : IsProbabilityMeasure (wholeLaw p fun i => (S i).block) := by
    obtain ⟨-, -, -, -, -, -, -, -, hl⟩ := cooled_kernel h one_ne_zero 0 0
    exact hl
  have hTs := ladder_ne (m := m) (fraction := fraction) ht
  have hlen := ladder_length (tmax := tmax) hk
  obtain ⟨R, hR⟩ := whole_safe h hTs
  refine le_antisymm ?_ ?_
  · refine startsMean_le hq (m + 1) _ fun t => ?_
    split
    · split
      · refine batchesMean_le hl m _ _ _ fun bs => ?_
        refine le_trans (ite_le_sup _ _ _) ?_
        simp
      · exact zero_le
    · exact zero_le
  · set g : Chain State Store E → ENNReal := fun c => if Ready p (fun i => (S i).block) 1 c ∧
      wholeOf p (fun i => (S i).block) c.cur.params ∈ safeWhole logLik R (ladder m fraction tmax) n then 1 else 0 with hg
    have h1 : newChainLaw p S w g = 1 := by
      rw [newChain_mean h hS w g (fun _ => 1) measurable_const, lintegral_one, measure_univ]
      refine (hR n).2.2.mono fun x hx c g1 g2 g3 g4 => if_pos ⟨g1, ((hR n).2.1 _ _ g4).1 hx⟩
    have h2 := starts_bound (S := S) (all_prefixed hS) (w := w) (g := g) (m + 1) 1
    rw [h1, one_pow, one_mul] at h2
    refine h2 _ fun t cs g1 => ?_
    obtain ⟨g2, g3⟩ := newChains_new g1
    rw [one_mul, g1]
    dsimp only
    by_cases hall : ∀ c ∈ cs, Ready p (fun i => (S i).block) 1 c ∧
      wholeOf p (fun i => (S i).block) c.cur.params ∈ safeWhole logLik R (ladder m fraction tmax) n
    · rw [List.prod_eq_one fun x hx => by
        obtain ⟨c, hc, rfl⟩ := List.mem_map.1 hx
        exact if_pos (hall c hc), init_zip ht hk g2]
      have hfit := fit_start (logLik := logLik) (R := R) (Ts := ladder m fraction tmax) (N := n) (w := w) (by rw [g2, hlen]) g3 hall
      have hb : batches e n b = (List.range' 0 ((n + e - 1) / e + 1)).map (batchAt e n b) := by
        rw [← List.range_eq_range']
        rfl
      dsimp only
      rw [hb]
      refine batches_bound (R := R) h hn (all_prefixed hS) hTs (by omega) hlen hs fraction tmax (nJobs.getD (m + 1)) he n b ((n + e - 1) / e) 0
        (Nat.zero_add _) _ rfl ?_ _ fun bs fuel evs s' k1 k2 => ?_
      · simpa using hfit
      · have k3 := k1 (fun i j => (bs.getD i ([], [])).1.getD j []) [] fun i' j => by rw [Nat.zero_add]
        rw [List.append_nil] at k3
        have k4 := tempered_run ht hk (all_prefixed hS) g1 k3
        obtain ⟨stss, k5, k6⟩ := k2.saved
        have hne : s'.chains ≠ [] := by
          intro hh
          have := k2.temps.length_eq
          rw [hh, hlen] at this
          exact absurd this (by simp)
        obtain ⟨res, k7, k8⟩ := results_of p hne k2.nodup k5
        rw [if_pos]
        refine ⟨fuel, res, [], ?_, stss.flatten, k8, ?_⟩
        · unfold Problem.temperedResults
          rw [k4]
          dsimp only
          rw [k7]
        · rw [k6, ← ladder_cold ht hk]
    · refine le_trans (le_of_eq ?_) zero_le
      push Not at hall
      obtain ⟨c, hc, hc'⟩ := hall
      refine List.prod_eq_zero (List.mem_map.2 ⟨c, hc, ?_⟩)
      exact if_neg fun hh => hc' hh.1 hh.2

/-- The number of chains must be large enough for the temperatures: otherwise an exception is raised before the first iteration. -/
theorem C88_too_few {m : ℕ} {fraction tmax : ℝ} (hk : m + 1 < max 2 (⌊((m + 1 : ℕ) : ℝ) * fraction⌋₊)) (e : ℤ)
    (nJobs : Option ℤ) (work : ℕ → ℕ → List Draw) (n b s : ℤ) (w : E) (fuel : ℕ) {t t' : List Draw} {cs : List (Chain State Store E)}
    (h : p.newChains (m + 1) w t = (.ok cs, t')) :
    p.temperedResults fraction tmax e (m + 1) nJobs work n b s w fuel t = (.error .unboundLocalError, t') := by
  have h1 : ptInit p.cfg fraction tmax ⟨cs, w, 0⟩ t' = (.error .unboundLocalError, ⟨cs, w, 0⟩, t') := by
    unfold ptInit ptLadder
    dsimp only
    rw [(newChains_new h).1, if_neg (by omega)]
  have h2 : ∀ run : Act (Samp State Store E) (Option (List (List (Event State)))),
      inversionRun (tempering p.cfg fraction tmax vanillaSampler) run ⟨cs, w, 0⟩ t' = (.error .unboundLocalError, ⟨cs, w, 0⟩, t') := by
    intro run
    unfold inversionRun SamplerDef.initialize
    exact act_bind_err (act_bind_err h1)
  unfold Problem.temperedResults Problem.temperedSample
  rw [h]
  dsimp only
  rw [h2]

section Examples

/-- Eight chains: three of them at temperature 1. -/
example (s : ArgSort) := C88_completed (ex84_any s) (ex79_names s) (ex84_all s) (m := 7) (fraction := 4 / 10) (tmax := 5) (by norm_num)
  (max_le (by norm_num) (by
    have : ⌊((7 + 1 : ℕ) : ℝ) * (4 / 10)⌋₊ = 3 := by
      rw [Nat.floor_eq_iff (by norm_num)]
      norm_num
    rw [this]
    norm_num)) (e := 20) (by norm_num) (b := 10) (s := 5) (by norm_num) (some 2) 100 ()

/-- A single chain is too few. -/
example (s : ArgSort) : ∃ t cs, (ex78p s).newChains 1 () t = (.ok cs, []) := by
  obtain ⟨x, -, h1, -, -, h2⟩ := whole_start (ex84_any s) (ex84_all s)
  obtain ⟨θ, -, h3⟩ := h2.exists
  obtain ⟨c, h4, -⟩ := h3 ()
  exact ⟨_, [c], newChains_succ (k := 0) (t₂ := []) (cs := []) (all_prefixed (ex84_all s)) h4 rfl⟩

example (s : ArgSort) {t : List Draw} {cs : List (Chain State Store Unit)} (h : (ex78p s).newChains 1 () t = (.ok cs, [])) :=
  C88_too_few (m := 0) (fraction := 4 / 10) (tmax := 5) (lt_max_of_lt_left (by norm_num)) 20 (some 2) (fun _ _ => []) 100 10 5 () 50 h

end Examples

end BB.Props
