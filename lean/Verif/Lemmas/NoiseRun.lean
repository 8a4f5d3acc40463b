import Verif.Lemmas.NoiseScheme
import Verif.Lemmas.Inversion

/-!
# What the perturbation of the noise computes
-/

namespace BB.Lemmas

open BB BB.Spec MeasureTheory ProbabilityTheory

/-- The draw of a normal deviate. -/
def gaussDraw (z : ℝ) : List Draw := [⟨0, z, 0, by norm_num⟩]

/-- The draws up to the first perturbed value between the bounds. -/
noncomputable def slotTape : Option Range → ℝ → (ℕ → ℝ) → List Draw
  | some r, x, ω => tape gaussDraw ω (firstIn (Set.Icc r.lo r.hi) (fun k => stepTo r x (ω k)) + 1)
  | none, _, _ => []

theorem redraw_run {r : Range} {x : ℝ} {ω : ℕ → ℝ} (h : ∃ k, stepTo r x (ω k) ∈ Set.Icc r.lo r.hi) (rest : List Draw) :
    redraw r.lo r.hi r.step x (slotTape (some r) x ω ++ rest) = (.ok (landing (some r) x ω), rest) := by
  classical
  unfold redraw
  have hrun : ∀ z rest, (do
      let d ← M.normalvariate 0 r.step
      return if x + d < r.lo ∨ x + d > r.hi then none else some (x + d) : M (Option ℝ)) (gaussDraw z ++ rest) =
      (.ok (if stepTo r x z < r.lo ∨ stepTo r x z > r.hi then none else some (stepTo r x z)), rest) := fun z rest =>
    (M.bind_of (M.normalvariate_run _ _ _ _)).trans rfl
  have hin : ∀ y, y ∈ Set.Icc r.lo r.hi ↔ ¬ (y < r.lo ∨ y > r.hi) := by
    intro y
    rw [not_or, not_lt, gt_iff_lt, not_lt]
    rfl
  obtain ⟨ha, hb⟩ := firstIn_spec (x := fun k => stepTo r x (ω k)) h
  unfold M.until
  refine untilFuel_first hrun rest _ _ ω _ ?_ (fun j hj => if_pos ?_) (if_neg ((hin _).1 ha))
  · have := tape_length (enc := gaussDraw) (by simp [gaussDraw]) ω
      (firstIn (Set.Icc r.lo r.hi) (fun k => stepTo r x (ω k)) + 1)
    rw [List.length_append]
    change _ < (tape gaussDraw ω (firstIn (Set.Icc r.lo r.hi) (fun k => stepTo r x (ω k)) + 1)).length + _ + 1
    omega
  · by_contra hc
    exact hb j hj ((hin _).2 hc)

/-- A target with its noise, and the deviates of its perturbation. -/
structure NoiseEntry where
  target : Target
  old : Bool → ℝ
  dev : Bool → ℕ → ℝ

/-- The perturbed noise. -/
noncomputable def NoiseEntry.new (e : NoiseEntry) (b : Bool) : ℝ := landing (noiseRange e.target b) (e.old b) (e.dev b)

/-- The perturbed noise. -/
noncomputable def NoiseEntry.noise (e : NoiseEntry) : Noise where
  std := e.new false
  corr := if e.target.correlated then some (e.new true) else none

/-- The draws. -/
noncomputable def NoiseEntry.tape (e : NoiseEntry) : List Draw :=
  slotTape (noiseRange e.target false) (e.old false) (e.dev false) ++
    slotTape (noiseRange e.target true) (e.old true) (e.dev true)

/-- Some perturbed values are between the bounds. -/
def NoiseEntry.Lands (e : NoiseEntry) : Prop :=
  ∀ b r, noiseRange e.target b = some r → ∃ k, stepTo r (e.old b) (e.dev b k) ∈ Set.Icc r.lo r.hi

theorem perturbNoise_run {e : NoiseEntry} (he : e.Lands) {d : Noise} (h1 : d.std = e.old false)
    (h2 : e.target.correlated → d.corr = some (e.old true)) (rest : List Draw) :
    e.target.perturbNoise d (e.tape ++ rest) = (.ok e.noise, rest) := by
  have hs := redraw_run (r := ⟨e.target.stdMin, e.target.stdMax, e.target.stdPerturb⟩) (he false _ rfl)
  unfold Target.perturbNoise NoiseEntry.tape
  rw [h1, List.append_assoc]
  refine (M.bind_of (hs _)).trans ?_
  by_cases hc : e.target.correlated
  · have hn : noiseRange e.target true = some ⟨e.target.corrMin, e.target.corrMax, e.target.corrPerturb⟩ := if_pos hc
    have ht := redraw_run (r := ⟨e.target.corrMin, e.target.corrMax, e.target.corrPerturb⟩) (he true _ hn) rest
    rw [if_pos hc, h2 hc, hn]
    simp only
    refine (M.bind_of ht).trans ?_
    unfold NoiseEntry.noise NoiseEntry.new
    rw [if_pos hc, hn]
    rfl
  · have hn : noiseRange e.target true = none := if_neg hc
    rw [if_neg hc, hn]
    unfold NoiseEntry.noise NoiseEntry.new
    rw [if_neg hc]
    rfl

theorem perturbNoises_run {p : Params} : ∀ (es : List NoiseEntry) (acc : List (String × TopVal)),
    (∀ e ∈ es, e.Lands ∧ ∃ d, dget p e.target.name = some (.noise d) ∧ d.std = e.old false ∧
      (e.target.correlated → d.corr = some (e.old true))) → ∀ rest,
    perturbNoises p (es.map (·.target)) acc (es.flatMap NoiseEntry.tape ++ rest) =
      (.ok (es.foldl (fun acc e => dset acc e.target.name (.noise e.noise)) acc), rest)
  | [], acc, _, rest => rfl
  | e :: es, acc, h, rest => by
    obtain ⟨hl, d, hd, h1, h2⟩ := h e List.mem_cons_self
    rw [List.map_cons, perturbNoises, List.flatMap_cons, List.append_assoc, List.foldl_cons]
    have hg : getNoise p e.target.name = .ok d := by
      unfold getNoise
      rw [hd]
    rw [hg]
    refine (M.bind_of rfl).trans ((M.bind_of (perturbNoise_run hl h1 h2 _)).trans ?_)
    exact perturbNoises_run es _ (fun e' he' => h e' (List.mem_cons_of_mem _ he')) rest

theorem dget_foldl_other {k : String} : ∀ (es : List NoiseEntry) (acc : List (String × TopVal)),
    k ∉ es.map (·.target.name) →
    dget (es.foldl (fun acc e => dset acc e.target.name (.noise e.noise)) acc) k = dget acc k
  | [], _, _ => rfl
  | e :: es, acc, h => by
    simp only [List.map_cons, List.mem_cons, not_or] at h
    rw [List.foldl_cons, dget_foldl_other es _ h.2, dget_dset_ne _ _ _ _ h.1]

theorem dget_foldl : ∀ (es : List NoiseEntry) (acc : List (String × TopVal)),
    (es.map (·.target.name)).Nodup → ∀ e ∈ es,
    dget (es.foldl (fun acc e => dset acc e.target.name (.noise e.noise)) acc) e.target.name = some (.noise e.noise)
  | [], _, _, _, he => absurd he List.not_mem_nil
  | e :: es, acc, h, e', he => by
    rw [List.map_cons, List.nodup_cons] at h
    rw [List.foldl_cons]
    rcases List.mem_cons.1 he with rfl | he
    · rw [dget_foldl_other es _ h.1, dget_dset_same]
    · exact dget_foldl es _ h.2 e' he

/-! ### all targets -/

section

variable (ts : List Target)

/-- The targets with their noise. -/
def entries (x : NoiseValues ts) (θ : Fin ts.length × Bool → ℕ → ℝ) : List NoiseEntry :=
  List.ofFn fun i => ⟨ts[i], fun b => x (i, b), fun b => θ (i, b)⟩

/-- The draws. -/
noncomputable def noiseTape (x : NoiseValues ts) (θ : Fin ts.length × Bool → ℕ → ℝ) : List Draw :=
  (entries ts x θ).flatMap NoiseEntry.tape

variable {ts}

theorem entries_targets (x : NoiseValues ts) (θ : Fin ts.length × Bool → ℕ → ℝ) : (entries ts x θ).map (·.target) = ts := by
  unfold entries
  rw [List.map_ofFn]
  exact List.ofFn_getElem

theorem noise_lands (h : ProperAll ts) (x : NoiseValues ts) :
    ∀ᵐ θ ∂deviates ts, ∀ e ∈ entries ts x θ, e.Lands := by
  have hq : ∀ q : Fin ts.length × Bool, ∀ᵐ θ ∂deviates ts, ∀ r, noiseRanges ts q = some r →
      ∃ k, stepTo r (x q) (θ q k) ∈ Set.Icc r.lo r.hi := by
    intro q
    have h1 : ∀ᵐ ω ∂Measure.infinitePi (fun _ : ℕ => gaussianReal 0 1), ∀ r, noiseRanges ts q = some r →
        ∃ k, stepTo r (x q) (ω k) ∈ Set.Icc r.lo r.hi := by
      cases ho : noiseRanges ts q with
      | none => exact .of_forall fun ω r hr => by cases hr
      | some r =>
        have hf : Measurable (stepTo r (x q)) := by
          unfold stepTo
          fun_prop
        filter_upwards [some_accepted (gaussianReal 0 1) hf (measurableSet_Icc (a := r.lo) (b := r.hi))
          (stepTo_ne (h q r ho) (x q))] with ω hω r' hr'
        cases hr'
        exact hω
    have h2 : (deviates ts).map (fun θ => θ q) = Measure.infinitePi (fun _ : ℕ => gaussianReal 0 1) := by
      unfold deviates
      exact (measurePreserving_eval _ q).map_eq
    rw [← h2] at h1
    exact ae_of_ae_map (measurable_pi_apply q).aemeasurable h1
  filter_upwards [ae_all_iff.2 hq] with θ hθ e he
  obtain ⟨i, rfl⟩ := List.mem_ofFn.1 he
  exact fun b r hr => hθ (i, b) r hr

theorem noisePerturb_run (hnd : (ts.map (·.name)).Nodup) {s : State} (hs : HasNoise ts s.params)
    {θ : Fin ts.length × Bool → ℕ → ℝ} (hθ : ∀ e ∈ entries ts (noiseValues ts s.params) θ, e.Lands) :
    ∃ new, (∀ rest, noisePerturb ts s (noiseTape ts (noiseValues ts s.params) θ ++ rest) = (.ok (new, .fin 0), rest)) ∧
      noiseValues ts new.params = landAll ts (noiseValues ts s.params) θ := by
  set es := entries ts (noiseValues ts s.params) θ with hes
  have ht : es.map (·.target) = ts := entries_targets _ _
  have hnd' : (es.map (·.target.name)).Nodup := by
    rw [← ht, List.map_map] at hnd
    exact hnd
  have hrun := perturbNoises_run (p := s.params) es [] (by
    intro e he
    refine ⟨hθ e he, ?_⟩
    obtain ⟨i, rfl⟩ := List.mem_ofFn.1 he
    obtain ⟨d, hd, hc⟩ := hs ts[i] (List.getElem_mem _)
    refine ⟨d, hd, ?_, ?_⟩
    · change d.std = noiseValue ts[i] s.params false
      unfold noiseValue
      rw [hd]
    · intro hcor
      change d.corr = some (noiseValue ts[i] s.params true)
      unfold noiseValue
      rw [hd]
      simp only [if_pos (show ts[i].correlated from hcor)]
      obtain ⟨c, hc'⟩ := Option.ne_none_iff_exists'.1 (hc hcor)
      rw [hc']
      rfl)
  rw [ht] at hrun
  refine ⟨_, fun rest => (M.bind_of (hrun rest)).trans rfl, ?_⟩
  have hk : (dkeys (es.foldl (fun (acc : List (String × TopVal)) e => dset acc e.target.name (.noise e.noise)) [])).Nodup := by
    have := perturbNoises_nodup s.params ts [] (by simp [dkeys]) _ _ _ (hrun [])
    exact this
  funext q
  obtain ⟨i, b⟩ := q
  have hmem : (⟨ts[i], fun b => noiseValues ts s.params (i, b), fun b => θ (i, b)⟩ : NoiseEntry) ∈ es := List.mem_ofFn.2 ⟨i, rfl⟩
  have hg := dget_foldl es [] hnd' _ hmem
  simp only at hg
  change noiseValue ts[i] (dupdate s.params _) b = landing (noiseRange ts[i] b) (noiseValues ts s.params (i, b)) (θ (i, b))
  have hg2 : dget (dupdate s.params (es.foldl (fun (acc : List (String × TopVal)) e => dset acc e.target.name (.noise e.noise)) [])) ts[i].name =
      some (.noise (NoiseEntry.noise ⟨ts[i], fun b => noiseValues ts s.params (i, b), fun b => θ (i, b)⟩)) := by
    rw [dget_dupdate _ _ hk, hg]
    rfl
  cases b with
  | false =>
    unfold noiseValue
    rw [hg2]
    rfl
  | true =>
    unfold noiseValue
    rw [hg2]
    simp only
    unfold NoiseEntry.noise NoiseEntry.new
    by_cases hc : ts[i].correlated
    · simp only [hc, if_true]
      rfl
    · have hn : noiseRange ts[i] true = none := if_neg hc
      rw [hn]
      simp only [hc, Bool.false_eq_true, if_false]
      rfl

end

end BB.Lemmas
