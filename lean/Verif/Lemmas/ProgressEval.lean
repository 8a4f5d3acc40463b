import Verif.Lemmas.ProgressSave
import Verif.Lemmas.Consume
import Verif.Lemmas.StateChain
import Verif.Props.C27_C31_Likelihood
import Verif.Props.C32_Cache
import Verif.Props.C16_C33_Noise

/-!
# No exceptions: proposals and their likelihood
-/

namespace BB.Lemmas

open BB BB.Spec BB.Props BB.Utils1d

theorem _root_.BB.Runs.and_post {α : Type} {m : M α} {P Q : α → Prop} (h : Runs m P) (h2 : Post m Q) :
    Runs m (fun a => P a ∧ Q a) := by
  intro t
  rcases h t with ⟨a, t', e, ha⟩ | h
  · exact Or.inl ⟨a, t', e, ha, h2 _ _ _ e⟩
  · exact Or.inr h

/-! ### the caches -/

theorem perturb_cache (g : PSPert) (s : State) :
    Post (g.perturb s) fun r => (∃ st, r.1.cache = [("perturb_stats", .stats st)]) ∧ r.1.extra = [] := by
  unfold PSPert.perturb
  exact Post.bind_any fun n => Post.bind_any fun target => Post.bind_any fun r => Post.bind_any fun l =>
    Post.pure' ⟨⟨_, rfl⟩, rfl⟩

theorem coherent_stats {tf : List (Target × Fwd)} {s : State} {st : List (String × ℝ)}
    (h : s.cache = [("perturb_stats", .stats st)]) : Coherent tf s := by
  intro x _ v hv
  rw [h] at hv
  have hne : x.1.name ++ ".dpred" ≠ "perturb_stats" := by
    intro e
    have h1 := congrArg (fun z => z.toList.getLast?) e
    simp only [String.toList_append] at h1
    rw [List.getLast?_append] at h1
    have h2 : ".dpred".toList.getLast? = some 'd' := by decide +kernel
    have h3 : "perturb_stats".toList.getLast? = some 's' := by decide +kernel
    rw [h2, h3] at h1
    simp at h1
  simp [dget, Ne.symm hne] at hv

theorem coherent_noise {tf : List (Target × Fwd)} {s s' : State}
    (h : s'.cache = s.cache.filter (fun kv => kv.1 == "dpred")) : Coherent tf s' := by
  intro x _ v hv
  rw [h] at hv
  have := (List.mem_filter.1 (dget_some_mem hv)).2
  simp only [beq_iff_eq] at this
  exact absurd this (dpredKey_ne x.1.name)

theorem coherent_nil {tf : List (Target × Fwd)} {s : State} (h : s.cache = []) : Coherent tf s := by
  intro x _ v hv
  rw [h] at hv
  simp [dget] at hv

theorem start_cache {p : Problem} : Post p.start (fun s => s.cache = [] ∧ s.extra = []) := by
  unfold Problem.start Spaces.initialize
  refine Post.bind' (Q := fun s => s.cache = [] ∧ s.extra = []) ?_ fun s hs => ?_
  · exact Post.bind_any fun l => Post.pure' ⟨rfl, rfl⟩
  · generalize p.targets = ts
    induction ts generalizing s with
    | nil => exact Post.pure' hs
    | cons tg ts ih =>
      rw [initTargets]
      refine Post.bind' (Q := fun s => s.cache = [] ∧ s.extra = []) ?_ fun s' hs' => ih s' hs'
      unfold Target.initialize
      split
      · refine Post.bind_any fun std => ?_
        split
        · exact Post.bind_any fun r => Post.pure' hs
        · exact Post.pure' hs
      · exact Post.pure' hs

theorem tf_nodup {p : Problem} (h : (p.targets.map (·.name)).Nodup) : (p.tf.map (·.1.name)).Nodup := by
  unfold Problem.targets at h
  rw [List.map_map] at h
  exact h

theorem hier_nodup {p : Problem} (h : (p.targets.map (·.name)).Nodup) : (p.hier.map (·.name)).Nodup :=
  h.sublist (List.Sublist.map _ List.filter_sublist)

theorem llr_left {p : Problem} (hnd : (p.tf.map (·.1.name)).Nodup) (a b : State) (T : ℝ) (ha : Coherent p.tf a) :
    Coherent p.tf (p.cfg.llr a b T).2.1 := by
  have h1 := (getMisfitAndDet_coh p.tf a hnd ha).2.1
  change Coherent p.tf (logLikelihoodRatio p.kind p.tf a b T).2.1.1
  unfold logLikelihoodRatio
  split
  · simp only [ratioFromTargets]
    split
    · rename_i h; rw [h] at h1; exact h1
    · rename_i h; rw [h] at h1; split <;> exact h1
  · exact ha
  · exact ha

theorem llr_right {p : Problem} (hnd : (p.tf.map (·.1.name)).Nodup) (a b : State) (T : ℝ) (hb : Coherent p.tf b) :
    Coherent p.tf (p.cfg.llr a b T).2.2 := by
  have h2 := (getMisfitAndDet_coh p.tf b hnd hb).2.1
  change Coherent p.tf (logLikelihoodRatio p.kind p.tf a b T).2.2.1
  unfold logLikelihoodRatio
  split
  · simp only [ratioFromTargets]
    split
    · exact hb
    · split
      · rename_i h'; rw [h'] at h2; exact h2
      · rename_i h'; rw [h'] at h2; exact h2
  · exact hb
  · exact hb

/-- The cache holds current predictions only, and there are no extra attributes. -/
theorem visits_cache {p : Problem} (hnd : (p.targets.map (·.name)).Nodup) {s : State} (h : Visits p s) :
    Coherent p.tf s ∧ s.extra = [] := by
  refine visited_of_closed p.cfg (P := fun s => Coherent p.tf s ∧ s.extra = []) ⟨?_, ?_, ?_, ?_⟩ ?_ h
  · intro name f hf s t new lpr t' _ hp _ _
    have hf : (name, f) ∈ p.perturbs := hf
    unfold Problem.perturbs at hf
    rcases List.mem_append.1 hf with hf | hf
    · obtain ⟨g, _, e⟩ := List.mem_map.1 hf
      simp only [Prod.mk.injEq] at e
      obtain ⟨-, rfl⟩ := e
      obtain ⟨⟨st, h1⟩, h2⟩ := perturb_cache g.1 s _ _ _ hp
      exact ⟨coherent_stats h1, h2⟩
    · unfold Problem.noisePerturbs at hf
      split at hf
      · simp at hf
      · simp only [List.mem_singleton, Prod.mk.injEq] at hf
        obtain ⟨-, rfl⟩ := hf
        obtain ⟨-, -, -, h1, h2, -⟩ := noisePerturb_ok (hier_nodup hnd) hp
        exact ⟨coherent_noise h2, h1⟩
  · intro a b T h
    exact ⟨llr_left (tf_nodup hnd) a b T h.1, ((llr_step _ _ _ _ _ _ a b T).1.extra).trans h.2⟩
  · intro a b T h
    exact ⟨llr_right (tf_nodup hnd) a b T h.1, ((llr_step _ _ _ _ _ _ a b T).2.extra).trans h.2⟩
  · intro s x h
    exact h
  · rintro s ⟨t, t', hs⟩
    obtain ⟨h1, h2⟩ := start_cache _ _ _ hs
    exact ⟨coherent_nil h1, h2⟩

/-! ### proposals -/

/-- What is known about a proposal. -/
structure PropOk (p : Problem) (name : String) (new : State) : Prop where
  coherent : Coherent p.tf new
  extra : new.extra = []
  noise : ∀ tg ∈ p.targets, tg.hierarchical = true → NoiseWithin tg new.params
  stats : name.startsWith "ParamSpacePerturbation" = true → ∃ st, loadStats new = .ok st

theorem displayName_starts (g : PSPert) : g.displayName.startsWith "ParamSpacePerturbation" = true := by
  rw [String.startsWith_string_iff]
  unfold PSPert.displayName
  rw [String.toList_append, String.toList_append]
  exact (show "ParamSpacePerturbation".toList <+: "ParamSpacePerturbation(param_space_name=".toList by
    decide +kernel).trans ((List.prefix_append _ _).trans (List.prefix_append _ _))

theorem noiseName_starts (ts : List Target) : (noiseName ts).startsWith "ParamSpacePerturbation" = false := by
  rw [Bool.eq_false_iff]
  intro h
  rw [String.startsWith_string_iff] at h
  unfold noiseName at h
  rw [String.toList_append, String.toList_append] at h
  obtain ⟨tl, h1⟩ := h
  have h2 : "NoisePerturbation(".toList = 'N' :: "oisePerturbation(".toList := by decide +kernel
  have h3 : "ParamSpacePerturbation".toList = 'P' :: "aramSpacePerturbation".toList := by decide +kernel
  rw [h2, h3] at h1
  simp only [List.cons_append] at h1
  injection h1 with h1
  exact absurd h1 (by decide)

/-- The perturbations: they return a proposal or use up the draws. -/
theorem prop_runs {p : Problem} (h : ProblemSafe p) {s : State} (hinv : PInv vecVal p s.params)
    (hnoise : ∀ tg ∈ p.targets, tg.hierarchical = true → NoiseWithin tg s.params) {i : ℕ} {name : String}
    {f : State → M (State × PyF)} {w : ℝ} (hf : p.perturbs[i]? = some (name, f)) (hw : p.weights[i]? = some w)
    (hpos : 0 < w) : Runs (f s) (fun r => PropOk p name r.1) ∧ Consumes (f s) := by
  unfold Problem.perturbs at hf
  unfold Problem.weights at hw
  by_cases hi : i < p.spaces.perts.length
  · rw [List.getElem?_append_left (by simpa using hi), List.getElem?_map, List.getElem?_eq_getElem hi] at hf hw
    simp only [Option.map_some, Option.some.injEq, Prod.mk.injEq] at hf hw
    obtain ⟨rfl, rfl⟩ := hf
    have hmem := List.getElem_mem hi
    constructor
    · refine (((perturb_runs h hmem (hw ▸ hpos) hinv).and_post (perturb_cache _ s)).and_post
        (perturb_noise _ s)).mono fun r hr => ?_
      obtain ⟨⟨⟨⟨st, h1⟩, -⟩, ⟨st', h2⟩, h3⟩, h4⟩ := hr
      refine ⟨coherent_stats h2, h3, ?_, ?_⟩
      · intro tg htg hh
        obtain ⟨d, e, hd⟩ := hnoise tg htg hh
        exact ⟨d, noiseAt_some.1 ((h4 _).trans (noiseAt_some.2 e)), hd⟩
      · intro _
        exact ⟨st, by unfold loadStats; rw [h1]⟩
    · generalize p.spaces.perts[i] = g at hmem
      unfold Spaces.perts at hmem
      obtain ⟨⟨k0, top0⟩, htop0, hgm⟩ := List.mem_flatMap.1 hmem
      obtain ⟨sp', hsub, he⟩ := perts_S _ _ hgm
      have hk : KnownL sp'.params := knownL_of _ _ (h.space ⟨k0, top0, htop0, hsub⟩).params
      refine perturb_consumes ?_ s
      intro f hf s
      rw [he] at hf
      exact func_consumes hk hf s
  · rw [List.getElem?_append_right (by simpa using hi)] at hf
    have hm := List.mem_of_getElem? hf
    unfold Problem.noisePerturbs at hm
    split at hm
    · simp at hm
    · simp only [List.mem_singleton, Prod.mk.injEq] at hm
      obtain ⟨rfl, rfl⟩ := hm
      refine ⟨?_, noisePerturb_consumes _ _⟩
      have hpost : Post (noisePerturb p.hier s) (fun r => PropOk p (noiseName p.hier) r.1) := by
        intro t r t' e
        obtain ⟨h1, h2, h3, h4, h5, h6⟩ := noisePerturb_ok (hier_nodup h.targets) e
        refine ⟨coherent_noise h5, h4, ?_, ?_⟩
        · intro tg htg hh
          obtain ⟨d, hd⟩ := h1 tg (List.mem_filter.2 ⟨htg, hh⟩)
          exact ⟨d, hd⟩
        · intro hn
          rw [noiseName_starts] at hn
          cases hn
      refine ((noisePerturb_runs fun tg htg => ?_).and_post hpost).mono fun r hr => hr.2
      obtain ⟨h1, h2⟩ := List.mem_filter.1 htg
      exact hnoise tg h1 h2

/-! ### the likelihood -/

theorem noise_admissible {x : Target × Fwd} (h : TargetSafe x) (hc : x.1.check = .ok x.1) {params : Params}
    (hn : x.1.hierarchical = true → NoiseWithin x.1 params) :
    NoiseOf params x.1 (noiseIn params x.1) ∧ Admissible x.1 (noiseIn params x.1) := by
  by_cases hv : x.1.covInv = none
  · have hh : x.1.hierarchical = true := by simp [Target.hierarchical, hv]
    obtain ⟨d, h1, h2, h3, h4⟩ := hn hh
    have hd : noiseIn params x.1 = d := by unfold noiseIn; rw [h1]
    rw [hd]
    refine ⟨fun _ => h1, ?_⟩
    unfold Admissible
    rw [hv]
    refine ⟨lt_of_lt_of_le (h.std hv) h2, ?_⟩
    intro r hr
    by_cases hcor : x.1.correlated = true
    · rw [if_pos hcor] at h4
      obtain ⟨r', h5, h6, h7⟩ := h4
      rw [h5] at hr
      injection hr with hr
      subst hr
      obtain ⟨h8, h9⟩ := h.corr hv hcor
      have hpos : 0 ≤ x.1.corrMin := by
        unfold Target.check at hc
        split at hc
        · rename_i hcc; exact hcc.2.2.2.1
        · cases hc
      exact ⟨abs_lt.2 ⟨by linarith, by linarith⟩, h9⟩
    · rw [if_neg hcor] at h4
      rw [h4] at hr
      cases hr
  · exact ⟨fun e => absurd e hv, h.fixed hv _⟩

theorem fresh_fold {params : Params} : ∀ (tf : List (Target × Fwd)), (∀ x ∈ tf, TargetSafe x) →
    (∀ x ∈ tf, NoiseOf params x.1 (noiseIn params x.1) ∧ Admissible x.1 (noiseIn params x.1)) → ∀ ml : ℝ × ℝ,
    (∃ r, tf.foldlM (freshStep params) ml = .ok r) ∨
      (tf.foldlM (freshStep params) ml = .error .forward ∧ ∃ x ∈ tf, x.2 params = none)
  | [], _, _, ml => Or.inl ⟨ml, rfl⟩
  | x :: tf, h, hn, ml => by
    rw [List.foldlM_cons]
    match hx : x.2 params with
    | none =>
      right
      refine ⟨?_, x, List.mem_cons_self .., hx⟩
      unfold freshStep
      rw [hx]
      rfl
    | some d =>
      have hs := h x (List.mem_cons_self ..)
      obtain ⟨h1, h2⟩ := hn x (List.mem_cons_self ..)
      rw [show ml = (ml.1, ml.2) from rfl, fresh_step_ok (x := x) ⟨⟨d, hx, hs.size _ _ hx⟩, hs.data, h1, h2⟩, ok_bind]
      rcases fresh_fold tf (fun y hy => h y (List.mem_cons_of_mem _ hy))
        (fun y hy => hn y (List.mem_cons_of_mem _ hy)) _ with h | ⟨h, y, hy, e⟩
      · exact Or.inl h
      · exact Or.inr ⟨h, y, List.mem_cons_of_mem _ hy, e⟩

theorem pyDiv_ok {x : PyF} {T : ℝ} (h : T ≠ 0) : pyDiv x T = .ok (x.divFin T) := by
  unfold pyDiv
  exact if_neg h

/-- The log likelihood ratio: a value, or one of the two exceptions that are caught, and these only if a function
of the user fails. -/
theorem llr_runs {p : Problem} (h : RunSafe p) {a b : State} {T : ℝ} (hT : T ≠ 0) (ha : Coherent p.tf a)
    (hb : Coherent p.tf b) (na : ∀ tg ∈ p.targets, tg.hierarchical = true → NoiseWithin tg a.params)
    (nb : ∀ tg ∈ p.targets, tg.hierarchical = true → NoiseWithin tg b.params) :
    (∃ r, (p.cfg.llr a b T).1 = .ok r) ∨
      (∃ e, (p.cfg.llr a b T).1 = .error e ∧ (e = .userFunction ∨ e = .forward) ∧ ¬ NeverFails p) := by
  have hl := h.likelihood
  unfold LikelihoodSafe at hl
  unfold NeverFails
  match hk : p.kind with
  | .targets =>
    rw [hk] at hl
    simp only at hl ⊢
    have hmem : ∀ x ∈ p.tf, x.1 ∈ p.targets := fun x hx => List.mem_map_of_mem hx
    have heval : (p.cfg.llr a b T).1 = freshRatio p.tf a.params b.params T := by
      have := C32_evaluation p.tf (tf_nodup h.base.targets) p.perturbs p.weights
        (some (p.spaces.map fun kv => (kv.1, kv.2.info.transD))) p.saveDpred a b T ha hb
      rw [← this]
      unfold Problem.cfg
      rw [hk]
    rw [heval]
    unfold freshRatio
    rw [freshEval_eq, freshEval_eq]
    rcases fresh_fold p.tf hl (fun x hx => noise_admissible (hl x hx) (h.base.checked _ (hmem x hx)) (na _ (hmem x hx)))
      (0, 0) with ⟨r, e⟩ | ⟨e, x, hx, hn⟩
    · rw [e, ok_bind]
      rcases fresh_fold p.tf hl (fun x hx => noise_admissible (hl x hx) (h.base.checked _ (hmem x hx)) (nb _ (hmem x hx)))
        (0, 0) with ⟨r', e'⟩ | ⟨e', x, hx, hn⟩
      · rw [e', ok_bind, pyDiv_ok hT]
        exact Or.inl ⟨_, rfl⟩
      · rw [e']
        exact Or.inr ⟨_, rfl, Or.inr rfl, fun hf => hf x hx _ hn⟩
    · rw [e]
      exact Or.inr ⟨_, rfl, Or.inr rfl, fun hf => hf x hx _ hn⟩
  | .ratio f =>
    rw [hk] at hl
    simp only at hl ⊢
    have heval : (p.cfg.llr a b T).1 = (f a b >>= fun x => pyDiv x T) := by
      change (logLikelihoodRatio p.kind p.tf a b T).1 = _
      rw [hk]; rfl
    rw [heval]
    match hf : f a b with
    | .ok r => rw [ok_bind, pyDiv_ok hT]; exact Or.inl ⟨_, rfl⟩
    | .error e => exact Or.inr ⟨e, rfl, Or.inl (hl _ _ _ hf), fun hn => hn _ _ _ hf⟩
  | .loglike f =>
    rw [hk] at hl
    simp only at hl ⊢
    have heval : (p.cfg.llr a b T).1 = (ratioFromLoglike f a b >>= fun x => pyDiv x T) := by
      change (logLikelihoodRatio p.kind p.tf a b T).1 = _
      rw [hk]; rfl
    rw [heval]
    unfold ratioFromLoglike
    match hf : f a with
    | .error e => exact Or.inr ⟨e, rfl, Or.inl (hl _ _ hf), fun hn => hn _ _ hf⟩
    | .ok o =>
      match hf' : f b with
      | .error e => exact Or.inr ⟨e, rfl, Or.inl (hl _ _ hf'), fun hn => hn _ _ hf'⟩
      | .ok n =>
        simp only [ok_bind]
        left
        exact ⟨_, pyDiv_ok hT⟩

/-- The statistics survive the evaluation. -/
theorem llr_stats {p : Problem} (a b : State) (T : ℝ) {st : List (String × ℝ)} (h : loadStats b = .ok st) :
    loadStats (p.cfg.llr a b T).2.2 = .ok st := by
  have hx := (llr_step p.kind p.tf p.perturbs p.weights (some (p.spaces.map fun kv => (kv.1, kv.2.info.transD)))
    p.saveDpred a b T).2.ext
  unfold loadStats at h ⊢
  match hd : dget b.cache "perturb_stats" with
  | none => rw [hd] at h; cases h
  | some (.dpred _) => rw [hd] at h; cases h
  | some (.stats x) =>
    rw [hd] at h
    have := hx _ _ hd
    rw [show dget (p.cfg.llr a b T).2.2.cache "perturb_stats" = some (.stats x) from this]
    exact h

end BB.Lemmas
