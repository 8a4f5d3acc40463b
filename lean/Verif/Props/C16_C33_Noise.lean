import Verif.Lemmas.Inversion

/-!
# C16, C33: the noise parameters
-/

namespace BB.Props

open BB BB.Spec BB.Lemmas

/-! ## C16 -/

/-- C16, the perturbation: whatever the state, the noise parameters proposed are within their bounds, no
other parameter is changed, and the log ratio is 0. -/
theorem C16_perturbation (ts : List Target) (hnd : (ts.map (·.name)).Nodup) (s new : State) (r : PyF)
    (t t' : List Draw) (h : noisePerturb ts s t = (.ok (new, r), t')) :
    (∀ tg ∈ ts, NoiseWithin tg new.params) ∧
    (∀ k, k ∉ ts.map (·.name) → dget new.params k = dget s.params k) ∧
    new.temperature = s.temperature ∧ r = .fin 0 := by
  obtain ⟨h1, h2, h3, -, -, h4⟩ := noisePerturb_ok hnd h
  exact ⟨fun tg htg => h1 tg htg, h2, h3, h4⟩

/-- C16, the starting state. -/
theorem C16_start (p : Problem) (hnd : (p.targets.map (·.name)).Nodup)
    (hok : ∀ tg ∈ p.targets, tg.check = .ok tg) (s : State) (h : Start p s) :
    ∀ tg ∈ p.targets, tg.hierarchical = true → NoiseWithin tg s.params := by
  obtain ⟨t, t', h⟩ := h
  unfold Problem.start at h
  obtain ⟨s1, t1, -, h2⟩ := M.bind_ok.1 h
  have hb : ∀ tg ∈ p.targets, tg.stdMin ≤ tg.stdMax ∧ tg.corrMin ≤ tg.corrMax := by
    intro tg htg
    have := hok tg htg
    unfold Target.check at this
    split at this
    · rename_i hh; exact ⟨hh.1, hh.2.2.1⟩
    · cases this
  exact fun tg htg hh => (initTargets_noise p.targets s1 hnd hb _ _ _ h2).1 tg htg hh

/-- C16.  In every state that a chain of an inversion can visit the noise parameters of all hierarchical
targets are within their bounds. -/
theorem C16_visited (p : Problem) (hnd : (p.targets.map (·.name)).Nodup)
    (hok : ∀ tg ∈ p.targets, tg.check = .ok tg) (s : State) (h : Visits p s) :
    ∀ tg ∈ p.targets, tg.hierarchical = true → NoiseWithin tg s.params := by
  have hnd' : (p.hier.map (·.name)).Nodup :=
    hnd.sublist (List.Sublist.map _ List.filter_sublist)
  refine visits_params (Q := fun q => ∀ tg ∈ p.targets, tg.hierarchical = true → NoiseWithin tg q)
    (fun s hs => C16_start p hnd hok s hs) ?_ ?_ h
  · intro g _ s t new lpr t' hs hp _ _ tg htg hh
    obtain ⟨d, hd, hin⟩ := hs tg htg hh
    have := perturb_noise g.1 s _ _ _ hp tg.name
    exact ⟨d, noiseAt_some.1 (by rw [this]; exact noiseAt_some.2 hd), hin⟩
  · intro s t new lpr t' _ hp tg htg hh
    exact (C16_perturbation p.hier hnd' s new lpr t t' hp).1 tg (List.mem_filter.2 ⟨htg, hh⟩)

/-! ## C33 -/

theorem dpredKey_ne (name : String) : dpredKey name ≠ "dpred" := by
  intro h
  have := congrArg String.length h
  unfold dpredKey at this
  rw [String.length_append] at this
  have h5 : ("dpred" : String).length = 5 := by decide +kernel
  have h6 : (".dpred" : String).length = 6 := by decide +kernel
  omega

/-- C33 is false of the code, in every single case: the predicted data of no target reach the proposed
state (`State.copy` keeps the entry whose key is *equal* to `dpred`, but the keys are `<target>.dpred`), so
that every successful evaluation of the likelihood of the proposed state calls the forward functions of all targets. -/
theorem C33_never_reused (tf : List (Target × Fwd)) (hnd : (tf.map (·.1.name)).Nodup) (ts : List Target)
    (hts : (ts.map (·.name)).Nodup) (s new : State) (r : PyF)
    (t t' : List Draw) (h : noisePerturb ts s t = (.ok (new, r), t')) :
    (∀ name, dget new.cache (dpredKey name) = none) ∧
    ∀ v s' calls, getMisfitAndDet tf new = (.ok v, s', calls) → calls = tf.map (·.1.name) := by
  obtain ⟨-, -, -, -, hc, -⟩ := noisePerturb_ok hts h
  have hnone : ∀ name, dget new.cache (dpredKey name) = none := by
    intro name
    rw [hc, dget_none_iff]
    intro hm
    obtain ⟨kv, hkv, he⟩ := List.mem_map.1 hm
    have := (List.mem_filter.1 hkv).2
    rw [he] at this
    exact dpredKey_ne name (by simpa using this)
  refine ⟨hnone, fun v s' calls hv => ?_⟩
  have hcoh : Coherent tf new := by
    intro x _ v hv
    have h6 := hnone x.1.name
    unfold dpredKey at h6
    rw [h6] at hv
    cases hv
  have h5 := (getMisfitAndDet_coh tf new hnd hcoh).2.2.2.2
  rw [hv] at h5
  have h6 : calls = missing tf new.cache := h5 v rfl
  rw [h6]
  unfold missing
  congr 1
  rw [List.filter_eq_self]
  intro x _
  rw [hnone]
  rfl

/-- C33, what the code does carry over: an entry of the cache with the key `dpred`, should there be one.
Missing: the library itself never stores predicted data under that key. -/
theorem C33_kept_partial (ts : List Target) (hts : (ts.map (·.name)).Nodup) (s new : State) (r : PyF)
    (t t' : List Draw) (h : noisePerturb ts s t = (.ok (new, r), t')) :
    dget new.cache "dpred" = dget s.cache "dpred" := by
  obtain ⟨-, -, -, -, hc, -⟩ := noisePerturb_ok hts h
  rw [hc]
  generalize s.cache = l
  induction l with
  | nil => rfl
  | cons kv l ih =>
    obtain ⟨k, v⟩ := kv
    rw [List.filter_cons]
    by_cases hk : k = "dpred"
    · subst hk
      simp [dget]
    · have : ((k, v).1 == "dpred") = false := by simpa using hk
      rw [this, dget, if_neg hk]
      exact ih

/-! ### Non-trivial instances -/

section Examples

/-- One target with unknown, uncorrelated noise. -/
noncomputable def exTarget33 : Target := { name := "t", dobs := [1], stdMin := 1, stdMax := 4, stdPerturb := 1 }

/-- One target, no parameter spaces; the data are predicted to be 2. -/
noncomputable def exProblem33 : Problem :=
  { spaces := [], kind := .targets, tf := [(exTarget33, fun _ => some [2])] }

noncomputable def exState33 : State :=
  { params := [("t", .noise ⟨2, none⟩)], temperature := 1, cache := [("t.dpred", .dpred [2])], extra := [] }

/-- The first deviate leads out of the bounds and is drawn again. -/
theorem exState33_run : noisePerturb [exTarget33] exState33
    [⟨0, -3, 0, by norm_num⟩, ⟨0, 1, 0, by norm_num⟩] =
    (.ok ({ params := [("t", .noise ⟨3, none⟩)], temperature := 1, cache := [], extra := [] }, .fin 0), []) := by
  have hr : redraw 1 4 1 2 [⟨0, -3, 0, by norm_num⟩, ⟨0, 1, 0, by norm_num⟩] = (.ok 3, []) := by
    simp only [redraw, M.until, M.untilFuel, bind, M.normalvariate, M.draw, pure, List.length]
    norm_num
  have hp : exTarget33.perturbNoise ⟨2, none⟩ [⟨0, -3, 0, by norm_num⟩, ⟨0, 1, 0, by norm_num⟩] =
      (.ok ⟨3, none⟩, []) := by
    unfold Target.perturbNoise
    rw [M.bind_run]
    have : redraw exTarget33.stdMin exTarget33.stdMax exTarget33.stdPerturb 2
      [⟨0, -3, 0, by norm_num⟩, ⟨0, 1, 0, by norm_num⟩] = (.ok 3, []) := hr
    rw [this]
    rfl
  unfold noisePerturb
  rw [M.bind_run]
  have : perturbNoises exState33.params [exTarget33] []
      [⟨0, -3, 0, by norm_num⟩, ⟨0, 1, 0, by norm_num⟩] = (.ok [("t", .noise ⟨3, none⟩)], []) := by
    rw [perturbNoises, M.bind_run]
    have hg : M.lift (getNoise exState33.params exTarget33.name)
        [⟨0, -3, 0, by norm_num⟩, ⟨0, 1, 0, by norm_num⟩] =
        (.ok ⟨2, none⟩, [⟨0, -3, 0, by norm_num⟩, ⟨0, 1, 0, by norm_num⟩]) := by
      simp [M.lift, getNoise, exState33, exTarget33, dget]
    rw [hg]
    simp only
    rw [M.bind_run, hp]
    rfl
  rw [this]
  simp only [M.pure_run, Prod.mk.injEq, Except.ok.injEq, State.mk.injEq, and_true]
  refine ⟨?_, rfl, ?_, rfl⟩
  · rfl
  · simp [exState33, State.copy]

/-- The hypotheses of C16 and of C33 are met: the problem has visited states, and its noise is perturbed. -/
example : (exProblem33.targets.map (·.name)).Nodup ∧ (∀ tg ∈ exProblem33.targets, tg.check = .ok tg) ∧
    (∃ s, Visits exProblem33 s) := by
  refine ⟨by simp [exProblem33, Problem.targets], ?_, ?_⟩
  · intro tg htg
    simp only [exProblem33, Problem.targets, List.map_cons, List.map_nil, List.mem_singleton] at htg
    subst htg
    unfold Target.check exTarget33
    norm_num
  · exact ⟨{ params := [("t", .noise ⟨1 + (4 - 1) * (1/2), none⟩)], temperature := 1, cache := [],
             extra := [] }, .start ⟨[⟨0, 0, 1/2, by norm_num⟩], [], rfl⟩⟩

/-- The prediction had been cached; after the perturbation it is computed again. -/
example : (getMisfitAndDet exProblem33.tf exState33).2.2 = [] ∧
    (getMisfitAndDet exProblem33.tf
      { params := [("t", .noise ⟨3, none⟩)], temperature := 1, cache := [], extra := [] }).2.2 = ["t"] := by
  have hk : dpredKey "t" = "t.dpred" := by decide +kernel
  constructor
  · unfold getMisfitAndDet exProblem33 exState33 exTarget33
    rw [misfitLoop]
    unfold getDpred
    simp only [hk, dget, if_true, misfitLoop]
    split
    · rfl
    · simp only [Target.hierarchical, Option.isNone, if_true]
      split <;> rfl
  · unfold getMisfitAndDet exProblem33 exTarget33
    rw [misfitLoop]
    unfold getDpred
    simp only [dget, misfitLoop]
    split
    · rfl
    · simp only [Target.hierarchical, Option.isNone, if_true]
      split <;> rfl

end Examples

end BB.Props
