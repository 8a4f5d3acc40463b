import Verif.Lemmas.Visited
import Verif.Lemmas.StateChain
import Verif.Lemmas.Prior
import Verif.Spec.Noise

/-!
# Lemmas: the chains of an inversion; perturbations of the noise
-/

namespace BB.Lemmas

open BB BB.Spec

/-- A property of the parameters that holds at the start and that no proposal destroys holds for all states
visited. -/
theorem visits_params {p : Problem} {Q : Params → Prop} (h0 : ∀ s, Start p s → Q s.params)
    (hg : ∀ g ∈ p.spaces.perts, ∀ s t new lpr t', Q s.params → g.1.perturb s t = (.ok (new, lpr), t') →
      lpr ≠ .ninf → lpr ≠ .nan → Q new.params)
    (hn : ∀ s t new lpr t', Q s.params → noisePerturb p.hier s t = (.ok (new, lpr), t') →
      Q new.params)
    {s : State} (h : Visits p s) : Q s.params := by
  refine visited_of_closed p.cfg (P := fun s => Q s.params) ⟨?_, ?_, ?_, ?_⟩ h0 h
  · intro name f hf s t new lpr t' hs hp h1 h2
    rcases List.mem_append.1 (show (name, f) ∈ p.perturbs from hf) with hf | hf
    · obtain ⟨g, hg1, hg2⟩ := List.mem_map.1 hf
      injection hg2 with e1 e2
      subst e2
      exact hg g hg1 s t new lpr t' hs hp h1 h2
    · unfold Problem.noisePerturbs at hf
      split at hf
      · simp at hf
      · rw [List.mem_singleton] at hf
        injection hf with e1 e2
        subst e2
        exact hn s t new lpr t' hs hp
  · intro a b T ha
    rw [show (p.cfg.llr a b T).2.1.params = a.params from (llr_step _ _ _ _ _ _ a b T).1.params]
    exact ha
  · intro a b T hb
    rw [show (p.cfg.llr a b T).2.2.params = b.params from (llr_step _ _ _ _ _ _ a b T).2.params]
    exact hb
  · intro s x hs
    exact hs

theorem untilFuel_post {α : Type} {m : M (Option α)} {P : α → Prop}
    (h : Post m (fun o => ∀ x, o = some x → P x)) (fuel : ℕ) : Post (M.untilFuel m fuel) P := by
  induction fuel with
  | zero => exact Post.throw'
  | succ fuel ih =>
    rw [M.untilFuel]
    refine Post.bind' h fun o ho => ?_
    match o with
    | some x => exact Post.pure' (ho x rfl)
    | none => exact ih

theorem until_post {α : Type} {m : M (Option α)} {P : α → Prop}
    (h : Post m (fun o => ∀ x, o = some x → P x)) : Post (M.until m) P :=
  fun t a t' e => untilFuel_post h (t.length + 1) t a t' e

theorem redraw_post (vmin vmax std old : ℝ) :
    Post (redraw vmin vmax std old) (fun x => vmin ≤ x ∧ x ≤ vmax) := by
  classical
  refine until_post (Post.bind_any fun d => Post.pure' ?_)
  intro x hx
  split at hx
  · cases hx
  · rename_i h
    injection hx with hx
    subst hx
    rw [not_or] at h
    exact ⟨not_lt.1 h.1, not_lt.1 h.2⟩

/-- The noise parameters are within the bounds of a target. -/
def NoiseIn (t : Target) (d : Noise) : Prop :=
  t.stdMin ≤ d.std ∧ d.std ≤ t.stdMax ∧
    if t.correlated then ∃ r, d.corr = some r ∧ t.corrMin ≤ r ∧ r ≤ t.corrMax else d.corr = none

theorem perturbNoise_post (t : Target) (d : Noise) : Post (t.perturbNoise d) (NoiseIn t) := by
  unfold Target.perturbNoise
  refine Post.bind' (redraw_post _ _ _ _) fun x hx => ?_
  unfold NoiseIn
  by_cases hc : t.correlated = true
  · simp only [hc, if_true]
    match d.corr with
    | none => exact Post.throw'
    | some r =>
      refine Post.bind' (redraw_post _ _ _ _) fun y hy => ?_
      exact Post.pure' ⟨hx.1, hx.2, y, rfl, hy.1, hy.2⟩
  · simp only [hc]
    exact Post.pure' ⟨hx.1, hx.2, by simp⟩

/-- What `perturbNoises` returns: noise parameters within the bounds for all targets, and nothing else but
what had been collected before. -/
theorem perturbNoises_post (p : Params) : ∀ (ts : List Target) (acc : List (String × TopVal)),
    (ts.map (·.name)).Nodup →
    Post (perturbNoises p ts acc) fun new =>
      (∀ t ∈ ts, ∃ d, dget new t.name = some (.noise d) ∧ NoiseIn t d) ∧
      (∀ k, k ∉ ts.map (·.name) → dget new k = dget acc k)
  | [], acc, _ => Post.pure' ⟨by simp, fun k _ => rfl⟩
  | t :: ts, acc, hnd => by
    rw [perturbNoises]
    refine Post.bind_any fun d => Post.bind' (perturbNoise_post t d) fun d' hd' => ?_
    rw [List.map_cons, List.nodup_cons] at hnd
    refine (perturbNoises_post p ts _ hnd.2).mono ?_
    rintro new ⟨h1, h2⟩
    constructor
    · intro t' ht'
      rcases List.mem_cons.1 ht' with rfl | ht'
      · exact ⟨d', by rw [h2 _ hnd.1, dget_dset_same], hd'⟩
      · exact h1 t' ht'
    · intro k hk
      simp only [List.map_cons, List.mem_cons, not_or] at hk
      rw [h2 k hk.2, dget_dset_ne _ _ _ _ hk.1]

/-- The keys of what `perturbNoises` returns are distinct. -/
theorem perturbNoises_nodup (p : Params) : ∀ (ts : List Target) (acc : List (String × TopVal)),
    (dkeys acc).Nodup → Post (perturbNoises p ts acc) fun new => (dkeys new).Nodup
  | [], acc, h => Post.pure' h
  | t :: ts, acc, h => by
    rw [perturbNoises]
    exact Post.bind_any fun d => Post.bind_any fun d' =>
      perturbNoises_nodup p ts _ (nodup_dset _ _ _ h)

theorem dget_dupdate {α : Type} (d e : List (String × α)) (he : (dkeys e).Nodup) (k : String) :
    dget (dupdate d e) k = (dget e k).or (dget d k) := by
  induction e generalizing d with
  | nil => simp [dupdate]
  | cons kv e ih =>
    obtain ⟨k', v'⟩ := kv
    simp only [dkeys, List.map_cons, List.nodup_cons] at he
    have : dupdate d ((k', v') :: e) = dupdate (dset d k' v') e := rfl
    rw [this, ih _ he.2, dget]
    by_cases hk : k' = k
    · subst hk
      rw [if_pos rfl, dget_dset_same]
      have : dget e k' = none := dget_none_iff.2 he.1
      rw [this]; rfl
    · rw [if_neg hk, dget_dset_ne _ _ _ _ (Ne.symm hk)]

/-- What a perturbation of the noise does. -/
theorem noisePerturb_ok {ts : List Target} (hnd : (ts.map (·.name)).Nodup) {s new : State}
    {r : PyF} {t t' : List Draw} (h : noisePerturb ts s t = (.ok (new, r), t')) :
    (∀ tg ∈ ts, ∃ d, dget new.params tg.name = some (.noise d) ∧ NoiseIn tg d) ∧
    (∀ k, k ∉ ts.map (·.name) → dget new.params k = dget s.params k) ∧
    new.temperature = s.temperature ∧ new.extra = [] ∧
    new.cache = s.cache.filter (fun kv => kv.1 == "dpred") ∧ r = .fin 0 := by
  unfold noisePerturb at h
  obtain ⟨e, t1, h1, h2⟩ := M.bind_ok.1 h
  rw [M.pure_run] at h2
  simp only [Prod.mk.injEq, Except.ok.injEq] at h2
  obtain ⟨⟨rfl, rfl⟩, rfl⟩ := h2
  obtain ⟨p1, p2⟩ := perturbNoises_post s.params ts [] hnd _ _ _ h1
  have p3 := perturbNoises_nodup s.params ts [] (by simp [dkeys]) _ _ _ h1
  refine ⟨?_, ?_, rfl, rfl, rfl, rfl⟩
  · intro tg htg
    obtain ⟨d, hd, hin⟩ := p1 tg htg
    exact ⟨d, by simp only; rw [dget_dupdate _ _ p3, hd]; rfl, hin⟩
  · intro k hk
    simp only
    rw [dget_dupdate _ _ p3, p2 k hk]
    rfl

/-! ### a perturbation of a parameter space does not touch the noise -/

/-- The noise parameters stored under a name. -/
def noiseAt (p : Params) (k : String) : Option Noise :=
  match dget p k with
  | some (.noise d) => some d
  | _ => none

theorem noiseAt_some {p : Params} {k : String} {d : Noise} :
    noiseAt p k = some d ↔ dget p k = some (.noise d) := by
  unfold noiseAt
  match dget p k with
  | none => simp
  | some (.ps s) => simp
  | some (.noise d') => simp

theorem noiseAt_modifyAt (f : PSState → PSState) (p : Params) (key : String) (path : Path) (k : String) :
    noiseAt (p.modifyAt f key path) k = noiseAt p k := by
  unfold Params.modifyAt
  match h : dget p key with
  | none => rfl
  | some (.noise d) => rfl
  | some (.ps s) =>
    simp only
    unfold noiseAt
    by_cases hk : k = key
    · subst hk
      rw [dget_dset_same, h]
    · rw [dget_dset_ne _ _ _ _ hk]

theorem visit_noise (g : PSPert) (target : ℕ) (key : String) (path : Path) (s : PSState)
    (l : PertLocals) :
    Post (g.visit target key path s l) fun l' => ∀ k, noiseAt l'.params k = noiseAt l.params k := by
  unfold PSPert.visit
  split
  · refine Post.bind_any fun r => Post.pure' fun k => ?_
    exact noiseAt_modifyAt _ _ _ _ _
  · exact Post.pure' fun k => rfl

theorem visitAll_noise (g : PSPert) (target : ℕ) : ∀ (qs : List QItem) (l : PertLocals),
    Post (g.visitAll target qs l) fun l' => ∀ k, noiseAt l'.params k = noiseAt l.params k
  | [], l => Post.pure' fun k => rfl
  | q :: qs, l => by
    rw [PSPert.visitAll]
    refine Post.bind' (visit_noise g target q.key q.path q.st l) fun l1 h1 => ?_
    exact (visitAll_noise g target qs l1).mono fun l2 h2 k => (h2 k).trans (h1 k)

theorem pertVals_noise (g : PSPert) (target : ℕ) (q : QItem) :
    ∀ (vals : List (String × PVal)) (l : PertLocals),
    Post (g.pertVals target q vals l) fun r => ∀ k, noiseAt r.1.params k = noiseAt l.params k
  | [], l => Post.pure' fun k => rfl
  | (k, .arr a) :: rest, l => by rw [PSPert.pertVals]; exact pertVals_noise g target q rest l
  | (k, .objs a) :: rest, l => by rw [PSPert.pertVals]; exact pertVals_noise g target q rest l
  | (k, .states xs) :: rest, l => by
    rw [PSPert.pertVals]
    split
    · refine Post.bind' (visitAll_noise g target _ l) fun l1 h1 => ?_
      split
      · exact Post.throw'
      · exact (pertVals_noise g target q rest l1).mono fun r h2 k => (h2 k).trans (h1 k)
    · split
      · exact Post.throw'
      · refine Post.bind' (pertVals_noise g target q rest l) fun r h1 => ?_
        exact Post.pure' h1

theorem pertQueue_noise (g : PSPert) (target : ℕ) :
    ∀ (fuel : ℕ) (queue : List QItem) (l : PertLocals),
    Post (g.pertQueue target fuel queue l) fun l' => ∀ k, noiseAt l'.params k = noiseAt l.params k
  | fuel, [], l => by
    cases fuel <;> exact Post.pure' fun k => rfl
  | 0, q :: queue, l => by rw [PSPert.pertQueue]; exact Post.throw'
  | fuel + 1, q :: queue, l => by
    rw [PSPert.pertQueue]
    split
    · refine Post.bind' (pertVals_noise g target q _ l) fun r h1 => ?_
      exact (pertQueue_noise g target fuel _ r.1).mono fun l2 h2 k => (h2 k).trans (h1 k)
    · exact Post.pure' fun k => rfl

theorem pertTop_noise (g : PSPert) (target : ℕ) : ∀ (p : Params) (l : PertLocals),
    Post (g.pertTop target p l) fun r => ∀ k, noiseAt r.1.params k = noiseAt l.params k
  | [], l => Post.pure' fun k => rfl
  | (k, .noise d) :: rest, l => by rw [PSPert.pertTop]; exact pertTop_noise g target rest l
  | (k, .ps s) :: rest, l => by
    rw [PSPert.pertTop]
    split
    · refine Post.bind' (visit_noise g target _ _ _ l) fun l1 h1 => ?_
      exact (pertTop_noise g target rest l1).mono fun r h2 k => (h2 k).trans (h1 k)
    · refine Post.bind' (pertTop_noise g target rest l) fun r h1 => ?_
      exact Post.pure' h1

theorem perturb_noise (g : PSPert) (s : State) :
    Post (g.perturb s) fun r => ∀ k, noiseAt r.1.params k = noiseAt s.params k := by
  unfold PSPert.perturb
  refine Post.bind_any fun n => Post.bind_any fun target => ?_
  refine Post.bind' (pertTop_noise g target s.params _) fun r h1 => ?_
  refine Post.bind' (pertQueue_noise g target _ r.2 r.1) fun l h2 => ?_
  exact Post.pure' fun k => (h2 k).trans (h1 k)

/-! ### the starting state -/

theorem initialize_noise (t : Target) (s : State) (hs : t.stdMin ≤ t.stdMax) (hc : t.corrMin ≤ t.corrMax) :
    Post (t.initialize s) fun s' =>
      (t.hierarchical = true → ∃ d, dget s'.params t.name = some (.noise d) ∧ NoiseIn t d) ∧
      ∀ k, k ≠ t.name → dget s'.params k = dget s.params k := by
  unfold Target.initialize NoiseIn
  split
  · refine Post.bind' (Post.uniform' hs) fun x hx => ?_
    split
    · refine Post.bind' (Post.uniform' hc) fun y hy => Post.pure' ⟨fun _ => ?_, fun k hk => ?_⟩
      · exact ⟨_, dget_dset_same _ _ _, hx.1, hx.2, y, rfl, hy.1, hy.2⟩
      · exact dget_dset_ne _ _ _ _ hk
    · refine Post.pure' ⟨fun _ => ?_, fun k hk => ?_⟩
      · exact ⟨_, dget_dset_same _ _ _, hx.1, hx.2, rfl⟩
      · exact dget_dset_ne _ _ _ _ hk
  · rename_i h
    exact Post.pure' ⟨fun h' => absurd h' h, fun k hk => rfl⟩

theorem initTargets_noise : ∀ (ts : List Target) (s : State), (ts.map (·.name)).Nodup →
    (∀ t ∈ ts, t.stdMin ≤ t.stdMax ∧ t.corrMin ≤ t.corrMax) →
    Post (initTargets ts s) fun s' =>
      (∀ t ∈ ts, t.hierarchical = true → ∃ d, dget s'.params t.name = some (.noise d) ∧ NoiseIn t d) ∧
      ∀ k, k ∉ ts.map (·.name) → dget s'.params k = dget s.params k
  | [], s, _, _ => Post.pure' ⟨by simp, fun k _ => rfl⟩
  | t :: ts, s, hnd, hb => by
    rw [initTargets]
    rw [List.map_cons, List.nodup_cons] at hnd
    have hbt := hb t (by simp)
    refine Post.bind' (initialize_noise t s hbt.1 hbt.2) fun s1 h1 => ?_
    refine (initTargets_noise ts s1 hnd.2 fun t' ht' => hb t' (by simp [ht'])).mono ?_
    rintro s2 ⟨h2, h3⟩
    constructor
    · intro t' ht' hh
      rcases List.mem_cons.1 ht' with rfl | ht'
      · rw [h3 _ hnd.1]; exact h1.1 hh
      · exact h2 t' ht' hh
    · intro k hk
      simp only [List.map_cons, List.mem_cons, not_or] at hk
      rw [h3 k hk.2, h1.2 k hk.1]

end BB.Lemmas
