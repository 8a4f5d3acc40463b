import Verif.Lemmas.AddProgress
import Verif.Props.C63_C66_Progress
import Verif.Props.C32_Cache
import Verif.Props.C06_C07_Saving

/-!
# C92: targets can be added to existing inversions
-/

namespace BB.Props

open BB BB.Spec BB.Lemmas

variable {E : Type}

/-- C92, the inversions: after a successful addition, every inversion that observes the likelihood and each of its chains
perturbs what an inversion made with all the targets would perturb, with the same weights; the current state of each
chain has got noise parameters of the new targets of unknown noise, within their bounds, and is otherwise as it was; and nothing else of the chains
has changed (temperature, saved states, statistics). -/
theorem C92_adapted (ll ll' : SharedLL E) (new : List (Target × Fwd)) (hok : ∀ x ∈ new, x.1.check = .ok x.1)
    (t t' : List Draw) (h : ll.addTargets new t = (.ok (), ll', t')) :
    ll'.kind = ll.kind ∧ ll'.tf = ll.tf ++ new ∧
    List.Forall₂ (Adapted ll.kind (ll.tf ++ new) (new.map (·.1))) ll.observers ll'.observers := by
  obtain ⟨-, ls, -, e⟩ := addTargets_ok h
  refine ⟨by rw [e], by rw [e], ?_⟩
  exact (addTargets_post hok h).imp fun l l' ⟨h1, h2, h3, h4, h5⟩ => ⟨h1, h2, h3, h4, h5.imp fun _ _ hc => hc.1⟩

/-- C92, failures: the only exception is `ValueError`, exactly if names coincide (running out of draws does not happen to Python); then no
inversion is changed. -/
theorem C92_raises (ll : SharedLL E) (new : List (Target × Fwd)) (t : List Draw) :
    (¬ ((ll.tf ++ new).map (·.1.name)).Nodup →
      ll.addTargets new t = (.error .valueError, { ll with tf := ll.tf ++ new }, t)) ∧
    (((ll.tf ++ new).map (·.1.name)).Nodup →
      (∃ ll' t', ll.addTargets new t = (.ok (), ll', t')) ∨
      ∃ ll' t', ll.addTargets new t = (.error .tapeExhausted, ll', t')) := by
  constructor
  · intro h
    unfold SharedLL.addTargets
    simp only
    rw [if_neg h]
  · intro h
    have hc : ∀ fs ws ts (cs : List (LiveChain E)), Runs (updateChains fs ws ts cs) (fun _ => True) := by
      intro fs ws ts cs
      induction cs with
      | nil => exact Runs.pure' trivial
      | cons c cs ih =>
        rw [updateChains]
        refine Runs.bind' (Q := fun _ => True) ?_ fun _ _ => ih.bind' fun _ _ => Runs.pure' trivial
        unfold LiveChain.updateTargets
        exact (initTargets_runs _ _).bind' fun _ _ => Runs.pure' trivial
    have hn : ∀ ls : List (Live E), Runs (notifyAll ll.kind (ll.tf ++ new) (new.map (·.1)) ls) (fun _ => True) := by
      intro ls
      induction ls with
      | nil => exact Runs.pure' trivial
      | cons l ls ih =>
        rw [notifyAll]
        refine Runs.bind' (Q := fun _ => True) ?_ fun _ _ => ih.bind' fun _ _ => Runs.pure' trivial
        unfold Live.update
        exact (hc _ _ _ _).bind' fun _ _ => Runs.pure' trivial
    unfold SharedLL.addTargets
    simp only
    rw [if_pos h]
    rcases hn ll.observers t with ⟨ls, t1, e, -⟩ | ⟨t1, e⟩
    · rw [e]; exact Or.inl ⟨_, _, rfl⟩
    · rw [e]; exact Or.inr ⟨_, _, rfl⟩

/-- C92, after a failure: the likelihood keeps the targets of coinciding names, and from then on nothing can be added. -/
theorem C92_stuck (ll : SharedLL E) (h : ¬ (ll.tf.map (·.1.name)).Nodup) (new : List (Target × Fwd)) (t : List Draw) :
    (ll.addTargets new t).1 = .error .valueError := by
  rw [(C92_raises ll new t).1 ?_]
  intro h1
  rw [List.map_append] at h1
  exact h (List.nodup_append.1 h1).1

/-- C92, what the likelihood relies on, before: it holds of every state that an inversion can visit. -/
theorem C92_visits (p : Problem) (hnd : (p.targets.map (·.name)).Nodup) (hok : ∀ tg ∈ p.targets, tg.check = .ok tg)
    (s : State) (h : Visits p s) : InForce p.tf s := by
  refine ⟨(visits_cache hnd h).1, fun x hx hc => ?_, ?_⟩
  · exact C16_visited p hnd hok s h x.1 (List.mem_map_of_mem (f := Prod.fst) hx) ((hierarchical_iff _).2 hc)
  · exact visits_known hnd h

/-- C92, what the likelihood relies on, after: if the forward functions so far do not depend on the noise parameters of the new targets,
then it holds for all the targets in the current state of every chain of which it held before. -/
theorem C92_in_force (ll ll' : SharedLL E) (new : List (Target × Fwd)) (hok : ∀ x ∈ new, x.1.check = .ok x.1)
    (hblind : ∀ x ∈ ll.tf, NoiseBlind ((new.map (·.1)).filter (·.hierarchical)) x.2)
    (t t' : List Draw) (h : ll.addTargets new t = (.ok (), ll', t')) :
    List.Forall₂ (fun l l' : Live E => List.Forall₂ (fun c c' : LiveChain E =>
      InForce ll.tf c.chain.cur → InForce ll'.tf c'.chain.cur) l.chains l'.chains) ll.observers ll'.observers := by
  obtain ⟨hnd, ls, -, e⟩ := addTargets_ok h
  have htf : ll'.tf = ll.tf ++ new := by rw [e]
  rw [List.map_append, List.nodup_append] at hnd
  obtain ⟨-, -, hdisj⟩ := hnd
  refine (addTargets_post hok h).imp fun l l' ⟨_, _, _, _, h5⟩ => h5.imp fun c c' ⟨hc, hf⟩ hin => ?_
  have hext := hc.cur
  rw [htf]
  refine ⟨?_, ?_, ?_⟩
  · intro x hx v hv
    rw [hext.cache] at hv
    rcases List.mem_append.1 hx with hx | hx
    · obtain ⟨d, rfl, hd⟩ := hin.coherent x hx v hv
      exact ⟨d, rfl, by rw [hf x.2 (hblind x hx)]; exact hd⟩
    · rw [hin.known x.1.name fun y hy e => hdisj _ (List.mem_map_of_mem (f := fun z : Target × Fwd => z.1.name) hy) _
        (List.mem_map_of_mem (f := fun z : Target × Fwd => z.1.name) hx) e] at hv
      cases hv
  · intro x hx hcov
    rcases List.mem_append.1 hx with hx | hx
    · obtain ⟨d, hd, hin'⟩ := hin.noise x hx hcov
      refine ⟨d, ?_, hin'⟩
      rw [hext.others x.1.name fun tg htg _ e => ?_]
      · exact hd
      · obtain ⟨y, hy, rfl⟩ := List.mem_map.1 htg
        exact hdisj _ (List.mem_map_of_mem (f := fun z : Target × Fwd => z.1.name) hx) _
          (List.mem_map_of_mem (f := fun z : Target × Fwd => z.1.name) hy) e.symm
    · exact hext.noise x.1 (List.mem_map_of_mem (f := Prod.fst) hx) hcov
  · intro name hn
    rw [hext.cache]
    exact hin.known name fun x hx => hn x (List.mem_append_left _ hx)

/-- A hook that keeps what the likelihood relies on in the current state. -/
def ForceHook (tf : List (Target × Fwd)) (m : Act (Chain State Store E) Unit) : Prop :=
  Act.Keeps m fun c c' => InForce tf c.cur → InForce tf c'.cur

/-- C92, runs: a chain of which the likelihood has what it relies on keeps it, whatever happens in any number of iterations; and the ratio of
the current state and any proposal is the one that all targets give without any cache. -/
theorem C92_runs (p : Problem) (hk : p.kind = .targets) (hnd : (p.targets.map (·.name)).Nodup) (b s : ℤ)
    (bi ei : Act (Chain State Store E) Unit) (hbi : ForceHook p.tf bi) (hei : ForceHook p.tf ei)
    (n : ℕ) (c : Chain State Store E) (hc : InForce p.tf c.cur) (t : List Draw) :
    InForce p.tf (Chain.advance p.cfg b s bi ei n c t).2.1.cur ∧
    ∀ new T, InForce p.tf new →
      (p.cfg.llr (Chain.advance p.cfg b s bi ei n c t).2.1.cur new T).1 =
        freshRatio p.tf (Chain.advance p.cfg b s bi ei n c t).2.1.cur.params new.params T := by
  have h1 := advance_P (b := b) (s := s) _ (cfg_preserves p hnd) hbi hei n c t hc
  refine ⟨h1, fun new T hn => ?_⟩
  have := C32_evaluation p.tf (tf_nodup hnd) p.perturbs p.weights
    (some (p.spaces.map fun kv => (kv.1, kv.2.info.transD))) p.saveDpred _ new T h1.coherent hn.coherent
  rw [← this, ← hk]
  rfl

/-- C92, additions: a chain the current state of which could come about before an addition, with the temperature and the statistics as in C66, is
such a chain after it, for the new list of targets. -/
theorem C92_lived (ll ll' : SharedLL E) (new : List (Target × Fwd))
    (hblind : ∀ x ∈ ll.tf, NoiseBlind ((new.map (·.1)).filter (·.hierarchical)) x.2)
    (t t' : List Draw) (h : ll.addTargets new t = (.ok (), ll', t')) :
    List.Forall₂ (fun l l' : Live E => List.Forall₂ (fun c c' : LiveChain E =>
      RunInvOf (Lived (l.problem ll.kind ll.tf) ll.tf) c.chain →
      RunInvOf (Lived (l'.problem ll'.kind ll'.tf) ll'.tf) c'.chain) l.chains l'.chains) ll.observers ll'.observers := by
  obtain ⟨-, ls, e, rfl⟩ := addTargets_ok h
  refine notifyAll_post ll.kind (ll.tf ++ new) (new.map (·.1)) (R := fun l l' : Live E =>
    List.Forall₂ (fun c c' : LiveChain E => RunInvOf (Lived (l.problem ll.kind ll.tf) ll.tf) c.chain →
      RunInvOf (Lived (l'.problem ll.kind (ll.tf ++ new)) (ll.tf ++ new)) c'.chain) l.chains l'.chains)
    (fun l => ?_) ll.observers _ _ _ e
  refine (update_post (R := fun c c' : LiveChain E => RunInvOf (Lived (l.problem ll.kind ll.tf) ll.tf) c.chain →
      RunInvOf (Lived (l.problem ll.kind (ll.tf ++ new)) (ll.tf ++ new)) c'.chain) ll.kind (ll.tf ++ new) (new.map (·.1)) l ?_).mono
    fun l' hl' => ?_
  · intro c t1 s t2 hi hc
    exact ⟨lived_problem (p := l.problem ll.kind ll.tf) (q := l.problem ll.kind (ll.tf ++ new)) rfl rfl rfl (.added hc.cur hblind hi), hc.temp, hc.proposed, hc.accepted⟩
  · obtain ⟨h1, h2, -, -, h3⟩ := hl'
    unfold Live.problem at h3 ⊢
    rw [h1, h2]
    exact h3

/-- C92, progress: targets may have been added at any time; whatever the number of iterations that follow, they are
completed, leaving the chain as it is considered here, so that more targets can be added and more iterations made; or they are ended by
one of the three exceptions of C66. -/
theorem C92_progress (p : Problem) (h : RunSafe p) (burnin saveEvery : ℤ) (hs : saveEvery ≠ 0)
    (bi ei : Act (Chain State Store E) Unit) (hbi : HookSafeOf (Lived p p.tf) bi) (hei : HookSafeOf (Lived p p.tf) ei) (n : ℕ)
    (c : Chain State Store E) (hc : RunInvOf (Lived p p.tf) c) (t : List Draw) :
    (∃ evs c' t', Chain.advance p.cfg burnin saveEvery bi ei n c t = (.ok evs, c', t') ∧ evs.length = n ∧
      RunInvOf (Lived p p.tf) c' ∧ t' <:+ t) ∨
    ∃ e c' t', Chain.advance p.cfg burnin saveEvery bi ei n c t = (.error e, c', t') ∧ Expected p t e := by
  have := advance_goes h (kept_lived h.base) (b := burnin) hs hbi hei n c hc t
  unfold Goes at this
  match ha : Chain.advance p.cfg burnin saveEvery bi ei n c t with
  | (.ok evs, c', t') => rw [ha] at this; exact Or.inl ⟨evs, c', t', rfl, this.2.2, this.1, this.2.1⟩
  | (.error e, c', t') => rw [ha] at this; exact Or.inr ⟨e, c', t', rfl, this⟩

/-- C92, what is saved: whenever targets were added, the list of the saved standard deviations of each target of unknown noise becomes longer by the number of the
states saved since. -/
theorem C92_rows (p : Problem) (h : RunSafe p) (b s : ℤ) (bi ei : Act (Chain State Store E) Unit)
    (hb : BeginHook bi) (he : EndHook ei)
    (hbi : Act.Keeps bi fun c c' => Lived p p.tf c.cur → Lived p p.tf c'.cur)
    (hei : Act.Keeps ei fun c c' => Lived p p.tf c.cur → Lived p p.tf c'.cur) (n : ℕ)
    (c c' : Chain State Store E) (hc : Lived p p.tf c.cur) (t t' : List Draw) (evs : List (Event State))
    (hrun : Chain.advance p.cfg b s bi ei n c t = (.ok evs, c', t'))
    (tg : Target) (htg : tg ∈ p.targets) (hcov : tg.covInv = none) (hd : substr "dpred" (tg.name ++ ".std") = false) :
    (savedUnder (tg.name ++ ".std") c'.saved).length =
      (savedUnder (tg.name ++ ".std") c.saved).length + (dueStates b s (c.total + 1) evs).length := by
  have hK := kept_lived h.base
  have h1 := C07_saved_values p.kind p.tf p.perturbs p.weights (some (p.spaces.map fun kv : String × Space => (kv.1, kv.2.info.transD)))
    p.saveDpred b s bi ei hb he n c c' t t' evs hrun (tg.name ++ ".std")
  have hev := dueStates_all (b := b) (s := s) evs (c.total + 1) (advance_events_closed p.cfg hK.closed hbi hei hrun hc)
  rw [h1, List.length_append, flatMap_length_one fun x hx => contribution_std
    (hK.noise x (hev x hx) tg htg ((hierarchical_iff tg).2 hcov)) (h.names tg htg) hd _ _]

/-- C92, the lists of saved values are no longer aligned: if states had been saved before a target of unknown noise was added, then, after any
number of iterations, the list of its standard deviations is shorter than the lists of the other targets, by the number of states saved before. -/
theorem C92_misaligned (p : Problem) (h : RunSafe p) (b s : ℤ) (bi ei : Act (Chain State Store E) Unit)
    (hb : BeginHook bi) (he : EndHook ei)
    (hbi : Act.Keeps bi fun c c' => Lived p p.tf c.cur → Lived p p.tf c'.cur)
    (hei : Act.Keeps ei fun c c' => Lived p p.tf c.cur → Lived p p.tf c'.cur) (n : ℕ)
    (c c' : Chain State Store E) (hc : Lived p p.tf c.cur) (t t' : List Draw) (evs : List (Event State))
    (hrun : Chain.advance p.cfg b s bi ei n c t = (.ok evs, c', t'))
    (old new : Target) (ho : old ∈ p.targets) (hn : new ∈ p.targets) (ho1 : old.covInv = none) (hn1 : new.covInv = none)
    (ho2 : substr "dpred" (old.name ++ ".std") = false) (hn2 : substr "dpred" (new.name ++ ".std") = false)
    (k : ℕ) (ho3 : (savedUnder (old.name ++ ".std") c.saved).length = k) (hn3 : savedUnder (new.name ++ ".std") c.saved = []) :
    (savedUnder (old.name ++ ".std") c'.saved).length = (savedUnder (new.name ++ ".std") c'.saved).length + k := by
  have h1 := C92_rows p h b s bi ei hb he hbi hei n c c' hc t t' evs hrun old ho ho1 ho2
  have h2 := C92_rows p h b s bi ei hb he hbi hei n c c' hc t t' evs hrun new hn hn1 hn2
  rw [hn3] at h2
  simp only [List.length_nil] at h2
  omega

/-- C92, the chains of an inversion to which nothing has been added are among these. -/
theorem C92_visits_lived (p : Problem) (s : State) (h : Visits p s) : Lived p p.tf s := by
  induction h with
  | start h => exact .start h
  | temp x _ ih => exact .temp x ih
  | left b T _ ih => exact .left b T ih
  | right a T _ ih => exact .right a T ih
  | adopt hf _ e h1 h2 ih => exact .adopt hf ih e h1 h2

/-- C92, the perturbations set by the user are lost: the functions and weights that `set_perturbation_funcs` had given to an inversion
and its chains have no influence on what they have after an addition. -/
theorem C92_custom_lost (kind : LLKind State) (tf : List (Target × Fwd)) (ts : List Target) (l : Live E)
    (fs : List (String × (State → M (State × PyF)))) (ws : List ℝ) :
    Live.update kind tf ts { l with perturbs := fs, weights := ws, chains := l.chains.map (·.setPerturbs fs ws) } =
      Live.update kind tf ts l := by
  have h : ∀ fs' ws' (cs : List (LiveChain E)), updateChains fs' ws' ts (cs.map (·.setPerturbs fs ws)) =
      updateChains fs' ws' ts cs := by
    intro fs' ws' cs
    induction cs with
    | nil => rfl
    | cons c cs ih =>
      rw [List.map_cons, updateChains, updateChains, ih]
      rfl
  unfold Live.update
  simp only [Live.problem, h]

/-- C92, targets that are ignored: if the likelihood has been made of a function of the user, then the added targets
have no influence on the ratio, although the chains perturb their noise. -/
theorem C92_ignored (ll ll' : SharedLL E) (new : List (Target × Fwd)) (hk : ll.kind ≠ .targets)
    (t t' : List Draw) (h : ll.addTargets new t = (.ok (), ll', t')) (l : Live E) (c : LiveChain E) :
    (c.cfg (l.problem ll'.kind ll'.tf)).llr = (c.cfg (l.problem ll.kind ll.tf)).llr := by
  obtain ⟨-, ls, -, rfl⟩ := addTargets_ok h
  unfold LiveChain.cfg Live.problem stateCfg
  cases hkd : ll.kind with
  | targets => exact absurd hkd hk
  | ratio f => rfl
  | loglike f => rfl

/-! ### examples -/

/-- Data of known noise, and data of unknown noise that are added. -/
noncomputable def exOld92 : Target := { name := "d", dobs := [1], covInv := some (.scalar 1) }
noncomputable def exNew92 : Target := { name := "e", dobs := [2], stdMin := 1, stdMax := 3 }

/-- A forward function that looks whether there is an entry `e`, and one that does not. -/
def exLook92 : Fwd := fun q => some [if (dget q "e").isSome then 1 else 0]
def exBlind92 : Fwd := fun _ => some [0]

/-- A chain the current state of which has been evaluated. -/
noncomputable def exChain92 : Chain State Store Unit :=
  Chain.init ⟨[], 1, [("d.dpred", .dpred [0])], []⟩ [] 1 ()

/-- A likelihood of one target, observed by an inversion of one chain. -/
noncomputable def exShared92 (f : Fwd) : SharedLL Unit where
  kind := .targets
  tf := [(exOld92, f)]
  observers := [Live.make ⟨[], .targets, [(exOld92, f)], true⟩ [exChain92]]

theorem exNew92_ok : exNew92.check = .ok exNew92 := by
  unfold Target.check exNew92
  rw [if_pos]
  norm_num

/-- The draw in the middle of the interval. -/
noncomputable def exDraw92 : Draw := ⟨0, 0, 1 / 2, by norm_num⟩

/-- The chain afterwards. -/
noncomputable def exAfter92 : Chain State Store Unit :=
  Chain.init ⟨[("e", .noise ⟨1 + (3 - 1) * (1 / 2), none⟩)], 1, [("d.dpred", .dpred [0])], []⟩ [] 1 ()

theorem exUpdate92 (fs : List (String × (State → M (State × PyF)))) (ws : List ℝ) (c : LiveChain Unit)
    (hc : c.chain = exChain92) :
    updateChains fs ws [exNew92] [c] [exDraw92] =
      (.ok [⟨fs, ws, exAfter92⟩], []) := by
  obtain ⟨fs0, ws0, ch⟩ := c
  simp only at hc
  subst hc
  rfl

theorem exAdded92 (f g : Fwd) : ∃ l', (exShared92 f).addTargets [(exNew92, g)] [exDraw92] =
    (.ok (), { exShared92 f with tf := [(exOld92, f), (exNew92, g)], observers := [l'] }, []) ∧
    ∃ fs ws, l'.chains = [⟨fs, ws, exAfter92⟩] := by
  let p : Problem := ⟨[], .targets, [(exOld92, f), (exNew92, g)], true⟩
  refine ⟨⟨[], true, p.perturbs, p.weights, [⟨p.perturbs, p.weights, exAfter92⟩]⟩, ?_, _, _, rfl⟩
  have hnd : (((exShared92 f).tf ++ [(exNew92, g)]).map (·.1.name)).Nodup := by
    simp [exShared92, exOld92, exNew92]
  have hn : notifyAll (exShared92 f).kind ((exShared92 f).tf ++ [(exNew92, g)]) ([(exNew92, g)].map (·.1))
      (exShared92 f).observers [exDraw92] = (.ok [⟨[], true, p.perturbs, p.weights, [⟨p.perturbs, p.weights, exAfter92⟩]⟩], []) := by
    change (do
      let l ← Live.update _ _ _ _
      let ls ← notifyAll _ _ _ []
      return l :: ls : M (List (Live Unit))) _ = _
    refine (M.bind_of (t1 := []) (a := ⟨[], true, p.perturbs, p.weights, [⟨p.perturbs, p.weights, exAfter92⟩]⟩) ?_).trans rfl
    unfold Live.update
    exact (M.bind_of (exUpdate92 p.perturbs p.weights ⟨_, _, exChain92⟩ rfl)).trans rfl
  unfold SharedLL.addTargets
  simp only
  rw [if_pos hnd, hn]
  rfl

/-- The cached predictions are current at first. -/
theorem exInForce92 (f : Fwd) (hf : f [] = some [0]) : InForce (exShared92 f).tf exChain92.cur := by
  refine ⟨?_, ?_, ?_⟩
  · intro x hx v hv
    simp only [exShared92, List.mem_singleton] at hx
    subst hx
    have : v = .dpred [0] := by
      have h1 : exOld92.name ++ ".dpred" = "d.dpred" := by decide +kernel
      rw [h1] at hv
      simp only [exChain92, Chain.init, dget] at hv
      simpa using hv.symm
    exact ⟨[0], this, hf⟩
  · intro x hx hc
    simp only [exShared92, List.mem_singleton] at hx
    subst hx
    simp [exOld92] at hc
  · intro name hn
    rw [dget_none_iff]
    intro hk
    simp only [exChain92, Chain.init, dkeys, List.map_cons, List.map_nil, List.mem_singleton] at hk
    have h1 : dpredKey "d" = "d.dpred" := by decide +kernel
    exact hn _ (List.mem_singleton_self _) (dpredKey_inj (h1.trans hk.symm))

/-- C92, forward functions that look at the noise: without the hypothesis of `C92_in_force`, cached predictions are stale after an addition. -/
theorem C92_stale_counterexample : ∃ (ll ll' : SharedLL Unit) (new : List (Target × Fwd)) (t t' : List Draw),
    (∀ x ∈ new, x.1.check = .ok x.1) ∧ ll.addTargets new t = (.ok (), ll', t') ∧
    (∀ l ∈ ll.observers, ∀ c ∈ l.chains, InForce ll.tf c.chain.cur) ∧
    ∃ l' ∈ ll'.observers, ∃ c' ∈ l'.chains, ¬ Coherent ll'.tf c'.chain.cur := by
  obtain ⟨l', h1, fs, ws, h2⟩ := exAdded92 exLook92 exBlind92
  refine ⟨exShared92 exLook92, _, [(exNew92, exBlind92)], [exDraw92], [], ?_, h1, ?_, l', List.mem_singleton_self _, _,
    by rw [h2]; exact List.mem_singleton_self _, ?_⟩
  · intro x hx
    rw [List.mem_singleton] at hx
    subst hx
    exact exNew92_ok
  · intro l hl c hc
    simp only [exShared92, List.mem_singleton] at hl
    subst hl
    simp only [Live.make, List.map_cons, List.map_nil, List.mem_singleton] at hc
    subst hc
    exact exInForce92 _ (by simp [exLook92, dget])
  · intro hcoh
    obtain ⟨d, e1, e2⟩ := hcoh (exOld92, exLook92) (List.mem_cons_self ..) (.dpred [0]) (by
      have h1 : exOld92.name ++ ".dpred" = "d.dpred" := by decide +kernel
      simp only [h1, exAfter92, Chain.init, dget]
      simp)
    cases e1
    simp [exLook92, exAfter92, Chain.init, dget] at e2

/-- The hypotheses of `C92_adapted` and `C92_in_force` are met, with a chain of which the likelihood has what it relies on. -/
example : (∀ x ∈ [(exNew92, exBlind92)], x.1.check = .ok x.1) ∧
    (∀ x ∈ (exShared92 exBlind92).tf, NoiseBlind (([(exNew92, exBlind92)].map (·.1)).filter (·.hierarchical)) x.2) ∧
    (∃ ll' t', (exShared92 exBlind92).addTargets [(exNew92, exBlind92)] [exDraw92] = (.ok (), ll', t')) ∧
    InForce (exShared92 exBlind92).tf exChain92.cur := by
  refine ⟨?_, ?_, ?_, exInForce92 _ rfl⟩
  · intro x hx
    rw [List.mem_singleton] at hx
    subst hx
    exact exNew92_ok
  · intro x hx
    simp only [exShared92, List.mem_singleton] at hx
    subst hx
    exact fun _ _ _ _ => rfl
  · obtain ⟨l', h1, -⟩ := exAdded92 exBlind92 exBlind92
    exact ⟨_, _, h1⟩

/-- The inversion of C66 with one more target, of unknown noise. -/
noncomputable def exMore92 : Problem :=
  { exRun66 with tf := exRun66.tf ++ [({ exNew92 with dobs := [2] }, exBlind92)] }

theorem exMore92_targets : exMore92.targets = [exTarget66, exNew92] := rfl

/-- The hypothesis of `C92_progress` is met by it. -/
theorem exMore92_safe : RunSafe exMore92 where
  base := {
    ok := {
      key := exNested_ok.key
      nodup := exNested_ok.nodup
      ok := fun sp h => exNested_ok.ok sp h
      names := fun sp sp' h h' => exNested_ok.names sp sp' h h'
      targets := by
        rw [exMore92_targets]
        simp [exMore92, exRun66, exNew92, exTarget66, exNested] }
    safe := exRun66_safe.base.safe
    targets := by
      rw [exMore92_targets]
      simp [exTarget66, exNew92]
    checked := by
      rw [exMore92_targets]
      intro tg htg
      rcases List.mem_cons.1 htg with rfl | htg
      · exact exRun66_safe.base.checked _ (by simp [exRun66, Problem.targets])
      · rw [List.mem_singleton] at htg; rw [htg]; exact exNew92_ok }
  moves := Or.inr ⟨exTarget66, by rw [exMore92_targets]; simp, rfl⟩
  likelihood := by
    change ∀ x ∈ exMore92.tf, TargetSafe x
    intro x hx
    rcases List.mem_append.1 hx with hx | hx
    · exact (show ∀ x ∈ exRun66.tf, TargetSafe x from exRun66_safe.likelihood) x hx
    · rw [List.mem_singleton] at hx
      subst hx
      refine ⟨?_, by simp, by simp [exNew92], by simp [exNew92], by simp [exNew92]⟩
      intro q d hd
      injection hd with hd
      subst hd
      rfl
  spaces := exRun66_safe.spaces
  names := by
    rw [exMore92_targets]
    intro tg htg
    rcases List.mem_cons.1 htg with rfl | htg
    · exact plain_of (by decide +kernel)
    · rw [List.mem_singleton] at htg; subst htg; exact plain_of (by decide +kernel)

/-- And a visited state of the inversion of C66 to which the noise of the new target has been added is as required. -/
example (s s' : State) (t t' : List Draw) (h : Visits exRun66 s) (hi : initTargets [exNew92] s t = (.ok s', t')) :
    Lived exMore92 exMore92.tf s' := by
  have h1 : Lived exMore92 exRun66.tf s :=
    lived_problem (p := exRun66) (q := exMore92) rfl rfl rfl (C92_visits_lived exRun66 s h)
  refine Lived.added h1 ?_ hi
  intro x hx
  simp only [exRun66, List.mem_singleton] at hx
  subst hx
  exact fun _ _ _ _ => rfl

/-- Hypotheses of `C92_misaligned`: a store from before the addition, and the targets. -/
example : (savedUnder (exTarget66.name ++ ".std") [("d.std", [.num 2])]).length = 1 ∧
    savedUnder (exNew92.name ++ ".std") [("d.std", [.num 2])] = [] ∧
    exTarget66 ∈ exMore92.targets ∧ exNew92 ∈ exMore92.targets ∧ exTarget66.covInv = none ∧ exNew92.covInv = none ∧
    substr "dpred" (exTarget66.name ++ ".std") = false ∧ substr "dpred" (exNew92.name ++ ".std") = false := by
  have h1 : exTarget66.name ++ ".std" = "d.std" := by decide +kernel
  have h2 : exNew92.name ++ ".std" = "e.std" := by decide +kernel
  rw [h1, h2, exMore92_targets]
  exact ⟨rfl, rfl, by simp, by simp, rfl, rfl, by decide +kernel, by decide +kernel⟩

/-- Names that coincide. -/
example : ¬ (((exShared92 exBlind92).tf ++ [(exOld92, exBlind92)]).map (·.1.name)).Nodup := by
  simp [exShared92]

end BB.Props
