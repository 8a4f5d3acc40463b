import Verif.Lemmas.AddTargets
import Verif.Lemmas.ProgressChain

/-!
# No exceptions after targets have been added
-/

namespace BB.Lemmas

open BB BB.Spec BB.Props

theorem params_closed {p : Problem} {Q : Params → Prop}
    (hg : ∀ g ∈ p.spaces.perts, ∀ s t new lpr t', Q s.params → g.1.perturb s t = (.ok (new, lpr), t') →
      lpr ≠ .ninf → lpr ≠ .nan → Q new.params)
    (hn : ∀ s t new lpr t', Q s.params → noisePerturb p.hier s t = (.ok (new, lpr), t') → Q new.params) :
    Closed p.cfg (fun s => Q s.params) := by
  refine ⟨?_, ?_, ?_, fun _ _ h => h⟩
  · intro name f hf s t new lpr t' hs hp h1 h2
    rcases List.mem_append.1 (show (name, f) ∈ p.perturbs from hf) with hf | hf
    · obtain ⟨g, hg1, hg2⟩ := List.mem_map.1 hf
      injection hg2 with e1 e2
      subst e2
      exact hg g hg1 s t new lpr t' hs hp h1 h2
    · unfold Problem.noisePerturbs at hf
      split at hf
      · simp at hf
      · simp only [List.mem_singleton, Prod.mk.injEq] at hf
        obtain ⟨-, rfl⟩ := hf
        exact hn s t new lpr t' hs hp
  · intro a b T h
    exact (llr_step p.kind p.tf p.perturbs p.weights _ p.saveDpred a b T).1.params ▸ h
  · intro a b T h
    exact (llr_step p.kind p.tf p.perturbs p.weights _ p.saveDpred a b T).2.params ▸ h

/-- What the chains of an inversion rely on in a state. -/
structure Sane (p : Problem) (s : State) : Prop where
  inv : PInv vecVal p s.params
  noise : ∀ tg ∈ p.targets, tg.hierarchical = true → NoiseWithin tg s.params
  coherent : Coherent p.tf s
  extra : s.extra = []
  keys : NoiseKeys p s.params
  known : CacheKnown p.tf s

theorem Closed.and {p : Problem} {P Q : State → Prop} (hP : Closed p.cfg P) (hQ : Closed p.cfg Q) :
    Closed p.cfg (fun s => P s ∧ Q s) where
  adopt := fun n f hf s t new lpr t' h e h1 h2 =>
    ⟨hP.adopt n f hf s t new lpr t' h.1 e h1 h2, hQ.adopt n f hf s t new lpr t' h.2 e h1 h2⟩
  left := fun a b T h => ⟨hP.left a b T h.1, hQ.left a b T h.2⟩
  right := fun a b T h => ⟨hP.right a b T h.1, hQ.right a b T h.2⟩
  temp := fun s x h => ⟨hP.temp s x h.1, hQ.temp s x h.2⟩

theorem cache_closed {p : Problem} (hnd : (p.targets.map (·.name)).Nodup) :
    Closed p.cfg (fun s => Coherent p.tf s ∧ s.extra = []) := by
  refine ⟨?_, ?_, ?_, fun _ _ h => h⟩
  · intro name f hf s t new lpr t' _ hp _ _
    have hf : (name, f) ∈ p.perturbs := hf
    unfold Problem.perturbs at hf
    rcases List.mem_append.1 hf with hf | hf
    · obtain ⟨g, _, e⟩ := List.mem_map.1 hf
      simp only [Prod.mk.injEq] at e
      obtain ⟨-, rfl⟩ := e
      obtain ⟨⟨st, h1⟩, h2⟩ := perturb_cache g.1 s _ _ _ hp
      exact ⟨coherent_stats h1, h2⟩
    · unfold Problem.noisePerturbs at hf
      split at hf
      · simp at hf
      · simp only [List.mem_singleton, Prod.mk.injEq] at hf
        obtain ⟨-, rfl⟩ := hf
        obtain ⟨-, -, -, h1, h2, -⟩ := noisePerturb_ok (hier_nodup hnd) hp
        exact ⟨coherent_noise h2, h1⟩
  · intro a b T h
    exact ⟨llr_left (tf_nodup hnd) a b T h.1, ((llr_step _ _ _ _ _ _ a b T).1.extra).trans h.2⟩
  · intro a b T h
    exact ⟨llr_right (tf_nodup hnd) a b T h.1, ((llr_step _ _ _ _ _ _ a b T).2.extra).trans h.2⟩

theorem sane_closed {p : Problem} (h : ProblemSafe p) : Closed p.cfg (Sane p) := by
  have h1 : Closed p.cfg (fun s => PInv vecVal p s.params) :=
    params_closed (Q := PInv vecVal p)
      (fun g hgm s t new lpr t' hs he h1 h2 => PInv.perturb h.ok h.good hgm hs _ _ _ he ⟨h1, h2⟩)
      fun s t new lpr t' hs he => PInv.noise h.ok hs _ _ _ he
  have h2 : Closed p.cfg (fun s => ∀ tg ∈ p.targets, tg.hierarchical = true → NoiseWithin tg s.params) := by
    refine params_closed (Q := fun q => ∀ tg ∈ p.targets, tg.hierarchical = true → NoiseWithin tg q) ?_ ?_
    · intro g _ s t new lpr t' hs hp _ _ tg htg hh
      obtain ⟨d, hd, hin⟩ := hs tg htg hh
      have := perturb_noise g.1 s _ _ _ hp tg.name
      exact ⟨d, noiseAt_some.1 (by rw [this]; exact noiseAt_some.2 hd), hin⟩
    · intro s t new lpr t' _ hp tg htg hh
      exact (C16_perturbation p.hier (hier_nodup h.targets) s new lpr t t' hp).1 tg (List.mem_filter.2 ⟨htg, hh⟩)
  have h3 : Closed p.cfg (fun s => NoiseKeys p s.params) :=
    params_closed (Q := NoiseKeys p) (fun g _ s t new lpr t' hs hp _ _ => perturb_keys hs hp)
      fun s t new lpr t' hs hp => noisePerturb_noiseKeys hs hp
  have h4 := Closed.and (Closed.and h1 h2) (Closed.and (cache_closed h.targets) (Closed.and h3 (known_closed h.targets)))
  have key : ∀ s, Sane p s ↔ ((PInv vecVal p s.params ∧ ∀ tg ∈ p.targets, tg.hierarchical = true → NoiseWithin tg s.params) ∧
      (Coherent p.tf s ∧ s.extra = []) ∧ NoiseKeys p s.params ∧ CacheKnown p.tf s) := fun s =>
    ⟨fun h => ⟨⟨h.inv, h.noise⟩, ⟨h.coherent, h.extra⟩, h.keys, h.known⟩,
      fun ⟨⟨a, b⟩, ⟨c, d⟩, e, f⟩ => ⟨a, b, c, d, e, f⟩⟩
  rwa [show Sane p = _ from funext fun s => propext (key s)]

theorem sane_start {p : Problem} (h : ProblemSafe p) {s : State} (hs : Start p s) : Sane p s := by
  have hv : Visits p s := .start hs
  have k := kept_visits h
  exact ⟨k.inv _ hv, k.noise _ hv, k.coherent _ hv, k.extra _ hv, k.keys _ hv, visits_known h.targets hv⟩

/-- Fewer targets. -/
theorem safe_prefix {p : Problem} {tf new : List (Target × Fwd)} (h : ProblemSafe { p with tf := tf ++ new }) :
    ProblemSafe { p with tf := tf } := by
  have hsub : ∀ tg ∈ ({ p with tf := tf } : Problem).targets, tg ∈ ({ p with tf := tf ++ new } : Problem).targets := by
    intro tg htg
    unfold Problem.targets at htg ⊢
    rw [List.map_append]
    exact List.mem_append_left _ htg
  refine ⟨⟨h.ok.key, h.ok.nodup, h.ok.ok, h.ok.names, fun t ht => h.ok.targets t (hsub t ht)⟩, h.safe, ?_,
    fun tg ht => h.checked tg (hsub tg ht)⟩
  have := h.targets
  unfold Problem.targets at this ⊢
  simp only [List.map_append] at this
  exact (List.nodup_append.1 this).1

theorem sane_added {p : Problem} {tf new : List (Target × Fwd)} (h : ProblemSafe { p with tf := tf ++ new })
    (hblind : ∀ x ∈ tf, NoiseBlind ((new.map (·.1)).filter (·.hierarchical)) x.2) {s s' : State} {t t' : List Draw}
    (hs : Sane { p with tf := tf } s) (hi : initTargets (new.map (·.1)) s t = (.ok s', t')) :
    Sane { p with tf := tf ++ new } s' := by
  have hnew : ∀ tg ∈ new.map (·.1), tg ∈ ({ p with tf := tf ++ new } : Problem).targets := by
    intro tg htg
    unfold Problem.targets
    rw [List.map_append]
    exact List.mem_append_right _ htg
  have hnd : (((tf ++ new).map (·.1)).map (·.name)).Nodup := h.targets
  rw [List.map_append, List.map_append, List.nodup_append] at hnd
  obtain ⟨-, hnd2, hdisj⟩ := hnd
  obtain ⟨hext, hf⟩ := initTargets_extended _ _ hnd2 (fun tg htg => h.checked tg (hnew tg htg)) _ _ _ hi
  have hne : ∀ x ∈ tf, ∀ tg ∈ new.map (·.1), tg.name ≠ x.1.name := fun x hx tg htg e =>
    hdisj _ (List.mem_map_of_mem (List.mem_map_of_mem (f := Prod.fst) hx)) _ (List.mem_map_of_mem htg) e.symm
  refine ⟨?_, ?_, ?_, hext.extra.trans hs.extra, ?_, ?_⟩
  · exact initTargets_inv (p := { p with tf := tf ++ new }) _ s (fun tg htg => h.ok.targets tg (hnew tg htg)) hs.inv _ _ _ hi
  · intro tg htg hh
    unfold Problem.targets at htg
    rw [List.map_append] at htg
    rcases List.mem_append.1 htg with htg | htg
    · obtain ⟨d, hd, hin⟩ := hs.noise tg htg hh
      obtain ⟨x, hx, rfl⟩ := List.mem_map.1 htg
      exact ⟨d, by rw [hext.others _ fun tg' h' _ => hne x hx tg' h']; exact hd, hin⟩
    · exact hext.noise tg htg ((hierarchical_iff _).1 hh)
  · intro x hx v hv
    rw [hext.cache] at hv
    rcases List.mem_append.1 hx with hx | hx
    · obtain ⟨d, rfl, hd⟩ := hs.coherent x hx v hv
      exact ⟨d, rfl, by rw [hf x.2 (hblind x hx)]; exact hd⟩
    · rw [hs.known x.1.name fun y hy e => hne y hy x.1 (List.mem_map_of_mem (f := Prod.fst) hx) e.symm] at hv
      cases hv
  · refine initTargets_keys (p := { p with tf := tf ++ new }) _ s hnew ?_ _ _ _ hi
    intro k d hk
    obtain ⟨tg, htg, e⟩ := hs.keys k d hk
    refine ⟨tg, ?_, e⟩
    unfold Problem.targets at htg ⊢
    rw [List.map_append]
    exact List.mem_append_left _ htg
  · intro name hn
    rw [hext.cache]
    exact hs.known name fun x hx => hn x (List.mem_append_left _ hx)

theorem lived_sane {p : Problem} {tf : List (Target × Fwd)} {s : State} (h : Lived p tf s) :
    ProblemSafe { p with tf := tf } → Sane { p with tf := tf } s := by
  induction h with
  | start h => exact fun hp => sane_start hp h
  | added _ hb hi ih => exact fun hp => sane_added hp hb (ih (safe_prefix hp)) hi
  | temp x _ ih => exact fun hp => (sane_closed hp).temp _ x (ih hp)
  | left b T _ ih => exact fun hp => (sane_closed hp).left _ b T (ih hp)
  | right a T _ ih => exact fun hp => (sane_closed hp).right a _ T (ih hp)
  | adopt hf _ e h1 h2 ih => exact fun hp => (sane_closed hp).adopt _ _ hf _ _ _ _ _ (ih hp) e h1 h2

/-- The targets of the inversion the states come from do not matter. -/
theorem lived_problem {p q : Problem} (h1 : q.spaces = p.spaces) (h2 : q.kind = p.kind) (h3 : q.saveDpred = p.saveDpred)
    {tf : List (Target × Fwd)} {s : State} (h : Lived p tf s) : Lived q tf s := by
  have e : ∀ tf, ({ q with tf := tf } : Problem) = { p with tf := tf } := by
    intro tf
    obtain ⟨a, b, c, d⟩ := p
    obtain ⟨a', b', c', d'⟩ := q
    simp only at h1 h2 h3
    subst h1 h2 h3
    rfl
  induction h with
  | start h => exact .start (by rw [e]; exact h)
  | added _ hb hi ih => exact .added ih hb hi
  | temp x _ ih => rw [← e]; exact .temp x ih
  | left b T _ ih => rw [← e]; exact .left b T ih
  | right a T _ ih => rw [← e]; exact .right a T ih
  | adopt hf _ he h1 h2 ih => exact .adopt (by rw [e]; exact hf) ih he h1 h2

theorem kept_lived {p : Problem} (h : ProblemSafe p) : Kept p (Lived p p.tf) where
  closed := ⟨fun _ _ hf _ _ _ _ _ hs e h1 h2 => .adopt hf hs e h1 h2, fun _ b T h => .left b T h,
    fun a _ T h => .right a T h, fun _ x h => .temp x h⟩
  inv := fun _ hs => (lived_sane hs h).inv
  noise := fun _ hs => (lived_sane hs h).noise
  coherent := fun _ hs => (lived_sane hs h).coherent
  extra := fun _ hs => (lived_sane hs h).extra
  keys := fun _ hs => (lived_sane hs h).keys

/-! ### saved noise -/

theorem mem_dupdate {α : Type} : ∀ (e d : List (String × α)) (k : String), k ∈ dkeys d ∨ k ∈ dkeys e → k ∈ dkeys (dupdate d e)
  | [], d, k, h => by
    rcases h with h | h
    · exact h
    · simp [dkeys] at h
  | (k', v) :: e, d, k, h => by
    change k ∈ dkeys (dupdate (dset d k' v) e)
    refine mem_dupdate e _ k ?_
    rw [dkeys_dset]
    rcases h with h | h
    · left
      split
      · exact h
      · exact List.mem_append_left _ h
    · rcases List.mem_cons.1 h with h | h
      · left
        subst h
        split
        · assumption
        · exact List.mem_append_right _ (List.mem_singleton_self _)
      · exact Or.inr h

theorem vars_mem {s : State} {k : String} {v : TopVal} (h : (k, v) ∈ s.params) {key : String}
    (hk : key ∈ dkeys (v.todict k)) : key ∈ dkeys s.vars := by
  unfold State.vars
  refine mem_dupdate _ _ _ (Or.inl ?_)
  have : ∀ (l : Params) (d : List (String × SVal)), key ∈ dkeys d ∨ (k, v) ∈ l →
      key ∈ dkeys (l.foldl (fun d kv => dupdate d (kv.2.todict kv.1)) d) := by
    intro l
    induction l with
    | nil => intro d h; exact h.resolve_right (by simp)
    | cons kv l ih =>
      intro d h
      refine ih _ ?_
      rcases h with h | h
      · exact Or.inl (mem_dupdate _ _ _ (Or.inl h))
      · rcases List.mem_cons.1 h with h | h
        · subst h; exact Or.inl (mem_dupdate _ _ _ (Or.inr hk))
        · exact Or.inr h
  exact this _ _ (Or.inr h)

/-- A state with the noise of a target contributes one value to the list of its standard deviations. -/
theorem contribution_std {s : State} {tg : Target} (hn : NoiseWithin tg s.params) (hp : Plain tg.name)
    (hd : substr "dpred" (tg.name ++ ".std") = false) (spaces : Option (List (String × Bool))) (sd : Bool) :
    (contribution spaces sd (tg.name ++ ".std") s).length = 1 := by
  obtain ⟨d, h1, -⟩ := hn
  have hk : tg.name ++ ".std" ∈ dkeys s.vars :=
    vars_mem (dget_some_mem h1) (by simp [TopVal.todict, Noise.todict, dkeys])
  have hpl : Plain (tg.name ++ ".std") := plain_dot (b := "std") hp (plain_of (by decide +kernel)) |> fun x => by
    rw [String.append_assoc] at x; exact x
  obtain ⟨v, hv⟩ := Option.ne_none_iff_exists'.1 fun h => (dget_none_iff.1 h) hk
  unfold contribution
  rw [hv, skipKey_plain hpl, hd]
  simp

theorem dueStates_all {P : State → Prop} {b s : ℤ} : ∀ (evs : List (Event State)) (i : ℕ), EvAll P evs →
    ∀ x ∈ dueStates b s i evs, P x
  | [], _, _, x, hx => by simp [dueStates] at hx
  | ev :: evs, i, h, x, hx => by
    rw [dueStates] at hx
    rcases List.mem_append.1 hx with hx | hx
    · split at hx
      · rw [List.mem_singleton] at hx
        subst hx
        exact (h ev (List.mem_cons_self ..)).2
      · simp at hx
    · exact dueStates_all evs (i + 1) (fun e he => h e (List.mem_cons_of_mem _ he)) x hx

theorem flatMap_length_one {α β : Type} {f : α → List β} : ∀ {l : List α}, (∀ x ∈ l, (f x).length = 1) →
    (l.flatMap f).length = l.length
  | [], _ => rfl
  | a :: l, h => by
    rw [List.flatMap_cons, List.length_append, h a (List.mem_cons_self ..),
      flatMap_length_one fun x hx => h x (List.mem_cons_of_mem _ hx), List.length_cons]
    omega

end BB.Lemmas
