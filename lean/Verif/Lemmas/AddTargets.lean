import Verif.Spec.AddTargets
import Verif.Lemmas.ProgressEval

/-!
# Lemmas: the addition of targets to existing inversions
-/

namespace BB.Lemmas

open BB BB.Spec

variable {E : Type}

theorem hierarchical_iff (t : Target) : t.hierarchical = true ↔ t.covInv = none := by
  unfold Target.hierarchical
  exact Option.isNone_iff_eq_none

theorem check_bounds {t : Target} (h : t.check = .ok t) : t.stdMin ≤ t.stdMax ∧ t.corrMin ≤ t.corrMax := by
  unfold Target.check at h
  split at h
  · rename_i hh; exact ⟨hh.1, hh.2.2.1⟩
  · cases h

/-- What `initialize` leaves as it was. -/
theorem initialize_frame (t : Target) (s : State) :
    Post (t.initialize s) fun s' => s'.cache = s.cache ∧ s'.temperature = s.temperature ∧ s'.extra = s.extra ∧
      (t.hierarchical = false → s' = s) ∧
      (t.hierarchical = true → ∃ d, s'.params = dset s.params t.name (.noise d)) := by
  unfold Target.initialize
  split
  · rename_i hh
    refine Post.bind_any fun x => ?_
    split
    · refine Post.bind_any fun y => Post.pure' ⟨rfl, rfl, rfl, fun h => ?_, fun _ => ⟨_, rfl⟩⟩
      rw [hh] at h; cases h
    · refine Post.pure' ⟨rfl, rfl, rfl, fun h => ?_, fun _ => ⟨_, rfl⟩⟩
      rw [hh] at h; cases h
  · rename_i hh
    exact Post.pure' ⟨rfl, rfl, rfl, fun _ => rfl, fun h => absurd h hh⟩

theorem initTargets_frame : ∀ (ts : List Target) (s : State),
    Post (initTargets ts s) fun s' => s'.cache = s.cache ∧ s'.temperature = s.temperature ∧ s'.extra = s.extra ∧
      (∀ k, (∀ tg ∈ ts, tg.covInv = none → tg.name ≠ k) → dget s'.params k = dget s.params k) ∧
      ∀ f, NoiseBlind (ts.filter (·.hierarchical)) f → f s'.params = f s.params
  | [], s => Post.pure' ⟨rfl, rfl, rfl, fun _ _ => rfl, fun _ _ => rfl⟩
  | t :: ts, s => by
    rw [initTargets]
    refine Post.bind' (initialize_frame t s) fun s1 h1 => ?_
    obtain ⟨c1, c2, c3, c4, c5⟩ := h1
    refine (initTargets_frame ts s1).mono fun s2 h2 => ?_
    obtain ⟨d1, d2, d3, d4, d5⟩ := h2
    refine ⟨d1.trans c1, d2.trans c2, d3.trans c3, fun k hk => ?_, fun f hf => ?_⟩
    · rw [d4 k fun tg htg => hk tg (List.mem_cons_of_mem _ htg)]
      by_cases hh : t.hierarchical = true
      · obtain ⟨d, e⟩ := c5 hh
        rw [e, dget_dset_ne _ _ _ _ (Ne.symm (hk t (List.mem_cons_self ..) ((hierarchical_iff t).1 hh)))]
      · rw [c4 (by simpa using hh)]
    · by_cases hh : t.hierarchical = true
      · rw [List.filter_cons_of_pos hh] at hf
        rw [d5 f fun q tg htg d => hf q tg (List.mem_cons_of_mem _ htg) d]
        obtain ⟨d, e⟩ := c5 hh
        rw [e, hf _ t (List.mem_cons_self ..) d]
      · rw [List.filter_cons_of_neg hh] at hf
        rw [d5 f hf, c4 (by simpa using hh)]

theorem initTargets_extended (ts : List Target) (s : State) (hnd : (ts.map (·.name)).Nodup)
    (hok : ∀ tg ∈ ts, tg.check = .ok tg) :
    Post (initTargets ts s) fun s' => Extended ts s s' ∧
      ∀ f, NoiseBlind (ts.filter (·.hierarchical)) f → f s'.params = f s.params := by
  intro t s' t' h
  obtain ⟨h1, h2, h3, h4, h5⟩ := initTargets_frame ts s t s' t' h
  have h6 := (initTargets_noise ts s hnd (fun tg htg => check_bounds (hok tg htg)) t s' t' h).1
  exact ⟨⟨fun tg htg hc => h6 tg htg ((hierarchical_iff tg).2 hc), h4, h1, h2, h3⟩, h5⟩

/-- What the loop over the chains does. -/
theorem updateChains_post {R : LiveChain E → LiveChain E → Prop} (fs : List (String × (State → M (State × PyF))))
    (ws : List ℝ) (ts : List Target)
    (h : ∀ c : LiveChain E, Post (initTargets ts c.chain.cur) fun s =>
      R c ⟨fs, ws, { c.chain with cur := s }⟩) :
    ∀ cs : List (LiveChain E), Post (updateChains fs ws ts cs) fun cs' => List.Forall₂ R cs cs'
  | [] => Post.pure' .nil
  | c :: cs => by
    rw [updateChains]
    refine Post.bind' (Q := fun c' => R c c') ?_ fun c' hc' => ?_
    · unfold LiveChain.updateTargets LiveChain.setPerturbs
      exact Post.bind' (h c) fun s hs => Post.pure' hs
    · refine Post.bind' (updateChains_post fs ws ts h cs) fun cs' hcs' => ?_
      exact Post.pure' (.cons hc' hcs')

theorem notifyAll_post {R : Live E → Live E → Prop} (kind : LLKind State) (tf : List (Target × Fwd)) (ts : List Target)
    (h : ∀ l : Live E, Post (l.update kind tf ts) (R l)) :
    ∀ ls : List (Live E), Post (notifyAll kind tf ts ls) fun ls' => List.Forall₂ R ls ls'
  | [] => Post.pure' .nil
  | l :: ls => by
    rw [notifyAll]
    refine Post.bind' (h l) fun l' hl' => ?_
    refine Post.bind' (notifyAll_post kind tf ts h ls) fun ls' hls' => ?_
    exact Post.pure' (.cons hl' hls')

/-- What a successful addition is made of. -/
theorem addTargets_ok {ll ll' : SharedLL E} {new : List (Target × Fwd)} {t t' : List Draw}
    (h : ll.addTargets new t = (.ok (), ll', t')) :
    ((ll.tf ++ new).map (·.1.name)).Nodup ∧ ∃ ls, notifyAll ll.kind (ll.tf ++ new) (new.map (·.1)) ll.observers t = (.ok ls, t') ∧
      ll' = { ll with tf := ll.tf ++ new, observers := ls } := by
  unfold SharedLL.addTargets at h
  simp only at h
  split at h
  · rename_i hnd
    refine ⟨hnd, ?_⟩
    split at h
    · rename_i ls t1 e
      simp only [Prod.mk.injEq] at h
      obtain ⟨-, rfl, rfl⟩ := h
      exact ⟨ls, e, rfl⟩
    · simp at h
  · simp at h

theorem update_post {R : LiveChain E → LiveChain E → Prop} (kind : LLKind State) (tf : List (Target × Fwd)) (ts : List Target)
    (l : Live E) (h : ∀ c : LiveChain E, Post (initTargets ts c.chain.cur) fun s =>
      R c ⟨(l.problem kind tf).perturbs, (l.problem kind tf).weights, { c.chain with cur := s }⟩) :
    Post (l.update kind tf ts) fun l' => l'.spaces = l.spaces ∧ l'.saveDpred = l.saveDpred ∧
      l'.perturbs = (l.problem kind tf).perturbs ∧ l'.weights = (l.problem kind tf).weights ∧
      List.Forall₂ R l.chains l'.chains := by
  unfold Live.update
  exact Post.bind' (updateChains_post _ _ ts h l.chains) fun cs' hcs' => Post.pure' ⟨rfl, rfl, rfl, rfl, hcs'⟩

/-- The addition, with all that is known about it. -/
theorem addTargets_post {ll ll' : SharedLL E} {new : List (Target × Fwd)} {t t' : List Draw}
    (hok : ∀ x ∈ new, x.1.check = .ok x.1) (h : ll.addTargets new t = (.ok (), ll', t')) :
    List.Forall₂ (fun l l' : Live E => l'.spaces = l.spaces ∧ l'.saveDpred = l.saveDpred ∧
      l'.perturbs = (l.problem ll.kind (ll.tf ++ new)).perturbs ∧ l'.weights = (l.problem ll.kind (ll.tf ++ new)).weights ∧
      List.Forall₂ (fun c c' : LiveChain E => ChainAdapted (l.problem ll.kind (ll.tf ++ new)) (new.map (·.1)) c c' ∧
        ∀ f, NoiseBlind ((new.map (·.1)).filter (·.hierarchical)) f → f c'.chain.cur.params = f c.chain.cur.params)
        l.chains l'.chains) ll.observers ll'.observers := by
  obtain ⟨hnd, ls, e, rfl⟩ := addTargets_ok h
  have hnd' : ((new.map (·.1)).map (·.name)).Nodup := by
    rw [List.map_append] at hnd
    have := (List.nodup_append.1 hnd).2.1
    rw [List.map_map]; exact this
  have hok' : ∀ tg ∈ new.map (·.1), tg.check = .ok tg := by
    intro tg htg
    obtain ⟨x, hx, rfl⟩ := List.mem_map.1 htg
    exact hok x hx
  refine notifyAll_post _ _ _ (fun l => update_post _ _ _ l fun c => ?_) ll.observers _ _ _ e
  exact (initTargets_extended _ _ hnd' hok').mono fun s hs => ⟨⟨rfl, hs.1, rfl⟩, hs.2⟩

theorem unknown_stats {s : State} {st : List (String × ℝ)} (h : s.cache = [("perturb_stats", .stats st)]) (name : String) :
    dget s.cache (name ++ ".dpred") = none := by
  by_contra hne
  obtain ⟨v, hv⟩ := Option.ne_none_iff_exists'.1 hne
  obtain ⟨d, -, hd⟩ := coherent_stats (tf := [(⟨name, [], none, false, 0, 0, 0, 0, 0, 0⟩, fun _ => none)]) h _ (List.mem_cons_self ..) v hv
  cases hd

theorem unknown_noise {s s' : State} (h : s'.cache = s.cache.filter (fun kv => kv.1 == "dpred")) (name : String) :
    dget s'.cache (name ++ ".dpred") = none := by
  by_contra hne
  obtain ⟨v, hv⟩ := Option.ne_none_iff_exists'.1 hne
  obtain ⟨d, -, hd⟩ := coherent_noise (tf := [(⟨name, [], none, false, 0, 0, 0, 0, 0, 0⟩, fun _ => none)]) h _ (List.mem_cons_self ..) v hv
  cases hd

/-- What the likelihood relies on is kept by the perturbations and by evaluations. -/
theorem cfg_preserves (p : Problem) (hnd : (p.targets.map (·.name)).Nodup) : Preserves p.cfg (InForce p.tf) := by
  have hmem : ∀ {x}, x ∈ p.tf → x.1.covInv = none → x.1 ∈ p.hier := fun {x} hx hc =>
    List.mem_filter.2 ⟨List.mem_map_of_mem (f := Prod.fst) hx, (hierarchical_iff _).2 hc⟩
  refine ⟨?_, ?_⟩
  · intro name f hf s t new lpr t' hs hp
    have hf : (name, f) ∈ p.perturbs := hf
    unfold Problem.perturbs at hf
    rcases List.mem_append.1 hf with hf | hf
    · obtain ⟨g, _, e⟩ := List.mem_map.1 hf
      simp only [Prod.mk.injEq] at e
      obtain ⟨-, rfl⟩ := e
      obtain ⟨⟨st, h1⟩, -⟩ := perturb_cache g.1 s _ _ _ hp
      refine ⟨coherent_stats h1, fun x hx hc => ?_, fun name _ => ?_⟩
      · obtain ⟨d, hd, hin⟩ := hs.noise x hx hc
        have := perturb_noise g.1 s _ _ _ hp x.1.name
        exact ⟨d, noiseAt_some.1 (by rw [this]; exact noiseAt_some.2 hd), hin⟩
      · exact unknown_stats h1 name
    · unfold Problem.noisePerturbs at hf
      split at hf
      · simp at hf
      · simp only [List.mem_singleton, Prod.mk.injEq] at hf
        obtain ⟨-, rfl⟩ := hf
        obtain ⟨h0, -, -, h1, h2, -⟩ := noisePerturb_ok (hier_nodup hnd) hp
        exact ⟨coherent_noise h2, fun x hx hc => h0 x.1 (hmem hx hc), fun name _ => unknown_noise h2 name⟩
  · intro a b T ha hb
    have hs := llr_step p.kind p.tf p.perturbs p.weights (some (p.spaces.map fun kv => (kv.1, kv.2.info.transD)))
      p.saveDpred a b T
    have key : ∀ {s s' : State}, CacheStep p.tf s s' → InForce p.tf s → Coherent p.tf s' → InForce p.tf s' := by
      intro s s' h1 h2 h3
      refine ⟨h3, fun x hx hc => by rw [h1.params]; exact h2.noise x hx hc, fun name hn => ?_⟩
      rw [dget_none_iff]
      intro hk
      rcases h1.keys _ hk with h4 | ⟨x, hx, h4⟩
      · exact (dget_none_iff.1 (h2.known name hn)) h4
      · exact hn x hx (dpredKey_inj h4).symm
    exact ⟨key hs.1 ha (llr_left (tf_nodup hnd) a b T ha.coherent),
      key hs.2 hb (llr_right (tf_nodup hnd) a b T hb.coherent)⟩

/-- No predictions are cached under names that are not names of targets. -/
def CacheKnown (tf : List (Target × Fwd)) (s : State) : Prop :=
  ∀ name, (∀ x ∈ tf, x.1.name ≠ name) → dget s.cache (name ++ ".dpred") = none

theorem known_closed {p : Problem} (hnd : (p.targets.map (·.name)).Nodup) : Closed p.cfg (CacheKnown p.tf) := by
  refine ⟨?_, ?_, ?_, fun _ _ h => h⟩
  · intro name f hf s t new lpr t' _ hp _ _ nm _
    have hf : (name, f) ∈ p.perturbs := hf
    unfold Problem.perturbs at hf
    rcases List.mem_append.1 hf with hf | hf
    · obtain ⟨g, _, e⟩ := List.mem_map.1 hf
      simp only [Prod.mk.injEq] at e
      obtain ⟨-, rfl⟩ := e
      obtain ⟨⟨st, h1⟩, -⟩ := perturb_cache g.1 s _ _ _ hp
      exact unknown_stats h1 nm
    · unfold Problem.noisePerturbs at hf
      split at hf
      · simp at hf
      · simp only [List.mem_singleton, Prod.mk.injEq] at hf
        obtain ⟨-, rfl⟩ := hf
        exact unknown_noise (noisePerturb_ok (hier_nodup hnd) hp).2.2.2.2.1 nm
  · intro a b T ha nm hn
    rw [dget_none_iff]
    intro hk
    rcases (llr_step p.kind p.tf p.perturbs p.weights _ p.saveDpred a b T).1.keys _ hk with h4 | ⟨x, hx, h4⟩
    · exact (dget_none_iff.1 (ha nm hn)) h4
    · exact hn x hx (dpredKey_inj h4).symm
  · intro a b T hb nm hn
    rw [dget_none_iff]
    intro hk
    rcases (llr_step p.kind p.tf p.perturbs p.weights _ p.saveDpred a b T).2.keys _ hk with h4 | ⟨x, hx, h4⟩
    · exact (dget_none_iff.1 (hb nm hn)) h4
    · exact hn x hx (dpredKey_inj h4).symm

theorem visits_known {p : Problem} (hnd : (p.targets.map (·.name)).Nodup) {s : State} (h : Visits p s) : CacheKnown p.tf s := by
  refine visited_of_closed p.cfg (known_closed hnd) ?_ h
  rintro s ⟨t, t', hs⟩ nm _
  rw [(start_cache _ _ _ hs).1]
  rfl

end BB.Lemmas
