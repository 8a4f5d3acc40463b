import Verif.Lemmas.ProgressPerturb
import Verif.Lemmas.Save

/-!
# No exceptions: saving a state
-/

namespace BB.Lemmas

open BB BB.Spec

/-! ### substrings -/

theorem substr_iff {a b : String} : substr a b = true ↔ a.toList <:+: b.toList := by
  unfold substr
  rw [List.any_eq_true]
  constructor
  · rintro ⟨t, h1, h2⟩
    rw [List.mem_tails] at h1
    exact (List.isPrefixOf_iff_prefix.1 h2).isInfix.trans h1.isInfix
  · rintro ⟨s, t, h⟩
    refine ⟨a.toList ++ t, ?_, List.isPrefixOf_iff_prefix.2 (List.prefix_append _ _)⟩
    rw [List.mem_tails]
    exact ⟨s, by rw [← h, List.append_assoc]⟩

theorem infix_sep {α : Type} {c : α} {pat a b : List α} (hc : c ∉ pat) (h : pat <:+: a ++ c :: b) :
    pat <:+: a ∨ pat <:+: b := by
  obtain ⟨s, t, h⟩ := h
  rw [List.append_eq_append_iff] at h
  rcases h with ⟨x, h1, h2⟩ | ⟨x, h1, h2⟩
  · exact Or.inl ⟨s, x, h1.symm⟩
  · rw [List.append_eq_append_iff] at h1
    rcases h1 with ⟨y, h3, h4⟩ | ⟨y, h3, h4⟩
    · cases x with
      | nil => exact Or.inl ⟨s, [], by rw [h3, h4]; simp⟩
      | cons d x =>
        rw [List.cons_append] at h2
        injection h2 with h2 h5
        exact absurd (by rw [h4, ← h2]; simp) hc
    · cases y with
      | nil =>
        rw [List.nil_append] at h4
        subst h4
        cases x with
        | nil => exact Or.inl (List.nil_infix)
        | cons d x =>
          rw [List.cons_append] at h2
          injection h2 with h2 h5
          exact absurd (by rw [← h2]; simp) hc
      | cons d y =>
        rw [h4, List.cons_append, List.cons_append] at h2
        injection h2 with h2 h5
        exact Or.inr ⟨y, t, by rw [h5]⟩

theorem plain_dot {a b : String} (ha : Plain a) (hb : Plain b) : Plain (a ++ "." ++ b) := by
  intro h
  rw [String.toList_append, String.toList_append] at h
  have hd : ".".toList = ['.'] := by decide +kernel
  rw [hd, List.append_assoc, List.singleton_append] at h
  rcases infix_sep (by decide +kernel) h with h | h
  · exact ha h
  · exact hb h

theorem skipKey_plain {spaces : Option (List (String × Bool))} {k : String} (h : Plain k) : skipKey spaces k = .ok false := by
  unfold skipKey
  rw [if_neg]
  intro hs
  exact h (substr_iff.1 hs)

theorem plain_of {a : String} (h : substr "n_dimensions" a = false) : Plain a := by
  intro hi
  rw [substr_iff.2 hi] at h
  cases h

/-! ### the keys of the saved values -/

/-- Saving the key raises nothing. -/
def KeyOk (spaces : Option (List (String × Bool))) (k : String) : Prop := ∃ b, skipKey spaces k = .ok b

theorem saveVars_runs {spaces : Option (List (String × Bool))} : ∀ (l : List (String × SVal)) (d : Store),
    (∀ kv ∈ l, KeyOk spaces kv.1) → ∃ d', saveVars spaces l d = (.ok (), d')
  | [], d, _ => ⟨d, rfl⟩
  | (k, v) :: rest, d, h => by
    obtain ⟨b, hb⟩ := h (k, v) (List.mem_cons_self ..)
    have ih := fun d => saveVars_runs rest d fun kv hk => h kv (List.mem_cons_of_mem _ hk)
    rw [saveVars, hb]
    cases b with
    | true => exact ih _
    | false => exact ih _

theorem dset_keys {α : Type} {d : List (String × α)} {k : String} {v : α} : ∀ kv ∈ dset d k v, kv.1 = k ∨ kv.1 ∈ dkeys d := by
  induction d with
  | nil => intro kv h; simp only [dset, List.mem_singleton] at h; subst h; exact Or.inl rfl
  | cons x d ih =>
    obtain ⟨k', v'⟩ := x
    intro kv h
    unfold dset at h
    split at h
    · rcases List.mem_cons.1 h with h | h
      · subst h; exact Or.inr (List.mem_cons_self ..)
      · exact Or.inr (List.mem_cons_of_mem _ (List.mem_map_of_mem (f := (·.1)) h))
    · rcases List.mem_cons.1 h with h | h
      · subst h; exact Or.inr (List.mem_cons_self ..)
      · rcases ih kv h with h | h
        · exact Or.inl h
        · exact Or.inr (List.mem_cons_of_mem _ h)

theorem dupdate_keys {α : Type} {P : String → Prop} : ∀ (e d : List (String × α)), (∀ kv ∈ d, P kv.1) → (∀ kv ∈ e, P kv.1) →
    ∀ kv ∈ dupdate d e, P kv.1
  | [], d, hd, _ => hd
  | (k, v) :: e, d, hd, he => by
    have : dupdate d ((k, v) :: e) = dupdate (dset d k v) e := rfl
    rw [this]
    refine dupdate_keys e _ ?_ fun kv h => he kv (List.mem_cons_of_mem _ h)
    intro kv h
    rcases dset_keys kv h with h | h
    · rw [h]; exact he (k, v) (List.mem_cons_self ..)
    · obtain ⟨kv', h1, h2⟩ := List.mem_map.1 h
      rw [← h2]; exact hd kv' h1

theorem todictVals_keys {P : String → Prop} {name : String} : ∀ (vals : List (String × PVal)) (res : List (String × SVal)),
    (∀ kv ∈ res, P kv.1) → (∀ kv ∈ vals, P (name ++ "." ++ kv.1)) → ∀ kv ∈ todictVals name res vals, P kv.1
  | [], res, hr, _ => by rw [todictVals]; exact hr
  | (k, v) :: rest, res, hr, hv => by
    rw [todictVals]
    refine todictVals_keys rest _ ?_ fun kv h => hv kv (List.mem_cons_of_mem _ h)
    intro kv h
    rcases dset_keys kv h with h | h
    · rw [h]; exact hv (k, v) (List.mem_cons_self ..)
    · obtain ⟨kv', h1, h2⟩ := List.mem_map.1 h
      rw [← h2]; exact hr kv' h1

theorem vars_keys {P : String → Prop} {s : State} (he : s.extra = [])
    (hs : ∀ k v, (k, v) ∈ s.params → ∀ kv ∈ v.todict k, P kv.1) : ∀ kv ∈ s.vars, P kv.1 := by
  unfold State.vars
  rw [he]
  refine dupdate_keys _ _ ?_ (by simp)
  have : ∀ (l : Params) (d : List (String × SVal)), (∀ k v, (k, v) ∈ l → ∀ kv ∈ v.todict k, P kv.1) → (∀ kv ∈ d, P kv.1) →
      ∀ kv ∈ l.foldl (fun d kv => dupdate d (kv.2.todict kv.1)) d, P kv.1 := by
    intro l
    induction l with
    | nil => intro d _ hd; exact hd
    | cons x l ih =>
      intro d hl hd
      exact ih _ (fun k v h => hl k v (List.mem_cons_of_mem _ h))
        (dupdate_keys _ _ hd (hl x.1 x.2 (List.mem_cons_self ..)))
  exact this _ _ hs (by simp)

/-- The noise parameters in a state are those of targets. -/
def NoiseKeys (p : Problem) (params : Params) : Prop :=
  ∀ k d, dget params k = some (.noise d) → ∃ tg ∈ p.targets, tg.name = k

theorem initTargets_keys {p : Problem} : ∀ (ts : List Target) (s : State), (∀ tg ∈ ts, tg ∈ p.targets) →
    NoiseKeys p s.params → Post (initTargets ts s) (fun s' => NoiseKeys p s'.params)
  | [], s, _, h => Post.pure' h
  | tg :: ts, s, hts, h => by
    rw [initTargets]
    refine Post.bind' (Q := fun s' => NoiseKeys p s'.params) ?_ fun s' hs' =>
      initTargets_keys ts s' (fun x hx => hts x (List.mem_cons_of_mem _ hx)) hs'
    have key : ∀ d, NoiseKeys p (dset s.params tg.name (.noise d)) := by
      intro d k d' hk
      by_cases e : k = tg.name
      · exact ⟨tg, hts tg (List.mem_cons_self ..), e.symm⟩
      · rw [dget_dset_ne _ _ _ _ e] at hk; exact h k d' hk
    unfold Target.initialize
    split
    · refine Post.bind_any fun std => ?_
      split
      · exact Post.bind_any fun r => Post.pure' (key _)
      · exact Post.pure' (key _)
    · exact Post.pure' h

theorem perturb_keys {p : Problem} {g : PSPert} {s new : State} {t t' : List Draw} {lpr : PyF} (hs : NoiseKeys p s.params)
    (hp : g.perturb s t = (.ok (new, lpr), t')) : NoiseKeys p new.params := by
  intro k d hk
  have := perturb_noise g s _ _ _ hp k
  rw [noiseAt_some.2 hk] at this
  exact hs k d (noiseAt_some.1 this.symm)

theorem noisePerturb_noiseKeys {p : Problem} {s new : State} {t t' : List Draw} {lpr : PyF} (hs : NoiseKeys p s.params)
    (hp : noisePerturb p.hier s t = (.ok (new, lpr), t')) : NoiseKeys p new.params := by
  intro k d hk
  unfold noisePerturb at hp
  obtain ⟨e, t1, h1, h2⟩ := M.bind_ok.1 hp
  rw [M.pure_run] at h2
  simp only [Prod.mk.injEq, Except.ok.injEq] at h2
  obtain ⟨⟨rfl, rfl⟩, rfl⟩ := h2
  have p3 := perturbNoises_nodup s.params p.hier [] (by simp [dkeys]) _ _ _ h1
  have p4 := perturbNoises_mem s.params p.hier [] (by simp [dkeys]) _ _ _ h1
  have hk : dget (dupdate s.params e) k = some (.noise d) := hk
  rw [dget_dupdate _ _ p3] at hk
  match hd : dget e k with
  | none => rw [hd] at hk; exact hs k d hk
  | some v =>
    rcases p4 _ (dget_some_mem hd) with h | ⟨tg, htg, d', h⟩
    · simp at h
    · injection h with e1 e2
      exact ⟨tg, (List.mem_filter.1 htg).1, e1.symm⟩

theorem visits_keys {p : Problem} {s : State} (h : Visits p s) : NoiseKeys p s.params := by
  refine visits_params (Q := NoiseKeys p) ?_ ?_ ?_ h
  · rintro s ⟨t, t', hs⟩
    have : Post p.start (fun s => NoiseKeys p s.params) := by
      unfold Problem.start Spaces.initialize
      refine Post.bind' (Q := fun s => NoiseKeys p s.params) ?_ fun s hs => initTargets_keys _ s (fun _ h => h) hs
      refine Post.bind' (Q := fun l => ∀ kv ∈ l, ∃ s, kv.2 = TopVal.ps s) ?_ fun l hl => Post.pure' ?_
      · generalize p.spaces = l
        induction l with
        | nil => exact Post.pure' (by simp)
        | cons x l ih =>
          obtain ⟨k, sp⟩ := x
          rw [Spaces.initValues]
          refine Post.bind_any fun s => ih.bind' fun vs hvs => Post.pure' ?_
          intro kv hkv
          rcases List.mem_cons.1 hkv with h | h
          · exact ⟨s, by rw [h]⟩
          · exact hvs kv h
      · intro k d hk
        obtain ⟨s, hs⟩ := hl _ (dget_some_mem hk)
        cases hs
    exact this _ _ _ hs
  · exact fun g _ s t new lpr t' hs hp _ _ => perturb_keys hs hp
  · exact fun s t new lpr t' hs hp => noisePerturb_noiseKeys hs hp

theorem conf_keys {vs : ValSpec} {sp : Space} {s : PSState} (h : SConf vs sp s) :
    ∀ kv ∈ s.vals, kv.1 = "discretization" ∨ ∃ q, (kv.1, q) ∈ sp.params.toList := by
  obtain ⟨_, _, hdr, rest, poss, h3, h4, h5⟩ := SConf_iff.1 h
  intro kv hkv
  rw [h3] at hkv
  rcases List.mem_append.1 hkv with hkv | hkv
  · left
    unfold Hdr at h4
    split at h4
    · rw [h4.1] at hkv; simp at hkv
    · obtain ⟨xs, e, -⟩ := h4; rw [e, List.mem_singleton] at hkv; rw [hkv]
    · obtain ⟨xs, e, -⟩ := h4; rw [e, List.mem_singleton] at hkv; rw [hkv]
  · right
    obtain ⟨kp, h6, h7⟩ := forall₂_mem_right h5 hkv
    exact ⟨kp.2, by rw [h7.1]; exact h6⟩

/-- Saving a visited state raises nothing. -/
theorem save_runs {p : Problem} (h : RunSafe p) {s : State} (hinv : PInv vecVal p s.params) (hk : NoiseKeys p s.params)
    (he : s.extra = []) (d : Store) : ∃ d', p.cfg.save s d = (.ok (), d') := by
  change ∃ d', saveState _ p.saveDpred s d = (.ok (), d')
  unfold saveState
  obtain ⟨d1, h1⟩ := saveVars_runs (spaces := some (p.spaces.map fun kv => (kv.1, kv.2.info.transD))) s.vars d (by
    refine vars_keys (P := KeyOk _) he ?_
    intro k v hkv
    have hd := dget_of_mem hinv.1 hkv
    cases v with
    | noise dn =>
      obtain ⟨tg, htg, hn⟩ := hk k dn hd
      have hpl := h.names tg htg
      rw [hn] at hpl
      have p1 : Plain (k ++ ".std") := plain_dot (b := "std") hpl (plain_of (by decide +kernel)) |> fun x => by
        rw [String.append_assoc] at x; exact x
      have p2 : Plain (k ++ ".correlation") := plain_dot (b := "correlation") hpl (plain_of (by decide +kernel)) |> fun x => by
        rw [String.append_assoc] at x; exact x
      intro kv hkv
      simp only [TopVal.todict, Noise.todict] at hkv
      rcases List.mem_cons.1 hkv with e | hkv
      · rw [e]; exact ⟨_, skipKey_plain p1⟩
      · split at hkv
        · simp at hkv
        · rw [List.mem_singleton] at hkv; rw [hkv]; exact ⟨_, skipKey_plain p2⟩
    | ps x =>
      obtain ⟨⟨k', sp⟩, hsp, hk'⟩ := List.mem_map.1 (hinv.2.2 k x hd)
      simp only at hk'
      subst hk'
      obtain ⟨x', e, hc, _⟩ := hinv.2.1 _ _ hsp
      rw [hd] at e
      injection e with e
      injection e with e
      subst e
      obtain ⟨hp1, hp2⟩ := h.spaces _ _ hsp
      cases x with
      | mk n vals kd =>
        simp only [TopVal.todict]
        rw [PSState.todict]
        refine todictVals_keys (P := KeyOk _) _ _ ?_ ?_
        · intro kv hkv
          rw [List.mem_singleton] at hkv
          subst hkv
          unfold KeyOk skipKey
          rw [if_pos (substr_n_dimensions _), dropSuffix_n_dimensions]
          have hm : (k', sp.info.transD) ∈ p.spaces.map fun kv => (kv.1, kv.2.info.transD) :=
            List.mem_map.2 ⟨_, hsp, rfl⟩
          have hnd : (dkeys (p.spaces.map fun kv => (kv.1, kv.2.info.transD))).Nodup := by
            unfold dkeys
            rw [List.map_map]
            exact h.base.ok.nodup
          refine ⟨!sp.info.transD, ?_⟩
          simp only [dget_of_mem hnd hm]
        · intro kv hkv
          refine ⟨_, skipKey_plain (plain_dot hp1 ?_)⟩
          rcases conf_keys hc kv hkv with e | ⟨q, hq⟩
          · rw [e]; exact plain_of (by decide +kernel)
          · exact hp2 _ _ hq)
  rw [h1]
  exact ⟨_, rfl⟩

end BB.Lemmas
