import Verif.Lemmas.HeapSep
import Verif.Lemmas.ConformSites
import Verif.Lemmas.Save

/-!
# The perturbations of values and of noise on the heap do what they do on values
-/

namespace BB.Lemmas

open BB BB.Spec BB.HM

/-- No condition after an exception. -/
abbrev AnyHeap : Heap → Prop := fun _ => True

theorem set_snoc {h : Heap} (o o' : Obj) : (h ++ [o]).set h.length o' = h ++ [o'] := by
  simp

theorem perturbPriorsH_sim {s : PSState} {a : Addr} (idx : ℕ) : ∀ (priors : List Prior) (h : Heap)
    (acc : List (String × PVal)) (vs : List (String × Addr)) (lpr : PyF), RepPS h s a → RepVals h acc vs →
    Sim AnyHeap (fun h' r r' => h <+: h' ∧ RepVals h' r'.1 r.1 ∧ r.2 = r'.2) h
      (perturbPriorsH a idx priors vs lpr) (perturbPriors s idx priors acc lpr)
  | [], h, acc, vs, lpr, _, hv => Sim.pure (b := (acc, lpr)) ⟨List.prefix_rfl, hv, rfl⟩
  | p :: rest, h, acc, vs, lpr, hr, hv => by
    rw [perturbPriorsH, perturbPriors]
    obtain ⟨b, hb, hg⟩ := repPS_get hr p.name
    refine Sim.of_eq (hg _) ?_
    cases hsv : s.get p.name with
    | none =>
      rw [hsv] at hb
      cases b with
      | none => exact Sim.throw trivial
      | some b => exact absurd hb not_false
    | some v =>
      rw [hsv] at hb
      cases b with
      | none => exact absurd hb not_false
      | some b =>
        change RepVal h v b at hb
        cases v with
        | states l =>
          rw [RepVal] at hb
          obtain ⟨as, ho, _⟩ := hb
          exact Sim.of_eq (read_bind ho _) (Sim.throw trivial)
        | objs l =>
          rw [RepVal] at hb
          obtain ⟨as, ho, _⟩ := hb
          exact Sim.of_eq (read_bind ho _) (Sim.throw trivial)
        | arr x =>
          have hb' := hb
          rw [RepVal] at hb
          refine Sim.of_eq (read_bind hb _) ?_
          cases x with
          | pts ps => exact Sim.throw trivial
          | vec xs =>
            refine Sim.of_eq (alloc_bind _ _) ?_
            have hk := keep_prefix (F := Set.univ) (prefix_snoc (h := h) (.arr (.vec xs)))
            have hn := numAtH_sim (X := AnyHeap) (v := some (.arr (.vec xs))) (b := some b)
              (repVal_keep hk hb') idx trivial
            refine Sim.bind hn.lift_ok ?_
            rintro h' old _ ⟨⟨rfl, rfl⟩, hnum⟩
            have hi : idx < xs.length := by
              by_contra hi
              simp [numAt, List.getElem?_eq_none (Nat.le_of_not_lt hi)] at hnum
            refine Sim.bind (posAtH_sim (repPS_keep hk hr) idx trivial) ?_
            rintro h' pos _ ⟨rfl, rfl⟩
            refine Sim.bind (Sim.ofM _ trivial) ?_
            rintro h' ⟨new, r⟩ _ ⟨rfl, rfl⟩
            simp only
            have he : ∀ f : Unit → HM (List (String × Addr) × PyF), (setItemH (some h.length) idx new >>= f)
                (h ++ [.arr (.vec xs)]) = f () (h ++ [.arr (.vec (xs.set idx new))]) := by
              intro f
              rw [setItemH, bind_assoc', read_bind (get_snoc _)]
              simp only [hi, if_true]
              rw [write_bind, set_snoc]
            refine Sim.of_eq (he _) ?_
            have hk' := keep_prefix (F := Set.univ) (prefix_snoc (h := h) (.arr (.vec (xs.set idx new))))
            refine (perturbPriorsH_sim idx rest _ (dset acc p.name (.arr (.vec (xs.set idx new))))
              (dset vs p.name h.length) (lpr.add r) (repPS_keep hk' hr)
              (repVals_dset _ (by rw [RepVal]; exact get_snoc _) (repVals_keep hk' hv))).mono (fun _ h => h) ?_
            rintro h' r r' ⟨h1, h2, h3⟩
            exact ⟨(prefix_snoc _).trans h1, h2, h3⟩

theorem prefix_set {h h' : Heap} (hp : h <+: h') {b : Addr} (hb : h.length ≤ b) (o : Obj) : h <+: h'.set b o := by
  obtain ⟨l, rfl⟩ := hp
  rw [List.set_append_right _ _ hb]
  exact List.prefix_append _ _

/-- What a state holds besides its dictionary: the attributes have these values. -/
def RepAttrs (h : Heap) (vals : List (String × PVal)) (a : Addr) : Prop :=
  ∃ n vs attrs kd, h[a]? = some (.ps n vs attrs kd) ∧ RepVals h (attrsOf vals) attrs

theorem dupdate_append {α : Type} : ∀ {d e : List (String × α)}, (dkeys (d ++ e)).Nodup → dupdate d e = d ++ e
  | d, [], _ => (List.append_nil d).symm
  | d, (k, v) :: e, hn => by
    change dupdate (dset d k v) e = _
    have hk : k ∉ dkeys d := by
      simp only [dkeys, List.map_append, List.map_cons] at hn ⊢
      intro h
      exact (List.disjoint_of_nodup_append hn) h List.mem_cons_self
    rw [dset_new hk, dupdate_append (by simpa using hn)]
    simp

theorem attrsOf_nodup {α : Type} {vals : List (String × α)} (hn : (dkeys vals).Nodup) : attrsOf vals = vals :=
  dupdate_append (d := []) hn

theorem repVals_attrsOf {h : Heap} {vals : List (String × PVal)} {vs : List (String × Addr)}
    (hr : RepVals h vals vs) : RepVals h (attrsOf vals) (attrsOf vs) :=
  repVals_dupdate (by rw [RepVals]) hr

theorem valuesH_sim {h : Heap} {s : PSState} {a : Addr} {fuel : ℕ} (nm : String) (priors : List Prior)
    (hr : RepPS h s a) (hv : ValidPS s) (hd : depthPS s ≤ fuel) :
    Sim AnyHeap (fun h' r r' => h <+: h' ∧ r.2 = r'.2 ∧ RepPS h' r'.1 r.1 ∧ RepAttrs h' s.vals r.1) h
      ((PSFunc.values nm priors).runH fuel a) ((PSFunc.values nm priors).run s) := by
  obtain ⟨n, vals, kd₀⟩ := s
  have hr0 := hr
  rw [RepPS] at hr0
  obtain ⟨vs₀, attrs₀, kd, ho, hv₀⟩ := hr0
  rw [PSFunc.runH, PSFunc.run]
  refine Sim.of_eq (readPS_bind ho _) ?_
  refine Sim.bind (Sim.ofM _ trivial) ?_
  rintro h' idx _ ⟨rfl, rfl⟩
  refine Sim.bind (perturbPriorsH_sim idx priors h [] [] (.fin 0) hr (by rw [RepVals])) ?_
  rintro h₁ ⟨new, lpr⟩ ⟨new', lpr'⟩ ⟨hp, hnew, rfl⟩
  simp only at hnew ⊢
  intro t
  obtain ⟨b, h₂, hc, g, hle, own, hkd⟩ := copyPS_run 0 h (.mk n vals kd₀) a fuel h₁ t (keep_prefix hp) hr hv hd (.inl rfl)
    (Nat.zero_le _)
  obtain ⟨vs', hb⟩ := hkd n vs₀ attrs₀ kd (prefix_get hp ho)
  rw [bind_of hc]
  have he : ∀ (f : _ → HM (Addr × PyF)), (readPS b >>= f) h₂ = f (n, vs', attrsOf vs', kd) h₂ :=
    fun f => readPS_bind hb f
  rw [he]
  have hp₁ : h₁ <+: h₂ := g.pre
  refine ⟨rfl, prefix_set (hp.trans hp₁) (hp.length_le.trans hle) _, rfl, ?_, ?_⟩
  all_goals
    rw [OwnPS] at own
    obtain ⟨vs, attrs, kd', F', hb', hown, hnot, hmem, hsub⟩ := own
    rw [hb] at hb'; cases hb'
    have hvals : RepVals (h₂.set b (.ps n (dupdate vs' new) (attrsOf vs') kd)) vals vs' := by
      refine ownVals_rep (ownVals_keep (keep_set ?_) (keep_set hnot) hown)
      intro hlt
      exact absurd hlt (not_lt.2 (hp.length_le.trans hle))
  · change RepPS _ (.mk n (dupdate vals new') kd₀) b
    rw [RepPS]
    refine ⟨_, _, _, set_self hb, repVals_dupdate hvals ?_⟩
    exact repVals_keep (keep_prefix (prefix_set hp₁ hle _)) hnew
  · exact ⟨_, _, _, _, set_self hb, repVals_attrsOf hvals⟩

/-! ### `State` -/

/-- An entry of the dictionary of a `State`. -/
def RepTopVal (h : Heap) : TopVal → TRef → Prop
  | .noise d, v => v = .noise d
  | .ps s, v => ∃ a, v = .ps a ∧ RepPS h s a

theorem repTop_cons {h : Heap} {k : String} {v : TopVal} {rest : Params} {vs : List (String × TRef)} :
    RepTop h ((k, v) :: rest) vs ↔ ∃ b vs', vs = (k, b) :: vs' ∧ RepTopVal h v b ∧ RepTop h rest vs' := by
  cases v with
  | noise d =>
    rw [RepTop]
    constructor
    · rintro ⟨vs', rfl, hr⟩; exact ⟨_, _, rfl, rfl, hr⟩
    · rintro ⟨b, vs', rfl, rfl, hr⟩; exact ⟨_, rfl, hr⟩
  | ps s =>
    rw [RepTop]
    constructor
    · rintro ⟨a, vs', rfl, hs, hr⟩; exact ⟨_, _, rfl, ⟨a, rfl, hs⟩, hr⟩
    · rintro ⟨b, vs', rfl, ⟨a, rfl, hs⟩, hr⟩; exact ⟨a, _, rfl, hs, hr⟩

/-- An entry that may be missing. -/
def OptTop (h : Heap) : Option TopVal → Option TRef → Prop
  | none, none => True
  | some v, some b => RepTopVal h v b
  | _, _ => False

theorem repTop_get {h : Heap} (k : String) : ∀ {p : Params} {vs : List (String × TRef)},
    RepTop h p vs → OptTop h (dget p k) (dget vs k)
  | [], vs, hr => by rw [RepTop] at hr; subst hr; trivial
  | (k', v) :: rest, vs, hr => by
    obtain ⟨b, vs', rfl, hv, hr⟩ := repTop_cons.1 hr
    rw [dget, dget]
    split
    · exact hv
    · exact repTop_get k hr

theorem repTop_keys {h : Heap} : ∀ {p : Params} {vs : List (String × TRef)},
    RepTop h p vs → vs.map (·.1) = p.map (·.1)
  | [], vs, hr => by rw [RepTop] at hr; subst hr; rfl
  | (k', v) :: rest, vs, hr => by
    obtain ⟨b, vs', rfl, hv, hr⟩ := repTop_cons.1 hr
    simp [repTop_keys hr]

theorem repTop_dset {h : Heap} (k : String) {v : TopVal} {b : TRef} (hv : RepTopVal h v b) :
    ∀ {p : Params} {vs : List (String × TRef)}, RepTop h p vs → RepTop h (dset p k v) (dset vs k b)
  | [], vs, hr => by
    rw [RepTop] at hr; subst hr
    exact repTop_cons.2 ⟨b, [], rfl, hv, by rw [RepTop]⟩
  | (k', v') :: rest, vs, hr => by
    obtain ⟨b', vs', rfl, hv', hr⟩ := repTop_cons.1 hr
    rw [dset, dset]
    split
    · exact repTop_cons.2 ⟨b, vs', rfl, hv, hr⟩
    · exact repTop_cons.2 ⟨b', _, rfl, hv', repTop_dset k hv hr⟩

theorem repTop_dupdate {h : Heap} : ∀ {new : Params} {new' : List (String × TRef)} {p : Params}
    {vs : List (String × TRef)}, RepTop h p vs → RepTop h new new' → RepTop h (dupdate p new) (dupdate vs new')
  | [], new', p, vs, hr, hn => by rw [RepTop] at hn; subst hn; exact hr
  | (k, v) :: rest, new', p, vs, hr, hn => by
    obtain ⟨b, vs', rfl, hv, hn⟩ := repTop_cons.1 hn
    change RepTop h (dupdate (dset p k v) rest) (dupdate (dset vs k b) vs')
    exact repTop_dupdate (repTop_dset k hv hr) hn

theorem repTop_attrsOf {h : Heap} {p : Params} {vs : List (String × TRef)} (hr : RepTop h p vs) :
    RepTop h (attrsOf p) (attrsOf vs) :=
  repTop_dupdate (by rw [RepTop]) hr

theorem perturbNoisesH_sim {h : Heap} {s : State} {a : Addr} (hr : RepState h s a) : ∀ (ts : List Target)
    (acc : Params) (vs : List (String × TRef)), (∀ h', RepTop h' acc vs) →
    Sim AnyHeap (fun h' r r' => h = h' ∧ ∀ h', RepTop h' r' r) h (perturbNoisesH a ts vs)
      (perturbNoises s.params ts acc)
  | [], acc, vs, ha => Sim.pure (b := acc) ⟨rfl, ha⟩
  | t :: ts, acc, vs, ha => by
    rw [perturbNoisesH, perturbNoises]
    obtain ⟨vs₀, attrs, ho, hv⟩ := hr
    refine Sim.of_eq (readState_bind ho _) ?_
    have hg := repTop_get t.name hv
    rw [getNoise]
    simp only
    generalize dget s.params t.name = x at hg ⊢
    generalize dget vs₀ t.name = y at hg ⊢
    cases x with
    | none =>
      cases y with
      | none => exact fun _ => ⟨⟨rfl, rfl⟩, trivial⟩
      | some y => exact absurd hg not_false
    | some x =>
      cases y with
      | none => exact absurd hg not_false
      | some y =>
        change RepTopVal h x y at hg
        cases x with
        | ps s' =>
          obtain ⟨b, rfl, _⟩ := hg
          exact fun _ => ⟨⟨rfl, rfl⟩, trivial⟩
        | noise d =>
          change y = .noise d at hg
          subst hg
          refine Sim.of_eq_right (p' := t.perturbNoise d >>= fun d => perturbNoises s.params ts
            (dset acc t.name (.noise d))) rfl ?_
          refine Sim.bind (Sim.ofM _ trivial) ?_
          rintro h' d' _ ⟨rfl, rfl⟩
          exact perturbNoisesH_sim ⟨vs₀, attrs, ho, hv⟩ ts _ _ fun h' => repTop_dset _ (v := .noise d') (b := .noise d') rfl (ha h')

/-- The attributes of a `State`. -/
def RepTopAttrs (h : Heap) (p : Params) (a : Addr) : Prop :=
  ∃ vs attrs temp cache extra, h[a]? = some (.state vs attrs temp cache extra) ∧ RepTop h (attrsOf p) attrs

theorem noisePerturbH_sim {h : Heap} {s : State} {a : Addr} {fuel : ℕ} (ts : List Target)
    (hr : RepState h s a) (hv : ValidTop s.params) (hd : depthTop s.params ≤ fuel) :
    Sim AnyHeap (fun h' r r' => h <+: h' ∧ r.2 = r'.2 ∧ RepState h' r'.1 r.1 ∧ RepTopAttrs h' s.params r.1) h
      (noisePerturbH fuel ts a) (noisePerturb ts s) := by
  rw [noisePerturbH, noisePerturb]
  refine Sim.bind (perturbNoisesH_sim hr ts [] [] fun h' => by rw [RepTop]) ?_
  rintro h' new new' ⟨rfl, hnew⟩
  intro t
  obtain ⟨vs, h₁, hc, g, hp, own⟩ := copyState_run 0 true t hr hv hd (.inl rfl) (Nat.zero_le _)
  rw [bind_of hc]
  have ho := get_snoc (h := h₁) (.state vs (attrsOf vs) s.temperature
    (if true then s.cache.filter (fun kv => kv.1 == "dpred") else []) [])
  have he : ∀ (f : _ → HM (Addr × PyF)), (readState h₁.length >>= f) _ = f _ _ := fun f => readState_bind ho f
  rw [he]
  have hrt : ∀ o, RepTop (h₁ ++ [o]) s.params vs := fun o =>
    repTop_keep (keep_prefix (prefix_snoc _)) (ownTop_rep own)
  change t = t ∧ h <+: (h₁ ++ [_]).set h₁.length _ ∧ _
  refine ⟨rfl, ?_⟩
  rw [set_snoc]
  refine ⟨hp.trans (prefix_snoc _), rfl, ⟨_, _, get_snoc _, ?_⟩, ⟨_, _, _, _, _, get_snoc _, ?_⟩⟩
  · exact repTop_dupdate (hrt _) (hnew _)
  · exact repTop_attrsOf (hrt _)

end BB.Lemmas
