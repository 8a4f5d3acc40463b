import Verif.Lemmas.HeapFrame2

/-!
# Which objects the programs on the heap modify: proposals
-/

namespace BB.Lemmas

open BB BB.Spec BB.HM

variable {B N : Set String} {W : Set Addr} {h₀ h : Heap}

theorem Inv.lists (hi : Inv B N W refsL h₀ h) : Inv B N W refs0 h₀ h := hi.weaken

theorem tri_bind_hold {α β : Type} {I E : Heap → Prop} {m : HM α} {f : α → HM β} {R : α → Prop}
    {S : β → Heap → Prop} (hm : Hold I m R) (hE : ∀ h, I h → E h) (hf : ∀ a, R a → Tri I (f a) E S) :
    Tri I (m >>= f) E S :=
  Tri.bind (Tri.mono hm (fun _ h => h) hE fun _ _ h => h) fun a h t hh => hf a hh.2 h t hh.1

/-! ### `State` -/

theorem readState_new {a : Addr} (ha : h₀.length ≤ a) {rf : Obj → List Addr} :
    Hold (Inv B N W rf h₀) (readState a)
      (fun r => Fine B N rf h₀.length (.state r.1 r.2.1 r.2.2.1 r.2.2.2.1 r.2.2.2.2)) := by
  rw [readState]
  refine (read_new ha).bind fun o ho => ?_
  cases o with
  | state vs attrs temp cache extra => exact Hold.pure ho
  | _ => exact Hold.throw

/-- The references of the entries. -/
def topRefs (vs : List (String × TRef)) : List Addr :=
  vs.filterMap fun kv => match kv.2 with | .ps a => some a | .noise _ => none

theorem mem_topRefs {vs : List (String × TRef)} {b : Addr} : b ∈ topRefs vs ↔ ∃ k, (k, TRef.ps b) ∈ vs := by
  rw [topRefs, List.mem_filterMap]
  constructor
  · rintro ⟨⟨k, v⟩, hm, he⟩
    cases v with
    | noise d => cases he
    | ps a => cases he; exact ⟨k, hm⟩
  · rintro ⟨k, hm⟩
    exact ⟨_, hm, rfl⟩

theorem refs_state {vs attrs : List (String × TRef)} {temp cache extra} {b : Addr} :
    b ∈ refs (.state vs attrs temp cache extra) ↔ b ∈ topRefs vs ∨ b ∈ topRefs attrs := by
  rw [refs, List.filterMap_append, List.mem_append]; rfl

theorem fine_state {rf : Obj → List Addr} (hrf : RefsOk rf) {base : ℕ} {vs : List (String × TRef)}
    {temp cache extra} (hl : ∀ b ∈ topRefs vs, base ≤ b) :
    Fine B N rf base (.state vs (attrsOf vs) temp cache extra) := by
  refine ⟨agree_state, fun b hb => ?_⟩
  rcases refs_state.1 (hrf.sub _ b hb) with h | h
  · exact hl b h
  · obtain ⟨k, hk⟩ := mem_topRefs.1 h
    obtain ⟨y, h3, h4⟩ := mem_attrsOf hk
    refine hl b (mem_topRefs.2 ⟨y.1, ?_⟩)
    obtain ⟨y1, y2⟩ := y
    simp only at h4; rw [h4]; exact h3

theorem copyTops_hold {rf : Obj → List Addr} (hrf : RefsOk rf) (hobjs : ∀ l, rf (.objs l) = []) (fuel : ℕ) :
    ∀ vs : List (String × TRef), Hold (Inv B N W rf h₀) (copyTops fuel vs)
      (fun vs => ∀ b ∈ topRefs vs, h₀.length ≤ b)
  | [] => Hold.pure (by simp [topRefs])
  | (k, .noise d) :: rest => by
    rw [copyTops]
    refine (copyTops_hold hrf hobjs fuel rest).bind fun vs hvs => Hold.pure ?_
    intro b hb
    obtain ⟨k', hk'⟩ := mem_topRefs.1 hb
    rcases List.mem_cons.1 hk' with h | h
    · cases h
    · exact hvs b (mem_topRefs.2 ⟨k', h⟩)
  | (k, .ps a) :: rest => by
    rw [copyTops]
    refine (copyPS_hold hrf hobjs fuel a).bind fun c hc => ?_
    refine (copyTops_hold hrf hobjs fuel rest).bind fun vs hvs => Hold.pure ?_
    intro b hb
    obtain ⟨k', hk'⟩ := mem_topRefs.1 hb
    rcases List.mem_cons.1 hk' with h | h
    · cases h; exact hc
    · exact hvs b (mem_topRefs.2 ⟨k', h⟩)

theorem copyState_hold {rf : Obj → List Addr} (hrf : RefsOk rf) (hobjs : ∀ l, rf (.objs l) = []) (fuel : ℕ)
    (a : Addr) (keep : Bool) :
    Hold (Inv B N W rf h₀) (copyState fuel a keep) (fun b => h₀.length ≤ b) := by
  rw [copyState]
  refine (readState_hold a).bind fun x _ => ?_
  obtain ⟨vals, attrs, temp, cache, extra⟩ := x
  refine (copyTops_hold hrf hobjs fuel vals).bind fun vs hvs => ?_
  exact alloc_hold (fine_state hrf hvs)

theorem setTopH_hold0 {a : Addr} {k : String} {v : TRef} (ha : h₀.length ≤ a) :
    Hold (Inv B N W refs0 h₀) (setTopH a k v) (fun _ => True) := by
  rw [setTopH]
  refine (readState_new ha).bind fun x hx => ?_
  obtain ⟨vals, attrs, temp, cache, extra⟩ := x
  exact write_hold ha (fine0 (setTop_agree hx.1))

/-! ### the perturbation classes -/

/-- The states whose trees the functions of `g` may replace. -/
def KdOk (g : PSPert) (W : Set Addr) : Prop :=
  ∀ f ∈ g.funcs, ∀ sp, f = .birth sp ∨ f = .death sp → hasTree sp.info.kind = true → W = Set.univ

/-- The parameters whose values the functions of `g` perturb. -/
def NamesIn (g : PSPert) (B : Set String) : Prop :=
  ∀ f ∈ g.funcs, ∀ nm priors, f = .values nm priors → ∀ p ∈ priors, p.name ∈ B

theorem perturbPSH_hold (fuel : ℕ) (g : PSPert) (hW : KdOk g W) (hB : NamesIn g B) (a : Addr) :
    Hold (Inv B N W refs0 h₀) (g.perturbPSH fuel a) (fun _ => True) := by
  rw [PSPert.perturbPSH]
  refine (Hold.ofM _).bind fun i _ => ?_
  cases hf : g.funcs[i]? with
  | none => exact Hold.throw
  | some f =>
    have hm := List.mem_of_getElem? hf
    refine (runH_hold fuel f a (fun sp hs hk => ?_) (hB f hm)).bind fun r _ => Hold.pure trivial
    rw [hW f hm sp hs hk]; trivial

/-- Until the state to be perturbed has been reached, the new objects refer to new objects only. -/
def Phase (B N : Set String) (W : Set Addr) (h₀ : Heap) (target i : ℕ) (h : Heap) : Prop :=
  Inv B N W refs0 h₀ h ∧ (i ≤ target → Inv B N W refsL h₀ h)

theorem Phase.lists {target i : ℕ} (hi : Inv B N W refsL h₀ h) : Phase B N W h₀ target i h :=
  ⟨hi.lists, fun _ => hi⟩

theorem visitAllH_tri (fuel : ℕ) (g : PSPert) (hW : KdOk g W) (hB : NamesIn g B) (target : ℕ) :
    ∀ (as : List Addr) (l : PertVars), Tri (Phase B N W h₀ target l.i) (g.visitAllH fuel target as l)
      (Inv B N W refs0 h₀) (fun r h => Phase B N W h₀ target r.2.i h ∧ l.i ≤ r.2.i ∧
        (r.2.i ≤ target → ∀ b ∈ r.1, h₀.length ≤ b))
  | [], l => by
    rw [PSPert.visitAllH]
    exact Tri.pure fun h hp => ⟨hp, le_refl _, fun _ => by simp⟩
  | a :: as, l => by
    rw [PSPert.visitAllH]
    have h1 : Tri (Phase B N W h₀ target l.i) (if l.i = target then do
        let (new, r, nm) ← g.perturbPSH fuel a
        return (new, l.done r nm)
      else do
        let new ← copyPS fuel a
        return (new, { l with i := l.i + 1 }) : HM (Addr × PertVars)) (Inv B N W refs0 h₀)
        (fun r h => Phase B N W h₀ target r.2.i h ∧ r.2.i = l.i + 1 ∧ (r.2.i ≤ target → h₀.length ≤ r.1)) := by
      split
      · next ht =>
        refine Tri.bind (Tri.mono (perturbPSH_hold fuel g hW hB a) (fun h hp => hp.1) (fun h hh => hh)
          fun _ h hh => hh.1) fun r => ?_
        obtain ⟨new, r, nm⟩ := r
        refine Tri.pure fun h hi => ⟨⟨hi, fun hle => absurd hle ?_⟩, rfl, fun hle => absurd hle ?_⟩
        · simp only [PertVars.done]; omega
        · simp only [PertVars.done]; omega
      · next ht =>
        by_cases hle : l.i ≤ target
        · refine Tri.bind (Tri.mono (copyPS_hold refsOk_refsL (fun _ => rfl) fuel a) (fun h hp => hp.2 hle)
            (fun h hh => hh.lists) fun _ h hh => hh) fun new => ?_
          exact Tri.pure fun h hi => ⟨Phase.lists hi.1, rfl, fun _ => hi.2⟩
        · refine Tri.bind (Tri.mono (copyPS_hold refsOk_refs0 (fun _ => rfl) fuel a) (fun h hp => hp.1)
            (fun h hh => hh) fun _ h hh => hh) fun new => ?_
          exact Tri.pure fun h hi => ⟨⟨hi.1, fun h => absurd h (by simp only; omega)⟩, rfl, fun _ => hi.2⟩
    refine Tri.bind h1 fun r => ?_
    obtain ⟨new, l'⟩ := r
    by_cases hr : l'.i = l.i + 1 ∧ (l'.i ≤ target → h₀.length ≤ new)
    · refine Tri.bind (Tri.mono (visitAllH_tri fuel g hW hB target as l') (fun h hp => hp.1) (fun h hh => hh)
        fun _ h hh => hh) fun r => ?_
      obtain ⟨news, l''⟩ := r
      refine Tri.pure fun h hp => ⟨hp.1, ?_, ?_⟩
      · have := hp.2.1; simp only at this ⊢; omega
      · intro hle b hb
        have h2 := hp.2.1
        simp only at h2 hle
        rcases List.mem_cons.1 hb with rfl | hb
        · exact hr.2 (h2.trans hle)
        · exact hp.2.2 hle b hb
    · exact fun h t hp => absurd hp.2 hr

theorem membersH_new {a : Addr} (ha : h₀.length ≤ a) (k : String) :
    Hold (Inv B N W refsL h₀) (membersH a k) (fun l => ∀ b ∈ l, h₀.length ≤ b) := by
  rw [membersH]
  have h1 : Hold (Inv B N W refsL h₀) (getH a k) (fun v => ∀ b, v = some b → h₀.length ≤ b) := by
    rw [getH, readPS, bind_assoc']
    refine (read_new ha).bind fun o ho => ?_
    cases o with
    | ps n vs attrs kd =>
      refine Hold.pure ?_
      intro b hb
      refine ho.2 b ?_
      rw [refsL, refs, List.mem_append]
      · exact .inl (List.mem_map.2 ⟨(k, b), dget_some_mem hb, rfl⟩)
      · intro l h; cases h
    | _ => exact Hold.throw
  refine h1.bind fun v hv => ?_
  cases v with
  | none => exact Hold.throw
  | some b =>
    refine (read_new (hv b rfl)).bind fun o ho => ?_
    cases o with
    | list l => exact Hold.pure ho.2
    | _ => exact Hold.throw

theorem membersH_hold {I : Heap → Prop} (a : Addr) (k : String) : Hold I (membersH a k) (fun _ => True) := by
  rw [membersH]
  refine (getH_hold a k).bind fun v _ => ?_
  cases v with
  | none => exact Hold.throw
  | some b =>
    refine (Hold.read b).bind fun o _ => ?_
    cases o with
    | list l => exact Hold.pure trivial
    | _ => exact Hold.throw

theorem pertValsH_tri (fuel : ℕ) (g : PSPert) (hW : KdOk g W) (hB : NamesIn g B) (target : ℕ) {new : Addr}
    (hn : h₀.length ≤ new) : ∀ (vs : List (String × Addr)) (l : PertVars),
    Tri (Phase B N W h₀ target l.i) (g.pertValsH fuel target new vs l) (Inv B N W refs0 h₀)
      (fun r h => Phase B N W h₀ target r.1.i h ∧ l.i ≤ r.1.i ∧
        (r.1.i ≤ target → ∀ q ∈ r.2, h₀.length ≤ q.1))
  | [], l => by
    rw [PSPert.pertValsH]
    exact Tri.pure fun h hp => ⟨hp, le_refl _, fun _ => by simp⟩
  | (k, b) :: rest, l => by
    rw [PSPert.pertValsH]
    refine Tri.bind (Tri.mono (Hold.read (I := Phase B N W h₀ target l.i) b) (fun _ h => h) (fun h hh => hh.1)
      fun _ h hh => hh.1) fun o => ?_
    have ih := pertValsH_tri fuel g hW hB target hn rest
    cases o with
    | list xs =>
      simp only
      split
      · refine Tri.bind (visitAllH_tri fuel g hW hB target xs l) fun r => ?_
        obtain ⟨ys, l'⟩ := r
        by_cases hr : l.i ≤ l'.i ∧ (l'.i ≤ target → ∀ b ∈ ys, h₀.length ≤ b)
        · have key : Tri (Phase B N W h₀ target l'.i) (alloc (.list ys)) (Inv B N W refs0 h₀)
              (fun c h => Phase B N W h₀ target l'.i h ∧ h₀.length ≤ c) := by
            by_cases hle : l'.i ≤ target
            · refine Tri.mono (alloc_hold (fine_list refsOk_refsL (hr.2 hle))) (fun h hp => hp.2 hle)
                (fun h hh => hh.lists) fun c h hh => ⟨Phase.lists hh.1, hh.2⟩
            · exact Tri.mono (new0 trivial) (fun h hp => hp.1) (fun h hh => hh)
                fun c h hh => ⟨⟨hh.1, fun h => absurd h hle⟩, hh.2⟩
          refine Tri.bind (Tri.mono key (fun h hp => hp.1) (fun _ h => h) fun _ _ h => h) fun c => ?_
          by_cases hc : h₀.length ≤ c
          · have key2 : Tri (Phase B N W h₀ target l'.i) (setValH new k c) (Inv B N W refs0 h₀)
                (fun _ h => Phase B N W h₀ target l'.i h) := by
              by_cases hle : l'.i ≤ target
              · exact Tri.mono (setValH_hold .lists hn (.inl hc)) (fun h hp => hp.2 hle)
                  (fun h hh => hh.lists) fun c h hh => Phase.lists hh.1
              · exact Tri.mono (setValH_hold .nothing hn (.inl hc)) (fun h hp => hp.1) (fun h hh => hh)
                  fun c h hh => ⟨hh.1, fun h => absurd h hle⟩
            refine Tri.bind (Tri.mono key2 (fun h hp => hp.1) (fun _ h => h) fun _ _ h => h) fun _ => ?_
            refine Tri.mono (ih l') (fun _ h => h) (fun _ h => h) fun r h hh => ⟨hh.1, ?_, hh.2.2⟩
            exact hr.1.trans hh.2.1
          · exact fun h t hp => absurd hp.2 hc
        · exact fun h t hp => absurd hp.2 hr
      · split
        · exact Tri.throw fun h hp => hp.1
        · have key : Tri (Phase B N W h₀ target l.i) (membersH new k) (Inv B N W refs0 h₀)
              (fun ys h => Phase B N W h₀ target l.i h ∧ (l.i ≤ target → ∀ b ∈ ys, h₀.length ≤ b)) := by
            by_cases hle : l.i ≤ target
            · exact Tri.mono (membersH_new hn k) (fun h hp => hp.2 hle) (fun h hh => hh.lists)
                fun ys h hh => ⟨Phase.lists hh.1, fun _ => hh.2⟩
            · exact Tri.mono (membersH_hold (I := Inv B N W refs0 h₀) new k) (fun h hp => hp.1)
                (fun h hh => hh) fun ys h hh => ⟨⟨hh.1, fun h => absurd h hle⟩, fun h => absurd h hle⟩
          refine Tri.bind key fun ys => ?_
          by_cases hys : l.i ≤ target → ∀ b ∈ ys, h₀.length ≤ b
          · refine Tri.bind (Tri.mono (ih l) (fun h hp => hp.1) (fun _ h => h) fun _ _ h => h) fun r => ?_
            obtain ⟨l', q⟩ := r
            refine Tri.pure fun h hp => ⟨hp.1, hp.2.1, fun hle p hpq => ?_⟩
            rcases List.mem_append.1 hpq with h1 | h1
            · exact hys (hp.2.1.trans hle) _ (List.of_mem_zip h1).1
            · exact hp.2.2 hle p h1
          · exact fun h t hp => absurd hp.2 hys
    | _ => exact ih l

theorem pertQueueH_tri (fuel : ℕ) (g : PSPert) (hW : KdOk g W) (hB : NamesIn g B) (target : ℕ) :
    ∀ (passes : ℕ) (q : List (Addr × Addr)) (l : PertVars),
    (l.i ≤ target → ∀ p ∈ q, h₀.length ≤ p.1) →
    Tri (Phase B N W h₀ target l.i) (g.pertQueueH fuel target passes q l) (Inv B N W refs0 h₀)
      (fun _ h => Inv B N W refs0 h₀ h)
  | passes, [], l, _ => by rw [PSPert.pertQueueH]; exact Tri.pure fun h hp => hp.1
  | 0, _ :: _, l, _ => by rw [PSPert.pertQueueH]; exact Tri.throw fun h hp => hp.1
  | passes + 1, (new, old) :: q, l, hq => by
    rw [PSPert.pertQueueH]
    split
    · next hle =>
      have hn : h₀.length ≤ new := hq hle (new, old) (by simp)
      refine Tri.bind (Tri.mono (readPS_hold (I := Phase B N W h₀ target l.i) old) (fun _ h => h)
        (fun h hh => hh.1) fun _ h hh => hh.1) fun x => ?_
      obtain ⟨n, vals, attrs, kd⟩ := x
      refine Tri.bind (pertValsH_tri fuel g hW hB target hn vals l) fun r => ?_
      obtain ⟨l', q'⟩ := r
      by_cases hr : l.i ≤ l'.i ∧ (l'.i ≤ target → ∀ p ∈ q', h₀.length ≤ p.1)
      · refine Tri.mono (pertQueueH_tri fuel g hW hB target passes (q ++ q') l' ?_) (fun h hp => hp.1)
          (fun _ h => h) fun _ _ h => h
        intro hle' p hp
        rcases List.mem_append.1 hp with h1 | h1
        · exact hq hle p (List.mem_cons_of_mem _ h1)
        · exact hr.2 hle' p h1
      · exact fun h t hp => absurd hp.2 hr
    · exact Tri.pure fun h hp => hp.1

theorem pertTopH_tri (fuel : ℕ) (g : PSPert) (hW : KdOk g W) (hB : NamesIn g B) (target : ℕ) {new : Addr}
    (hn : h₀.length ≤ new) : ∀ (vs : List (String × TRef)) (l : PertVars),
    Tri (Phase B N W h₀ target l.i) (g.pertTopH fuel target new vs l) (Inv B N W refs0 h₀)
      (fun r h => Phase B N W h₀ target r.1.i h ∧ l.i ≤ r.1.i ∧
        (r.1.i ≤ target → ∀ q ∈ r.2, h₀.length ≤ q.1))
  | [], l => by
    rw [PSPert.pertTopH]
    exact Tri.pure fun h hp => ⟨hp, le_refl _, fun _ => by simp⟩
  | (k, .noise d) :: rest, l => by
    rw [PSPert.pertTopH]
    exact pertTopH_tri fuel g hW hB target hn rest l
  | (k, .ps a) :: rest, l => by
    rw [PSPert.pertTopH]
    have ih := pertTopH_tri fuel g hW hB target hn rest
    split
    · split
      · next ht =>
        refine Tri.bind (Tri.mono (perturbPSH_hold fuel g hW hB a) (fun h hp => hp.1) (fun h hh => hh)
          fun _ h hh => hh.1) fun r => ?_
        obtain ⟨b, r, nm⟩ := r
        refine Tri.bind (Tri.mono (setTopH_hold0 hn) (fun h hp => hp) (fun h hh => hh)
          fun _ h hh => hh.1) fun _ => ?_
        refine Tri.mono (ih (l.done r nm)) (fun h hi => ⟨hi, fun hle => absurd hle ?_⟩) (fun _ h => h)
          fun r h hh => ⟨hh.1, ?_, hh.2.2⟩
        · simp only [PertVars.done]; omega
        · have := hh.2.1; simp only [PertVars.done] at this; omega
      · refine Tri.mono (ih { l with i := l.i + 1 })
          (fun h hi => ⟨hi.1, fun hle => hi.2 ?_⟩) (fun _ h => h) fun r h hh => ⟨hh.1, ?_, hh.2.2⟩
        · simp only at hle; omega
        · have := hh.2.1; simp only at this; omega
    · have key : Tri (Phase B N W h₀ target l.i) (readState new) (Inv B N W refs0 h₀)
          (fun x h => Phase B N W h₀ target l.i h ∧ (l.i ≤ target → ∀ b ∈ topRefs x.1, h₀.length ≤ b)) := by
        by_cases hle : l.i ≤ target
        · refine Tri.mono (readState_new hn) (fun h hp => hp.2 hle) (fun h hh => hh.lists)
            fun x h hh => ⟨Phase.lists hh.1, fun _ b hb => hh.2.2 b ?_⟩
          have : b ∈ refs (.state x.1 x.2.1 x.2.2.1 x.2.2.2.1 x.2.2.2.2) := refs_state.2 (.inl hb)
          exact this
        · exact Tri.mono (readState_hold (I := Inv B N W refs0 h₀) new) (fun h hp => hp.1) (fun h hh => hh)
            fun x h hh => ⟨⟨hh.1, fun h => absurd h hle⟩, fun h => absurd h hle⟩
      refine Tri.bind key fun x => ?_
      obtain ⟨vals, attrs, temp, cache, extra⟩ := x
      by_cases hv : l.i ≤ target → ∀ b ∈ topRefs vals, h₀.length ≤ b
      · simp only
        cases hd : dget vals k with
        | none => exact Tri.throw fun h hp => hp.1.1
        | some v =>
          cases v with
          | noise d => exact Tri.throw fun h hp => hp.1.1
          | ps b =>
            refine Tri.bind (Tri.mono (ih l) (fun h hp => hp.1) (fun _ h => h) fun _ _ h => h) fun r => ?_
            obtain ⟨l', q⟩ := r
            refine Tri.pure fun h hp => ⟨hp.1, hp.2.1, fun hle p hpq => ?_⟩
            rcases List.mem_cons.1 hpq with rfl | h1
            · exact hv (hp.2.1.trans hle) b (mem_topRefs.2 ⟨k, dget_some_mem hd⟩)
            · exact hp.2.2 hle p h1
      · exact fun h t hp => absurd hp.2 hv

/-- `ParamSpacePerturbation.perturb` modifies nothing, except that it may replace trees in caches. -/
theorem perturbH_hold (fuel : ℕ) (g : PSPert) (hW : KdOk g W) (hB : NamesIn g B) (a : Addr) :
    Hold (Inv B N W refs0 h₀) (g.perturbH fuel a) (fun r => h₀.length ≤ r.1) := by
  suffices hs : ∀ h₀ : Heap, Tri (Inv B N W refsL h₀) (g.perturbH fuel a) (Inv B N W refs0 h₀)
      (fun r h => Inv B N W refs0 h₀ h ∧ h₀.length ≤ r.1) from
    Hold.nest (rf' := refsL) (Q := fun n (r : Addr × PyF) => n ≤ r.1) (fun _ _ _ h h' => h.trans h') hs
  intro h₀
  rw [PSPert.perturbH]
  refine tri_bind_hold (copyState_hold refsOk_refsL (fun _ => rfl) fuel a false) (fun h hh => hh.lists)
    fun new hn => ?_
  refine tri_bind_hold (readState_hold a) (fun h hh => hh.lists) fun x _ => ?_
  obtain ⟨vals, attrs, temp, cache, extra⟩ := x
  refine tri_bind_hold (countQueueH_hold _ _ _ _) (fun h hh => hh.lists) fun n _ => ?_
  refine tri_bind_hold (Hold.ofM _) (fun h hh => hh.lists) fun target _ => ?_
  refine Tri.bind (Tri.mono (pertTopH_tri fuel g hW hB target hn vals _) (fun h hi => Phase.lists hi)
    (fun _ h => h) fun _ _ h => h) fun r => ?_
  obtain ⟨l, q⟩ := r
  by_cases hr : l.i ≤ target → ∀ p ∈ q, h₀.length ≤ p.1
  · refine Tri.bind (Tri.mono (pertQueueH_tri fuel g hW hB target fuel q l hr) (fun h hi => hi.1)
      (fun _ h => h) fun _ _ h => h) fun l' => ?_
    have key : Hold (Inv B N W refs0 h₀) (do
        let (vs, attrs, temp, cache, extra) ← readState new
        write new (.state vs attrs temp (dset cache "perturb_stats" (.stats (l'.stats.map fun kv =>
          (kv.1, kv.2 / (l'.stats.map (·.2)).sum)))) extra)
        return (new, l'.lpr) : HM (Addr × PyF)) (fun r => h₀.length ≤ r.1) := by
      refine (readState_new hn).bind fun x hx => ?_
      obtain ⟨vs, attrs, temp, cache, extra⟩ := x
      have ha : AgreeObj B N (.state vs attrs temp (dset cache "perturb_stats" (.stats (l'.stats.map fun kv =>
          (kv.1, kv.2 / (l'.stats.map (·.2)).sum)))) extra) := hx.1
      exact (write_hold hn (fine0 ha)).bind fun _ _ => Hold.pure hn
    exact key
  · exact fun h t hp => absurd hp.2.2 hr

/-- `NoisePerturbation.perturb` modifies nothing. -/
theorem noisePerturbH_hold (fuel : ℕ) (ts : List Target) (hN : ∀ t ∈ ts, t.name ∈ N) (a : Addr) :
    Hold (Inv B N W refs0 h₀) (noisePerturbH fuel ts a) (fun r => h₀.length ≤ r.1) := by
  rw [noisePerturbH]
  refine (perturbNoisesH_hold a ts []).bind fun new hnew => ?_
  refine (copyState_hold refsOk_refs0 (fun _ => rfl) fuel a true).bind fun c hc => ?_
  refine (readState_new hc).bind fun x hx => ?_
  obtain ⟨vs, attrs, temp, cache, extra⟩ := x
  refine (write_hold hc (fine0 ?_)).bind fun _ _ => Hold.pure hc
  intro hnd k hk
  have hk' : k ∉ dkeys new := by
    rw [← dget_none_iff, hnew k fun t ht h => hk (h ▸ hN t ht)]; rfl
  rw [dget_dupdate_ne hk']
  exact hx.1 (nodup_of_dupdate hnd) k hk

end BB.Lemmas
