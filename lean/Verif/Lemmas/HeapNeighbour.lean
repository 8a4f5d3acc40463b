import Verif.Lemmas.HeapFresh

/-!
# Births near the neighbour: new states filled in place
-/

namespace BB.Lemmas

open BB BB.Spec BB.HM

/-- No array of states where there was none. -/
def NoNew (s s' : PSState) : Prop := ∀ k l, s'.get k = some (.objs l) → ∃ l', s.get k = some (.objs l')

theorem NoNew.refl (s : PSState) : NoNew s s := fun _ l h => ⟨l, h⟩

theorem NoNew.trans {s s' s'' : PSState} (h : NoNew s s') (h' : NoNew s' s'') : NoNew s s'' := by
  intro k l hl
  obtain ⟨l', hl'⟩ := h' k l hl
  exact h k l' hl'

theorem noNew_dset {s : PSState} {k : String} {v : PVal} (hv : ∀ l, v = .objs l → ∃ l', s.get k = some (.objs l')) :
    NoNew s (.mk s.n (dset s.vals k v) s.kd) := by
  intro k' l hl
  change dget (dset s.vals k v) k' = _ at hl
  by_cases hk : k' = k
  · subst hk
    rw [dget_dset_same] at hl
    exact hv l (Option.some.inj hl)
  · rw [dget_dset_ne _ _ _ _ hk] at hl
    exact ⟨l, hl⟩

theorem fillInitialH_sim : ∀ (ps : List (String × Param)) {h : Heap} {F : Set Addr} {s : PSState} {a : Addr},
    OwnPS ∅ h s a F → (∀ x ∈ F, x < h.length) →
    Sim AnyHeap (fun h' _ s' => (∃ F', Upd h F h' s' a F') ∧ NoNew s s' ∧
      ∀ k ∈ ps.map (·.1), ∀ l, s'.get k ≠ some (.objs l)) h (fillInitialH ps a) (fillInitial ps s)
  | [], h, F, s, a, own, hlt => Sim.pure (b := s) ⟨⟨F, Upd.refl own hlt⟩, NoNew.refl s, by simp⟩
  | (name, p) :: rest, h, F, s, a, own, hlt => by
    rw [fillInitialH.eq_def, fillInitial.eq_def]
    simp only
    obtain ⟨n, vals, kd₀⟩ := s
    have own' := own
    rw [OwnPS] at own'
    obtain ⟨vs, attrs, kd, F', ho, -⟩ := own'
    refine Sim.of_eq (readPS_bind ho _) ?_
    simp only
    refine Sim.bind (R := fun h₁ b v => h <+: h₁ ∧ OwnVal ∅ h₁ v b (Since h h₁) ∧ ∀ l, v ≠ .objs l) ?_ ?_
    · cases p with
      | prior p =>
        refine Sim.alloc (b := PVal.arr (.vec (List.replicate n 0))) ⟨prefix_snoc _, ?_, fun l hl => by cases hl⟩
        rw [OwnVal]
        exact ⟨get_snoc _, ⟨le_refl _, by simp⟩⟩
      | space sp =>
        have key : ∀ m : M PSState, Sim AnyHeap
            (fun h₁ b v => h <+: h₁ ∧ OwnVal ∅ h₁ v b (Since h h₁) ∧ ∀ l, v ≠ .objs l) h
            (forEach (fun _ => fresh m) (List.range n) >>= fun l => alloc (.list l))
            (M.times n m >>= fun l => Pure.pure (PVal.states l)) := by
          intro m
          refine Sim.bind (freshs_sim ∅ m (List.range n) h) ?_
          rintro h₁ as l ⟨hp, own₁⟩
          refine Sim.alloc (b := PVal.states l) ⟨hp.trans (prefix_snoc _), ?_, fun l hl => by cases hl⟩
          rw [OwnVal]
          refine ⟨as, Since h h₁, get_snoc _, ownList_keep keep_empty (keep_prefix (prefix_snoc _)) own₁, ?_,
            ⟨hp.length_le, by simp⟩, since_mono (le_refl _) (by simp)⟩
          intro hx; exact absurd hx.2 (lt_irrefl _)
        simp only
        split
        · exact key _
        · exact key _
    · rintro h₁ b v ⟨hp, hv, hno⟩
      refine Sim.bind (setValH_sim own hlt name hp hv) ?_
      rintro h₂ - s₂ ⟨⟨F₂, u⟩, rfl⟩
      refine (fillInitialH_sim rest u.own u.lt).mono (fun _ h => h) ?_
      rintro h₃ - s₃ ⟨⟨F₃, u'⟩, hn, hk⟩
      refine ⟨⟨F₃, u.trans u'⟩, (noNew_dset fun l hl => absurd hl (hno l)).trans hn, ?_⟩
      intro k hk' l hl
      rcases List.mem_cons.1 hk' with h1 | h1
      · subst h1
        obtain ⟨l', hl'⟩ := hn _ l hl
        change dget (dset vals k v) k = _ at hl'
        rw [dget_dset_same] at hl'
        exact hno l' (Option.some.inj hl')
      · exact hk k h1 l hl

theorem forSites_sim {σ τ : Type} {X : Heap → Prop} {R : Heap → σ → τ → Prop} {f : ℕ → Pos → σ → HM σ}
    {g : ℕ → Pos → τ → M τ} (hb : ∀ i p h a b, R h a b → Sim X R h (f i p a) (g i p b)) :
    ∀ (ps : List Pos) (i : ℕ) (h : Heap) (a : σ) (b : τ), R h a b →
      Sim X R h (forSitesH f i ps a) (forSites g i ps b)
  | [], i, h, a, b, hr => Sim.pure (b := b) hr
  | p :: ps, i, h, a, b, hr => by
    rw [forSitesH, forSites]
    refine Sim.bind (hb i p h a b hr) ?_
    intro h' a' b' hr'
    exact forSites_sim hb ps (i + 1) h' a' b' hr'

theorem setItemH_sim {h : Heap} {s : PSState} {a : Addr} {F : Set Addr} (own : OwnPS ∅ h s a F)
    (hlt : ∀ x ∈ F, x < h.length) (k : String) (i : ℕ) (x : ℝ) :
    Sim AnyHeap (fun h' _ s' => (∃ F', Upd h F h' s' a F') ∧ NoNew s s') h
      (getH a k >>= fun v => setItemH v i x) (M.lift (s.setNumAt k i x)) := by
  obtain ⟨n, vals, kd₀⟩ := s
  have own' := own
  rw [OwnPS] at own'
  obtain ⟨vs, attrs, kd, F', ho, hvs, hn, ha, hs⟩ := own'
  refine Sim.of_eq (getH_bind ho k _) ?_
  have hg := repVals_get k (ownVals_rep hvs)
  rw [PSState.setNumAt]
  simp only [PSState.get, PSState.vals]
  cases hv : dget vals k with
  | none =>
    rw [hv] at hg
    cases hb : dget vs k with
    | none => exact Sim.error trivial
    | some b => rw [hb] at hg; exact absurd hg not_false
  | some v =>
    rw [hv] at hg
    cases hb : dget vs k with
    | none => rw [hb] at hg; exact absurd hg not_false
    | some b =>
      rw [hb] at hg
      change RepVal h v b at hg
      rw [setItemH]
      cases v with
      | states l =>
        rw [RepVal] at hg
        obtain ⟨as, h1, _⟩ := hg
        exact Sim.of_eq (read_bind h1 _) (Sim.error trivial)
      | objs l =>
        rw [RepVal] at hg
        obtain ⟨as, h1, _⟩ := hg
        exact Sim.of_eq (read_bind h1 _) (Sim.error trivial)
      | arr z =>
        rw [RepVal] at hg
        refine Sim.of_eq (read_bind hg _) ?_
        cases z with
        | pts ps => exact Sim.error trivial
        | vec xs =>
          simp only
          by_cases hi : i < xs.length
          · rw [if_pos hi, if_pos hi]
            obtain ⟨h3, h4, h5⟩ := ownVals_arr (y := .vec (xs.set i x)) hvs hv hb
            intro t
            refine ⟨rfl, ⟨F, ?_, ?_, ?_, ?_, ?_⟩, ?_⟩
            · change OwnPS ∅ (h.set b (.arr (.vec (xs.set i x)))) (.mk n (dset vals k (.arr (.vec (xs.set i x)))) kd₀)
                a F
              rw [OwnPS]
              refine ⟨vs, attrs, kd, F', ?_, h5, hn, ha, hs⟩
              rw [set_ne (a := b) (b := a) (fun he => hn (he ▸ h3))]
              exact ho
            · exact keep_set fun hc => hc (hs h3)
            · exact fun y hy => .inl hy
            · change ∀ y ∈ F, y < (h.set b _).length
              rw [List.length_set]; exact hlt
            · change h.length ≤ (h.set b _).length
              rw [List.length_set]
            · exact noNew_dset fun l hl => by cases hl
          · rw [if_neg hi, if_neg hi]; exact Sim.error trivial

theorem stateAt_firm {h : Heap} {F : Set Addr} {v : Option PVal} {b : Option Addr} (hr : Firm F h (OptRep · v b))
    (i : ℕ) : Sim AnyHeap (fun h' a s => h = h' ∧ Firm F h (RepPS · s a)) h (stateAtH b i)
      (M.lift (stateAt v i)) := by
  have key : ∀ (l : List PSState) (as : List Addr), Firm F h (RepList · l as) →
      Sim AnyHeap (fun h' a s => h = h' ∧ Firm F h (RepPS · s a)) h
        (match as[i]? with | some a => Pure.pure a | none => Act.throw .indexError)
        (M.lift (match l[i]? with | some x => .ok x | none => .error .indexError)) := by
    intro l as hl
    rcases repList_get hl.here i with ⟨h1, h2⟩ | ⟨s, a, h1, h2, _⟩
    · rw [h1, h2]; exact Sim.error trivial
    · rw [h1, h2]
      intro t
      refine ⟨rfl, rfl, fun h' hk => ?_⟩
      rcases repList_get (hl h' hk) i with ⟨h3, _⟩ | ⟨s', a', h3, h4, hs⟩
      · rw [h1] at h3; cases h3
      · rw [h1] at h3; rw [h2] at h4; cases h3; cases h4; exact hs
  rcases firm_opt hr with ⟨rfl, rfl⟩ | ⟨v, b, rfl, rfl, hv⟩
  · exact Sim.error trivial
  · rw [stateAtH]
    cases v with
    | arr z =>
      have hb : RepVal h (.arr z) b := hv.here
      rw [RepVal] at hb
      exact Sim.of_eq (read_bind hb _) (Sim.error trivial)
    | states l =>
      obtain ⟨as, ho, hl⟩ := firm_list hv
      exact Sim.of_eq (read_bind ho _) (key l as hl)
    | objs l =>
      obtain ⟨as, ho, hl⟩ := firm_objs hv
      exact Sim.of_eq (read_bind ho _) (key l as hl)

theorem stateAt_own {h : Heap} {s : PSState} {a : Addr} {F : Set Addr} (own : OwnPS ∅ h s a F)
    (hlt : ∀ x ∈ F, x < h.length) (k : String) (hno : ∀ l, s.get k ≠ some (.objs l)) (i : ℕ) :
    Sim AnyHeap (fun h' ax x => h = h' ∧ ∃ Fx ⊆ F, OwnPS ∅ h x ax Fx ∧ ∀ h' x' Fx', Upd h Fx h' x' ax Fx' →
        Upd h F h' (s.setStateAt k i x') a (F ∪ Fx') ∧ NoNew s (s.setStateAt k i x')) h
      (getH a k >>= fun v => stateAtH v i) (M.lift (stateAt (s.get k) i)) := by
  obtain ⟨n, vals, kd₀⟩ := s
  have own' := own
  rw [OwnPS] at own'
  obtain ⟨vs, attrs, kd, F', ho, hvs, hn, ha, hs⟩ := own'
  refine Sim.of_eq (getH_bind ho k _) ?_
  have hg := repVals_get k (ownVals_rep hvs)
  simp only [PSState.get, PSState.vals] at hno ⊢
  cases hv : dget vals k with
  | none =>
    rw [hv] at hg
    cases hb : dget vs k with
    | none => exact Sim.error trivial
    | some b => rw [hb] at hg; exact absurd hg not_false
  | some v =>
    rw [hv] at hg
    cases hb : dget vs k with
    | none => rw [hb] at hg; exact absurd hg not_false
    | some b =>
      rw [hb] at hg
      change RepVal h v b at hg
      rw [stateAtH]
      cases v with
      | objs l => exact absurd hv (hno l)
      | arr z =>
        rw [RepVal] at hg
        exact Sim.of_eq (read_bind hg _) (Sim.error trivial)
      | states l =>
        rw [RepVal] at hg
        obtain ⟨as, h1, hl⟩ := hg
        refine Sim.of_eq (read_bind h1 _) ?_
        rw [stateAt]
        simp only
        rcases repList_get hl i with ⟨h2, h3⟩ | ⟨x, ax, h2, h3, _⟩
        · rw [h2, h3]; exact Sim.error trivial
        · rw [h2, h3]
          intro t
          refine ⟨rfl, rfl, ?_⟩
          obtain ⟨as', ax', Fx, h4, h5, hFx, ownx, hupd⟩ := ownVals_list hvs hv hb h2 (fun y hy => hlt y (hs hy))
          rw [h1] at h4; cases h4
          rw [h3] at h5; cases h5
          refine ⟨Fx, hFx.trans hs, ownx, fun h' x' Fx' u => ?_⟩
          have hset : PSState.setStateAt (.mk n vals kd₀) k i x' =
              .mk n (dset vals k (.states (l.set i x'))) kd₀ := by
            simp only [PSState.setStateAt, PSState.get, PSState.vals, hv, PSState.n, PSState.kd]
          rw [hset]
          refine ⟨⟨?_, u.keep.mono ?_, ?_, ?_, u.len⟩, noNew_dset (s := .mk n vals kd₀) fun l hl => by cases hl⟩
          · rw [OwnPS]
            obtain ⟨kd', h6⟩ := u.keep.ps (fun hc => hn (hFx hc)) ho
            refine ⟨vs, attrs, kd', F' ∪ Fx', h6, hupd h' x' Fx' u.own u.keep u.sub, ?_, .inl ha,
              Set.union_subset_union_left _ hs⟩
            rintro (h7 | h7)
            · exact hn h7
            · rcases u.sub a h7 with h8 | h8
              · exact hn (hFx h8)
              · exact absurd (hlt a ha) (not_lt.2 h8)
          · exact fun y hy hy' => hy (hs (hFx hy'))
          · rintro y (hy | hy)
            · exact .inl hy
            · rcases u.sub y hy with h8 | h8
              · exact .inl (hs (hFx h8))
              · exact .inr h8
          · rintro y (hy | hy)
            · exact lt_of_lt_of_le (hlt y hy) u.len
            · exact u.lt y hy

/-- A new state `new`, made of objects not older than `N`, and an old one. -/
structure Nb (N : ℕ) (h : Heap) (F : Set Addr) (old : PSState) (oa : Addr) (new : PSState) (na : Addr) : Prop where
  len : N ≤ h.length
  old : Firm {x | N ≤ x} h (RepPS · old oa)
  own : OwnPS ∅ h new na F
  lt : ∀ x ∈ F, x < h.length
  ge : ∀ x ∈ F, N ≤ x

theorem Nb.upd {N : ℕ} {h h' : Heap} {F F' : Set Addr} {old : PSState} {oa : Addr} {new new' : PSState} {na : Addr}
    (b : Nb N h F old oa new na) (u : Upd h F h' new' na F') : Nb N h' F' old oa new' na where
  len := b.len.trans u.len
  old := b.old.keep (u.keep.mono fun x hx hx' => hx (b.ge x hx'))
  own := u.own
  lt := u.lt
  ge x hx := by
    rcases u.sub x hx with h1 | h1
    · exact b.ge x h1
    · exact b.len.trans h1

theorem bind_assoc'' {α β γ : Type} (m : HM α) (f : α → HM β) (g : β → HM γ) :
    (m >>= fun a => f a >>= g) = ((m >>= fun a => f a) >>= g) := (bind_assoc' m f g).symm

mutual
theorem sampleFromNeighbourH_sim : ∀ (sp : Space) {N : ℕ} {h : Heap} {F : Set Addr} {old : PSState} {oa : Addr}
    {new : PSState} {na : Addr}, Nb N h F old oa new na →
    Sim AnyHeap (fun h' r r' => r = r'.2 ∧ ∃ F', Upd h F h' r'.1 na F') h (sp.sampleFromNeighbourH oa na)
      (sp.sampleFromNeighbour old new)
  | .mk info ps, N, h, F, old, oa, new, na, b => by
    rw [Space.sampleFromNeighbourH, Space.sampleFromNeighbour]
    refine Sim.bind (fillInitialH_sim ps.toList b.own b.lt) ?_
    rintro h₁ - new₁ ⟨⟨F₁, u₁⟩, -, hno⟩
    have b₁ := b.upd u₁
    refine Sim.bind (sitesH_sim (ownPS_rep b₁.own) trivial) ?_
    rintro h' sites _ ⟨rfl, rfl⟩
    refine (forSites_sim (R := fun h' (r : PyF) (r' : PSState × PyF) => r = r'.2 ∧ (∃ F', Upd h₁ F₁ h' r'.1 na F') ∧
      NoNew new₁ r'.1) ?_ sites 0 h₁ (.fin 0) (new₁, .fin 0)
        ⟨rfl, ⟨F₁, Upd.refl b₁.own b₁.lt⟩, NoNew.refl _⟩).mono (fun _ h => h) ?_
    · rintro i pos h₂ acc ⟨new₂, acc'⟩ ⟨rfl, ⟨F₂, u₂⟩, hn₂⟩
      have b₂ := b₁.upd u₂
      obtain ⟨v, hv, hg⟩ := firm_get b₂.old "discretization"
      refine Sim.of_eq (hg _) ?_
      refine Sim.bind (nearestH_sim info.kind hv.here pos trivial) ?_
      rintro h' inb _ ⟨rfl, rfl⟩
      refine (fillPointsH_sim ps i inb pos acc b₂ ?_).mono (fun _ h => h) ?_
      · intro k hk l hl
        obtain ⟨l', hl'⟩ := hn₂ k l hl
        exact hno k hk l' hl'
      · rintro h₃ r r' ⟨hr, ⟨F₃, u₃⟩, hn₃⟩
        exact ⟨hr, ⟨F₃, u₂.trans u₃⟩, hn₂.trans hn₃⟩
    · rintro h₂ r r' ⟨hr, ⟨F₂, u₂⟩, -⟩
      exact ⟨hr, F₂, u₁.trans u₂⟩
theorem fillPointsH_sim : ∀ (ps : ParamList) (i inb : ℕ) (pos : Pos) (lpr : PyF) {N : ℕ} {h : Heap} {F : Set Addr}
    {old : PSState} {oa : Addr} {new : PSState} {na : Addr}, Nb N h F old oa new na →
    (∀ k ∈ ps.toList.map (·.1), ∀ l, new.get k ≠ some (.objs l)) →
    Sim AnyHeap (fun h' r r' => r = r'.2 ∧ (∃ F', Upd h F h' r'.1 na F') ∧ NoNew new r'.1) h
      (ps.fillPointH oa na i inb pos lpr) (ps.fillPoint old i inb pos (new, lpr))
  | .nil, i, inb, pos, lpr, N, h, F, old, oa, new, na, b, _ => by
    rw [ParamList.fillPointH, ParamList.fillPoint]
    exact Sim.pure (b := (new, lpr)) ⟨rfl, ⟨F, Upd.refl b.own b.lt⟩, NoNew.refl _⟩
  | .cons name p rest, i, inb, pos, lpr, N, h, F, old, oa, new, na, b, hno => by
    rw [ParamList.fillPointH, ParamList.fillPoint]
    simp only [ParamList.toList, List.map_cons, List.mem_cons] at hno
    refine Sim.bind (fillPointH_sim p name i inb pos lpr b (hno name (.inl rfl))) ?_
    rintro h₁ r ⟨new₁, r'⟩ ⟨rfl, ⟨F₁, u₁⟩, hn₁⟩
    refine (fillPointsH_sim rest i inb pos r (b.upd u₁) ?_).mono (fun _ h => h) ?_
    · intro k hk l hl
      obtain ⟨l', hl'⟩ := hn₁ k l hl
      exact hno k (.inr hk) l' hl'
    · rintro h₃ r r' ⟨hr, ⟨F₃, u₃⟩, hn₃⟩
      exact ⟨hr, ⟨F₃, u₁.trans u₃⟩, hn₁.trans hn₃⟩
theorem fillPointH_sim : ∀ (p : Param) (name : String) (i inb : ℕ) (pos : Pos) (lpr : PyF) {N : ℕ} {h : Heap}
    {F : Set Addr} {old : PSState} {oa : Addr} {new : PSState} {na : Addr}, Nb N h F old oa new na →
    (∀ l, new.get name ≠ some (.objs l)) →
    Sim AnyHeap (fun h' r r' => r = r'.2 ∧ (∃ F', Upd h F h' r'.1 na F') ∧ NoNew new r'.1) h
      (p.fillPointH name oa na i inb pos lpr) (p.fillPoint name old i inb pos (new, lpr))
  | .prior p, name, i, inb, pos, lpr, N, h, F, old, oa, new, na, b, _ => by
    rw [Param.fillPointH, Param.fillPoint]
    obtain ⟨v, hv, hg⟩ := firm_get b.old name
    refine Sim.of_eq (hg _) ?_
    refine Sim.bind (numAtH_sim hv.here inb trivial) ?_
    rintro h' nb _ ⟨rfl, rfl⟩
    refine Sim.bind (Sim.ofM _ trivial) ?_
    rintro h' ⟨x, r⟩ _ ⟨rfl, rfl⟩
    simp only
    rw [bind_assoc'']
    refine Sim.bind (setItemH_sim b.own b.lt name i x) ?_
    rintro h₁ - new₁ ⟨hu, hn⟩
    exact Sim.pure (b := (new₁, lpr.add r)) ⟨rfl, hu, hn⟩
  | .space s, name, i, inb, pos, lpr, N, h, F, old, oa, new, na, b, hno => by
    rw [Param.fillPointH, Param.fillPoint]
    split
    · obtain ⟨v, hv, hg⟩ := firm_get b.old name
      refine Sim.of_eq (hg _) ?_
      refine Sim.bind (stateAt_firm hv inb) ?_
      rintro h' oai oldi ⟨rfl, hold⟩
      rw [bind_assoc'']
      refine Sim.bind (stateAt_own b.own b.lt name hno i) ?_
      rintro h' nai newi ⟨rfl, Fx, hFx, ownx, hupd⟩
      refine Sim.bind (sampleFromNeighbourH_sim s (N := N)
        ⟨b.len, hold, ownx, fun x hx => b.lt x (hFx hx), fun x hx => b.ge x (hFx hx)⟩) ?_
      rintro h₁ r ⟨newi', r'⟩ ⟨rfl, Fx', u⟩
      obtain ⟨h1, h2⟩ := hupd h₁ newi' Fx' u
      exact Sim.pure (b := (new.setStateAt name i newi', lpr.add r)) ⟨rfl, ⟨_, h1⟩, h2⟩
    · exact Sim.pure (b := (new, lpr)) ⟨rfl, ⟨F, Upd.refl b.own b.lt⟩, NoNew.refl _⟩
end

end BB.Lemmas
