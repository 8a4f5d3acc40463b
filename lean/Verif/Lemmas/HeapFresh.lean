import Verif.Lemmas.HeapFirm

/-!
# New objects and their modification in place
-/

namespace BB.Lemmas

open BB BB.Spec BB.HM

mutual
theorem storePS_run (G : Set Addr) : ∀ (s : PSState) (h : Heap) (t : List Draw),
    ∃ a h', storePS s h t = (.ok a, h', t) ∧ h <+: h' ∧ OwnPS G h' s a (Since h h')
  | .mk n vals kd, h, t => by
    obtain ⟨vs, h₁, hr, hp, own⟩ := storeVals_run G vals h t
    refine ⟨h₁.length, h₁ ++ [.ps n vs (attrsOf vs) kd], ?_, hp.trans (prefix_snoc _), ?_⟩
    · rw [storePS, bind_of hr]; rfl
    · rw [OwnPS]
      refine ⟨vs, attrsOf vs, kd, Since h h₁, get_snoc _,
        ownVals_keep (keep_prefix (prefix_snoc _)) (keep_prefix (prefix_snoc _)) own, ?_, ?_, ?_⟩
      · intro hx; exact absurd hx.2 (lt_irrefl _)
      · exact ⟨hp.length_le, by simp⟩
      · exact since_mono (le_refl _) (by simp)
theorem storeVals_run (G : Set Addr) : ∀ (vals : List (String × PVal)) (h : Heap) (t : List Draw),
    ∃ vs h', storeVals vals h t = (.ok vs, h', t) ∧ h <+: h' ∧ OwnVals G h' vals vs (Since h h')
  | [], h, t => ⟨[], h, rfl, List.prefix_rfl, by rw [OwnVals]⟩
  | (k, .arr x) :: rest, h, t => by
    obtain ⟨vs, h₂, hr, hp, own⟩ := storeVals_run G rest (h ++ [.arr x]) t
    refine ⟨(k, h.length) :: vs, h₂, ?_, (prefix_snoc _).trans hp, ?_⟩
    · rw [storeVals, alloc_bind, bind_of hr]; rfl
    · rw [OwnVals]
      refine ⟨h.length, vs, Since h (h ++ [.arr x]), Since (h ++ [.arr x]) h₂, rfl, ?_, own, since_disjoint,
        since_mono (le_refl _) hp.length_le, since_mono (by simp) (le_refl _)⟩
      rw [OwnVal]
      exact ⟨prefix_get hp (get_snoc _), ⟨le_refl _, by simp⟩⟩
  | (k, .states l) :: rest, h, t => by
    obtain ⟨as, h₁, hr₁, hp₁, own₁⟩ := storeList_run G l h t
    obtain ⟨vs, h₂, hr, hp, own⟩ := storeVals_run G rest (h₁ ++ [.list as]) t
    refine ⟨(k, h₁.length) :: vs, h₂, ?_, hp₁.trans ((prefix_snoc _).trans hp), ?_⟩
    · rw [storeVals, bind_of hr₁, alloc_bind, bind_of hr]; rfl
    · rw [OwnVals]
      refine ⟨h₁.length, vs, Since h (h₁ ++ [.list as]), Since (h₁ ++ [.list as]) h₂, rfl, ?_, own, since_disjoint,
        since_mono (le_refl _) hp.length_le,
        since_mono (hp₁.length_le.trans (prefix_snoc _).length_le) (le_refl _)⟩
      rw [OwnVal]
      have hp' := (prefix_snoc (h := h₁) (.list as)).trans hp
      refine ⟨as, Since h h₁, prefix_get hp (get_snoc _), ownList_keep (keep_prefix hp') (keep_prefix hp') own₁,
        ?_, ⟨hp₁.length_le, by simp⟩, since_mono (le_refl _) (by simp)⟩
      intro hx; exact absurd hx.2 (lt_irrefl _)
  | (k, .objs l) :: rest, h, t => by
    obtain ⟨as, h₁, hr₁, hp₁, own₁⟩ := storeList_run G l h t
    obtain ⟨vs, h₂, hr, hp, own⟩ := storeVals_run G rest (h₁ ++ [.objs as]) t
    refine ⟨(k, h₁.length) :: vs, h₂, ?_, hp₁.trans ((prefix_snoc _).trans hp), ?_⟩
    · rw [storeVals, bind_of hr₁, alloc_bind, bind_of hr]; rfl
    · rw [OwnVals]
      refine ⟨h₁.length, vs, Since h (h₁ ++ [.objs as]), Since (h₁ ++ [.objs as]) h₂, rfl, ?_, own, since_disjoint,
        since_mono (le_refl _) hp.length_le,
        since_mono (hp₁.length_le.trans (prefix_snoc _).length_le) (le_refl _)⟩
      rw [OwnVal]
      have hp' := (prefix_snoc (h := h₁) (.objs as)).trans hp
      refine ⟨as, Since h h₁, prefix_get hp (get_snoc _),
        .inl (ownList_keep (keep_prefix hp') (keep_prefix hp') own₁),
        ?_, ⟨hp₁.length_le, by simp⟩, since_mono (le_refl _) (by simp)⟩
      intro hx; exact absurd hx.2 (lt_irrefl _)
theorem storeList_run (G : Set Addr) : ∀ (l : List PSState) (h : Heap) (t : List Draw),
    ∃ as h', storeList l h t = (.ok as, h', t) ∧ h <+: h' ∧ OwnList G h' l as (Since h h')
  | [], h, t => ⟨[], h, rfl, List.prefix_rfl, by rw [OwnList]⟩
  | s :: l, h, t => by
    obtain ⟨a, h₁, hr₁, hp₁, own₁⟩ := storePS_run G s h t
    obtain ⟨as, h₂, hr₂, hp₂, own₂⟩ := storeList_run G l h₁ t
    refine ⟨a :: as, h₂, ?_, hp₁.trans hp₂, ?_⟩
    · rw [storeList, bind_of hr₁, bind_of hr₂]; rfl
    · rw [OwnList]
      exact ⟨a, as, Since h h₁, Since h₁ h₂, rfl, ownPS_keep (keep_prefix hp₂) (keep_prefix hp₂) own₁, own₂,
        since_disjoint, since_mono (le_refl _) hp₂.length_le, since_mono hp₁.length_le (le_refl _)⟩
end

theorem fresh_sim (G : Set Addr) (h : Heap) (m : M PSState) :
    Sim AnyHeap (fun h' a s => h <+: h' ∧ OwnPS G h' s a (Since h h')) h (fresh m) m := by
  intro t
  have hb : (fresh m) h t = (Act.ofM m >>= storePS) h t := rfl
  rw [hb, Act.bind_run]
  simp only [Act.ofM]
  rcases m t with ⟨r, t'⟩
  cases r with
  | error e => exact ⟨⟨rfl, rfl⟩, trivial⟩
  | ok s =>
    simp only
    obtain ⟨a, h', hr, hp, own⟩ := storePS_run G s h t'
    rw [hr]
    exact ⟨rfl, hp, own⟩

theorem freshs_sim (G : Set Addr) (m : M PSState) : ∀ (xs : List ℕ) (h : Heap),
    Sim AnyHeap (fun h' as l => h <+: h' ∧ OwnList G h' l as (Since h h')) h (forEach (fun _ => fresh m) xs)
      (M.forEach (fun _ => m) xs)
  | [], h => Sim.pure (b := []) ⟨List.prefix_rfl, by rw [OwnList]⟩
  | x :: xs, h => by
    rw [forEach, M.forEach]
    refine Sim.bind (fresh_sim G h m) ?_
    rintro h₁ a s ⟨hp₁, own₁⟩
    refine Sim.bind (freshs_sim G m xs h₁) ?_
    rintro h₂ as l ⟨hp₂, own₂⟩
    refine Sim.pure (b := s :: l) ⟨hp₁.trans hp₂, ?_⟩
    rw [OwnList]
    exact ⟨a, as, Since h h₁, Since h₁ h₂, rfl, ownPS_keep (keep_prefix hp₂) (keep_prefix hp₂) own₁, own₂,
      since_disjoint, since_mono (le_refl _) hp₂.length_le, since_mono hp₁.length_le (le_refl _)⟩

/-! ### modification in place -/

theorem ownVals_dset {G : Set Addr} {h : Heap} (k : String) {v : PVal} {b : Addr} {F₂ : Set Addr}
    (hv : OwnVal G h v b F₂) : ∀ {vals : List (String × PVal)} {vs : List (String × Addr)} {F : Set Addr},
    OwnVals G h vals vs F → Disjoint F F₂ → OwnVals G h (dset vals k v) (dset vs k b) (F ∪ F₂)
  | [], vs, F, hr, hd => by
    rw [OwnVals] at hr; subst hr
    rw [dset, dset, OwnVals]
    exact ⟨b, [], F₂, ∅, rfl, hv, by rw [OwnVals], by simp, Set.subset_union_right, by simp⟩
  | (k', v') :: rest, vs, F, hr, hd => by
    rw [OwnVals] at hr
    obtain ⟨b', vs', F', F'', rfl, hv', hr, hd', h1, h2⟩ := hr
    by_cases hk : k' = k
    · simp only [dset, hk, if_true]
      rw [OwnVals]
      exact ⟨b, vs', F₂, F'', rfl, hv, hr, (hd.mono_left h2).symm, Set.subset_union_right,
        h2.trans Set.subset_union_left⟩
    · simp only [dset, hk, if_false]
      rw [OwnVals]
      refine ⟨b', _, F', F'' ∪ F₂, rfl, hv', ownVals_dset k hv hr (hd.mono_left h2), ?_,
        h1.trans Set.subset_union_left, Set.union_subset_union_left _ h2⟩
      rw [Set.disjoint_union_right]
      exact ⟨hd', hd.mono_left h1⟩

/-- The new state and its parts are new objects, all different; only they have been modified. -/
structure Upd (h : Heap) (F : Set Addr) (h' : Heap) (s : PSState) (a : Addr) (F' : Set Addr) : Prop where
  own : OwnPS ∅ h' s a F'
  keep : Keep Fᶜ h h'
  sub : ∀ x ∈ F', x ∈ F ∨ h.length ≤ x
  lt : ∀ x ∈ F', x < h'.length
  len : h.length ≤ h'.length

theorem Upd.trans {h h' h'' : Heap} {F F' F'' : Set Addr} {s s' : PSState} {a : Addr}
    (u : Upd h F h' s a F') (u' : Upd h' F' h'' s' a F'') : Upd h F h'' s' a F'' where
  own := u'.own
  keep := by
    intro x hx o ho
    obtain ⟨o', ho', hu⟩ := u.keep x hx o ho
    have : x ∉ F' := by
      intro hx'
      rcases u.sub x hx' with h1 | h1
      · exact hx h1
      · exact absurd (lt_of_get ho) (not_lt.2 h1)
    obtain ⟨o'', ho'', hu'⟩ := u'.keep x this o' ho'
    exact ⟨o'', ho'', hu.trans hu'⟩
  sub x hx := by
    rcases u'.sub x hx with h1 | h1
    · exact u.sub x h1
    · exact .inr (u.len.trans h1)
  lt := u'.lt
  len := u.len.trans u'.len

theorem Upd.refl {h : Heap} {F : Set Addr} {s : PSState} {a : Addr} (own : OwnPS ∅ h s a F)
    (hlt : ∀ x ∈ F, x < h.length) : Upd h F h s a F :=
  ⟨own, keep_refl h, fun _ hx => .inl hx, hlt, le_refl _⟩

theorem keep_empty {h h' : Heap} : Keep ∅ h h' := fun _ hx => absurd hx (Set.notMem_empty _)

theorem setValH_sim {h : Heap} {s : PSState} {a : Addr} {F : Set Addr} (own : OwnPS ∅ h s a F)
    (hlt : ∀ x ∈ F, x < h.length) (k : String) {h₁ : Heap} (hp : h <+: h₁) {v : PVal} {b : Addr}
    (hv : OwnVal ∅ h₁ v b (Since h h₁)) :
    Sim AnyHeap (fun h' _ s' => (∃ F', Upd h F h' s' a F') ∧ s' = .mk s.n (dset s.vals k v) s.kd) h₁ (setValH a k b)
      (M.lift (s.setVal k v)) := by
  obtain ⟨n, vals, kd₀⟩ := s
  rw [OwnPS] at own
  obtain ⟨vs, attrs, kd, F', ho, hvs, hn, ha, hs⟩ := own
  rw [setValH, PSState.setVal, lift_bind_eq]
  refine Sim.bind (checkH_none_sim (ownVal_rep hv) trivial) ?_
  rintro h' - - rfl
  have ho' := prefix_get hp ho
  refine Sim.of_eq (readPS_bind ho' _) ?_
  intro t
  refine ⟨rfl, ⟨F ∪ Since h h₁, ?_, ?_, ?_, ?_, ?_⟩, rfl⟩
  · change OwnPS ∅ (h₁.set a (.ps n (dset vs k b) (dset attrs k b) kd)) (.mk n (dset vals k v) kd₀) a _
    rw [OwnPS]
    have hna : a ∉ F' ∪ Since h h₁ := by
      rintro (h1 | h1)
      · exact hn h1
      · exact absurd (hlt a ha) (not_lt.2 h1.1)
    have hd : Disjoint F' (Since h h₁) := by
      rw [Set.disjoint_left]
      intro x hx hx'
      exact absurd (hlt x (hs hx)) (not_lt.2 hx'.1)
    refine ⟨dset vs k b, dset attrs k b, kd, F' ∪ Since h h₁, set_self ho', ?_, hna, .inl ha,
      Set.union_subset_union_left _ hs⟩
    refine ownVals_keep keep_empty (keep_set hna) ?_
    exact ownVals_dset k hv (ownVals_keep keep_empty (keep_prefix hp) hvs) hd
  · exact (keep_prefix hp).trans (keep_set fun hc => hc ha)
  · rintro x (hx | hx)
    · exact .inl hx
    · exact .inr hx.1
  · change ∀ x ∈ F ∪ Since h h₁, x < (h₁.set a _).length
    rw [List.length_set]
    rintro x (hx | hx)
    · exact lt_of_lt_of_le (hlt x hx) hp.length_le
    · exact hx.2
  · change h.length ≤ (h₁.set a _).length
    rw [List.length_set]; exact hp.length_le

/-- The array of a parameter in a new state is modified in place. -/
theorem ownVals_arr {h : Heap} {k : String} {x y : Arr} {b : Addr} :
    ∀ {vals : List (String × PVal)} {vs : List (String × Addr)} {F : Set Addr}, OwnVals ∅ h vals vs F →
    dget vals k = some (.arr x) → dget vs k = some b →
    b ∈ F ∧ h[b]? = some (.arr x) ∧ OwnVals ∅ (h.set b (.arr y)) (dset vals k (.arr y)) vs F
  | [], vs, F, hr, hg, hb => by cases hg
  | (k', v') :: rest, vs, F, hr, hg, hb => by
    rw [OwnVals] at hr
    obtain ⟨b', vs', F', F'', rfl, hv', hr, hd', h1, h2⟩ := hr
    by_cases hk : k' = k
    · simp only [dget, hk, if_true] at hg hb
      cases hg; cases hb
      rw [OwnVal] at hv'
      refine ⟨h1 hv'.2, hv'.1, ?_⟩
      simp only [dset, hk, if_true]
      rw [OwnVals]
      refine ⟨b, vs', F', F'', rfl, ?_, ?_, hd', h1, h2⟩
      · rw [OwnVal]; exact ⟨set_self hv'.1, hv'.2⟩
      · exact ownVals_keep keep_empty (keep_set (Set.disjoint_left.1 hd' hv'.2)) hr
    · simp only [dget, hk, if_false] at hg hb
      obtain ⟨h3, h4, h5⟩ := ownVals_arr (y := y) hr hg hb
      refine ⟨h2 h3, h4, ?_⟩
      simp only [dset, hk, if_false]
      rw [OwnVals]
      exact ⟨b', vs', F', F'', rfl, ownVal_keep keep_empty (keep_set (Set.disjoint_right.1 hd' h3)) hv', h5, hd',
        h1, h2⟩

theorem ownList_get {h : Heap} : ∀ {l : List PSState} {as : List Addr} {F : Set Addr}, OwnList ∅ h l as F →
    ∀ (i : ℕ) {x : PSState} {ax : Addr}, l[i]? = some x → as[i]? = some ax → (∀ y ∈ F, y < h.length) →
    ∃ Fx ⊆ F, OwnPS ∅ h x ax Fx ∧ ∀ (h' : Heap) (x' : PSState) (Fx' : Set Addr), OwnPS ∅ h' x' ax Fx' →
      Keep Fxᶜ h h' → (∀ y ∈ Fx', y ∈ Fx ∨ h.length ≤ y) → OwnList ∅ h' (l.set i x') as (F ∪ Fx')
  | [], as, F, hr, i, x, ax, h1, h2, hlt => by simp at h1
  | s :: l, as, F, hr, i, x, ax, h1, h2, hlt => by
    rw [OwnList] at hr
    obtain ⟨a, as', F₁, F₂, rfl, hs, hl, hd, hF₁, hF₂⟩ := hr
    cases i with
    | zero =>
      simp only [List.getElem?_cons_zero, Option.some.injEq] at h1 h2
      subst h1 h2
      refine ⟨F₁, hF₁, hs, fun h' x' Fx' own hk hsub => ?_⟩
      rw [List.set_cons_zero, OwnList]
      refine ⟨a, as', Fx', F₂, rfl, own, ?_, ?_, Set.subset_union_right, hF₂.trans Set.subset_union_left⟩
      · refine ownList_keep keep_empty (hk.mono ?_) hl
        intro y hy hy'
        exact Set.disjoint_left.1 hd hy' hy
      · rw [Set.disjoint_left]
        intro y hy hy'
        rcases hsub y hy with h3 | h3
        · exact Set.disjoint_left.1 hd h3 hy'
        · exact absurd (hlt y (hF₂ hy')) (not_lt.2 h3)
    | succ i =>
      simp only [List.getElem?_cons_succ] at h1 h2
      obtain ⟨Fx, hFx, own, hupd⟩ := ownList_get hl i h1 h2 (fun y hy => hlt y (hF₂ hy))
      refine ⟨Fx, hFx.trans hF₂, own, fun h' x' Fx' own' hk hsub => ?_⟩
      rw [List.set_cons_succ, OwnList]
      refine ⟨a, as', F₁, F₂ ∪ Fx', rfl, ?_, hupd h' x' Fx' own' hk hsub, ?_, hF₁.trans Set.subset_union_left,
        Set.union_subset_union_left _ hF₂⟩
      · refine ownPS_keep keep_empty (hk.mono ?_) hs
        intro y hy hy'
        exact Set.disjoint_left.1 hd hy (hFx hy')
      · rw [Set.disjoint_union_right]
        refine ⟨hd, ?_⟩
        rw [Set.disjoint_left]
        intro y hy hy'
        rcases hsub y hy' with h3 | h3
        · exact Set.disjoint_left.1 hd hy (hFx h3)
        · exact absurd (hlt y (hF₁ hy)) (not_lt.2 h3)

theorem ownVals_list {h : Heap} {k : String} {l : List PSState} {b : Addr} {i : ℕ} {x : PSState} :
    ∀ {vals : List (String × PVal)} {vs : List (String × Addr)} {F : Set Addr}, OwnVals ∅ h vals vs F →
    dget vals k = some (.states l) → dget vs k = some b → l[i]? = some x → (∀ y ∈ F, y < h.length) →
    ∃ as ax Fx, h[b]? = some (.list as) ∧ as[i]? = some ax ∧ Fx ⊆ F ∧ OwnPS ∅ h x ax Fx ∧
      ∀ (h' : Heap) (x' : PSState) (Fx' : Set Addr), OwnPS ∅ h' x' ax Fx' → Keep Fxᶜ h h' →
        (∀ y ∈ Fx', y ∈ Fx ∨ h.length ≤ y) → OwnVals ∅ h' (dset vals k (.states (l.set i x'))) vs (F ∪ Fx')
  | [], vs, F, hr, hg, hb, hi, hlt => by cases hg
  | (k', v') :: rest, vs, F, hr, hg, hb, hi, hlt => by
    rw [OwnVals] at hr
    obtain ⟨b', vs', F', F'', rfl, hv', hr, hd', h1, h2⟩ := hr
    by_cases hk : k' = k
    · simp only [dget, hk, if_true] at hg hb
      cases hg; cases hb
      rw [OwnVal] at hv'
      obtain ⟨as, F₁, ho, hl, hbn, hbF, hF₁⟩ := hv'
      obtain ⟨ax, hax⟩ : ∃ ax, as[i]? = some ax := by
        rcases repList_get (ownList_rep hl) i with ⟨h3, _⟩ | ⟨s, a, _, h4, _⟩
        · rw [hi] at h3; cases h3
        · exact ⟨a, h4⟩
      obtain ⟨Fx, hFx, own, hupd⟩ := ownList_get hl i hi hax (fun y hy => hlt y (h1 (hF₁ hy)))
      refine ⟨as, ax, Fx, ho, hax, (hFx.trans hF₁).trans h1, own, fun h' x' Fx' own' hk' hsub => ?_⟩
      simp only [dset, hk, if_true]
      rw [OwnVals]
      refine ⟨b, vs', F' ∪ Fx', F'', rfl, ?_, ?_, ?_, Set.union_subset_union_left _ h1,
        h2.trans Set.subset_union_left⟩
      · rw [OwnVal]
        refine ⟨as, F₁ ∪ Fx', ?_, hupd h' x' Fx' own' hk' hsub, ?_, .inl hbF, Set.union_subset_union_left _ hF₁⟩
        · exact hk'.list (fun hc => hbn (hFx hc)) ho
        · rintro (h3 | h3)
          · exact hbn h3
          · rcases hsub b h3 with h4 | h4
            · exact hbn (hFx h4)
            · exact absurd (hlt b (h1 hbF)) (not_lt.2 h4)
      · refine ownVals_keep keep_empty (hk'.mono ?_) hr
        intro y hy hy'
        exact Set.disjoint_left.1 hd' (hF₁ (hFx hy')) hy
      · rw [Set.disjoint_union_left]
        refine ⟨hd', ?_⟩
        rw [Set.disjoint_left]
        intro y hy hy'
        rcases hsub y hy with h3 | h3
        · exact Set.disjoint_left.1 hd' (hF₁ (hFx h3)) hy'
        · exact absurd (hlt y (h2 hy')) (not_lt.2 h3)
    · simp only [dget, hk, if_false] at hg hb
      obtain ⟨as, ax, Fx, h3, h4, hFx, own, hupd⟩ := ownVals_list hr hg hb hi (fun y hy => hlt y (h2 hy))
      refine ⟨as, ax, Fx, h3, h4, hFx.trans h2, own, fun h' x' Fx' own' hk' hsub => ?_⟩
      simp only [dset, hk, if_false]
      rw [OwnVals]
      refine ⟨b', vs', F', F'' ∪ Fx', rfl, ?_, hupd h' x' Fx' own' hk' hsub, ?_, h1.trans Set.subset_union_left,
        Set.union_subset_union_left _ h2⟩
      · refine ownVal_keep keep_empty (hk'.mono ?_) hv'
        intro y hy hy'
        exact Set.disjoint_left.1 hd' hy (hFx hy')
      · rw [Set.disjoint_union_right]
        refine ⟨hd', ?_⟩
        rw [Set.disjoint_left]
        intro y hy hy'
        rcases hsub y hy' with h3 | h3
        · exact Set.disjoint_left.1 hd' hy (hFx h3)
        · exact absurd (hlt y (h1 hy)) (not_lt.2 h3)

end BB.Lemmas
