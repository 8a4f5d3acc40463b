import Verif.Lemmas.HeapFrame3

/-!
# Separate parts of the heap
-/

namespace BB.Lemmas

open BB BB.Spec BB.HM

variable {h h' : Heap} {ra rb ra' rb' : Set Addr}

/-! ### a value depends on what can be reached only -/

theorem reach_mono {rs rs' : Set Addr} (hs : rs ⊆ rs') {x : Addr} (hr : Reach h rs x) : Reach h rs' x := by
  induction hr with
  | root ha => exact .root (hs ha)
  | step _ ho hb ih => exact .step ih ho hb

theorem reach_trans {rs : Set Addr} {a x : Addr} (ha : Reach h rs a) (hr : Reach h {a} x) : Reach h rs x := by
  induction hr with
  | root hb => rw [Set.mem_singleton_iff] at hb; subst hb; exact ha
  | step _ ho hb ih => exact .step ih ho hb

mutual
theorem repPS_reach : ∀ {s : PSState} {a : Addr}, (∀ x, Reach h {a} x → h'[x]? = h[x]?) → RepPS h s a →
    RepPS h' s a
  | .mk n vals _, a, hk, hr => by
    rw [RepPS] at hr ⊢
    obtain ⟨vs, attrs, kd, ho, hv⟩ := hr
    refine ⟨vs, attrs, kd, by rw [hk a (.root rfl)]; exact ho, ?_⟩
    refine repVals_reach (fun kb hkb x hx => hk x (reach_trans (.step (.root rfl) ho ?_) hx)) hv
    rw [refs, List.mem_append]
    exact .inl (List.mem_map_of_mem hkb)
theorem repVals_reach : ∀ {vals : List (String × PVal)} {vs : List (String × Addr)},
    (∀ kb ∈ vs, ∀ x, Reach h {kb.2} x → h'[x]? = h[x]?) → RepVals h vals vs → RepVals h' vals vs
  | [], vs, hk, hr => by rw [RepVals] at hr ⊢; exact hr
  | (k, v) :: rest, vs, hk, hr => by
    rw [RepVals] at hr ⊢
    obtain ⟨b, vs', rfl, hv, hr⟩ := hr
    exact ⟨b, vs', rfl, repVal_reach (hk (k, b) (by simp)) hv,
      repVals_reach (fun kb hkb => hk kb (List.mem_cons_of_mem _ hkb)) hr⟩
theorem repVal_reach : ∀ {v : PVal} {b : Addr}, (∀ x, Reach h {b} x → h'[x]? = h[x]?) → RepVal h v b →
    RepVal h' v b
  | .arr x, b, hk, hr => by rw [RepVal] at hr ⊢; rw [hk b (.root rfl)]; exact hr
  | .states l, b, hk, hr => by
    rw [RepVal] at hr ⊢
    obtain ⟨as, ho, hl⟩ := hr
    refine ⟨as, by rw [hk b (.root rfl)]; exact ho, repList_reach (fun a ha x hx => ?_) hl⟩
    exact hk x (reach_trans (.step (.root rfl) ho ha) hx)
  | .objs l, b, hk, hr => by
    rw [RepVal] at hr ⊢
    obtain ⟨as, ho, hl⟩ := hr
    refine ⟨as, by rw [hk b (.root rfl)]; exact ho, repList_reach (fun a ha x hx => ?_) hl⟩
    exact hk x (reach_trans (.step (.root rfl) ho ha) hx)
theorem repList_reach : ∀ {l : List PSState} {as : List Addr},
    (∀ a ∈ as, ∀ x, Reach h {a} x → h'[x]? = h[x]?) → RepList h l as → RepList h' l as
  | [], as, hk, hr => by rw [RepList] at hr ⊢; exact hr
  | s :: l, as, hk, hr => by
    rw [RepList] at hr ⊢
    obtain ⟨a, as', rfl, hs, hl⟩ := hr
    exact ⟨a, as', rfl, repPS_reach (hk a (by simp)) hs,
      repList_reach (fun a ha => hk a (List.mem_cons_of_mem _ ha)) hl⟩
end

theorem repTop_reach : ∀ {ps : Params} {vs : List (String × TRef)},
    (∀ b ∈ topRefs vs, ∀ x, Reach h {b} x → h'[x]? = h[x]?) → RepTop h ps vs → RepTop h' ps vs
  | [], vs, hk, hr => by rw [RepTop] at hr ⊢; exact hr
  | (k, .noise d) :: rest, vs, hk, hr => by
    rw [RepTop] at hr ⊢
    obtain ⟨vs', rfl, hr⟩ := hr
    refine ⟨vs', rfl, repTop_reach (fun b hb => hk b ?_) hr⟩
    obtain ⟨k', hk'⟩ := mem_topRefs.1 hb
    exact mem_topRefs.2 ⟨k', List.mem_cons_of_mem _ hk'⟩
  | (k, .ps s) :: rest, vs, hk, hr => by
    rw [RepTop] at hr ⊢
    obtain ⟨a, vs', rfl, hs, hr⟩ := hr
    refine ⟨a, vs', rfl, repPS_reach (hk a (mem_topRefs.2 ⟨k, List.mem_cons_self⟩)) hs,
      repTop_reach (fun b hb => hk b ?_) hr⟩
    obtain ⟨k', hk'⟩ := mem_topRefs.1 hb
    exact mem_topRefs.2 ⟨k', List.mem_cons_of_mem _ hk'⟩

theorem repState_reach {s : State} {a : Addr} (hk : ∀ x, Reach h {a} x → h'[x]? = h[x]?)
    (hr : RepState h s a) : RepState h' s a := by
  obtain ⟨vs, attrs, ho, hv⟩ := hr
  refine ⟨vs, attrs, by rw [hk a (.root rfl)]; exact ho, repTop_reach (fun b hb x hx => ?_) hv⟩
  exact hk x (reach_trans (.step (.root rfl) ho (refs_state.2 (.inl hb))) hx)

/-! ### separate programs -/

/-- All roots exist. -/
def Inside (h : Heap) (rs : Set Addr) : Prop := ∀ a ∈ rs, a < h.length

theorem reach_lt (hc : NoDangling h) {rs : Set Addr} (hi : Inside h rs) {x : Addr} (hr : Reach h rs x) :
    x < h.length := by
  induction hr with
  | root ha => exact hi _ ha
  | step _ ho hb _ => exact hc _ _ ho _ hb

/-- What can be reached does not change when other objects change. -/
theorem reach_same {rs : Set Addr} (hk : ∀ x, Reach h rs x → h'[x]? = h[x]?) {x : Addr} :
    Reach h' rs x ↔ Reach h rs x := by
  constructor
  · intro hr
    induction hr with
    | root ha => exact .root ha
    | step _ ho hb ih => rw [hk _ ih] at ho; exact .step ih ho hb
  · intro hr
    induction hr with
    | root ha => exact .root ha
    | step hr ho hb ih => rw [← hk _ hr] at ho; exact .step ih ho hb

/-- What a program does does not change what cannot be reached by it; and it stays separate. -/
theorem later_separated (hl : Later h ra h' ra') (hc : NoDangling h) (hia : Inside h ra) (hib : Inside h rb)
    (hs : Separated h ra rb) :
    NoDangling h' ∧ Inside h' ra' ∧ Inside h' rb ∧ Separated h' ra' rb ∧
      (∀ x, Reach h rb x → h'[x]? = h[x]?) := by
  induction hl with
  | refl => exact ⟨hc, hia, hib, hs, fun _ _ => rfl⟩
  | @alloc h₁ r₁ o hl ho ih =>
    obtain ⟨hc', hia', hib', hs', hk⟩ := ih
    have hkeep : ∀ rs, Inside h₁ rs → ∀ x, Reach h₁ rs x → (h₁ ++ [o])[x]? = h₁[x]? := fun rs hrs x hx =>
      List.getElem?_append_left (reach_lt hc' hrs hx)
    have hlen : (h₁ ++ [o]).length = h₁.length + 1 := by simp
    refine ⟨?_, ?_, ?_, ?_, ?_⟩
    · intro a o' ho' b hb
      rw [hlen]
      by_cases hlt : a < h₁.length
      · rw [List.getElem?_append_left hlt] at ho'
        exact (hc' a o' ho' b hb).trans (Nat.lt_succ_self _)
      · have hlt' := lt_of_get ho'
        rw [hlen] at hlt'
        have : a = h₁.length := le_antisymm (Nat.le_of_lt_succ hlt') (Nat.le_of_not_lt hlt)
        subst this
        rw [get_snoc] at ho'; cases ho'
        exact (reach_lt hc' hia' (ho b hb)).trans (Nat.lt_succ_self _)
    · intro a ha
      rw [hlen]
      rcases ha with rfl | ha
      · exact Nat.lt_succ_self _
      · exact (hia' a ha).trans (Nat.lt_succ_self _)
    · intro a ha
      rw [hlen]; exact (hib' a ha).trans (Nat.lt_succ_self _)
    · intro x hx hxb
      rw [reach_same (hkeep rb hib')] at hxb
      have key : ∀ y, Reach (h₁ ++ [o]) (insert h₁.length r₁) y → y = h₁.length ∨ Reach h₁ r₁ y := by
        intro y hy
        induction hy with
        | root ha =>
          rcases ha with rfl | ha
          · exact .inl rfl
          · exact .inr (.root ha)
        | @step a b o' _ ho' hb ih =>
          right
          rcases ih with rfl | ih
          · rw [get_snoc] at ho'; cases ho'
            exact ho b hb
          · rw [hkeep r₁ hia' a ih] at ho'
            exact .step ih ho' hb
      rcases key x hx with rfl | hx
      · exact absurd (reach_lt hc' hib' hxb) (lt_irrefl _)
      · exact hs' x hx hxb
    · intro x hx
      rw [List.getElem?_append_left, hk x hx]
      refine reach_lt hc' hib' ((reach_same hk).2 hx)
  | @write h₁ r₁ a o hl ha ho ih =>
    obtain ⟨hc', hia', hib', hs', hk⟩ := ih
    have hsame : ∀ x, Reach h₁ rb x → (h₁.set a o)[x]? = h₁[x]? := by
      intro x hx
      refine set_ne ?_
      rintro rfl
      exact hs' a ha hx
    refine ⟨?_, ?_, ?_, ?_, ?_⟩
    · intro x o' ho' b hb
      rw [List.length_set]
      by_cases hax : a = x
      · subst hax
        have hlt := lt_of_get ho'
        rw [List.length_set] at hlt
        rw [List.getElem?_set_self hlt] at ho'
        cases ho'
        exact reach_lt hc' hia' (ho b hb)
      · rw [set_ne hax] at ho'
        exact hc' x o' ho' b hb
    · intro x hx; rw [List.length_set]; exact hia' x hx
    · intro x hx; rw [List.length_set]; exact hib' x hx
    · intro x hx hxb
      rw [reach_same hsame] at hxb
      have key : ∀ y, Reach (h₁.set a o) r₁ y → Reach h₁ r₁ y := by
        intro y hy
        induction hy with
        | root ha => exact .root ha
        | @step c b o' _ ho' hb ih =>
          by_cases hac : a = c
          · subst hac
            have hlt := lt_of_get ho'
            rw [List.length_set] at hlt
            rw [List.getElem?_set_self hlt] at ho'
            cases ho'
            exact ho b hb
          · rw [set_ne hac] at ho'
            exact .step ih ho' hb
      exact hs' x (key x hx) hxb
    · intro x hx
      rw [hsame x ((reach_same hk).2 hx), hk x hx]

theorem separated_symm (hs : Separated h ra rb) : Separated h rb ra := fun x hx hx' => hs x hx' hx

theorem turns_separated (ht : Turns h ra rb h' ra' rb') (hc : NoDangling h) (hia : Inside h ra)
    (hib : Inside h rb) (hs : Separated h ra rb) :
    NoDangling h' ∧ Inside h' ra' ∧ Inside h' rb' ∧ Separated h' ra' rb' := by
  induction ht with
  | refl => exact ⟨hc, hia, hib, hs⟩
  | fst _ hl ih =>
    obtain ⟨hc, hia, hib, hs⟩ := ih
    obtain ⟨h1, h2, h3, h4, _⟩ := later_separated hl hc hia hib hs
    exact ⟨h1, h2, h3, h4⟩
  | snd _ hl ih =>
    obtain ⟨hc, hia, hib, hs⟩ := ih
    obtain ⟨h1, h2, h3, h4, _⟩ := later_separated hl hc hib hia (separated_symm hs)
    exact ⟨h1, h3, h2, separated_symm h4⟩

/-! ### copies -/

/-- What has been made since refers to nothing made before. -/
theorem grow_separated (hg : Grow h.length h h') (hc : NoDangling h) {a b : Addr} (ha : a < h.length)
    (hb : h.length ≤ b) : Separated h' {a} {b} := by
  have h1 : ∀ x, Reach h' {a} x → x < h.length := by
    intro x hx
    induction hx with
    | root hx => rw [Set.mem_singleton_iff] at hx; subst hx; exact ha
    | @step c d o _ ho hd ih =>
      have hco : h[c]? = some o := by
        have h2 : h[c]? = some h[c] := List.getElem?_eq_getElem ih
        rw [prefix_get hg.pre h2] at ho
        cases ho; exact h2
      exact hc c o hco d hd
  have h2 : ∀ x, Reach h' {b} x → h.length ≤ x := by
    intro x hx
    induction hx with
    | root hx => rw [Set.mem_singleton_iff] at hx; subst hx; exact hb
    | @step c d o _ ho hd ih => exact hg.low c o ih ho d hd
  intro x hx hx'
  exact absurd (h1 x hx) (not_lt.2 (h2 x hx'))

theorem grow_closed {lo : ℕ} (hg : Grow lo h h') (hc : NoDangling h) : NoDangling h' := by
  intro a o ho b hb
  by_cases hlt : a < h.length
  · have h2 : h[a]? = some h[a] := List.getElem?_eq_getElem hlt
    have h3 := prefix_get hg.pre h2
    rw [h3] at ho; cases ho
    exact lt_of_lt_of_le (hc a _ h2 b hb) hg.pre.length_le
  · exact hg.high a o (Nat.le_of_not_lt hlt) ho b hb

theorem copyTops_run (lo : ℕ) (h₀ : Heap) : ∀ (ps : Params) (vs : List (String × TRef))
    (fuel : ℕ) (h : Heap) (t : List Draw), Keep Set.univ h₀ h → RepTop h₀ ps vs → ValidTop ps →
    depthTop ps ≤ fuel → (lo = 0 ∨ NoObjsTop ps) → lo ≤ h.length →
    ∃ vs' h', copyTops fuel vs h t = (.ok vs', h', t) ∧ Grow lo h h' ∧
      OwnTop (Old h₀) h' ps vs' (Since h h') ∧ (∀ b ∈ topRefs vs', h.length ≤ b ∧ b < h'.length)
  | [], vs, fuel, h, t, hp, hr, hv, hd, hlo, hle => by
    rw [RepTop] at hr; subst hr
    exact ⟨[], h, rfl, Grow.refl _ _, by rw [OwnTop], by simp [topRefs]⟩
  | (k, .noise d) :: rest, vs, fuel, h, t, hp, hr, hv, hd, hlo, hle => by
    rw [RepTop] at hr
    obtain ⟨vs₁, rfl, hr⟩ := hr
    rw [ValidTop] at hv
    rw [depthTop] at hd
    have hlo2 : lo = 0 ∨ NoObjsTop rest := by
      rcases hlo with h | h
      · exact .inl h
      · rw [NoObjsTop] at h; exact .inr h
    obtain ⟨vs', h₂, hc₂, g₂, own₂, hin⟩ := copyTops_run lo h₀ rest vs₁ fuel h t hp hr hv hd hlo2 hle
    refine ⟨(k, .noise d) :: vs', h₂, ?_, g₂, ?_, ?_⟩
    · rw [copyTops, bind_of hc₂]; rfl
    · rw [OwnTop]; exact ⟨vs', rfl, own₂⟩
    · intro b hb
      obtain ⟨k', hk'⟩ := mem_topRefs.1 hb
      rcases List.mem_cons.1 hk' with h | h
      · cases h
      · exact hin b (mem_topRefs.2 ⟨k', h⟩)
  | (k, .ps s) :: rest, vs, fuel, h, t, hp, hr, hv, hd, hlo, hle => by
    rw [RepTop] at hr
    obtain ⟨a, vs₁, rfl, hs, hr⟩ := hr
    rw [ValidTop] at hv
    rw [depthTop] at hd
    have hlo1 : lo = 0 ∨ NoObjsPS s := by
      rcases hlo with h | h
      · exact .inl h
      · rw [NoObjsTop] at h; exact .inr h.1
    have hlo2 : lo = 0 ∨ NoObjsTop rest := by
      rcases hlo with h | h
      · exact .inl h
      · rw [NoObjsTop] at h; exact .inr h.2
    obtain ⟨c, h₁, hc, g₁, hcl, own₁, _⟩ := copyPS_run lo h₀ s a fuel h t hp hs hv.1 (by omega) hlo1 hle
    obtain ⟨vs', h₂, hc₂, g₂, own₂, hin⟩ := copyTops_run lo h₀ rest vs₁ fuel h₁ t (hp.trans (keep_prefix g₁.pre)) hr hv.2
      (by omega) hlo2 (hle.trans g₁.pre.length_le)
    have hc1 : c < h₁.length := repPS_lt (ownPS_rep own₁)
    refine ⟨(k, .ps c) :: vs', h₂, ?_, g₁.trans g₂, ?_, ?_⟩
    · rw [copyTops, bind_of hc, bind_of hc₂]; rfl
    · rw [OwnTop]
      exact ⟨c, vs', Since h h₁, Since h₁ h₂, rfl,
        ownPS_keep (keep_prefix g₂.pre) (keep_prefix g₂.pre) own₁, own₂, since_disjoint,
        since_mono (le_refl _) g₂.pre.length_le, since_mono g₁.pre.length_le (le_refl _)⟩
    · intro b hb
      obtain ⟨k', hk'⟩ := mem_topRefs.1 hb
      rcases List.mem_cons.1 hk' with h | h
      · cases h; exact ⟨hcl, lt_of_lt_of_le hc1 g₂.pre.length_le⟩
      · have := hin b (mem_topRefs.2 ⟨k', h⟩)
        exact ⟨g₁.pre.length_le.trans this.1, this.2⟩

/-- A copy of a `State`. -/
theorem copyState_run (lo : ℕ) {s : State} {a : Addr} {fuel : ℕ} (keep : Bool) (t : List Draw)
    (hr : RepState h s a) (hv : ValidTop s.params) (hd : depthTop s.params ≤ fuel)
    (hlo : lo = 0 ∨ NoObjsTop s.params) (hle : lo ≤ h.length) :
    ∃ vs' h₁, copyState fuel a keep h t = (.ok h₁.length, h₁ ++ [.state vs' (attrsOf vs') s.temperature
        (if keep then s.cache.filter (fun kv => kv.1 == "dpred") else []) []], t) ∧
      Grow lo h (h₁ ++ [.state vs' (attrsOf vs') s.temperature
        (if keep then s.cache.filter (fun kv => kv.1 == "dpred") else []) []]) ∧
      h <+: h₁ ∧ OwnTop (Old h) h₁ s.params vs' (Since h h₁) := by
  obtain ⟨vs, attrs, ho, hv'⟩ := hr
  obtain ⟨vs', h₁, hc, g, own, hin⟩ := copyTops_run lo h s.params vs fuel h t (keep_refl h) hv' hv hd hlo hle
  refine ⟨vs', h₁, ?_, g.trans (Grow.snoc (by intro _ _ _ _ h; cases h) ?_ ?_), g.pre, own⟩
  · rw [copyState, readState_bind ho]
    show (copyTops fuel vs >>= _) h t = _
    rw [bind_of hc]; rfl
  · intro b hb
    have : b ∈ topRefs vs' := by
      rcases refs_state.1 hb with h | h
      · exact h
      · obtain ⟨k, hk⟩ := mem_topRefs.1 h
        obtain ⟨y, h3, h4⟩ := mem_attrsOf hk
        refine mem_topRefs.2 ⟨y.1, ?_⟩
        obtain ⟨y1, y2⟩ := y
        simp only at h4; rw [h4]; exact h3
    exact hle.trans (hin b this).1
  · intro b hb
    have : b ∈ topRefs vs' := by
      rcases refs_state.1 hb with h | h
      · exact h
      · obtain ⟨k, hk⟩ := mem_topRefs.1 h
        obtain ⟨y, h3, h4⟩ := mem_attrsOf hk
        refine mem_topRefs.2 ⟨y.1, ?_⟩
        obtain ⟨y1, y2⟩ := y
        simp only at h4; rw [h4]; exact h3
    exact (hin b this).2.trans (Nat.lt_succ_self _)

end BB.Lemmas
