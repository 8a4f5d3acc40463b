import Verif.Lemmas.HeapSep

/-!
# C58: copies of states

The model with objects and references is `Verif/Model/Heap.lean`.  `Later h {b} h' r` are arbitrary
modifications by a program that has been given the object `b`; `Turns` are two programs working in turns.

An array of states (`dtype=object`, as `ParameterSpace.sample` makes for nested discretizations) is copied
without its members: the copy is then not independent (`C58_objs_not`).
-/

namespace BB.Props

open BB BB.Spec BB.Lemmas BB.HM

/-- A copy can always be made; it has the same parameters and temperature, an empty extra storage, an empty
cache (or just its entry `"dpred"`), and nothing has been modified. -/
theorem C58_value {h : Heap} {s : State} {a : Addr} {fuel : ℕ} (keep : Bool) (t : List Draw)
    (hr : RepState h s a) (hv : ValidTop s.params) (hd : depthTop s.params ≤ fuel) :
    ∃ b h', copyState fuel a keep h t = (.ok b, h', t) ∧ h <+: h' ∧ h.length ≤ b ∧
      RepState h' (s.copy keep) b := by
  obtain ⟨vs, h₁, hc, g, hp, own⟩ := copyState_run 0 keep t hr hv hd (.inl rfl) (Nat.zero_le _)
  refine ⟨_, _, hc, g.pre, hp.length_le, vs, attrsOf vs, get_snoc _, ?_⟩
  exact repTop_keep (keep_prefix (prefix_snoc _)) (ownTop_rep own)

/-- The copy is empty of caches. -/
theorem C58_no_caches {h : Heap} {s : State} {a : Addr} {fuel : ℕ} (t : List Draw)
    (hr : RepState h s a) (hv : ValidTop s.params) (hd : depthTop s.params ≤ fuel) :
    ∃ b h' vs attrs, copyState fuel a false h t = (.ok b, h', t) ∧
      h'[b]? = some (.state vs attrs s.temperature [] []) := by
  obtain ⟨vs, h₁, hc, g, hp, own⟩ := copyState_run 0 false t hr hv hd (.inl rfl) (Nat.zero_le _)
  exact ⟨_, _, vs, attrsOf vs, hc, get_snoc _⟩

theorem turns_roots {h h' : Heap} {ra rb ra' rb' : Set Addr} (ht : Turns h ra rb h' ra' rb') :
    ra ⊆ ra' ∧ rb ⊆ rb' := by
  have later_roots : ∀ {h h' : Heap} {r r' : Set Addr}, Later h r h' r' → r ⊆ r' := by
    intro h h' r r' hl
    induction hl with
    | refl => exact subset_rfl
    | alloc o _ _ ih => exact ih.trans (Set.subset_insert _ _)
    | write a o _ _ _ ih => exact ih
  induction ht with
  | refl => exact ⟨subset_rfl, subset_rfl⟩
  | fst _ hl ih => exact ⟨ih.1.trans (later_roots hl), ih.2⟩
  | snd _ hl ih => exact ⟨ih.1, ih.2.trans (later_roots hl)⟩

/-- The copy is independent: whatever has been done with the original and with the copy, in turns, further
modifications of the copy – at any depth – do not change the original, and vice versa. -/
theorem C58_independent_partial {h : Heap} {s : State} {a : Addr} {fuel : ℕ} (keep : Bool) (t : List Draw)
    (hr : RepState h s a) (hv : ValidTop s.params) (hd : depthTop s.params ≤ fuel)
    (hn : NoObjsTop s.params) (hc : NoDangling h) :
    ∃ b h', copyState fuel a keep h t = (.ok b, h', t) ∧ RepState h' (s.copy keep) b ∧
      ∀ h₁ ra rb, Turns h' {a} {b} h₁ ra rb →
        (∀ h₂ rb', Later h₁ rb h₂ rb' → ∀ s', RepState h₁ s' a → RepState h₂ s' a) ∧
        (∀ h₂ ra', Later h₁ ra h₂ ra' → ∀ s', RepState h₁ s' b → RepState h₂ s' b) := by
  have halt : a < h.length := by
    obtain ⟨vs, attrs, ho, _⟩ := hr; exact lt_of_get ho
  obtain ⟨vs, h₁, hcp, g, hp, own⟩ := copyState_run h.length keep t hr hv hd (.inr hn) (le_refl _)
  refine ⟨_, _, hcp, ⟨vs, attrsOf vs, get_snoc _,
    repTop_keep (keep_prefix (prefix_snoc _)) (ownTop_rep own)⟩, ?_⟩
  have hsep := grow_separated g hc halt hp.length_le
  have hcl := grow_closed g hc
  intro h₂ ra rb ht
  obtain ⟨hc₂, hia, hib, hs₂⟩ := turns_separated ht hcl
    (by intro x hx; rw [Set.mem_singleton_iff] at hx; subst hx; exact lt_of_lt_of_le halt g.pre.length_le)
    (by intro x hx; rw [Set.mem_singleton_iff] at hx; subst hx; simp) hsep
  obtain ⟨h1, h2⟩ := turns_roots ht
  constructor
  · intro h₃ rb' hl s' hr'
    obtain ⟨_, _, _, _, hk⟩ := later_separated hl hc₂ hib hia (separated_symm hs₂)
    exact repState_reach (fun x hx => hk x (reach_mono (by
      intro y hy; rw [Set.mem_singleton_iff] at hy; subst hy; exact h1 rfl) hx)) hr'
  · intro h₃ ra' hl s' hr'
    obtain ⟨_, _, _, _, hk⟩ := later_separated hl hc₂ hia hib hs₂
    exact repState_reach (fun x hx => hk x (reach_mono (by
      intro y hy; rw [Set.mem_singleton_iff] at hy; subst hy; exact h2 rfl) hx)) hr'

/-- The copy of a parameter-space state: the same value, with the cached k-d tree, and independent. -/
theorem C58_space_partial {h : Heap} {s : PSState} {a : Addr} {fuel : ℕ} (t : List Draw)
    (hr : RepPS h s a) (hv : ValidPS s) (hd : depthPS s ≤ fuel) (hn : NoObjsPS s) (hc : NoDangling h) :
    ∃ b h', copyPS fuel a h t = (.ok b, h', t) ∧ RepPS h' s b ∧
      (∀ n vs attrs kd, h[a]? = some (.ps n vs attrs kd) → ∃ vs' attrs', h'[b]? = some (.ps n vs' attrs' kd)) ∧
      ∀ h₁ ra rb, Turns h' {a} {b} h₁ ra rb →
        (∀ h₂ rb', Later h₁ rb h₂ rb' → ∀ s', RepPS h₁ s' a → RepPS h₂ s' a) ∧
        (∀ h₂ ra', Later h₁ ra h₂ ra' → ∀ s', RepPS h₁ s' b → RepPS h₂ s' b) := by
  have halt : a < h.length := repPS_lt hr
  obtain ⟨b, h', hcp, g, hle, own, hkd⟩ := copyPS_run h.length h s a fuel h t (keep_refl h) hr hv hd (.inr hn)
    (le_refl _)
  refine ⟨b, h', hcp, ownPS_rep own, fun n vs attrs kd ho => ?_, ?_⟩
  · obtain ⟨vs', h1⟩ := hkd n vs attrs kd ho
    exact ⟨vs', _, h1⟩
  have hsep := grow_separated g hc halt hle
  have hcl := grow_closed g hc
  intro h₂ ra rb ht
  obtain ⟨hc₂, hia, hib, hs₂⟩ := turns_separated ht hcl
    (by intro x hx; rw [Set.mem_singleton_iff] at hx; subst hx; exact lt_of_lt_of_le halt g.pre.length_le)
    (by intro x hx; rw [Set.mem_singleton_iff] at hx; subst hx; exact repPS_lt (ownPS_rep own)) hsep
  obtain ⟨h1, h2⟩ := turns_roots ht
  constructor
  · intro h₃ rb' hl s' hr'
    obtain ⟨_, _, _, _, hk⟩ := later_separated hl hc₂ hib hia (separated_symm hs₂)
    exact repPS_reach (fun x hx => hk x (reach_mono (by
      intro y hy; rw [Set.mem_singleton_iff] at hy; subst hy; exact h1 rfl) hx)) hr'
  · intro h₃ ra' hl s' hr'
    obtain ⟨_, _, _, _, hk⟩ := later_separated hl hc₂ hia hib hs₂
    exact repPS_reach (fun x hx => hk x (reach_mono (by
      intro y hy; rw [Set.mem_singleton_iff] at hy; subst hy; exact h2 rfl) hx)) hr'

/-! ### a state with nested states -/

/-- Two nested states (objects 2 and 4) in a list (5) of a parameter-space state (6), and data noise. -/
noncomputable def heap58 : Heap :=
  [.arr (.vec [1.5, 2.5]), .arr (.vec [10, 20]), .ps 2 [("q", 1)] [("q", 1)] none, .arr (.vec [30]),
   .ps 1 [("q", 3)] [("q", 3)] none, .list [2, 4],
   .ps 2 [("vs", 0), ("child", 5)] [("vs", 0), ("child", 5)] none,
   .state [("space", .ps 6), ("data", .noise ⟨1, none⟩)] [("space", .ps 6), ("data", .noise ⟨1, none⟩)] 2
     [("data.dpred", .dpred [3])] [("misfit", 4)]]

noncomputable def state58 : State where
  params := [("space", .ps (.mk 2 [("vs", .arr (.vec [1.5, 2.5])), ("child", .states
    [.mk 2 [("q", .arr (.vec [10, 20]))] none, .mk 1 [("q", .arr (.vec [30]))] none])] none)),
    ("data", .noise ⟨1, none⟩)]
  temperature := 2
  cache := [("data.dpred", .dpred [3])]
  extra := [("misfit", 4)]

theorem rep58 : RepState heap58 state58 7 := by
  refine ⟨_, _, rfl, ?_⟩
  simp only [state58, RepTop]
  refine ⟨6, _, rfl, ?_, _, rfl, rfl⟩
  simp only [RepPS, RepVals, RepVal, RepList]
  exact ⟨_, _, _, rfl, 0, _, rfl, rfl, 5, _, rfl, ⟨_, rfl, 2, _, rfl, ⟨_, _, _, rfl, 1, _, rfl, rfl, rfl⟩,
    4, _, rfl, ⟨_, _, _, rfl, 3, _, rfl, rfl, rfl⟩, rfl⟩, rfl⟩

example : RepState heap58 state58 7 ∧ ValidTop state58.params ∧ depthTop state58.params ≤ 2 ∧
    NoObjsTop state58.params ∧ NoDangling heap58 := by
  refine ⟨rep58, ?_, ?_, ?_, ?_⟩
  · simp [state58, ValidTop, ValidPS, ValidVals, ValidVal, ValidList, PVal.len, Arr.len]
  · simp [state58, depthTop, depthPS, depthVals, depthVal, depthList]
  · simp [state58, NoObjsTop, NoObjsPS, NoObjsVals, NoObjsVal, NoObjsList]
  · intro a o ho b hb
    have ha : a < 8 := lt_of_get ho
    have : heap58.length = 8 := rfl
    rw [this]
    interval_cases a <;> simp [heap58] at ho <;> subst ho <;> simp [refs] at hb <;>
      (first | (subst hb; decide) | (rcases hb with rfl | rfl <;> decide) |
        (rcases hb with rfl | rfl | rfl | rfl <;> decide))

/-! ### an array of states -/

/-- A state (object 1) in an array of states (2) of another one (3). -/
noncomputable def heap58b : Heap :=
  [.arr (.vec [1]), .ps 1 [("q", 0)] [("q", 0)] none, .objs [1], .ps 1 [("p", 2)] [("p", 2)] none,
   .state [("s", .ps 3)] [("s", .ps 3)] 1 [] []]

noncomputable def state58b : State where
  params := [("s", .ps (.mk 1 [("p", .objs [.mk 1 [("q", .arr (.vec [1]))] none])] none))]
  temperature := 1
  cache := []
  extra := []

/-- Not so for arrays of states: the copy holds the very same members, and a change in one of them by way of
the copy changes the original. -/
theorem C58_objs_not : ∃ (h : Heap) (s : State) (a : Addr), RepState h s a ∧ ValidTop s.params ∧
    depthTop s.params ≤ 1 ∧ NoDangling h ∧
    ∃ b h', (∀ t, copyState 1 a false h t = (.ok b, h', t)) ∧
      ∃ h'' r, Later h' {b} h'' r ∧ ¬ RepState h'' s a := by
  refine ⟨heap58b, state58b, 4, ?_, ?_, ?_, ?_, 7, heap58b ++ [.objs [1],
    .ps 1 [("p", 5)] [("p", 5)] none, .state [("s", .ps 6)] [("s", .ps 6)] 1 [] []], fun t => ?_, ?_⟩
  · refine ⟨_, _, rfl, ?_⟩
    simp only [state58b, RepTop]
    refine ⟨3, _, rfl, ?_, rfl⟩
    simp only [RepPS, RepVals, RepVal, RepList]
    exact ⟨_, _, _, rfl, 2, _, rfl, ⟨_, rfl, 1, _, rfl, ⟨_, _, _, rfl, 0, _, rfl, rfl, rfl⟩, rfl⟩, rfl⟩
  · simp [state58b, ValidTop, ValidPS, ValidVals, ValidVal, PVal.len]
  · simp [state58b, depthTop, depthPS, depthVals, depthVal]
  · intro a o ho b hb
    have ha : a < 5 := lt_of_get ho
    have : heap58b.length = 5 := rfl
    rw [this]
    interval_cases a <;> simp [heap58b] at ho <;> subst ho <;> simp [refs] at hb <;>
      (first | (subst hb; decide) | (rcases hb with rfl | rfl <;> decide) |
        (rcases hb with rfl | rfl | rfl | rfl <;> decide))
  · rfl
  · refine ⟨_, _, .write 0 (.arr (.vec [2])) (.refl _ _) ?_ (by simp [refs]), ?_⟩
    · have h7 : Reach (heap58b ++ [.objs [1], .ps 1 [("p", 5)] [("p", 5)] none,
          .state [("s", .ps 6)] [("s", .ps 6)] 1 [] []]) {7} 7 := .root rfl
      have h6 := Reach.step (b := 6) h7 rfl (by simp [refs])
      have h5 := Reach.step (b := 5) h6 rfl (by simp [refs])
      have h1 := Reach.step (b := 1) h5 rfl (by simp [refs])
      exact Reach.step (b := 0) h1 rfl (by simp [refs])
    · rintro ⟨vs, attrs, ho, hr⟩
      have h1 : vs = [("s", .ps 3)] := by
        have : (some (Obj.state [("s", .ps 3)] [("s", .ps 3)] 1 [] [])) =
          some (Obj.state vs attrs state58b.temperature state58b.cache state58b.extra) := ho
        simp at this; exact this.1.symm
      subst h1
      simp only [state58b, RepTop] at hr
      obtain ⟨a, vs', he, hr, -⟩ := hr
      simp at he; obtain ⟨rfl, -⟩ := he
      simp only [RepPS, RepVals, RepVal, RepList] at hr
      obtain ⟨vs, attrs, kd, ho, b, vs', rfl, ⟨as, ho', a, as', rfl, ⟨vs2, attrs2, kd2, ho2, c, vs3, rfl, ho3, -⟩,
        -⟩, -⟩ := hr
      have e1 : some (Obj.ps 1 [("p", 2)] [("p", 2)] none) = some (Obj.ps 1 (("p", b) :: vs') attrs kd) := ho
      simp at e1; obtain ⟨⟨rfl, rfl⟩, rfl, rfl⟩ := e1
      have e2 : some (Obj.objs [1]) = some (Obj.objs (a :: as')) := ho'
      simp at e2; obtain ⟨rfl, rfl⟩ := e2
      have e3 : some (Obj.ps 1 [("q", 0)] [("q", 0)] none) = some (Obj.ps 1 (("q", c) :: vs3) attrs2 kd2) := ho2
      simp at e3; obtain ⟨⟨rfl, rfl⟩, rfl, rfl⟩ := e3
      have e4 : some (Obj.arr (.vec [2])) = some (Obj.arr (.vec [1])) := ho3
      simp at e4

end BB.Props
