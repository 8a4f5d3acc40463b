import Verif.Lemmas.HeapFrame3

/-!
# Which objects are modified during a run
-/

namespace BB.Lemmas

open BB BB.Spec BB.HM

variable {B N : Set String} {W : Set Addr} {h₀ h : Heap}

theorem Hold.heap {α : Type} {I : Heap → Prop} {m : HM α} {R : α → Prop} (hm : Hold I m R) {h : Heap}
    (hh : I h) (t : List Draw) : I (m h t).2.1 := by
  have := hm h t hh
  generalize m h t = x at this ⊢
  obtain ⟨r, h', t'⟩ := x
  cases r with
  | error e => exact this
  | ok a => exact this.1

theorem storeTops_hold : ∀ p : Params,
    Hold (Inv B N W refs0 h₀) (storeTops p) (fun _ => True)
  | [] => Hold.pure trivial
  | (k, .noise d) :: rest => by
    rw [storeTops]
    exact (storeTops_hold rest).bind fun _ _ => Hold.pure trivial
  | (k, .ps s) :: rest => by
    rw [storeTops]
    exact (storePS_hold refsOk_refs0 s).bind fun _ _ => (storeTops_hold rest).bind fun _ _ => Hold.pure trivial

theorem storeState_hold (s : State) : Hold (Inv B N W refs0 h₀) (storeState s) (fun b => h₀.length ≤ b) := by
  rw [storeState]
  exact (storeTops_hold s.params).bind fun _ _ => alloc_hold (fine0 agree_state)

theorem kdOk_univ (g : PSPert) : KdOk g Set.univ := fun _ _ _ _ _ => rfl

theorem kdOk_treeFree {g : PSPert} (hg : TreeFree g) (W : Set Addr) : KdOk g W := by
  intro f hf sp hs hk
  have : hasTree sp.info.kind = false := hg sp (by
    rcases hs with rfl | rfl
    · exact .inl hf
    · exact .inr hf)
  rw [this] at hk; cases hk

theorem namesIn_univ (g : PSPert) : NamesIn g Set.univ := fun _ _ _ _ _ _ _ => trivial

theorem namesIn_valueNames {ps : List Proposer} {g : PSPert} (hg : Proposer.space g ∈ ps) :
    NamesIn g (valueNames ps) := by
  rintro f hf nm priors rfl p hp
  exact ⟨g, nm, priors, hg, hf, p, hp, rfl⟩

/-- What a proposal does to the heap. -/
theorem proposer_inv {ps : List Proposer} {p : Proposer} (hp : p ∈ ps) (fuel : ℕ) (a : Addr) (t : List Draw)
    (h : Heap) : Inv (valueNames ps) (noiseNames ps) Set.univ refs0 h (p.run fuel a h t).2.1 := by
  cases p with
  | space g => exact (perturbH_hold fuel g (kdOk_univ g) (namesIn_valueNames hp) a).heap (Inv.refl h) t
  | noise ts =>
    have hN : ∀ x ∈ ts, x.name ∈ noiseNames ps := fun x hx => ⟨ts, hp, x, hx, rfl⟩
    exact (noisePerturbH_hold fuel ts hN a).heap (Inv.refl h) t

theorem sameData_refl (o : Obj) : SameData o o := by
  cases o <;> simp [SameData]

theorem sameData_trans {o₁ o₂ o₃ : Obj} (ha : SameData o₁ o₂) (hb : SameData o₂ o₃) : SameData o₁ o₃ := by
  cases o₁ <;> cases o₂ <;> cases o₃ <;> simp_all [SameData]

theorem sameData_kd {n vs attrs kd kd'} : SameData (.ps n vs attrs kd) (.ps n vs attrs kd') :=
  ⟨rfl, rfl, rfl⟩

theorem sameData_agree {o o' : Obj} (hs : SameData o o') (ha : AgreeObj B N o) : AgreeObj B N o' := by
  cases o <;> cases o' <;> simp only [SameData] at hs <;>
    first | trivial | (obtain ⟨rfl, rfl, rfl⟩ := hs; exact ha) | (obtain ⟨rfl, rfl⟩ := hs; exact ha) | cases hs

/-- Every object still has the same data. -/
def AllSame (h h' : Heap) : Prop := ∀ (a : Addr) (o : Obj), h[a]? = some o → ∃ o', h'[a]? = some o' ∧ SameData o o'

theorem AllSame.refl (h : Heap) : AllSame h h := fun _ o ho => ⟨o, ho, sameData_refl o⟩

theorem AllSame.trans {h₁ h₂ h₃ : Heap} (ha : AllSame h₁ h₂) (hb : AllSame h₂ h₃) : AllSame h₁ h₃ := by
  intro a o ho
  obtain ⟨o', ho', hs⟩ := ha a o ho
  obtain ⟨o'', ho'', hs'⟩ := hb a o' ho'
  exact ⟨o'', ho'', sameData_trans hs hs'⟩

theorem allSame_of {h h' : Heap} (hu : Unmodified W h h') : AllSame h h' := by
  intro a o ho
  rcases hu a o ho with h1 | ⟨_, n, vs, attrs, kd, kd', rfl, h1⟩
  · exact ⟨o, h1, sameData_refl o⟩
  · exact ⟨_, h1, sameData_kd⟩

theorem allSame_set {h : Heap} {a : Addr} {o o' : Obj} (ho : h[a]? = some o) (hs : SameData o o') :
    AllSame h (h.set a o') := by
  intro x ox hx
  by_cases he : a = x
  · subst he
    have : ox = o := by rw [ho] at hx; cases hx; rfl
    subst this
    exact ⟨o', by rw [List.getElem?_set_self (lt_of_get ho)], hs⟩
  · exact ⟨ox, by rw [List.getElem?_set_ne he]; exact hx, sameData_refl ox⟩

theorem history_allSame {ps : List Proposer} {h h' : Heap} (hh : History ps h h') : AllSame h h' := by
  induction hh with
  | refl => exact AllSame.refl h
  | propose p fuel a t hp _ ih => exact ih.trans (allSame_of (proposer_inv hp fuel a t _).old)
  | copy fuel a keep t _ ih =>
    exact ih.trans (allSame_of ((copyState_hold (B := ∅) (N := ∅) (W := ∅) refsOk_refs0 (fun _ => rfl) fuel a
      keep).heap (Inv.refl _) t).old)
  | initial s t _ ih =>
    exact ih.trans (allSame_of ((storeState_hold (B := ∅) (N := ∅) (W := ∅) s).heap (Inv.refl _) t).old)
  | other a o o' _ ho hs ih => exact ih.trans (allSame_set ho hs)

mutual
theorem repPS_same {h h' : Heap} (hs : AllSame h h') : ∀ {s : PSState} {a : Addr}, RepPS h s a → RepPS h' s a
  | .mk n vals kd, a, hr => by
    rw [RepPS] at hr ⊢
    obtain ⟨vs, attrs, kd, ho, hv⟩ := hr
    obtain ⟨o', ho', h1⟩ := hs a _ ho
    cases o' <;> simp only [SameData] at h1
    · cases h1
    · cases h1
    · cases h1
    · obtain ⟨rfl, rfl, rfl⟩ := h1
      exact ⟨_, _, _, ho', repVals_same hs hv⟩
    · cases h1
theorem repVals_same {h h' : Heap} (hs : AllSame h h') : ∀ {vals : List (String × PVal)}
    {vs : List (String × Addr)}, RepVals h vals vs → RepVals h' vals vs
  | [], vs, hr => by rw [RepVals] at hr ⊢; exact hr
  | (k, v) :: rest, vs, hr => by
    rw [RepVals] at hr ⊢
    obtain ⟨b, vs', e, hv, hr⟩ := hr
    exact ⟨b, vs', e, repVal_same hs hv, repVals_same hs hr⟩
theorem repVal_same {h h' : Heap} (hs : AllSame h h') : ∀ {v : PVal} {b : Addr}, RepVal h v b → RepVal h' v b
  | .arr x, b, hr => by
    rw [RepVal] at hr ⊢
    obtain ⟨o', ho', h1⟩ := hs b _ hr
    rw [ho', ← (by simpa only [SameData] using h1 : Obj.arr x = o')]
  | .states l, b, hr => by
    rw [RepVal] at hr ⊢
    obtain ⟨as, ho, hl⟩ := hr
    obtain ⟨o', ho', h1⟩ := hs b _ ho
    exact ⟨as, by rw [ho', ← (by simpa only [SameData] using h1 : Obj.list as = o')], repList_same hs hl⟩
  | .objs l, b, hr => by
    rw [RepVal] at hr ⊢
    obtain ⟨as, ho, hl⟩ := hr
    obtain ⟨o', ho', h1⟩ := hs b _ ho
    exact ⟨as, by rw [ho', ← (by simpa only [SameData] using h1 : Obj.objs as = o')], repList_same hs hl⟩
theorem repList_same {h h' : Heap} (hs : AllSame h h') : ∀ {l : List PSState} {as : List Addr},
    RepList h l as → RepList h' l as
  | [], as, hr => by rw [RepList] at hr ⊢; exact hr
  | s :: l, as, hr => by
    rw [RepList] at hr ⊢
    obtain ⟨a, as', e, h1, h2⟩ := hr
    exact ⟨a, as', e, repPS_same hs h1, repList_same hs h2⟩
end

theorem repTop_same {h h' : Heap} (hs : AllSame h h') : ∀ {p : Params} {vs : List (String × TRef)},
    RepTop h p vs → RepTop h' p vs
  | [], vs, hr => by rw [RepTop] at hr ⊢; exact hr
  | (k, .noise d) :: rest, vs, hr => by
    rw [RepTop] at hr ⊢
    obtain ⟨vs', e, hr⟩ := hr
    exact ⟨vs', e, repTop_same hs hr⟩
  | (k, .ps s) :: rest, vs, hr => by
    rw [RepTop] at hr ⊢
    obtain ⟨a, vs', e, h1, hr⟩ := hr
    exact ⟨a, vs', e, repPS_same hs h1, repTop_same hs hr⟩

/-- The attributes of all objects agree with the items, apart from the names given. -/
theorem agree_inv {rf : Obj → List Addr} (hi : Inv B N W rf h₀ h) (ha : Agree B N h₀) : Agree B N h := by
  intro x o ho
  by_cases hx : x < h₀.length
  · have h1 : h₀[x]? = some h₀[x] := List.getElem?_eq_getElem hx
    obtain ⟨o', h2, h3⟩ := allSame_of hi.old x _ h1
    rw [ho] at h2; cases h2
    exact sameData_agree h3 (ha x _ h1)
  · exact (hi.new x o (Nat.le_of_not_lt hx) ho).1

theorem history_agree {ps : List Proposer} {h h' : Heap} (hh : History ps h h')
    (ha : Agree (valueNames ps) (noiseNames ps) h) : Agree (valueNames ps) (noiseNames ps) h' := by
  induction hh with
  | refl => exact ha
  | propose p fuel a t hp _ ih => exact agree_inv (proposer_inv hp fuel a t _) ih
  | copy fuel a keep t _ ih =>
    exact agree_inv ((copyState_hold (W := ∅) refsOk_refs0 (fun _ => rfl) fuel a keep).heap (Inv.refl _) t) ih
  | initial s t _ ih => exact agree_inv ((storeState_hold (W := ∅) s).heap (Inv.refl _) t) ih
  | other a o o' _ ho hs ih =>
    intro x ox hx
    by_cases he : a = x
    · subst he
      rw [List.getElem?_set_self (lt_of_get ho)] at hx
      cases hx
      exact sameData_agree hs (ih a o ho)
    · rw [List.getElem?_set_ne he] at hx
      exact ih x ox hx

end BB.Lemmas
