import Mathlib.Data.Set.Lattice
import Mathlib.Tactic.Tauto
import Verif.Spec.Heap
import Verif.Lemmas.Dict

/-!
# Representation of values by objects: what preserves it
-/

namespace BB.Lemmas

open BB BB.Spec BB.HM

/-- Equal except for the cached k-d tree. -/
inductive UpToKd : Obj → Obj → Prop
  | refl (o : Obj) : UpToKd o o
  | kd (n : ℕ) (vs attrs : List (String × Addr)) (kd kd' : Option (List (ℝ × ℝ))) :
      UpToKd (.ps n vs attrs kd) (.ps n vs attrs kd')

theorem UpToKd.trans {a b c : Obj} (h : UpToKd a b) (h' : UpToKd b c) : UpToKd a c := by
  cases h with
  | refl => exact h'
  | kd n vs attrs kd kd' => cases h' <;> exact .kd ..

/-- The objects in `F` are the same up to the cached trees. -/
def Keep (F : Set Addr) (h h' : Heap) : Prop :=
  ∀ a ∈ F, ∀ o : Obj, h[a]? = some o → ∃ o', h'[a]? = some o' ∧ UpToKd o o'

theorem Keep.mono {F G : Set Addr} {h h' : Heap} (hk : Keep G h h') (hs : F ⊆ G) : Keep F h h' :=
  fun a ha => hk a (hs ha)

theorem Keep.trans {F : Set Addr} {h₁ h₂ h₃ : Heap} (h : Keep F h₁ h₂) (h' : Keep F h₂ h₃) :
    Keep F h₁ h₃ := by
  intro a ha o ho
  obtain ⟨o', ho', hu⟩ := h a ha o ho
  obtain ⟨o'', ho'', hu'⟩ := h' a ha o' ho'
  exact ⟨o'', ho'', hu.trans hu'⟩

theorem Keep.arr {F : Set Addr} {h h' : Heap} (hk : Keep F h h') {a : Addr} (ha : a ∈ F) {x : Arr}
    (ho : h[a]? = some (.arr x)) : h'[a]? = some (.arr x) := by
  obtain ⟨o', ho', hu⟩ := hk a ha _ ho; cases hu; exact ho'

theorem Keep.list {F : Set Addr} {h h' : Heap} (hk : Keep F h h') {a : Addr} (ha : a ∈ F) {l : List Addr}
    (ho : h[a]? = some (.list l)) : h'[a]? = some (.list l) := by
  obtain ⟨o', ho', hu⟩ := hk a ha _ ho; cases hu; exact ho'

theorem Keep.objs {F : Set Addr} {h h' : Heap} (hk : Keep F h h') {a : Addr} (ha : a ∈ F) {l : List Addr}
    (ho : h[a]? = some (.objs l)) : h'[a]? = some (.objs l) := by
  obtain ⟨o', ho', hu⟩ := hk a ha _ ho; cases hu; exact ho'

theorem Keep.state {F : Set Addr} {h h' : Heap} (hk : Keep F h h') {a : Addr} (ha : a ∈ F)
    {vs attrs temp cache extra} (ho : h[a]? = some (.state vs attrs temp cache extra)) :
    h'[a]? = some (.state vs attrs temp cache extra) := by
  obtain ⟨o', ho', hu⟩ := hk a ha _ ho; cases hu; exact ho'

theorem Keep.ps {F : Set Addr} {h h' : Heap} (hk : Keep F h h') {a : Addr} (ha : a ∈ F) {n vs attrs kd}
    (ho : h[a]? = some (.ps n vs attrs kd)) : ∃ kd', h'[a]? = some (.ps n vs attrs kd') := by
  obtain ⟨o', ho', hu⟩ := hk a ha _ ho
  cases hu with
  | refl => exact ⟨_, ho'⟩
  | kd n vs attrs kd kd' => exact ⟨_, ho'⟩

theorem prefix_get {h h' : Heap} (hp : h <+: h') {a : Addr} {o : Obj} (ha : h[a]? = some o) :
    h'[a]? = some o := by
  obtain ⟨l, rfl⟩ := hp
  have : a < h.length := (List.getElem?_eq_some_iff.1 ha).1
  rw [List.getElem?_append_left this]; exact ha

theorem keep_prefix {F : Set Addr} {h h' : Heap} (hp : h <+: h') : Keep F h h' :=
  fun _ _ _ ho => ⟨_, prefix_get hp ho, .refl _⟩

theorem keep_refl {F : Set Addr} (h : Heap) : Keep F h h := fun _ _ o ho => ⟨o, ho, .refl o⟩

/-- Another object is modified. -/
theorem keep_set {F : Set Addr} {h : Heap} {a : Addr} {o : Obj} (ha : a ∉ F) : Keep F h (h.set a o) := by
  intro b hb o' ho'
  refine ⟨o', ?_, .refl o'⟩
  rw [List.getElem?_set_ne]; exact ho'
  rintro rfl; exact ha hb

theorem set_self {h : Heap} {a : Addr} {o o' : Obj} (ha : h[a]? = some o) : (h.set a o')[a]? = some o' := by
  rw [List.getElem?_set_self]; exact (List.getElem?_eq_some_iff.1 ha).1

theorem set_ne {h : Heap} {a b : Addr} {o : Obj} (hne : a ≠ b) : (h.set a o)[b]? = h[b]? :=
  List.getElem?_set_ne hne

/-- Only the tree of a state is modified. -/
theorem keep_kd {F : Set Addr} {h : Heap} {a : Addr} {n vs attrs kd kd'}
    (ha : h[a]? = some (.ps n vs attrs kd)) : Keep F h (h.set a (.ps n vs attrs kd')) := by
  intro b _ o ho
  by_cases hb : a = b
  · subst hb
    rw [ha] at ho; cases ho
    exact ⟨_, set_self ha, .kd ..⟩
  · exact ⟨o, by rw [set_ne hb]; exact ho, .refl o⟩

mutual
theorem repPS_keep {h h' : Heap} (hk : Keep Set.univ h h') : ∀ {s : PSState} {a : Addr},
    RepPS h s a → RepPS h' s a
  | .mk n vals _, a, hr => by
    rw [RepPS] at hr ⊢
    obtain ⟨vs, attrs, kd, ho, hv⟩ := hr
    obtain ⟨kd', ho'⟩ := hk.ps (Set.mem_univ _) ho
    exact ⟨vs, attrs, kd', ho', repVals_keep hk hv⟩
theorem repVals_keep {h h' : Heap} (hk : Keep Set.univ h h') : ∀ {vals : List (String × PVal)}
    {vs : List (String × Addr)}, RepVals h vals vs → RepVals h' vals vs
  | [], _, hr => by rw [RepVals] at hr ⊢; exact hr
  | (k, v) :: rest, vs, hr => by
    rw [RepVals] at hr ⊢
    obtain ⟨b, vs', rfl, hv, hr⟩ := hr
    exact ⟨b, vs', rfl, repVal_keep hk hv, repVals_keep hk hr⟩
theorem repVal_keep {h h' : Heap} (hk : Keep Set.univ h h') : ∀ {v : PVal} {b : Addr},
    RepVal h v b → RepVal h' v b
  | .arr x, b, hr => by rw [RepVal] at hr ⊢; exact hk.arr (Set.mem_univ _) hr
  | .states l, b, hr => by
    rw [RepVal] at hr ⊢
    obtain ⟨as, ho, hl⟩ := hr
    exact ⟨as, hk.list (Set.mem_univ _) ho, repList_keep hk hl⟩
  | .objs l, b, hr => by
    rw [RepVal] at hr ⊢
    obtain ⟨as, ho, hl⟩ := hr
    exact ⟨as, hk.objs (Set.mem_univ _) ho, repList_keep hk hl⟩
theorem repList_keep {h h' : Heap} (hk : Keep Set.univ h h') : ∀ {l : List PSState} {as : List Addr},
    RepList h l as → RepList h' l as
  | [], _, hr => by rw [RepList] at hr ⊢; exact hr
  | s :: l, as, hr => by
    rw [RepList] at hr ⊢
    obtain ⟨a, as', rfl, hs, hl⟩ := hr
    exact ⟨a, as', rfl, repPS_keep hk hs, repList_keep hk hl⟩
end

theorem repTop_keep {h h' : Heap} (hk : Keep Set.univ h h') : ∀ {p : Params} {vs : List (String × TRef)},
    RepTop h p vs → RepTop h' p vs
  | [], _, hr => hr
  | (k, .noise d) :: rest, vs, hr => by
    obtain ⟨vs', rfl, hr⟩ := hr
    exact ⟨vs', rfl, repTop_keep hk hr⟩
  | (k, .ps s) :: rest, vs, hr => by
    obtain ⟨a, vs', rfl, hs, hr⟩ := hr
    exact ⟨a, vs', rfl, repPS_keep hk hs, repTop_keep hk hr⟩

theorem repState_keep {h h' : Heap} (hk : Keep Set.univ h h') {s : State} {a : Addr} (hr : RepState h s a) :
    RepState h' s a := by
  obtain ⟨vs, attrs, ho, hv⟩ := hr
  exact ⟨vs, attrs, hk.state (Set.mem_univ _) ho, repTop_keep hk hv⟩

mutual
theorem ownPS_rep {G : Set Addr} {h : Heap} : ∀ {s : PSState} {a : Addr} {F : Set Addr}, OwnPS G h s a F → RepPS h s a
  | .mk n vals _, a, F, hr => by
    rw [OwnPS] at hr; rw [RepPS]
    obtain ⟨vs, attrs, kd, F', ho, hv, _⟩ := hr
    exact ⟨vs, attrs, kd, ho, ownVals_rep hv⟩
theorem ownVals_rep {G : Set Addr} {h : Heap} : ∀ {vals : List (String × PVal)} {vs : List (String × Addr)}
    {F : Set Addr}, OwnVals G h vals vs F → RepVals h vals vs
  | [], _, _, hr => by rw [OwnVals] at hr; rw [RepVals]; exact hr
  | (k, v) :: rest, vs, F, hr => by
    rw [OwnVals] at hr; rw [RepVals]
    obtain ⟨b, vs', F₁, F₂, rfl, hv, hr, _⟩ := hr
    exact ⟨b, vs', rfl, ownVal_rep hv, ownVals_rep hr⟩
theorem ownVal_rep {G : Set Addr} {h : Heap} : ∀ {v : PVal} {b : Addr} {F : Set Addr}, OwnVal G h v b F → RepVal h v b
  | .arr x, b, F, hr => by rw [OwnVal] at hr; rw [RepVal]; exact hr.1
  | .states l, b, F, hr => by
    rw [OwnVal] at hr; rw [RepVal]
    obtain ⟨as, F', ho, hl, _⟩ := hr
    exact ⟨as, ho, ownList_rep hl⟩
  | .objs l, b, F, hr => by
    rw [OwnVal] at hr; rw [RepVal]
    obtain ⟨as, F', ho, hl, _⟩ := hr
    refine ⟨as, ho, ?_⟩
    rcases hl with hl | hl
    · exact ownList_rep hl
    · exact hl h fun a _ o ho => .inl ho
theorem ownList_rep {G : Set Addr} {h : Heap} : ∀ {l : List PSState} {as : List Addr} {F : Set Addr},
    OwnList G h l as F → RepList h l as
  | [], _, _, hr => by rw [OwnList] at hr; rw [RepList]; exact hr
  | s :: l, as, F, hr => by
    rw [OwnList] at hr; rw [RepList]
    obtain ⟨a, as', F₁, F₂, rfl, hs, hl, _⟩ := hr
    exact ⟨a, as', rfl, ownPS_rep hs, ownList_rep hl⟩
end

theorem ownTop_rep {G : Set Addr} {h : Heap} : ∀ {p : Params} {vs : List (String × TRef)} {F : Set Addr},
    OwnTop G h p vs F → RepTop h p vs
  | [], _, _, hr => hr
  | (k, .noise d) :: rest, vs, F, hr => by
    obtain ⟨vs', rfl, hr⟩ := hr
    exact ⟨vs', rfl, ownTop_rep hr⟩
  | (k, .ps s) :: rest, vs, F, hr => by
    obtain ⟨a, vs', F₁, F₂, rfl, hs, hr, _⟩ := hr
    exact ⟨a, vs', rfl, ownPS_rep hs, ownTop_rep hr⟩

theorem stable_keep {G : Set Addr} {h h' : Heap} (hG : Keep G h h') {l : List PSState} {as : List Addr}
    (hs : Stable G h l as) : Stable G h' l as := by
  intro h'' hk
  refine hs h'' ?_
  intro a ha o ho
  obtain ⟨o', ho', hu⟩ := hG a ha o ho
  have := hk a ha o' ho'
  cases hu with
  | refl => exact this
  | kd n vs attrs kd kd' =>
    right
    rcases this with h1 | ⟨n', vs', attrs', kd₁, kd₂, h1, h2⟩
    · exact ⟨_, _, _, _, _, rfl, h1⟩
    · cases h1; exact ⟨_, _, _, _, _, rfl, h2⟩

theorem stable_of_rep {h : Heap} {l : List PSState} {as : List Addr} (hr : RepList h l as) :
    Stable {x | x < h.length} h l as := by
  intro h' hk
  refine repList_keep ?_ hr
  intro a _ o ho
  rcases hk a (List.getElem?_eq_some_iff.1 ho).1 o ho with h1 | ⟨n, vs, attrs, kd, kd', rfl, h1⟩
  · exact ⟨o, h1, .refl o⟩
  · exact ⟨_, h1, .kd ..⟩

mutual
theorem ownPS_keep {G : Set Addr} {h h' : Heap} (hG : Keep G h h') : ∀ {s : PSState} {a : Addr} {F : Set Addr}, Keep F h h' →
    OwnPS G h s a F → OwnPS G h' s a F
  | .mk n vals _, a, F, hk, hr => by
    rw [OwnPS] at hr ⊢
    obtain ⟨vs, attrs, kd, F', ho, hv, hn, ha, hs⟩ := hr
    obtain ⟨kd', ho'⟩ := hk.ps ha ho
    exact ⟨vs, attrs, kd', F', ho', ownVals_keep hG (hk.mono hs) hv, hn, ha, hs⟩
theorem ownVals_keep {G : Set Addr} {h h' : Heap} (hG : Keep G h h') : ∀ {vals : List (String × PVal)} {vs : List (String × Addr)}
    {F : Set Addr}, Keep F h h' → OwnVals G h vals vs F → OwnVals G h' vals vs F
  | [], _, _, _, hr => by rw [OwnVals] at hr ⊢; exact hr
  | (k, v) :: rest, vs, F, hk, hr => by
    rw [OwnVals] at hr ⊢
    obtain ⟨b, vs', F₁, F₂, rfl, hv, hr, hd, h1, h2⟩ := hr
    exact ⟨b, vs', F₁, F₂, rfl, ownVal_keep hG (hk.mono h1) hv, ownVals_keep hG (hk.mono h2) hr, hd, h1, h2⟩
theorem ownVal_keep {G : Set Addr} {h h' : Heap} (hG : Keep G h h') : ∀ {v : PVal} {b : Addr} {F : Set Addr}, Keep F h h' →
    OwnVal G h v b F → OwnVal G h' v b F
  | .arr x, b, F, hk, hr => by rw [OwnVal] at hr ⊢; exact ⟨hk.arr hr.2 hr.1, hr.2⟩
  | .states l, b, F, hk, hr => by
    rw [OwnVal] at hr ⊢
    obtain ⟨as, F', ho, hl, hn, hb, hs⟩ := hr
    exact ⟨as, F', hk.list hb ho, ownList_keep hG (hk.mono hs) hl, hn, hb, hs⟩
  | .objs l, b, F, hk, hr => by
    rw [OwnVal] at hr ⊢
    obtain ⟨as, F', ho, hl, hn, hb, hs⟩ := hr
    refine ⟨as, F', hk.objs hb ho, ?_, hn, hb, hs⟩
    rcases hl with hl | hl
    · exact .inl (ownList_keep hG (hk.mono hs) hl)
    · exact .inr (stable_keep hG hl)
theorem ownList_keep {G : Set Addr} {h h' : Heap} (hG : Keep G h h') : ∀ {l : List PSState} {as : List Addr} {F : Set Addr}, Keep F h h' →
    OwnList G h l as F → OwnList G h' l as F
  | [], _, _, _, hr => by rw [OwnList] at hr ⊢; exact hr
  | s :: l, as, F, hk, hr => by
    rw [OwnList] at hr ⊢
    obtain ⟨a, as', F₁, F₂, rfl, hs, hl, hd, h1, h2⟩ := hr
    exact ⟨a, as', F₁, F₂, rfl, ownPS_keep hG (hk.mono h1) hs, ownList_keep hG (hk.mono h2) hl, hd, h1, h2⟩
end

theorem ownTop_keep {G : Set Addr} {h h' : Heap} (hG : Keep G h h') : ∀ {p : Params} {vs : List (String × TRef)} {F : Set Addr},
    Keep F h h' → OwnTop G h p vs F → OwnTop G h' p vs F
  | [], _, _, _, hr => hr
  | (k, .noise d) :: rest, vs, F, hk, hr => by
    obtain ⟨vs', rfl, hr⟩ := hr
    exact ⟨vs', rfl, ownTop_keep hG hk hr⟩
  | (k, .ps s) :: rest, vs, F, hk, hr => by
    obtain ⟨a, vs', F₁, F₂, rfl, hs, hr, hd, h1, h2⟩ := hr
    exact ⟨a, vs', F₁, F₂, rfl, ownPS_keep hG (hk.mono h1) hs, ownTop_keep hG (hk.mono h2) hr, hd, h1, h2⟩

theorem ownPS_mono {G : Set Addr} {h : Heap} : ∀ {s : PSState} {a : Addr} {F F₀ : Set Addr}, OwnPS G h s a F → F ⊆ F₀ →
    OwnPS G h s a F₀
  | .mk n vals _, a, F, F₀, hr, hs => by
    rw [OwnPS] at hr ⊢
    obtain ⟨vs, attrs, kd, F', ho, hv, hn, ha, hs'⟩ := hr
    exact ⟨vs, attrs, kd, F', ho, hv, hn, hs ha, hs'.trans hs⟩

theorem ownVals_mono {G : Set Addr} {h : Heap} : ∀ {vals : List (String × PVal)} {vs : List (String × Addr)}
    {F F₀ : Set Addr}, OwnVals G h vals vs F → F ⊆ F₀ → OwnVals G h vals vs F₀
  | [], _, _, _, hr, _ => by rw [OwnVals] at hr ⊢; exact hr
  | (k, v) :: rest, vs, F, F₀, hr, hs => by
    rw [OwnVals] at hr ⊢
    obtain ⟨b, vs', F₁, F₂, rfl, hv, hr, hd, h1, h2⟩ := hr
    exact ⟨b, vs', F₁, F₂, rfl, hv, hr, hd, h1.trans hs, h2.trans hs⟩

theorem ownVal_mono {G : Set Addr} {h : Heap} : ∀ {v : PVal} {b : Addr} {F F₀ : Set Addr}, OwnVal G h v b F → F ⊆ F₀ →
    OwnVal G h v b F₀
  | .arr x, b, F, F₀, hr, hs => by rw [OwnVal] at hr ⊢; exact ⟨hr.1, hs hr.2⟩
  | .states l, b, F, F₀, hr, hs => by
    rw [OwnVal] at hr ⊢
    obtain ⟨as, F', ho, hl, hn, hb, hs'⟩ := hr
    exact ⟨as, F', ho, hl, hn, hs hb, hs'.trans hs⟩
  | .objs l, b, F, F₀, hr, hs => by
    rw [OwnVal] at hr ⊢
    obtain ⟨as, F', ho, hl, hn, hb, hs'⟩ := hr
    exact ⟨as, F', ho, hl, hn, hs hb, hs'.trans hs⟩

theorem ownList_mono {G : Set Addr} {h : Heap} : ∀ {l : List PSState} {as : List Addr} {F F₀ : Set Addr},
    OwnList G h l as F → F ⊆ F₀ → OwnList G h l as F₀
  | [], _, _, _, hr, _ => by rw [OwnList] at hr ⊢; exact hr
  | s :: l, as, F, F₀, hr, hs => by
    rw [OwnList] at hr ⊢
    obtain ⟨a, as', F₁, F₂, rfl, hp, hl, hd, h1, h2⟩ := hr
    exact ⟨a, as', F₁, F₂, rfl, hp, hl, hd, h1.trans hs, h2.trans hs⟩

theorem ownTop_mono {G : Set Addr} {h : Heap} : ∀ {p : Params} {vs : List (String × TRef)} {F F₀ : Set Addr},
    OwnTop G h p vs F → F ⊆ F₀ → OwnTop G h p vs F₀
  | [], _, _, _, hr, _ => hr
  | (k, .noise d) :: rest, vs, F, F₀, hr, hs => by
    obtain ⟨vs', rfl, hr⟩ := hr
    exact ⟨vs', rfl, ownTop_mono hr hs⟩
  | (k, .ps s) :: rest, vs, F, F₀, hr, hs => by
    obtain ⟨a, vs', F₁, F₂, rfl, hp, hr, hd, h1, h2⟩ := hr
    exact ⟨a, vs', F₁, F₂, rfl, hp, hr, hd, h1.trans hs, h2.trans hs⟩

/-! ### the roots of what is owned -/

theorem ownPS_mem {G : Set Addr} {h : Heap} : ∀ {s : PSState} {a : Addr} {F : Set Addr}, OwnPS G h s a F →
    a ∈ F
  | .mk n vals _, a, F, hr => by
    rw [OwnPS] at hr
    obtain ⟨vs, attrs, kd, F', ho, hv, hn, ha, hs⟩ := hr
    exact ha

theorem ownVal_mem {G : Set Addr} {h : Heap} {v : PVal} {b : Addr} {F : Set Addr} (hr : OwnVal G h v b F) :
    b ∈ F := by
  cases v with
  | arr x => rw [OwnVal] at hr; exact hr.2
  | states l => rw [OwnVal] at hr; obtain ⟨as, F', ho, hl, hn, hb, hs⟩ := hr; exact hb
  | objs l => rw [OwnVal] at hr; obtain ⟨as, F', ho, hl, hn, hb, hs⟩ := hr; exact hb

theorem ownVals_since {G : Set Addr} {h : Heap} : ∀ {vals : List (String × PVal)}
    {vs : List (String × Addr)} {F : Set Addr}, OwnVals G h vals vs F → ∀ kb ∈ vs, kb.2 ∈ F
  | [], vs, F, hr, kb, hb => by rw [OwnVals] at hr; subst hr; simp at hb
  | (k, v) :: rest, vs, F, hr, kb, hb => by
    rw [OwnVals] at hr
    obtain ⟨b, vs', F₁, F₂, rfl, hv, hr, hd, h1, h2⟩ := hr
    rcases List.mem_cons.1 hb with rfl | hb
    · exact h1 (ownVal_mem hv)
    · exact h2 (ownVals_since hr kb hb)

theorem ownList_since {G : Set Addr} {h : Heap} : ∀ {l : List PSState} {as : List Addr} {F : Set Addr},
    OwnList G h l as F → ∀ b ∈ as, b ∈ F
  | [], as, F, hr, b, hb => by rw [OwnList] at hr; subst hr; simp at hb
  | s :: l, as, F, hr, b, hb => by
    rw [OwnList] at hr
    obtain ⟨a, as', F₁, F₂, rfl, hs, hl, hd, h1, h2⟩ := hr
    rcases List.mem_cons.1 hb with rfl | hb
    · exact h1 (ownPS_mem hs)
    · exact h2 (ownList_since hl b hb)

/-! ### look-up -/

/-- The value found under a key, if any. -/
def OptRep (h : Heap) : Option PVal → Option Addr → Prop
  | none, none => True
  | some v, some b => RepVal h v b
  | _, _ => False

theorem repVals_get {h : Heap} (k : String) : ∀ {vals : List (String × PVal)} {vs : List (String × Addr)},
    RepVals h vals vs → OptRep h (dget vals k) (dget vs k)
  | [], vs, hr => by rw [RepVals] at hr; subst hr; trivial
  | (k', v) :: rest, vs, hr => by
    rw [RepVals] at hr
    obtain ⟨b, vs', rfl, hv, hr⟩ := hr
    by_cases hk : k' = k
    · simp only [dget, hk, if_true]; exact hv
    · simp only [dget, hk, if_false]; exact repVals_get k hr

theorem repVals_keys {h : Heap} : ∀ {vals : List (String × PVal)} {vs : List (String × Addr)},
    RepVals h vals vs → vs.map (·.1) = vals.map (·.1)
  | [], vs, hr => by rw [RepVals] at hr; subst hr; rfl
  | (k', v) :: rest, vs, hr => by
    rw [RepVals] at hr
    obtain ⟨b, vs', rfl, hv, hr⟩ := hr
    simp [repVals_keys hr]

theorem repVals_dset {h : Heap} (k : String) {v : PVal} {b : Addr} (hv : RepVal h v b) :
    ∀ {vals : List (String × PVal)} {vs : List (String × Addr)},
    RepVals h vals vs → RepVals h (dset vals k v) (dset vs k b)
  | [], vs, hr => by
    rw [RepVals] at hr; subst hr
    rw [dset, dset, RepVals]; exact ⟨b, [], rfl, hv, by rw [RepVals]⟩
  | (k', v') :: rest, vs, hr => by
    rw [RepVals] at hr
    obtain ⟨b', vs', rfl, hv', hr⟩ := hr
    by_cases hk : k' = k
    · simp only [dset, hk, if_true]
      rw [RepVals]; exact ⟨b, vs', rfl, hv, hr⟩
    · simp only [dset, hk, if_false]
      rw [RepVals]; exact ⟨b', _, rfl, hv', repVals_dset k hv hr⟩

theorem repVals_dupdate {h : Heap} : ∀ {new : List (String × PVal)} {new' : List (String × Addr)}
    {vals : List (String × PVal)} {vs : List (String × Addr)}, RepVals h vals vs → RepVals h new new' →
    RepVals h (dupdate vals new) (dupdate vs new')
  | [], new', vals, vs, hr, hn => by rw [RepVals] at hn; subst hn; exact hr
  | (k, v) :: rest, new', vals, vs, hr, hn => by
    rw [RepVals] at hn
    obtain ⟨b, vs', rfl, hv, hn⟩ := hn
    have := repVals_dupdate (repVals_dset k hv hr) hn
    exact this

theorem repList_get {h : Heap} : ∀ {l : List PSState} {as : List Addr}, RepList h l as → ∀ i : ℕ,
    (l[i]? = none ∧ as[i]? = none) ∨ ∃ s a, l[i]? = some s ∧ as[i]? = some a ∧ RepPS h s a
  | [], as, hr, i => by rw [RepList] at hr; subst hr; left; simp
  | s :: l, as, hr, i => by
    rw [RepList] at hr
    obtain ⟨a, as', rfl, hs, hl⟩ := hr
    cases i with
    | zero => right; exact ⟨s, a, rfl, rfl, hs⟩
    | succ i => simpa using repList_get hl i

theorem repList_length {h : Heap} : ∀ {l : List PSState} {as : List Addr}, RepList h l as →
    as.length = l.length
  | [], as, hr => by rw [RepList] at hr; subst hr; rfl
  | s :: l, as, hr => by
    rw [RepList] at hr
    obtain ⟨a, as', rfl, hs, hl⟩ := hr
    simp [repList_length hl]

theorem repList_append {h : Heap} : ∀ {l l' : List PSState} {as as' : List Addr}, RepList h l as →
    RepList h l' as' → RepList h (l ++ l') (as ++ as')
  | [], l', as, as', hr, hr' => by rw [RepList] at hr; subst hr; exact hr'
  | s :: l, l', as, as', hr, hr' => by
    rw [RepList] at hr
    obtain ⟨a, as₁, rfl, hs, hl⟩ := hr
    rw [List.cons_append, RepList]
    exact ⟨a, as₁ ++ as', rfl, hs, repList_append hl hr'⟩

theorem repList_take {h : Heap} : ∀ (i : ℕ) {l : List PSState} {as : List Addr}, RepList h l as →
    RepList h (l.take i) (as.take i)
  | 0, l, as, _ => by simp [RepList]
  | i + 1, [], as, hr => by rw [RepList] at hr; subst hr; simp [RepList]
  | i + 1, s :: l, as, hr => by
    rw [RepList] at hr
    obtain ⟨a, as₁, rfl, hs, hl⟩ := hr
    rw [List.take_succ_cons, List.take_succ_cons, RepList]
    exact ⟨a, _, rfl, hs, repList_take i hl⟩

theorem repList_drop {h : Heap} : ∀ (i : ℕ) {l : List PSState} {as : List Addr}, RepList h l as →
    RepList h (l.drop i) (as.drop i)
  | 0, l, as, hr => hr
  | i + 1, [], as, hr => by rw [RepList] at hr; subst hr; simp [RepList]
  | i + 1, s :: l, as, hr => by
    rw [RepList] at hr
    obtain ⟨a, as₁, rfl, hs, hl⟩ := hr
    exact repList_drop i hl

end BB.Lemmas
