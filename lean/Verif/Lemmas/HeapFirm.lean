import Verif.Lemmas.HeapValues

/-!
# What objects outside a given set represent, and new values from old ones
-/

namespace BB.Lemmas

open BB BB.Spec BB.HM

/-- `P` holds and goes on to hold whatever happens to the objects in `F` (and to the cached trees). -/
def Firm (F : Set Addr) (h : Heap) (P : Heap → Prop) : Prop := ∀ h', Keep Fᶜ h h' → P h'

theorem Firm.here {F : Set Addr} {h : Heap} {P : Heap → Prop} (hf : Firm F h P) : P h := hf h (keep_refl h)

theorem Firm.keep {F : Set Addr} {h h' : Heap} {P : Heap → Prop} (hf : Firm F h P) (hk : Keep Fᶜ h h') :
    Firm F h' P := fun h'' hk' => hf h'' (hk.trans hk')

theorem Firm.keep' {F : Set Addr} {h h' : Heap} {P : Heap → Prop} (hf : Firm F h P)
    (hk : Keep Set.univ h h') : Firm F h' P := hf.keep (hk.mono (Set.subset_univ _))

theorem Firm.imp {F : Set Addr} {h : Heap} {P Q : Heap → Prop} (hf : Firm F h P) (hi : ∀ h', P h' → Q h') :
    Firm F h Q := fun h' hk => hi h' (hf h' hk)

theorem Firm.and {F : Set Addr} {h : Heap} {P Q : Heap → Prop} (hf : Firm F h P) (hg : Firm F h Q) :
    Firm F h (fun h' => P h' ∧ Q h') := fun h' hk => ⟨hf h' hk, hg h' hk⟩

theorem Firm.pure {F : Set Addr} {h : Heap} {P : Heap → Prop} (hp : ∀ h', P h') : Firm F h P :=
  fun h' _ => hp h'

/-- The set `F` consists of objects made after `h₀`; nothing of `h₀` has been modified. -/
structure Ctx (h₀ : Heap) (F : Set Addr) (h : Heap) : Prop where
  keep : Keep Set.univ h₀ h
  new : ∀ x ∈ F, h₀.length ≤ x
  old : ∀ x ∈ F, x < h.length

theorem Ctx.firm {h₀ h : Heap} {F : Set Addr} (c : Ctx h₀ F h) {P : Heap → Prop}
    (hp : ∀ h', Keep Set.univ h₀ h' → P h') : Firm F h P := by
  intro h' hk
  refine hp h' ?_
  intro a _ o ho
  obtain ⟨o₁, ho₁, hu⟩ := c.keep a (Set.mem_univ _) o ho
  have : a ∉ F := fun hf => absurd (lt_of_get ho) (not_lt.2 (c.new a hf))
  obtain ⟨o₂, ho₂, hu'⟩ := hk a this o₁ ho₁
  exact ⟨o₂, ho₂, hu.trans hu'⟩

theorem Ctx.step {h₀ h h' : Heap} {F : Set Addr} (c : Ctx h₀ F h) (hk : Keep Set.univ h h') : Ctx h₀ F h' :=
  ⟨c.keep.trans hk, c.new, fun x hx => lt_of_lt_of_le (c.old x hx) (keep_length hk)⟩

theorem Ctx.snoc {h₀ h : Heap} {F : Set Addr} (c : Ctx h₀ F h) (o : Obj) : Ctx h₀ F (h ++ [o]) :=
  c.step (keep_prefix (prefix_snoc o))

theorem Ctx.repPS {h₀ h : Heap} {F : Set Addr} (c : Ctx h₀ F h) {s : PSState} {a : Addr}
    (hr : RepPS h₀ s a) : Firm F h (RepPS · s a) := c.firm fun _ hk => repPS_keep hk hr

/-- A new object. -/
theorem firm_alloc {h₀ h : Heap} {F : Set Addr} (c : Ctx h₀ F h) (o : Obj) {P : Heap → Prop}
    (hp : ∀ h' o', Keep Fᶜ h h' → h'[h.length]? = some o' → UpToKd o o' → P h') : Firm F (h ++ [o]) P := by
  intro h' hk
  have hn : h.length ∉ F := fun hf => absurd (c.old _ hf) (lt_irrefl _)
  obtain ⟨o', ho', hu⟩ := hk h.length hn o (get_snoc o)
  exact hp h' o' ((keep_prefix (prefix_snoc o)).trans hk) ho' hu

theorem firm_list {F : Set Addr} {h : Heap} {l : List PSState} {b : Addr} (hf : Firm F h (RepVal · (.states l) b)) :
    ∃ as, h[b]? = some (.list as) ∧ Firm F h (RepList · l as) := by
  have h1 := hf.here
  simp only [RepVal] at h1
  obtain ⟨as, ho, _⟩ := h1
  refine ⟨as, ho, fun h' hk => ?_⟩
  by_cases hb : b ∈ F
  · have := hf (h.set b (.arr (.vec []))) (keep_set fun hn => hn hb)
    simp only [RepVal] at this
    obtain ⟨as', ho', _⟩ := this
    rw [set_self ho] at ho'; cases ho'
  · have := hf h' hk
    simp only [RepVal] at this
    obtain ⟨as', ho', hl⟩ := this
    rw [hk.list hb ho] at ho'; cases ho'
    exact hl

theorem firm_objs {F : Set Addr} {h : Heap} {l : List PSState} {b : Addr} (hf : Firm F h (RepVal · (.objs l) b)) :
    ∃ as, h[b]? = some (.objs as) ∧ Firm F h (RepList · l as) := by
  have h1 := hf.here
  simp only [RepVal] at h1
  obtain ⟨as, ho, _⟩ := h1
  refine ⟨as, ho, fun h' hk => ?_⟩
  by_cases hb : b ∈ F
  · have := hf (h.set b (.arr (.vec []))) (keep_set fun hn => hn hb)
    simp only [RepVal] at this
    obtain ⟨as', ho', _⟩ := this
    rw [set_self ho] at ho'; cases ho'
  · have := hf h' hk
    simp only [RepVal] at this
    obtain ⟨as', ho', hl⟩ := this
    rw [hk.objs hb ho] at ho'; cases ho'
    exact hl

theorem firm_ps {F : Set Addr} {h : Heap} {n : ℕ} {vals : List (String × PVal)} {kd₀} {a : Addr}
    (hf : Firm F h (RepPS · (.mk n vals kd₀) a)) :
    ∃ vs attrs kd, h[a]? = some (.ps n vs attrs kd) ∧ Firm F h (RepVals · vals vs) := by
  have h1 := hf.here
  simp only [RepPS] at h1
  obtain ⟨vs, attrs, kd, ho, _⟩ := h1
  refine ⟨vs, attrs, kd, ho, fun h' hk => ?_⟩
  by_cases hb : a ∈ F
  · have := hf (h.set a (.arr (.vec []))) (keep_set fun hn => hn hb)
    simp only [RepPS] at this
    obtain ⟨vs', attrs', kd', ho', _⟩ := this
    rw [set_self ho] at ho'; cases ho'
  · have := hf h' hk
    simp only [RepPS] at this
    obtain ⟨vs', attrs', kd', ho', hl⟩ := this
    obtain ⟨kd'', h2⟩ := hk.ps hb ho
    rw [h2] at ho'; cases ho'
    exact hl

theorem firm_vals_cons {F : Set Addr} {h : Heap} {k : String} {v : PVal} {rest : List (String × PVal)}
    {vs : List (String × Addr)} (hf : Firm F h (RepVals · ((k, v) :: rest) vs)) :
    ∃ b vs', vs = (k, b) :: vs' ∧ Firm F h (RepVal · v b) ∧ Firm F h (RepVals · rest vs') := by
  have h1 := hf.here
  simp only [RepVals] at h1
  obtain ⟨b, vs', rfl, _, _⟩ := h1
  refine ⟨b, vs', rfl, fun h' hk => ?_, fun h' hk => ?_⟩
  all_goals
    have := hf h' hk
    simp only [RepVals] at this
    obtain ⟨b', vs'', he, h1, h2⟩ := this
    cases he
    assumption

theorem firm_vals_nil {F : Set Addr} {h : Heap} {vs : List (String × Addr)} (hf : Firm F h (RepVals · [] vs)) :
    vs = [] := by
  have h1 := hf.here
  simpa only [RepVals] using h1

theorem firm_cons {F : Set Addr} {h : Heap} {k : String} {v : PVal} {rest : List (String × PVal)} {b : Addr}
    {vs : List (String × Addr)} (hv : Firm F h (RepVal · v b)) (hr : Firm F h (RepVals · rest vs)) :
    Firm F h (RepVals · ((k, v) :: rest) ((k, b) :: vs)) := by
  intro h' hk
  rw [RepVals]
  exact ⟨b, vs, rfl, hv h' hk, hr h' hk⟩

theorem firm_list_cons {F : Set Addr} {h : Heap} {s : PSState} {l : List PSState} {as : List Addr}
    (hf : Firm F h (RepList · (s :: l) as)) :
    ∃ a as', as = a :: as' ∧ Firm F h (RepPS · s a) ∧ Firm F h (RepList · l as') := by
  have h1 := hf.here
  simp only [RepList] at h1
  obtain ⟨b, vs', rfl, _, _⟩ := h1
  refine ⟨b, vs', rfl, fun h' hk => ?_, fun h' hk => ?_⟩
  all_goals
    have := hf h' hk
    simp only [RepList] at this
    obtain ⟨b', vs'', he, h1, h2⟩ := this
    cases he
    assumption

/-- What is read from a represented state. -/
theorem firm_get {F : Set Addr} {h : Heap} {s : PSState} {a : Addr} (hr : Firm F h (RepPS · s a)) (k : String) :
    ∃ v, Firm F h (OptRep · (s.get k) v) ∧ ∀ {γ : Type} (f : Option Addr → HM γ), (getH a k >>= f) h = f v h := by
  obtain ⟨n, vals, kd⟩ := s
  obtain ⟨vs, attrs, kd, ho, hv⟩ := firm_ps hr
  exact ⟨dget vs k, hv.imp fun _ h => repVals_get k h, fun f => getH_bind ho k f⟩

theorem firm_opt {F : Set Addr} {h : Heap} {v : Option PVal} {b : Option Addr} (hf : Firm F h (OptRep · v b)) :
    (v = none ∧ b = none) ∨ ∃ v' b', v = some v' ∧ b = some b' ∧ Firm F h (RepVal · v' b') := by
  have h1 := hf.here
  cases v with
  | none =>
    cases b with
    | none => exact .inl ⟨rfl, rfl⟩
    | some b => exact absurd h1 not_false
  | some v =>
    cases b with
    | none => exact absurd h1 not_false
    | some b => exact .inr ⟨v, b, rfl, rfl, hf⟩

/-! ### values -/

/-- A value of the newborn dimension. -/
def RepH (h : Heap) : NVal → HVal → Prop
  | .num x, .num y => x = y
  | .ps s, .ps a => RepPS h s a
  | _, _ => False

/-- The result is an object that represents the result on values, and nothing has been modified. -/
def Made {α β : Type} (F : Set Addr) (h : Heap) (P : Heap → β → α → Prop) : Heap → α → β → Prop :=
  fun h' a b => Keep Set.univ h h' ∧ Firm F h' (P · b a)

theorem made_arr {h₀ h : Heap} {F : Set Addr} (c : Ctx h₀ F h) (x : Arr) :
    Firm F (h ++ [.arr x]) (RepVal · (.arr x) h.length) := by
  refine firm_alloc c _ fun h' o' hk ho hu => ?_
  cases hu
  rw [RepVal]; exact ho

theorem made_list {h₀ h : Heap} {F : Set Addr} (c : Ctx h₀ F h) {l : List PSState} {as : List Addr}
    (hl : Firm F h (RepList · l as)) : Firm F (h ++ [.list as]) (RepVal · (.states l) h.length) := by
  refine firm_alloc c _ fun h' o' hk ho hu => ?_
  cases hu
  rw [RepVal]; exact ⟨as, ho, hl h' hk⟩

theorem made_objs {h₀ h : Heap} {F : Set Addr} (c : Ctx h₀ F h) {l : List PSState} {as : List Addr}
    (hl : Firm F h (RepList · l as)) : Firm F (h ++ [.objs as]) (RepVal · (.objs l) h.length) := by
  refine firm_alloc c _ fun h' o' hk ho hu => ?_
  cases hu
  rw [RepVal]; exact ⟨as, ho, hl h' hk⟩

theorem Sim.alloc {α : Type} {X : Heap → Prop} {R : Heap → Addr → α → Prop} {h : Heap} {o : Obj} {b : α}
    (hr : R (h ++ [o]) h.length b) : Sim X R h (HM.alloc o) (Pure.pure b) := fun _ => ⟨rfl, hr⟩

theorem Sim.alloc_ok {α : Type} {X : Heap → Prop} {R : Heap → Addr → α → Prop} {h : Heap} {o : Obj} {b : α}
    (hr : R (h ++ [o]) h.length b) : Sim X R h (HM.alloc o) (M.lift (.ok b)) := fun _ => ⟨rfl, hr⟩

theorem repList_single {h : Heap} {s : PSState} {a : Addr} (hs : RepPS h s a) : RepList h [s] [a] := by
  rw [RepList]; exact ⟨a, [], rfl, hs, by rw [RepList]⟩

theorem repList_insert {h : Heap} {l : List PSState} {as : List Addr} (hl : RepList h l as) (i : ℕ) {s : PSState}
    {a : Addr} (hs : RepPS h s a) : RepList h (listInsert l i s) (listInsert as i a) := by
  rw [listInsert, listInsert]
  refine repList_append (repList_take i hl) ?_
  rw [RepList]
  exact ⟨a, _, rfl, hs, repList_drop i hl⟩

theorem repList_delete {h : Heap} {l : List PSState} {as : List Addr} (hl : RepList h l as) (i : ℕ) :
    RepList h (listDelete l i) (listDelete as i) :=
  repList_append (repList_take i hl) (repList_drop (i + 1) hl)

theorem repList_eraseIdx {h : Heap} {l : List PSState} {as : List Addr} (hl : RepList h l as) (i : ℕ) :
    RepList h (l.eraseIdx i) (as.eraseIdx i) := by
  rw [List.eraseIdx_eq_take_drop_succ, List.eraseIdx_eq_take_drop_succ]
  exact repList_append (repList_take i hl) (repList_drop (i + 1) hl)

theorem insertAtH_sim {h₀ h : Heap} {F : Set Addr} (c : Ctx h₀ F h) {v : Option PVal} {b : Option Addr}
    (hv : Firm F h (OptRep · v b)) (i : ℕ) {x : NVal} {y : HVal} (hx : Firm F h (RepH · x y)) :
    Sim AnyHeap (Made F h RepVal) h (insertAtH b i y) (M.lift (PVal.insertAt v i x)) := by
  rcases firm_opt hv with ⟨rfl, rfl⟩ | ⟨v, b, rfl, rfl, hv⟩
  · exact Sim.error trivial
  · rw [insertAtH]
    cases v with
    | arr z =>
      have hb : RepVal h (.arr z) b := hv.here
      rw [RepVal] at hb
      refine Sim.of_eq (read_bind hb _) ?_
      cases x with
      | num w =>
        cases y with
        | ps a => exact absurd hx.here not_false
        | num w' =>
          have hw : w = w' := hx.here
          subst hw
          cases z with
          | pts ps => exact Sim.error trivial
          | vec xs =>
            rw [PVal.insertAt, lift_bind_eq]
            refine Sim.bind (Sim.lift _ trivial) ?_
            rintro h' ys _ ⟨rfl, rfl⟩
            exact Sim.alloc_ok (b := PVal.arr (.vec ys)) ⟨keep_prefix (prefix_snoc _), made_arr c _⟩
      | ps s =>
        cases y with
        | num w => exact absurd hx.here not_false
        | ps a => cases z <;> exact Sim.error trivial
    | states l =>
      obtain ⟨as, ho, hl⟩ := firm_list hv
      refine Sim.of_eq (read_bind ho _) ?_
      cases x with
      | num w =>
        cases y with
        | ps a => exact absurd hx.here not_false
        | num w' => exact Sim.error trivial
      | ps s =>
        cases y with
        | num w => exact absurd hx.here not_false
        | ps a =>
          refine Sim.alloc_ok (b := PVal.states (listInsert l i s)) ⟨keep_prefix (prefix_snoc _), made_list c ?_⟩
          exact (hl.and hx).imp fun _ hh => repList_insert hh.1 i hh.2
    | objs l =>
      obtain ⟨as, ho, hl⟩ := firm_objs hv
      refine Sim.of_eq (read_bind ho _) ?_
      cases x with
      | num w =>
        cases y with
        | ps a => exact absurd hx.here not_false
        | num w' => exact Sim.error trivial
      | ps s =>
        cases y with
        | num w => exact absurd hx.here not_false
        | ps a => exact Sim.error trivial

theorem appendH_sim {h₀ h : Heap} {F : Set Addr} (c : Ctx h₀ F h) {v : Option PVal} {b : Option Addr}
    (hv : Firm F h (OptRep · v b)) {x : NVal} {y : HVal} (hx : Firm F h (RepH · x y)) :
    Sim AnyHeap (Made F h RepVal) h (appendH b y) (M.lift (PVal.append v x)) := by
  rcases firm_opt hv with ⟨rfl, rfl⟩ | ⟨v, b, rfl, rfl, hv⟩
  · cases x <;> exact Sim.error trivial
  · rw [appendH]
    cases v with
    | arr z =>
      have hb : RepVal h (.arr z) b := hv.here
      rw [RepVal] at hb
      refine Sim.of_eq (read_bind hb _) ?_
      cases x with
      | num w =>
        cases y with
        | ps a => exact absurd hx.here not_false
        | num w' =>
          have hw : w = w' := hx.here
          subst hw
          cases z with
          | pts ps =>
            exact Sim.alloc_ok (b := PVal.arr (.vec _)) ⟨keep_prefix (prefix_snoc _), made_arr c _⟩
          | vec xs =>
            exact Sim.alloc_ok (b := PVal.arr (.vec _)) ⟨keep_prefix (prefix_snoc _), made_arr c _⟩
      | ps s =>
        cases y with
        | num w => exact absurd hx.here not_false
        | ps a => cases z <;> exact Sim.error trivial
    | states l =>
      obtain ⟨as, ho, hl⟩ := firm_list hv
      refine Sim.of_eq (read_bind ho _) ?_
      cases x with
      | num w =>
        cases y with
        | ps a => exact absurd hx.here not_false
        | num w' => exact Sim.error trivial
      | ps s =>
        cases y with
        | num w => exact absurd hx.here not_false
        | ps a =>
          refine Sim.alloc_ok (b := PVal.states (l ++ [s])) ⟨keep_prefix (prefix_snoc _), made_list c ?_⟩
          exact (hl.and hx).imp fun _ hh => repList_append hh.1 (repList_single hh.2)
    | objs l =>
      obtain ⟨as, ho, hl⟩ := firm_objs hv
      refine Sim.of_eq (read_bind ho _) ?_
      cases x with
      | num w =>
        cases y with
        | ps a => exact absurd hx.here not_false
        | num w' => exact Sim.error trivial
      | ps s =>
        cases y with
        | num w => exact absurd hx.here not_false
        | ps a =>
          refine Sim.alloc_ok (b := PVal.objs (l ++ [s])) ⟨keep_prefix (prefix_snoc _), made_objs c ?_⟩
          exact (hl.and hx).imp fun _ hh => repList_append hh.1 (repList_single hh.2)

theorem deleteAtH_sim {h₀ h : Heap} {F : Set Addr} (c : Ctx h₀ F h) {v : PVal} {b : Addr}
    (hv : Firm F h (RepVal · v b)) (i : ℕ) :
    Sim AnyHeap (Made F h RepVal) h (deleteAtH b i) (M.lift (v.deleteAt i)) := by
  rw [deleteAtH]
  cases v with
  | arr z =>
    have hb := hv.here
    simp only [RepVal] at hb
    refine Sim.of_eq (read_bind hb _) ?_
    cases z with
    | pts ps => exact Sim.error trivial
    | vec xs =>
      rw [PVal.deleteAt, lift_bind_eq]
      refine Sim.bind (Sim.lift _ trivial) ?_
      rintro h' ys _ ⟨rfl, rfl⟩
      exact Sim.alloc_ok (b := PVal.arr (.vec ys)) ⟨keep_prefix (prefix_snoc _), made_arr c _⟩
  | states l =>
    obtain ⟨as, ho, hl⟩ := firm_list hv
    refine Sim.of_eq (read_bind ho _) ?_
    refine Sim.alloc_ok (b := PVal.states (listDelete l i)) ⟨keep_prefix (prefix_snoc _), made_list c ?_⟩
    exact hl.imp fun _ hh => repList_delete hh i
  | objs l =>
    obtain ⟨as, ho, hl⟩ := firm_objs hv
    refine Sim.of_eq (read_bind ho _) ?_
    exact Sim.error trivial

theorem npDeleteH_sim {h₀ h : Heap} {F : Set Addr} (c : Ctx h₀ F h) {v : PVal} {b : Addr}
    (hv : Firm F h (RepVal · v b)) (i : ℕ) :
    Sim AnyHeap (Made F h RepVal) h (npDeleteH b i) (M.lift (v.npDelete i)) := by
  rw [npDeleteH]
  cases v with
  | arr z =>
    have hb := hv.here
    simp only [RepVal] at hb
    refine Sim.of_eq (read_bind hb _) ?_
    cases z with
    | pts ps =>
      simp only [PVal.npDelete]
      by_cases hi : i < ps.length
      · rw [if_pos hi, if_pos hi]
        exact Sim.alloc_ok (b := PVal.arr (.pts _)) ⟨keep_prefix (prefix_snoc _), made_arr c _⟩
      · rw [if_neg hi, if_neg hi]; exact Sim.error trivial
    | vec xs =>
      simp only [PVal.npDelete]
      by_cases hi : i < xs.length
      · rw [if_pos hi, if_pos hi]
        exact Sim.alloc_ok (b := PVal.arr (.vec _)) ⟨keep_prefix (prefix_snoc _), made_arr c _⟩
      · rw [if_neg hi, if_neg hi]; exact Sim.error trivial
  | states l =>
    obtain ⟨as, ho, hl⟩ := firm_list hv
    refine Sim.of_eq (read_bind ho _) ?_
    refine Sim.alloc_ok (b := PVal.states (listDelete l i)) ⟨keep_prefix (prefix_snoc _), made_list c ?_⟩
    exact hl.imp fun _ hh => repList_delete hh i
  | objs l =>
    obtain ⟨as, ho, hl⟩ := firm_objs hv
    refine Sim.of_eq (read_bind ho _) ?_
    have hlen := repList_length hl.here
    simp only [PVal.npDelete]
    by_cases hi : i < l.length
    · have hi' : i < as.length := hlen ▸ hi
      rw [if_pos hi, if_pos hi']
      refine Sim.alloc_ok (b := PVal.objs (l.eraseIdx i)) ⟨keep_prefix (prefix_snoc _), made_objs c ?_⟩
      exact hl.imp fun _ hh => repList_eraseIdx hh i
    · have hi' : ¬ i < as.length := hlen ▸ hi
      rw [if_neg hi, if_neg hi']; exact Sim.error trivial

theorem gather_rep {h₀ : Heap} {l : List PSState} {as : List Addr} (h0 : RepList h₀ l as) : ∀ is : List ℕ,
    (∃ e, gather l is = .error e ∧ gather as is = .error e) ∨
    ∃ l' as', gather l is = .ok l' ∧ gather as is = .ok as' ∧ ∀ h, RepList h l as → RepList h l' as'
  | [] => .inr ⟨[], [], rfl, rfl, fun h _ => by rw [RepList]⟩
  | i :: is => by
    rcases repList_get h0 i with ⟨h1, h2⟩ | ⟨s, a, h1, h2, hs⟩
    · left
      exact ⟨.indexError, by rw [gather, h1], by rw [gather, h2]⟩
    · rcases gather_rep h0 is with ⟨e, h3, h4⟩ | ⟨l', as', h3, h4, hr⟩
      · left
        exact ⟨e, by rw [gather, h1]; simp only [h3]; rfl, by rw [gather, h2]; simp only [h4]; rfl⟩
      · right
        refine ⟨s :: l', a :: as', by rw [gather, h1]; simp only [h3]; rfl,
          by rw [gather, h2]; simp only [h4]; rfl, fun h hl => ?_⟩
        rw [RepList]
        rcases repList_get hl i with ⟨h5, _⟩ | ⟨s', a', h5, h6, hs'⟩
        · rw [h1] at h5; cases h5
        · rw [h1] at h5; rw [h2] at h6; cases h5; cases h6
          exact ⟨a, as', rfl, hs', hr h hl⟩

theorem gatherH_sim {h₀ h : Heap} {F : Set Addr} (c : Ctx h₀ F h) {v : PVal} {b : Addr}
    (hv : Firm F h (RepVal · v b)) (is : List ℕ) :
    Sim AnyHeap (Made F h RepVal) h (gatherH b is) (M.lift (v.gather is)) := by
  rw [gatherH]
  cases v with
  | arr z =>
    have hb := hv.here
    simp only [RepVal] at hb
    refine Sim.of_eq (read_bind hb _) ?_
    cases z with
    | pts ps =>
      rw [PVal.gather, lift_bind_eq]
      refine Sim.bind (Sim.lift _ trivial) ?_
      rintro h' ys _ ⟨rfl, rfl⟩
      exact Sim.alloc_ok (b := PVal.arr (.pts ys)) ⟨keep_prefix (prefix_snoc _), made_arr c _⟩
    | vec xs =>
      rw [PVal.gather, lift_bind_eq]
      refine Sim.bind (Sim.lift _ trivial) ?_
      rintro h' ys _ ⟨rfl, rfl⟩
      exact Sim.alloc_ok (b := PVal.arr (.vec ys)) ⟨keep_prefix (prefix_snoc _), made_arr c _⟩
  | states l =>
    obtain ⟨as, ho, hl⟩ := firm_list hv
    refine Sim.of_eq (read_bind ho _) ?_
    rw [PVal.gather]
    rcases gather_rep hl.here is with ⟨e, h3, h4⟩ | ⟨l', as', h3, h4, hr⟩
    · simp only [h3, h4]; exact fun _ => ⟨⟨rfl, rfl⟩, trivial⟩
    · simp only [h3, h4]
      exact fun _ => ⟨rfl, keep_prefix (prefix_snoc _), made_list c (hl.imp hr)⟩
  | objs l =>
    obtain ⟨as, ho, hl⟩ := firm_objs hv
    refine Sim.of_eq (read_bind ho _) ?_
    rw [PVal.gather]
    rcases gather_rep hl.here is with ⟨e, h3, h4⟩ | ⟨l', as', h3, h4, hr⟩
    · simp only [h3, h4]; exact fun _ => ⟨⟨rfl, rfl⟩, trivial⟩
    · simp only [h3, h4]
      exact fun _ => ⟨rfl, keep_prefix (prefix_snoc _), made_objs c (hl.imp hr)⟩

theorem mapValsH_sim {h₀ : Heap} {F : Set Addr} {f : Addr → HM Addr} {f' : PVal → Except PyErr PVal}
    (hf : ∀ h v b, Ctx h₀ F h → Firm F h (RepVal · v b) → Sim AnyHeap (Made F h RepVal) h (f b) (M.lift (f' v))) :
    ∀ (vals : List (String × PVal)) (vs : List (String × Addr)) (h : Heap), Ctx h₀ F h →
      Firm F h (RepVals · vals vs) → Sim AnyHeap (Made F h RepVals) h (mapValsH f vs) (M.lift (mapVals f' vals))
  | [], vs, h, c, hv => by
    rw [firm_vals_nil hv]
    exact Sim.pure (b := []) ⟨keep_refl h, Firm.pure fun _ => by rw [RepVals]⟩
  | (k, v) :: rest, vs, h, c, hv => by
    obtain ⟨b, vs', rfl, hb, hr⟩ := firm_vals_cons hv
    rw [mapValsH, mapVals, lift_bind_eq]
    refine Sim.bind (hf h v b c hb) ?_
    rintro h₁ b' v' ⟨k₁, hv'⟩
    rw [lift_bind_eq]
    refine Sim.bind (mapValsH_sim hf rest vs' h₁ (c.step k₁) (hr.keep' k₁)) ?_
    rintro h₂ vs'' vals'' ⟨k₂, hr'⟩
    exact Sim.pure (b := (k, v') :: vals'') ⟨k₁.trans k₂, firm_cons (hv'.keep' k₂) hr'⟩

theorem mkPSH_made {h₀ h : Heap} {F : Set Addr} (c : Ctx h₀ F h) (n : ℕ) {vals : List (String × PVal)}
    {vs : List (String × Addr)} (hr : Firm F h (RepVals · vals vs)) :
    Sim AnyHeap (Made F h RepPS) h (mkPSH n vs) (M.lift (mkPS n vals)) := by
  refine (mkPSH_sim (X := AnyHeap) n hr.here trivial).mono (fun _ h => h) ?_
  rintro h' a s ⟨hp, rfl, _, rfl, rfl⟩
  refine ⟨keep_prefix hp, firm_alloc c _ fun h' o' hk ho hu => ?_⟩
  rw [RepPS]
  cases hu with
  | refl => exact ⟨vs, _, _, ho, hr h' hk⟩
  | kd n vs attrs kd kd' => exact ⟨vs, _, _, ho, hr h' hk⟩

end BB.Lemmas
