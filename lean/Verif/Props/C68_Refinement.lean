import Verif.Lemmas.HeapVisits
import Verif.Props.C10_C17_Conformance
import Verif.Props.C58_Copy
import Verif.Props.C59_Proposals

/-!
# C68: objects that share arrays and are modified in place behave like values
-/

namespace BB.Props

open BB BB.Spec BB.Lemmas BB.HM

/-- C68: a proposal computed on objects – by copying, replacing entries of dictionaries and modifying lists in place –
draws the same numbers, raises the same exceptions and reports the same ratio as the one computed on values, and the
state proposed has the value that the latter has; whatever objects the states share, and whatever k-d trees are
cached. -/
theorem C68_proposal (q : Proposer) {h : Heap} {s : State} {a : Addr} {fuel : ℕ} (hr : RepState h s a)
    (hv : ValidTop s.params) (hw : ParamsWf s.params) (hf : nodesParams s.params ≤ fuel) (t t' : List Draw) :
    (∀ e, q.value s t = (.error e, t') ↔ ∃ h', q.run fuel a h t = (.error e, h', t')) ∧
    (∀ s' lpr, q.value s t = (.ok (s', lpr), t') →
      ∃ b h', q.run fuel a h t = (.ok (b, lpr), h', t') ∧ RepState h' s' b) ∧
    ∀ b lpr h', q.run fuel a h t = (.ok (b, lpr), h', t') →
      ∃ s', q.value s t = (.ok (s', lpr), t') ∧ RepState h' s' b := by
  have hs := proposer_sim q hr hv hw hf
  refine ⟨fun e => hs.err, fun s' lpr hp => ?_, fun b lpr h' hp => ?_⟩
  · obtain ⟨⟨b, l⟩, h', h1, h2, h3⟩ := hs.ok hp
    simp only at h2 h3
    subst h3
    exact ⟨b, h', h1, h2⟩
  · obtain ⟨⟨s', l⟩, h1, h2, h3⟩ := hs.ok' hp
    simp only at h2 h3
    subst h3
    exact ⟨s', h1, h2⟩

/-- C68: two states with the same value, whatever they share with others and within themselves: the proposals are the
same. -/
theorem C68_same_value (q : Proposer) {h₁ h₂ : Heap} {s : State} {a₁ a₂ : Addr} {fuel₁ fuel₂ : ℕ}
    (hr₁ : RepState h₁ s a₁) (hr₂ : RepState h₂ s a₂) (hv : ValidTop s.params) (hw : ParamsWf s.params)
    (hf₁ : nodesParams s.params ≤ fuel₁) (hf₂ : nodesParams s.params ≤ fuel₂) (t t' : List Draw) :
    (∀ e, (∃ h', q.run fuel₁ a₁ h₁ t = (.error e, h', t')) ↔ ∃ h', q.run fuel₂ a₂ h₂ t = (.error e, h', t')) ∧
    ∀ b₁ lpr h', q.run fuel₁ a₁ h₁ t = (.ok (b₁, lpr), h', t') →
      ∃ b₂ h'' s', q.run fuel₂ a₂ h₂ t = (.ok (b₂, lpr), h'', t') ∧ RepState h' s' b₁ ∧ RepState h'' s' b₂ := by
  obtain ⟨e₁, _, o₁⟩ := C68_proposal q hr₁ hv hw hf₁ t t'
  obtain ⟨e₂, o₂, _⟩ := C68_proposal q hr₂ hv hw hf₂ t t'
  refine ⟨fun e => (e₁ e).symm.trans (e₂ e), fun b₁ lpr h' hp => ?_⟩
  obtain ⟨s', hs, hs₁⟩ := o₁ b₁ lpr h' hp
  obtain ⟨b₂, h'', hp₂, hs₂⟩ := o₂ s' lpr hs
  exact ⟨b₂, h'', s', hp₂, hs₁, hs₂⟩

/-- C68: whatever a chain on the heap visits has the value of a state that a chain on values visits: what is proved of
the latter (C10 to C17 and others) holds of the objects. -/
theorem C68_visits (p : Problem) (hp : ProblemOk p) {h : Heap} {a : Addr} (hv : HeapVisits p h a) :
    ∃ s, Visits p s ∧ Holds h a s.params := heapVisits_value hp hv

/-- C68: and vice versa. -/
theorem C68_visited (p : Problem) (hp : ProblemOk p) {s : State} (hv : Visits p s) :
    ∃ h a, HeapVisits p h a ∧ Holds h a s.params := visits_heap hp hv

/-- C68: in particular, on the heap too every (nested) state has dimensions, arrays and sites as declared. -/
theorem C68_conform (p : Problem) (hp : ProblemOk p) {h : Heap} {a : Addr} (hv : HeapVisits p h a) :
    ∃ params, Holds h a params ∧ (∀ k sp, (k, sp) ∈ p.spaces → ∃ x, dget params k = some (.ps x)) ∧
      ∀ sp x, StateOf p params sp x → DimsOk sp.info x.n ∧ ArraysOk sp x ∧
        (∀ v, sp.info.kind = .vor1 v → LineOk v x) ∧ ∀ v, sp.info.kind = .vor2 v → PlaneOk v x := by
  obtain ⟨s, hs, hh⟩ := heapVisits_value hp hv
  have hg := good_problem hp (fun _ _ q _ _ => anyVal_ok q) (fun _ _ _ _ _ => Or.inl trivial)
  refine ⟨s.params, hh, fun k sp hk => ?_, fun sp x hx => ⟨C10_dimensions p hp s hs sp x hx,
    C11_arrays p hp s hs sp x hx, C12_sorted_in_domain p hp s hs sp x hx, C13_in_domain p hp s hs sp x hx⟩⟩
  obtain ⟨x, hx, _⟩ := (visits_inv hp hg hs).2.1 k sp hk
  exact ⟨x, hx⟩

/-! ### one object twice in a list -/

/-- A list (3) whose two members are one and the same object (2). -/
noncomputable def heap68 : Heap :=
  [.arr (.vec [1.5, 2.5]), .arr (.vec [10]), .ps 1 [("q", 1)] [("q", 1)] none, .list [2, 2],
   .ps 2 [("vs", 0), ("child", 3)] [("vs", 0), ("child", 3)] none, .state [("space", .ps 4)] [("space", .ps 4)] 1 [] []]

/-- The same value without sharing. -/
noncomputable def heap68b : Heap :=
  [.arr (.vec [1.5, 2.5]), .arr (.vec [10]), .ps 1 [("q", 1)] [("q", 1)] none, .list [2, 7],
   .ps 2 [("vs", 0), ("child", 3)] [("vs", 0), ("child", 3)] none, .state [("space", .ps 4)] [("space", .ps 4)] 1 [] [],
   .arr (.vec [10]), .ps 1 [("q", 6)] [("q", 6)] none]

noncomputable def state68 : State where
  params := [("space", .ps (.mk 2 [("vs", .arr (.vec [1.5, 2.5])), ("child", .states
    [.mk 1 [("q", .arr (.vec [10]))] none, .mk 1 [("q", .arr (.vec [10]))] none])] none))]
  temperature := 1
  cache := []
  extra := []

example : RepState heap68 state68 5 ∧ RepState heap68b state68 5 ∧ ValidTop state68.params ∧
    ParamsWf state68.params ∧ nodesParams state68.params ≤ 4 := by
  refine ⟨⟨_, _, rfl, ?_⟩, ⟨_, _, rfl, ?_⟩, ?_, ?_, ?_⟩
  · simp only [state68, RepTop]
    refine ⟨4, _, rfl, ?_, rfl⟩
    simp only [RepPS, RepVals, RepVal, RepList]
    exact ⟨_, _, _, rfl, 0, _, rfl, rfl, 3, _, rfl, ⟨_, rfl, 2, _, rfl, ⟨_, _, _, rfl, 1, _, rfl, rfl, rfl⟩,
      2, _, rfl, ⟨_, _, _, rfl, 1, _, rfl, rfl, rfl⟩, rfl⟩, rfl⟩
  · simp only [state68, RepTop]
    refine ⟨4, _, rfl, ?_, rfl⟩
    simp only [RepPS, RepVals, RepVal, RepList]
    exact ⟨_, _, _, rfl, 0, _, rfl, rfl, 3, _, rfl, ⟨_, rfl, 2, _, rfl, ⟨_, _, _, rfl, 1, _, rfl, rfl, rfl⟩,
      7, _, rfl, ⟨_, _, _, rfl, 6, _, rfl, rfl, rfl⟩, rfl⟩, rfl⟩
  · simp [state68, ValidTop, ValidPS, ValidVals, ValidVal, ValidList, PVal.len, Arr.len]
  · refine ⟨by simp [state68], ?_⟩
    intro k s hm
    simp only [state68, List.mem_singleton, Prod.mk.injEq, TopVal.ps.injEq] at hm
    rw [hm.2]
    have hc : PSWf (.mk 1 [("q", .arr (.vec [10]))] none) := .mk (by simp) (by simp) (by simp)
    refine .mk (by simp) (by simp) fun k l hl x hx => ?_
    simp at hl
    rw [hl.2] at hx
    simp at hx
    rw [hx]; exact hc
  · simp [state68, nodesParams, PSState.nodes, nodesVals, nodesList]

/-- A chain on the heap of an inversion with nested spaces, at its start. -/
example : ProblemOk exNested ∧ ∃ h a, HeapVisits exNested h a := by
  obtain ⟨s, hs, _⟩ := exNested_start
  obtain ⟨a, h, hr, _⟩ := storeState_rep s [] []
  exact ⟨exNested_ok, h, a, .start hs hr⟩

end BB.Props
