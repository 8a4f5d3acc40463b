import Verif.Lemmas.Choices
import Verif.Lemmas.HeapHistory

/-!
# C59: proposing does not modify the current state

The model with objects and references is `Verif/Model/Heap.lean`.  The states of a proposal may share objects with
the current state; what matters is that nothing old is modified.  The only thing that a proposal can change is the
cached k-d tree of an old state, replaced by a tree of the same sites (`C59_tree_not`).
-/

namespace BB.Props

open BB BB.Spec BB.Lemmas BB.HM

/-- C59: whatever the heap, the current state, the functions and the draws, and also if there is an exception, every
object that existed before is what it was, apart from the k-d trees in the caches of parameter-space states. -/
theorem C59_proposal (g : PSPert) (fuel : ℕ) (a : Addr) (h : Heap) (t : List Draw) :
    Unmodified Set.univ h (g.perturbH fuel a h t).2.1 :=
  ((perturbH_hold (B := Set.univ) (N := Set.univ) fuel g (kdOk_univ g) (namesIn_univ g) a).heap
    (Inv.refl h) t).old

/-- C59: if no state is born or dies in a `Voronoi2D` with k-d trees, nothing old is modified at all. -/
theorem C59_proposal_same (g : PSPert) (hg : TreeFree g) (fuel : ℕ) (a : Addr) (h : Heap) (t : List Draw) :
    h <+: (g.perturbH fuel a h t).2.1 :=
  ((perturbH_hold (B := Set.univ) (N := Set.univ) fuel g (kdOk_treeFree hg ∅) (namesIn_univ g) a).heap
    (Inv.refl h) t).old.toPrefix

/-- C59: neither by a perturbation of the noise. -/
theorem C59_noise (ts : List Target) (fuel : ℕ) (a : Addr) (h : Heap) (t : List Draw) :
    h <+: (noisePerturbH fuel ts a h t).2.1 :=
  ((noisePerturbH_hold (B := Set.univ) (N := Set.univ) (W := ∅) fuel ts (fun _ _ => trivial) a).heap
    (Inv.refl h) t).old.toPrefix

/-- C59: the state proposed is a new object. -/
theorem C59_new (p : Proposer) (fuel : ℕ) (a b : Addr) (h h' : Heap) (lpr : PyF) (t t' : List Draw)
    (hr : p.run fuel a h t = (.ok (b, lpr), h', t')) : h.length ≤ b := by
  cases p with
  | space g =>
    have := perturbH_hold (B := Set.univ) (N := Set.univ) fuel g (kdOk_univ g) (namesIn_univ g) a h t (Inv.refl h)
    change g.perturbH fuel a h t = _ at hr
    rw [hr] at this
    exact this.2
  | noise ts =>
    have := noisePerturbH_hold (B := Set.univ) (N := Set.univ) (W := ∅) fuel ts (fun _ _ => trivial) a h t
      (Inv.refl h)
    change noisePerturbH fuel ts a h t = _ at hr
    rw [hr] at this
    exact this.2

/-- C59: so the current state, and every other state – of this chain, of another one, a saved one – has the value it
had before, at all depths. -/
theorem C59_states (p : Proposer) (fuel : ℕ) (a : Addr) (h : Heap) (t : List Draw) (s : State) (b : Addr)
    (hs : RepState h s b) : RepState (p.run fuel a h t).2.1 s b := by
  obtain ⟨vs, attrs, ho, hv⟩ := hs
  have hi := proposer_inv (List.mem_singleton.2 rfl : p ∈ [p]) fuel a t h
  rcases hi.old b _ ho with h1 | ⟨_, n, vs', attrs', kd, kd', he, _⟩
  · exact ⟨vs, attrs, h1, repTop_same (allSame_of hi.old) hv⟩
  · cases he

/-- C59: over a whole run – any number of proposals from any states, copies, new initial states and changes of caches
– the parameters of every state remain what they are: the arrays, the lists, the dictionaries and the attributes. -/
theorem C59_history (ps : List Proposer) {h h' : Heap} (hh : History ps h h') :
    (∀ (a : Addr) x, h[a]? = some (.arr x) → h'[a]? = some (.arr x)) ∧
    (∀ (a : Addr) l, h[a]? = some (.list l) → h'[a]? = some (.list l)) ∧
    (∀ (a : Addr) l, h[a]? = some (.objs l) → h'[a]? = some (.objs l)) ∧
    (∀ (a : Addr) n vs attrs kd, h[a]? = some (.ps n vs attrs kd) → ∃ kd', h'[a]? = some (.ps n vs attrs kd')) ∧
    ∀ (a : Addr) vs attrs temp cache extra, h[a]? = some (.state vs attrs temp cache extra) →
      (∃ temp' cache' extra', h'[a]? = some (.state vs attrs temp' cache' extra')) ∧
      ∀ p, RepTop h p vs → RepTop h' p vs := by
  have hs := history_allSame hh
  refine ⟨fun a x ho => ?_, fun a l ho => ?_, fun a l ho => ?_, fun a n vs attrs kd ho => ?_,
    fun a vs attrs temp cache extra ho => ⟨?_, fun p hp => repTop_same hs hp⟩⟩
  · obtain ⟨o', h1, h2⟩ := hs a _ ho
    rw [h1, ← (by simpa only [SameData] using h2 : Obj.arr x = o')]
  · obtain ⟨o', h1, h2⟩ := hs a _ ho
    rw [h1, ← (by simpa only [SameData] using h2 : Obj.list l = o')]
  · obtain ⟨o', h1, h2⟩ := hs a _ ho
    rw [h1, ← (by simpa only [SameData] using h2 : Obj.objs l = o')]
  · obtain ⟨o', h1, h2⟩ := hs a _ ho
    cases o' <;> simp only [SameData] at h2 <;>
      first | cases (h2 : (_ : Obj) = _) | (obtain ⟨rfl, rfl, rfl⟩ := h2; exact ⟨_, h1⟩)
  · obtain ⟨o', h1, h2⟩ := hs a _ ho
    cases o' <;> simp only [SameData] at h2 <;>
      first | cases (h2 : (_ : Obj) = _) | (obtain ⟨rfl, rfl⟩ := h2; exact ⟨_, _, _, h1⟩)

/-! ### the k-d tree -/

/-- A tessellation of the plane that has k-d trees and one to three cells. -/
noncomputable def space59 : Space :=
  .mk { name := "v", nMin := 1, nMax := 3, kind := .vor2 { vmin := (0, 0), vmax := (1, 1), std := (1, 1), polygon := none
                                                           bounds := by intro _ h; cases h
                                                           kdtree := true } } .nil

/-- A state with one cell, whose tree has not been computed. -/
noncomputable def heap59 : Heap :=
  [.arr (.pts [(1 / 2, 1 / 2)]), .ps 1 [("discretization", 0)] [("discretization", 0)] none,
   .state [("v", .ps 1)] [("v", .ps 1)] 1 [] []]

noncomputable def pert59 : PSPert where
  name := "v"
  funcs := [.death space59]
  weights := [1]

noncomputable def draw59 : Draw := ⟨0, 0, 0, by norm_num⟩

theorem choice59 (t : List Draw) : choices 1 [1] (draw59 :: t) = (.ok 0, t) :=
  (choices_iff [1] (by simp) (by simp) draw59 t t 0).2 ⟨rfl, by simp, by simp [draw59], by simp [draw59]⟩

/-- C59 does not hold of the caches: a death proposed in a state with the smallest number of cells (a birth in one
with the largest) puts a new tree in the cache of that very state. -/
theorem C59_tree_not : ∃ (g : PSPert) (fuel : ℕ) (a : Addr) (h : Heap) (t : List Draw) (b : Addr)
    (n : ℕ) (vs attrs : List (String × Addr)) (kd : List (ℝ × ℝ)), h[b]? = some (.ps n vs attrs none) ∧
    (g.perturbH fuel a h t).2.1[b]? = some (.ps n vs attrs (some kd)) := by
  refine ⟨pert59, 1, 2, heap59, [draw59, draw59], 1, 1, [("discretization", 0)], [("discretization", 0)],
    [(1 / 2, 1 / 2)], rfl, ?_⟩
  have hr : M.randIdx 1 [draw59, draw59] = (.ok 0, [draw59]) := M.randIdx_run (by decide) _ _
  have hc := choice59 []
  have hf : ∀ h t, (PSFunc.death space59).runH 1 1 h t = space59.deathH 1 h t := fun _ _ => rfl
  have h1 : copyState 1 2 false heap59 [draw59, draw59] = (.ok 5, heap59 ++ [.arr (.pts [(1 / 2, 1 / 2)]),
    .ps 1 [("discretization", 3)] [("discretization", 3)] none, .state [("v", .ps 4)] [("v", .ps 4)] 1 [] []],
    [draw59, draw59]) := rfl
  generalize hh : heap59 ++ [.arr (.pts [(1 / 2, 1 / 2)]),
    .ps 1 [("discretization", 3)] [("discretization", 3)] none, .state [("v", .ps 4)] [("v", .ps 4)] 1 [] []] = hp at h1
  have h2 : ∀ t, readState 2 hp t = (.ok ([("v", .ps 1)], [("v", .ps 1)], 1, [], []), hp, t) := by
    subst hh; intro t; rfl
  have h3 : ∀ t, countQueueH pert59.name 1 (countTopH pert59.name [("v", .ps 1)]).2
      (countTopH pert59.name [("v", .ps 1)]).1 hp t =
    (.ok 1, hp, t) := by
    intro t; rfl
  have h4 : ∀ t, space59.deathH 1 hp t = (.ok (1, .ninf), hp.set 1 (.ps 1 [("discretization", 0)]
    [("discretization", 0)] (some [(1 / 2, 1 / 2)])), t) := by
    subst hh; intro t; rfl
  have h5 : pert59.perturbPSH 1 1 hp [draw59] = (.ok (1, .ninf, "DeathPerturbation(v)"),
      hp.set 1 (.ps 1 [("discretization", 0)] [("discretization", 0)] (some [(1 / 2, 1 / 2)])), []) := by
    have hc' : Act.ofM (choices pert59.funcs.length pert59.weights) hp [draw59] = (.ok 0, hp, []) := by
      change Act.ofM (choices 1 [1]) hp [draw59] = _
      simp only [Act.ofM, hc]
    rw [PSPert.perturbPSH, bind_of hc']
    change ((PSFunc.death space59).runH 1 1 >>= fun r => (Pure.pure (r.1, r.2, _) : HM _)) hp [] = _
    rw [bind_of ((hf hp []).trans (h4 []))]
    rfl
  have hr' : Act.ofM (M.randIdx 1) hp [draw59, draw59] = (.ok 0, hp, [draw59]) := by
    simp only [Act.ofM, hr]
  rw [PSPert.perturbH, bind_of h1, bind_of (h2 _)]
  simp only
  rw [bind_of (h3 _), bind_of hr']
  have h6 : ∃ l, pert59.pertTopH 1 0 5 [("v", .ps 1)] ⟨0, .fin 0, []⟩ hp [draw59] =
      (.ok (l, []), (hp.set 1 (.ps 1 [("discretization", 0)] [("discretization", 0)] (some [(1 / 2, 1 / 2)]))).set 5
        (.state [("v", .ps 1)] [("v", .ps 1)] 1 [] []), []) := by
    refine ⟨PertVars.done ⟨0, .fin 0, []⟩ .ninf "DeathPerturbation(v)", ?_⟩
    change (pert59.perturbPSH 1 1 >>= fun r => _) hp [draw59] = _
    rw [bind_of h5]
    subst hh
    rfl
  obtain ⟨l, h6⟩ := h6
  rw [bind_of h6]
  subst hh
  rfl

end BB.Props
