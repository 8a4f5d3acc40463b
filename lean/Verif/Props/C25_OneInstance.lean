import Mathlib.Data.Int.CardIntervalMod
import Verif.Lemmas.Instances

/-!
# C25: a perturbation of a parameter space touches exactly one state of that space
-/

namespace BB.Props

open BB BB.Spec BB.Lemmas

/-- C25.  For every state there is a list of all the instances of the space (each one is there once).
The perturbation draws an index into this list with `random.randint`, perturbs the instance at that
index, and returns the state in which this instance is replaced by the outcome, everything else
being as before (the temperature, too; the statistics of the perturbation are cached); the log ratio is
the one of the instance.  Errors are passed on. -/
theorem C25_one_instance_replaced (g : PSPert) (s : State) (hs : ParamsWf s.params) :
    ∃ L : List (String × Path × PSState),
      (∀ k path x, (k, path, x) ∈ L ↔ Instance g.name s.params k path x) ∧
      (L.map fun e => (e.1, e.2.1)).Nodup ∧
      (∀ t e t', M.randIdx L.length t = (.error e, t') → g.perturb s t = (.error e, t')) ∧
      ∀ t i t1, M.randIdx L.length t = (.ok i, t1) → ∃ k path x, L[i]? = some (k, path, x) ∧
        (∀ e t', g.perturbPS x t1 = (.error e, t') → g.perturb s t = (.error e, t')) ∧
        ∀ x' lpr nm t', g.perturbPS x t1 = (.ok (x', lpr, nm), t') →
          ∃ new, g.perturb s t = (.ok (new, lpr), t') ∧
            ReplacedTop x' k path s.params new.params ∧
            new.temperature = s.temperature ∧ new.extra = [] ∧
            new.cache = [("perturb_stats", .stats [(nm, 1)])] := by
  refine ⟨(instancesOf g.name s.params).map fun q => (q.key, q.path, q.st), ?_, ?_, ?_, ?_⟩
  · intro k path x
    rw [List.mem_map]
    constructor
    · rintro ⟨q, hq, he⟩
      injection he with h1 h2
      injection h2 with h2 h3
      subst h1 h2 h3
      exact mem_instancesOf.1 hq
    · intro h
      exact ⟨⟨k, path, x⟩, mem_instancesOf.2 h, rfl⟩
  · rw [List.map_map]
    exact instancesOf_nodup hs
  · intro t e t' h
    rw [List.length_map] at h
    rw [perturb_eq g s hs, M.bind_run, h]
  · intro t i t1 h
    rw [List.length_map] at h
    have hi := Post.randIdx' t i t1 h
    have hq : (instancesOf g.name s.params)[i]? = some (instancesOf g.name s.params)[i] :=
      List.getElem?_eq_getElem hi
    generalize (instancesOf g.name s.params)[i] = q at hq
    refine ⟨q.key, q.path, q.st, ?_, ?_, ?_⟩
    · rw [List.getElem?_map, hq]; rfl
    · intro e t' he
      rw [perturb_eq g s hs, M.bind_run, h]
      simp only [hq]
      rw [M.bind_run, he]
    · intro x' lpr nm t' he
      refine ⟨proposed s q (x', lpr, nm), ?_, ?_, rfl, rfl, rfl⟩
      · rw [perturb_eq g s hs, M.bind_run, h]
        simp only [hq]
        rw [M.bind_run, he]
        rfl
      · have hm : q ∈ instancesOf g.name s.params := List.mem_of_getElem? hq
        exact params_modifyAt_replaced hs (mem_instancesOf.1 hm)

open Classical in
/-- C25, uniformity of the choice.  If the number drawn by `random.randint` is uniformly distributed over
`m * n` values, then each of the `n` indices is drawn for exactly `m` of them. -/
theorem C25_uniform (n m i : ℕ) (hi : i < n) (z u : ℝ) (hu : 0 ≤ u ∧ u < 1) (t : List Draw) :
    ((Finset.range (m * n)).filter
      (fun j => M.randIdx n (⟨j, z, u, hu⟩ :: t) = (Except.ok i, t))).card = m := by
  have h : ∀ j, M.randIdx n (⟨j, z, u, hu⟩ :: t) = (Except.ok i, t) ↔ j ≡ i [MOD n] := by
    intro j
    unfold M.randIdx
    rw [if_neg (by omega), M.bind_ok]
    have hd : M.draw (⟨j, z, u, hu⟩ :: t) = (.ok ⟨j, z, u, hu⟩, t) := rfl
    constructor
    · rintro ⟨a, t1, h1, h2⟩
      rw [hd] at h1
      injection h1 with h1 h3
      injection h1 with h1
      subst h1
      rw [M.pure_run] at h2
      injection h2 with h2 _
      injection h2 with h2
      unfold Nat.ModEq
      rw [Nat.mod_eq_of_lt hi]
      exact h2
    · intro h
      refine ⟨_, _, hd, ?_⟩
      rw [M.pure_run]
      unfold Nat.ModEq at h
      rw [Nat.mod_eq_of_lt hi] at h
      simp only [h]
  simp only [h]
  rw [← Nat.count_eq_card_filter_range, Nat.count_modEq_card _ (by omega) i,
    Nat.mul_mod_left, Nat.mul_div_cancel _ (by omega)]
  simp

/-- A space with two nested states of the space `v`, beside another space and a noise level. -/
noncomputable def c25State : State where
  params := [("a", .ps (.mk 2 [("discretization", .arr (.vec [0, 1])),
      ("v", .states [.mk 1 [("x", .arr (.vec [5]))] none, .mk 1 [("x", .arr (.vec [6]))] none])] none)),
    ("b", .ps (.mk 1 [("y", .arr (.vec [7]))] none)), ("noise", .noise ⟨1, none⟩)]
  temperature := 1
  cache := []
  extra := []

theorem c25Wf : ParamsWf c25State.params := by
  refine ⟨by simp [c25State], ?_⟩
  intro k s hm
  simp only [c25State, List.mem_cons, Prod.mk.injEq, TopVal.ps.injEq, reduceCtorEq, and_false,
    List.not_mem_nil, or_false] at hm
  rcases hm with ⟨-, rfl⟩ | ⟨-, rfl⟩
  · refine .mk (by simp) ?_ ?_
    · intro k l hm
      simp only [List.mem_cons, Prod.mk.injEq, reduceCtorEq, and_false, PVal.states.injEq,
        List.not_mem_nil, or_false, false_or] at hm
      rw [hm.2]; simp
    · intro k l hm x hx
      simp only [List.mem_cons, Prod.mk.injEq, reduceCtorEq, and_false, PVal.states.injEq,
        List.not_mem_nil, or_false, false_or] at hm
      rw [hm.2] at hx
      simp only [List.mem_cons, List.not_mem_nil, or_false] at hx
      rcases hx with rfl | rfl <;> exact .mk (by simp) (by simp) (by simp)
  · exact .mk (by simp) (by simp) (by simp)

/-- The hypotheses are met by a state with two nested instances; the list has two elements, and for
the name `b` one. -/
example : ParamsWf c25State.params ∧
    Instance "v" c25State.params "a" [("v", 1)] (.mk 1 [("x", .arr (.vec [6]))] none) ∧
    (instancesOf "v" c25State.params).length = 2 ∧ (instancesOf "b" c25State.params).length = 1 := by
  refine ⟨c25Wf, ?_, ?_, ?_⟩
  · refine .nested (s := .mk 2 [("discretization", .arr (.vec [0, 1])),
      ("v", .states [.mk 1 [("x", .arr (.vec [5]))] none, .mk 1 [("x", .arr (.vec [6]))] none])] none)
      (by simp [c25State]) (by decide +kernel) ?_
    exact .here (l := [.mk 1 [("x", .arr (.vec [5]))] none, .mk 1 [("x", .arr (.vec [6]))] none])
      (by simp [PSState.vals]) rfl
  · simp [instancesOf, c25State, matchesTop, childrenTop, bfs, nodesParams, PSState.nodes, nodesVals,
      nodesList, matchesOf, childrenOf, qitems, PSState.vals]
  · simp [instancesOf, c25State, matchesTop, childrenTop, bfs, nodesParams, PSState.nodes, nodesVals,
      nodesList, matchesOf, childrenOf, qitems, PSState.vals]

end BB.Props
