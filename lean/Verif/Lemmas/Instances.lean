import Verif.Lemmas.Dict
import Verif.Lemmas.Rand
import Verif.Spec.Instances

/-!
# The breadth-first search of `ParamSpacePerturbation.perturb`
-/

namespace BB.Lemmas

open BB BB.Spec

theorem _root_.BB.PyF.zero_add (r : PyF) : (PyF.fin 0).add r = r := by
  cases r <;> simp [PyF.add]

/-- The instances among the values of the state of an item. -/
def matchesOf (name : String) (q : QItem) : List (String × PVal) → List QItem
  | [] => []
  | (k, .states xs) :: rest =>
    if k = name then qitems q k xs ++ matchesOf name q rest else matchesOf name q rest
  | (_, .arr _) :: rest => matchesOf name q rest
  | (_, .objs _) :: rest => matchesOf name q rest

/-- The other nested states of an item. -/
def childrenOf (name : String) (q : QItem) : List (String × PVal) → List QItem
  | [] => []
  | (k, .states xs) :: rest =>
    if k = name then childrenOf name q rest else qitems q k xs ++ childrenOf name q rest
  | (_, .arr _) :: rest => childrenOf name q rest
  | (_, .objs _) :: rest => childrenOf name q rest

theorem qitems_map_st (q : QItem) (k : String) (l : List PSState) :
    (qitems q k l).map (·.st) = l := by
  apply List.ext_getElem
  · simp [qitems]
  · intro i h1 h2
    simp [qitems]

theorem qitems_length (q : QItem) (k : String) (l : List PSState) :
    (qitems q k l).length = l.length := by simp [qitems]

theorem mem_qitems {q m : QItem} {k : String} {l : List PSState} :
    m ∈ qitems q k l ↔ ∃ i x, l[i]? = some x ∧ m = ⟨q.key, q.path ++ [(k, i)], x⟩ := by
  unfold qitems
  rw [List.mem_mapIdx]
  constructor
  · rintro ⟨i, hi, rfl⟩
    exact ⟨i, l[i], by simp [hi], rfl⟩
  · rintro ⟨i, x, hx, rfl⟩
    obtain ⟨hi, hx⟩ := List.getElem?_eq_some_iff.1 hx
    exact ⟨i, hi, by rw [hx]⟩

theorem mem_matchesOf {name : String} {q m : QItem} : ∀ {vals : List (String × PVal)},
    m ∈ matchesOf name q vals ↔
      ∃ l i x, (name, PVal.states l) ∈ vals ∧ l[i]? = some x ∧
        m = ⟨q.key, q.path ++ [(name, i)], x⟩
  | [] => by simp [matchesOf]
  | (k, .arr a) :: rest => by
    rw [matchesOf, mem_matchesOf]; simp
  | (k, .objs a) :: rest => by
    rw [matchesOf, mem_matchesOf]; simp
  | (k, .states xs) :: rest => by
    rw [matchesOf]
    split
    · rename_i hk
      subst hk
      rw [List.mem_append, mem_qitems, mem_matchesOf]
      constructor
      · rintro (⟨i, x, h1, h2⟩ | ⟨l, i, x, h1, h2⟩)
        · exact ⟨xs, i, x, by simp, h1, h2⟩
        · exact ⟨l, i, x, by simp [h1], h2⟩
      · rintro ⟨l, i, x, h1, h2⟩
        rcases List.mem_cons.1 h1 with h1 | h1
        · injection h1 with _ h1
          injection h1 with h1
          subst h1
          exact .inl ⟨i, x, h2⟩
        · exact .inr ⟨l, i, x, h1, h2⟩
    · rename_i hk
      rw [mem_matchesOf]
      constructor
      · rintro ⟨l, i, x, h1, h2⟩
        exact ⟨l, i, x, by simp [h1], h2⟩
      · rintro ⟨l, i, x, h1, h2⟩
        rcases List.mem_cons.1 h1 with h1 | h1
        · injection h1 with h1 _
          exact absurd h1.symm hk
        · exact ⟨l, i, x, h1, h2⟩

theorem mem_childrenOf {name : String} {q m : QItem} : ∀ {vals : List (String × PVal)},
    m ∈ childrenOf name q vals ↔
      ∃ k l i x, (k, PVal.states l) ∈ vals ∧ k ≠ name ∧ l[i]? = some x ∧
        m = ⟨q.key, q.path ++ [(k, i)], x⟩
  | [] => by simp [childrenOf]
  | (k, .arr a) :: rest => by
    rw [childrenOf, mem_childrenOf]; simp
  | (k, .objs a) :: rest => by
    rw [childrenOf, mem_childrenOf]; simp
  | (k, .states xs) :: rest => by
    rw [childrenOf]
    split
    · rename_i hk
      subst hk
      rw [mem_childrenOf]
      constructor
      · rintro ⟨k', l, i, x, h1, h2⟩
        exact ⟨k', l, i, x, by simp [h1], h2⟩
      · rintro ⟨k', l, i, x, h1, h2, h3⟩
        rcases List.mem_cons.1 h1 with h1 | h1
        · injection h1 with h1 _
          exact absurd h1 h2
        · exact ⟨k', l, i, x, h1, h2, h3⟩
    · rename_i hk
      rw [List.mem_append, mem_qitems, mem_childrenOf]
      constructor
      · rintro (⟨i, x, h1, h2⟩ | ⟨k', l, i, x, h1, h2⟩)
        · exact ⟨k, xs, i, x, by simp, hk, h1, h2⟩
        · exact ⟨k', l, i, x, by simp [h1], h2⟩
      · rintro ⟨k', l, i, x, h1, h2, h3⟩
        rcases List.mem_cons.1 h1 with h1 | h1
        · injection h1 with h0 h1
          injection h1 with h1
          subst h1 h0
          exact .inl ⟨i, x, h3⟩
        · exact .inr ⟨k', l, i, x, h1, h2, h3⟩

/-! ### the loops -/

/-- No list among the values is empty. -/
def NoEmpty (vals : List (String × PVal)) : Prop := ∀ k l, (k, PVal.states l) ∈ vals → l ≠ []

theorem NoEmpty.tail {kv : String × PVal} {vals : List (String × PVal)} (h : NoEmpty (kv :: vals)) :
    NoEmpty vals := fun k l hm => h k l (List.mem_cons_of_mem _ hm)

theorem countVals_eq {name : String} (q : QItem) : ∀ {vals : List (String × PVal)}, NoEmpty vals →
    countVals name vals =
      .ok ((matchesOf name q vals).length, (childrenOf name q vals).map (·.st))
  | [], _ => rfl
  | (k, .arr a) :: rest, h => by
    rw [countVals, matchesOf, childrenOf, countVals_eq q h.tail]
  | (k, .objs a) :: rest, h => by
    rw [countVals, matchesOf, childrenOf, countVals_eq q h.tail]
  | (k, .states xs) :: rest, h => by
    have hx : xs ≠ [] := h k xs (by simp)
    rw [countVals, matchesOf, childrenOf, countVals_eq q h.tail]
    split
    · rw [List.length_append, qitems_length]; rfl
    · rw [if_neg (by simpa using hx), List.map_append, qitems_map_st]; rfl

theorem visitAll_append (g : PSPert) (target : ℕ) : ∀ (a b : List QItem) (l : PertLocals),
    g.visitAll target (a ++ b) l = g.visitAll target a l >>= g.visitAll target b
  | [], b, l => by
    rw [List.nil_append, PSPert.visitAll, pure_bind]
  | q :: a, b, l => by
    rw [List.cons_append, PSPert.visitAll, PSPert.visitAll, bind_assoc]
    congr 1
    funext l'
    exact visitAll_append g target a b l'

theorem pertVals_eq (g : PSPert) (target : ℕ) (q : QItem) :
    ∀ {vals : List (String × PVal)} (l : PertLocals), NoEmpty vals →
    g.pertVals target q vals l =
      (g.visitAll target (matchesOf g.name q vals) l >>= fun l =>
        pure (l, childrenOf g.name q vals))
  | [], l, _ => by
    rw [PSPert.pertVals, matchesOf, PSPert.visitAll, childrenOf, pure_bind]
  | (k, .arr a) :: rest, l, h => by
    rw [PSPert.pertVals, matchesOf, childrenOf, pertVals_eq g target q l h.tail]
  | (k, .objs a) :: rest, l, h => by
    rw [PSPert.pertVals, matchesOf, childrenOf, pertVals_eq g target q l h.tail]
  | (k, .states xs) :: rest, l, h => by
    have hx : xs ≠ [] := h k xs (by simp)
    have hx' : ¬ (xs.isEmpty = true) := by simpa using hx
    rw [PSPert.pertVals, matchesOf, childrenOf]
    simp only [if_neg hx']
    split
    · rw [visitAll_append, bind_assoc]
      congr 1
      funext l'
      exact pertVals_eq g target q l' h.tail
    · rw [pertVals_eq g target q l h.tail, bind_assoc]
      congr 1

/-- Once the turn has passed, only the counter changes. -/
theorem visitAll_past (g : PSPert) (target : ℕ) : ∀ (qs : List QItem) (l : PertLocals),
    target < l.i → g.visitAll target qs l = pure { l with i := l.i + qs.length }
  | [], l, _ => rfl
  | q :: qs, l, h => by
    rw [PSPert.visitAll, PSPert.visit, if_neg (by omega), pure_bind,
      visitAll_past g target qs _ (by simp only; omega), List.length_cons]
    simp only
    congr 2
    omega

/-- Otherwise the state whose turn it is gets perturbed. -/
theorem visitAll_hit (g : PSPert) (target : ℕ) : ∀ (qs : List QItem) (l : PertLocals) (q : QItem),
    l.i ≤ target → qs[target - l.i]? = some q →
    g.visitAll target qs l = g.perturbPS q.st >>= fun r =>
      pure { params := l.params.modifyAt (fun _ => r.1) q.key q.path, i := l.i + qs.length,
             lpr := l.lpr.add r.2.1,
             stats := dset l.stats r.2.2 ((dget l.stats r.2.2).getD 0 + 1) }
  | [], l, q, _, h => by simp at h
  | p :: qs, l, q, hi, h => by
    rw [PSPert.visitAll, PSPert.visit]
    by_cases he : l.i = target
    · rw [if_pos he]
      rw [he, Nat.sub_self, List.getElem?_cons_zero] at h
      injection h with h
      subst h
      rw [bind_assoc]
      congr 1
      funext r
      rw [pure_bind, visitAll_past g target qs _ (by simp only; omega), List.length_cons]
      simp only
      congr 2
      omega
    · rw [if_neg he, pure_bind]
      have h' : qs[target - (l.i + 1)]? = some q := by
        rw [show target - l.i = (target - (l.i + 1)) + 1 by omega, List.getElem?_cons_succ] at h
        exact h
      rw [visitAll_hit g target qs { l with i := l.i + 1 } q (by simp only; omega) h',
        List.length_cons]
      congr 1
      funext r
      simp only
      congr 2
      omega

/-- The instances in the order in which the search meets them. -/
def bfs (name : String) : ℕ → List QItem → List QItem
  | _, [] => []
  | 0, _ :: _ => []
  | fuel + 1, q :: queue =>
    matchesOf name q q.st.vals ++ bfs name fuel (queue ++ childrenOf name q q.st.vals)

/-- The number of states in a queue. -/
def nodesQ (queue : List QItem) : ℕ := nodesList (queue.map (·.st))

theorem nodesQ_append (a b : List QItem) : nodesQ (a ++ b) = nodesQ a + nodesQ b := by
  unfold nodesQ; rw [List.map_append, nodesList_append]

theorem nodes_childrenOf (name : String) (q : QItem) : ∀ (vals : List (String × PVal)),
    nodesQ (childrenOf name q vals) ≤ nodesVals vals
  | [] => by simp [childrenOf, nodesQ, nodesVals, nodesList]
  | (k, .arr a) :: rest => by rw [childrenOf, nodesVals]; exact nodes_childrenOf name q rest
  | (k, .objs a) :: rest => by rw [childrenOf, nodesVals]; exact nodes_childrenOf name q rest
  | (k, .states xs) :: rest => by
    have ih := nodes_childrenOf name q rest
    rw [childrenOf, nodesVals]
    split
    · omega
    · rw [nodesQ_append]
      have : nodesQ (qitems q k xs) = nodesList xs := by unfold nodesQ; rw [qitems_map_st]
      omega

theorem _root_.BB.PSState.nodes_eq (s : PSState) : s.nodes = 1 + nodesVals s.vals := by
  cases s; rfl

theorem nodesQ_step {name : String} {q : QItem} {queue : List QItem} {fuel : ℕ}
    (h : nodesQ (q :: queue) ≤ fuel + 1) :
    nodesQ (queue ++ childrenOf name q q.st.vals) ≤ fuel := by
  have h1 := nodes_childrenOf name q q.st.vals
  rw [nodesQ_append]
  unfold nodesQ at h
  rw [List.map_cons, nodesList, PSState.nodes_eq] at h
  unfold nodesQ at h1 ⊢
  omega

theorem _root_.BB.Spec.PSWf.nodup {s : PSState} (h : PSWf s) : (dkeys s.vals).Nodup := by
  cases h with | mk h1 h2 h3 => exact h1

theorem _root_.BB.Spec.PSWf.noEmpty {s : PSState} (h : PSWf s) : NoEmpty s.vals := by
  cases h with | mk h1 h2 h3 => exact h2

theorem _root_.BB.Spec.PSWf.nested {s : PSState} (h : PSWf s) {k : String} {l : List PSState}
    (hm : (k, PVal.states l) ∈ s.vals) {x : PSState} (hx : x ∈ l) : PSWf x := by
  cases h with | mk h1 h2 h3 => exact h3 k l hm x hx

/-- All states of a queue are well formed. -/
def QWf (queue : List QItem) : Prop := ∀ q ∈ queue, PSWf q.st

theorem QWf.step {name : String} {q : QItem} {queue : List QItem} (h : QWf (q :: queue)) :
    QWf (queue ++ childrenOf name q q.st.vals) := by
  intro m hm
  rcases List.mem_append.1 hm with hm | hm
  · exact h m (by simp [hm])
  · obtain ⟨k, l, i, x, h1, _, h3, rfl⟩ := mem_childrenOf.1 hm
    exact (h q (by simp)).nested h1 (List.mem_of_getElem? h3)

theorem countQueue_eq {name : String} : ∀ (fuel : ℕ) (queue : List QItem) (n : ℕ), QWf queue →
    nodesQ queue ≤ fuel →
    countQueue name (queue.map (·.st)) n = .ok (n + (bfs name fuel queue).length)
  | fuel, [], n, _, _ => by
    rw [List.map_nil, countQueue]; simp [bfs]
  | 0, q :: queue, n, _, hf => by
    unfold nodesQ at hf
    rw [List.map_cons, nodesList, PSState.nodes_eq] at hf
    omega
  | fuel + 1, q :: queue, n, hw, hf => by
    have hc := countVals_eq (name := name) q (hw q (by simp)).noEmpty
    rw [List.map_cons, countQueue]
    split
    · rename_i e h; rw [hc] at h; cases h
    · rename_i m q' h
      rw [hc] at h
      injection h with h
      injection h with h1 h2
      subst h1 h2
      rw [← List.map_append]
      have := countQueue_eq (name := name) fuel (queue ++ childrenOf name q q.st.vals)
        (n + (matchesOf name q q.st.vals).length) hw.step (nodesQ_step hf)
      rw [this, bfs, List.length_append]
      congr 1
      omega

/-- The variables of the loop, except for the counter. -/
def _root_.BB.PertLocals.out (l : PertLocals) : Params × PyF × List (String × ℝ) := (l.params, l.lpr, l.stats)

theorem pertQueue_eq (g : PSPert) (target : ℕ) : ∀ (fuel : ℕ) (queue : List QItem) (l : PertLocals),
    QWf queue → nodesQ queue ≤ fuel →
    (g.pertQueue target fuel queue l >>= fun l => pure (PertLocals.out l)) =
      (g.visitAll target (bfs g.name fuel queue) l >>= fun l => pure (PertLocals.out l))
  | fuel, [], l, _, _ => by
    rw [PSPert.pertQueue, bfs, PSPert.visitAll]
  | 0, q :: queue, l, _, hf => by
    unfold nodesQ at hf
    rw [List.map_cons, nodesList, PSState.nodes_eq] at hf
    omega
  | fuel + 1, q :: queue, l, hw, hf => by
    rw [PSPert.pertQueue]
    by_cases hi : l.i ≤ target
    · rw [if_pos hi, pertVals_eq g target q l (hw q (by simp)).noEmpty, bfs, visitAll_append]
      simp only [bind_assoc, pure_bind]
      congr 1
      funext l'
      exact pertQueue_eq g target fuel _ l' hw.step (nodesQ_step hf)
    · rw [if_neg hi, visitAll_past g target _ l (by omega)]
      simp only [pure_bind]
      rfl

/-- The instances among the top-level states. -/
def matchesTop (name : String) : Params → List QItem
  | [] => []
  | (k, .ps s) :: rest =>
    if k = name then ⟨k, [], s⟩ :: matchesTop name rest else matchesTop name rest
  | (_, .noise _) :: rest => matchesTop name rest

/-- The other top-level states. -/
def childrenTop (name : String) : Params → List QItem
  | [] => []
  | (k, .ps s) :: rest =>
    if k = name then childrenTop name rest else ⟨k, [], s⟩ :: childrenTop name rest
  | (_, .noise _) :: rest => childrenTop name rest

theorem mem_matchesTop {name : String} {m : QItem} : ∀ {p : Params},
    m ∈ matchesTop name p ↔ ∃ s, (name, TopVal.ps s) ∈ p ∧ m = ⟨name, [], s⟩
  | [] => by simp [matchesTop]
  | (k, .noise d) :: rest => by rw [matchesTop, mem_matchesTop]; simp
  | (k, .ps s) :: rest => by
    rw [matchesTop]
    split
    · rename_i hk
      subst hk
      rw [List.mem_cons, mem_matchesTop]
      constructor
      · rintro (rfl | ⟨s', h1, h2⟩)
        · exact ⟨s, by simp, rfl⟩
        · exact ⟨s', by simp [h1], h2⟩
      · rintro ⟨s', h1, rfl⟩
        rcases List.mem_cons.1 h1 with h1 | h1
        · injection h1 with _ h1
          injection h1 with h1
          subst h1
          exact .inl rfl
        · exact .inr ⟨s', h1, rfl⟩
    · rename_i hk
      rw [mem_matchesTop]
      constructor
      · rintro ⟨s', h1, h2⟩
        exact ⟨s', by simp [h1], h2⟩
      · rintro ⟨s', h1, h2⟩
        rcases List.mem_cons.1 h1 with h1 | h1
        · injection h1 with h1 _
          exact absurd h1.symm hk
        · exact ⟨s', h1, h2⟩

theorem mem_childrenTop {name : String} {m : QItem} : ∀ {p : Params},
    m ∈ childrenTop name p ↔ ∃ k s, (k, TopVal.ps s) ∈ p ∧ k ≠ name ∧ m = ⟨k, [], s⟩
  | [] => by simp [childrenTop]
  | (k, .noise d) :: rest => by rw [childrenTop, mem_childrenTop]; simp
  | (k, .ps s) :: rest => by
    rw [childrenTop]
    split
    · rename_i hk
      subst hk
      rw [mem_childrenTop]
      constructor
      · rintro ⟨k', s', h1, h2⟩
        exact ⟨k', s', by simp [h1], h2⟩
      · rintro ⟨k', s', h1, h2, h3⟩
        rcases List.mem_cons.1 h1 with h1 | h1
        · injection h1 with h1 _
          exact absurd h1 h2
        · exact ⟨k', s', h1, h2, h3⟩
    · rename_i hk
      rw [List.mem_cons, mem_childrenTop]
      constructor
      · rintro (rfl | ⟨k', s', h1, h2⟩)
        · exact ⟨k, s, by simp, hk, rfl⟩
        · exact ⟨k', s', by simp [h1], h2⟩
      · rintro ⟨k', s', h1, h2, rfl⟩
        rcases List.mem_cons.1 h1 with h1 | h1
        · injection h1 with h0 h1
          injection h1 with h1
          subst h1 h0
          exact .inl rfl
        · exact .inr ⟨k', s', h1, h2, rfl⟩

theorem countTop_eq (name : String) : ∀ (p : Params),
    countTop name p = ((matchesTop name p).length, (childrenTop name p).map (·.st))
  | [] => rfl
  | (k, .noise d) :: rest => by rw [countTop, matchesTop, childrenTop, countTop_eq]
  | (k, .ps s) :: rest => by
    rw [countTop, matchesTop, childrenTop, countTop_eq]
    by_cases hk : k = name
    · simp only [if_pos hk, List.length_cons, Nat.add_comm]
    · simp only [if_neg hk, List.map_cons]

theorem nodes_childrenTop (name : String) : ∀ (p : Params),
    nodesQ (childrenTop name p) ≤ nodesParams p
  | [] => by simp [childrenTop, nodesQ, nodesList]
  | (k, .noise d) :: rest => by rw [childrenTop, nodesParams]; exact nodes_childrenTop name rest
  | (k, .ps s) :: rest => by
    have ih := nodes_childrenTop name rest
    rw [childrenTop, nodesParams]
    split
    · omega
    · unfold nodesQ at ih ⊢
      rw [List.map_cons, nodesList]
      simp only
      omega

theorem pertTop_eq (g : PSPert) (target : ℕ) : ∀ (p : Params) (l : PertLocals),
    g.pertTop target p l =
      (g.visitAll target (matchesTop g.name p) l >>= fun l => pure (l, childrenTop g.name p))
  | [], l => by
    rw [PSPert.pertTop, matchesTop, PSPert.visitAll, childrenTop, pure_bind]
  | (k, .noise d) :: rest, l => by
    rw [PSPert.pertTop, matchesTop, childrenTop, pertTop_eq]
  | (k, .ps s) :: rest, l => by
    rw [PSPert.pertTop, matchesTop, childrenTop]
    split
    · rw [PSPert.visitAll, bind_assoc]
      congr 1
      funext l'
      exact pertTop_eq g target rest l'
    · rw [pertTop_eq, bind_assoc]
      congr 1

/-- All instances, in the order in which the search meets them. -/
def instancesOf (name : String) (p : Params) : List QItem :=
  matchesTop name p ++ bfs name (nodesParams p) (childrenTop name p)

theorem QWf_childrenTop {name : String} {p : Params} (h : ParamsWf p) :
    QWf (childrenTop name p) := by
  intro m hm
  obtain ⟨k, s, h1, _, rfl⟩ := mem_childrenTop.1 hm
  exact h.2 k s h1

theorem countInstances_eq {name : String} {p : Params} (h : ParamsWf p) :
    countInstances name p = .ok (instancesOf name p).length := by
  unfold countInstances
  rw [countTop_eq]
  simp only
  rw [countQueue_eq (nodesParams p) _ _ (QWf_childrenTop h) (nodes_childrenTop name p), instancesOf,
    List.length_append]

/-- The proposed state, given what the perturbation of the chosen instance returns. -/
noncomputable def proposed (s : State) (q : QItem) (r : PSState × PyF × String) : State where
  params := s.params.modifyAt (fun _ => r.1) q.key q.path
  temperature := s.temperature
  cache := [("perturb_stats", .stats [(r.2.2, 1)])]
  extra := []

theorem perturb_eq (g : PSPert) (s : State) (h : ParamsWf s.params) :
    g.perturb s = M.randIdx (instancesOf g.name s.params).length >>= fun i =>
      match (instancesOf g.name s.params)[i]? with
      | none => M.throw .indexError
      | some q => g.perturbPS q.st >>= fun r => pure (proposed s q r, r.2.1) := by
  have key : ∀ i, i < (instancesOf g.name s.params).length →
      ((g.pertTop i s.params { params := s.params, i := 0, lpr := .fin 0, stats := [] }) >>= fun r =>
        g.pertQueue i (nodesParams s.params) r.2 r.1 >>= fun l => pure (PertLocals.out l)) =
      match (instancesOf g.name s.params)[i]? with
      | none => M.throw .indexError
      | some q => g.perturbPS q.st >>= fun r =>
        pure (s.params.modifyAt (fun _ => r.1) q.key q.path, r.2.1, [(r.2.2, 1)]) := by
    intro i hi
    rw [pertTop_eq, bind_assoc]
    simp only [pure_bind]
    have h1 : (fun l => g.pertQueue i (nodesParams s.params) (childrenTop g.name s.params) l >>=
        fun l => pure (PertLocals.out l)) = fun l =>
          g.visitAll i (bfs g.name (nodesParams s.params) (childrenTop g.name s.params)) l >>=
            fun l => pure (PertLocals.out l) := by
      funext l
      exact pertQueue_eq g i _ _ l (QWf_childrenTop h) (nodes_childrenTop g.name s.params)
    rw [h1, ← bind_assoc, ← visitAll_append]
    rw [List.getElem?_eq_getElem hi]
    have h2 := visitAll_hit g i (instancesOf g.name s.params)
      { params := s.params, i := 0, lpr := .fin 0, stats := [] } (instancesOf g.name s.params)[i]
      (Nat.zero_le _) (by simp only [Nat.sub_zero]; exact List.getElem?_eq_getElem hi)
    rw [show matchesTop g.name s.params ++
      bfs g.name (nodesParams s.params) (childrenTop g.name s.params) =
        instancesOf g.name s.params from rfl, h2]
    simp only [bind_assoc, pure_bind]
    congr 1
    funext r
    simp [PertLocals.out, PyF.zero_add, dset]
  funext t
  unfold PSPert.perturb
  rw [countInstances_eq h]
  rw [show (M.lift (Except.ok (instancesOf g.name s.params).length) : M ℕ) =
    pure (instancesOf g.name s.params).length from rfl, pure_bind, M.bind_run, M.bind_run]
  match hr : M.randIdx (instancesOf g.name s.params).length t with
  | (.error e, t') => rfl
  | (.ok i, t') =>
    have hi := Post.randIdx' t i t' hr
    have hk := congrFun (key i hi) t'
    simp only
    generalize hA : (g.pertTop i s.params
      { params := s.params, i := 0, lpr := .fin 0, stats := [] }) = A at hk ⊢
    rw [List.getElem?_eq_getElem hi] at hk ⊢
    simp only at hk ⊢
    simp only [M.bind_run] at hk ⊢
    match hA' : A t' with
    | (.error e, t2) =>
      rw [hA'] at hk
      simp only at hk ⊢
      match hp : g.perturbPS (instancesOf g.name s.params)[i].st t' with
      | (.error e', t3) => rw [hp] at hk; simp only at hk ⊢; simpa using hk
      | (.ok r, t3) =>
        rw [hp] at hk
        simp only [M.pure_run] at hk
        cases hk
    | (.ok (l, queue), t2) =>
      rw [hA'] at hk
      simp only at hk ⊢
      match hq : g.pertQueue i (nodesParams s.params) queue l t2 with
      | (.error e, t3) =>
        rw [hq] at hk
        simp only at hk ⊢
        match hp : g.perturbPS (instancesOf g.name s.params)[i].st t' with
        | (.error e', t4) => rw [hp] at hk; simp only at hk ⊢; simpa using hk
        | (.ok r, t4) =>
          rw [hp] at hk
          simp only [M.pure_run] at hk
          cases hk
      | (.ok l', t3) =>
        rw [hq] at hk
        simp only [M.pure_run] at hk ⊢
        match hp : g.perturbPS (instancesOf g.name s.params)[i].st t' with
        | (.error e', t4) =>
          rw [hp] at hk
          simp only at hk
          cases hk
        | (.ok r, t4) =>
          rw [hp] at hk
          simp only [PertLocals.out] at hk ⊢
          injection hk with hk1 hk2
          injection hk1 with hk1
          injection hk1 with ha hb
          injection hb with hb hc
          subst hk2
          rw [ha, hb, hc]
          simp [proposed, State.copy, dset]

/-! ### which states are met -/

theorem within_iff {name : String} {s x : PSState} {path : Path} :
    Within name s path x ↔
      (∃ l i, (name, PVal.states l) ∈ s.vals ∧ l[i]? = some x ∧ path = [(name, i)]) ∨
      (∃ k l i y rest, (k, PVal.states l) ∈ s.vals ∧ k ≠ name ∧ l[i]? = some y ∧
        Within name y rest x ∧ path = (k, i) :: rest) := by
  constructor
  · intro h
    cases h with
    | here h1 h2 => exact .inl ⟨_, _, h1, h2, rfl⟩
    | deeper h1 h2 h3 h4 => exact .inr ⟨_, _, _, _, _, h1, h2, h3, h4, rfl⟩
  · rintro (⟨l, i, h1, h2, rfl⟩ | ⟨k, l, i, y, rest, h1, h2, h3, h4, rfl⟩)
    · exact .here h1 h2
    · exact .deeper h1 h2 h3 h4

theorem mem_bfs {name : String} {m : QItem} : ∀ (fuel : ℕ) (queue : List QItem),
    nodesQ queue ≤ fuel →
    (m ∈ bfs name fuel queue ↔
      ∃ q ∈ queue, ∃ path, Within name q.st path m.st ∧ m.key = q.key ∧ m.path = q.path ++ path)
  | fuel, [], _ => by simp [bfs]
  | 0, q :: queue, hf => by
    unfold nodesQ at hf
    rw [List.map_cons, nodesList, PSState.nodes_eq] at hf
    omega
  | fuel + 1, q :: queue, hf => by
    rw [bfs, List.mem_append, mem_bfs fuel _ (nodesQ_step hf), mem_matchesOf]
    constructor
    · rintro (⟨l, i, x, h1, h2, rfl⟩ | ⟨q', hq', path, hw, hk, hp⟩)
      · exact ⟨q, by simp, [(name, i)], .here h1 h2, rfl, rfl⟩
      · rcases List.mem_append.1 hq' with hq' | hq'
        · exact ⟨q', by simp [hq'], path, hw, hk, hp⟩
        · obtain ⟨k, l, i, x, h1, h2, h3, rfl⟩ := mem_childrenOf.1 hq'
          refine ⟨q, by simp, (k, i) :: path, .deeper h1 h2 h3 hw, hk, ?_⟩
          rw [hp]; simp
    · rintro ⟨q', hq', path, hw, hk, hp⟩
      rcases List.mem_cons.1 hq' with rfl | hq'
      · rcases within_iff.1 hw with ⟨l, i, h1, h2, rfl⟩ | ⟨k, l, i, y, rest, h1, h2, h3, h4, rfl⟩
        · exact .inl ⟨l, i, m.st, h1, h2, by rw [← hk, ← hp]⟩
        · refine .inr ⟨⟨q'.key, q'.path ++ [(k, i)], y⟩, ?_, rest, h4, hk, by rw [hp]; simp⟩
          exact List.mem_append_right _ (mem_childrenOf.2 ⟨k, l, i, y, h1, h2, h3, rfl⟩)
      · exact .inr ⟨q', List.mem_append_left _ hq', path, hw, hk, hp⟩

theorem mem_instancesOf {name : String} {p : Params} {m : QItem} :
    m ∈ instancesOf name p ↔ Instance name p m.key m.path m.st := by
  unfold instancesOf
  rw [List.mem_append, mem_matchesTop, mem_bfs _ _ (nodes_childrenTop name p)]
  constructor
  · rintro (⟨s, h1, rfl⟩ | ⟨q, hq, path, hw, hk, hp⟩)
    · exact .top h1
    · obtain ⟨k, s, h1, h2, rfl⟩ := mem_childrenTop.1 hq
      simp only [List.nil_append] at hk hp
      rw [hk, hp]
      exact .nested h1 h2 hw
  · obtain ⟨k, path, x⟩ := m
    intro h
    cases h with
    | top h1 => exact .inl ⟨_, h1, rfl⟩
    | nested h1 h2 h3 => exact .inr ⟨_, mem_childrenTop.2 ⟨_, _, h1, h2, rfl⟩, _, h3, rfl, rfl⟩

/-! ### all places are different -/

/-- Where an item is, as one list. -/
def _root_.BB.QItem.loc (q : QItem) : List (String × ℕ) := (q.key, 0) :: q.path

/-- Neither of the places is inside of the other. -/
def Apart (a b : QItem) : Prop := ¬ a.loc <+: b.loc ∧ ¬ b.loc <+: a.loc

theorem Apart.symm {a b : QItem} (h : Apart a b) : Apart b a := ⟨h.2, h.1⟩

theorem Apart.extend {a b c : QItem} (h : Apart a b) (hc : b.loc <+: c.loc) : Apart a c := by
  refine ⟨fun h1 => ?_, fun h1 => h.2 (hc.trans h1)⟩
  rcases List.prefix_or_prefix_of_prefix h1 hc with h2 | h2
  · exact h.1 h2
  · exact h.2 h2

theorem loc_append {q m : QItem} {path : Path} (hk : m.key = q.key) (hp : m.path = q.path ++ path) :
    q.loc <+: m.loc := by
  refine ⟨path, ?_⟩
  simp only [QItem.loc, hk, hp, List.cons_append]

theorem apart_siblings {q a b : QItem} {e f : String × ℕ} (ha : a.key = q.key)
    (hpa : a.path = q.path ++ [e]) (hb : b.key = q.key) (hpb : b.path = q.path ++ [f])
    (hne : e ≠ f) : Apart a b := by
  have key : ∀ (e f : String × ℕ), e ≠ f →
      ¬ ((q.key, 0) :: (q.path ++ [e])) <+: ((q.key, 0) :: (q.path ++ [f])) := by
    intro e f hne h
    have h2 := List.IsPrefix.eq_of_length h (by simp)
    simp at h2
    exact hne h2
  simp only [Apart, QItem.loc, ha, hpa, hb, hpb]
  exact ⟨key e f hne, key f e hne.symm⟩

theorem qitems_pairwise (q : QItem) (k : String) (l : List PSState) :
    (qitems q k l).Pairwise Apart := by
  rw [List.pairwise_iff_getElem]
  intro i j hi hj hij
  refine apart_siblings (q := q) (e := (k, i)) (f := (k, j)) ?_ ?_ ?_ ?_ ?_
  · simp [qitems]
  · simp [qitems]
  · simp [qitems]
  · simp [qitems]
  · intro h
    injection h with _ h
    omega

theorem matchesOf_pairwise (name : String) (q : QItem) : ∀ (vals : List (String × PVal)),
    (vals.map (·.1)).Nodup → (matchesOf name q vals).Pairwise Apart
  | [], _ => by simp [matchesOf]
  | (k, .arr a) :: rest, h => by
    rw [matchesOf]; exact matchesOf_pairwise name q rest (List.nodup_cons.1 h).2
  | (k, .objs a) :: rest, h => by
    rw [matchesOf]; exact matchesOf_pairwise name q rest (List.nodup_cons.1 h).2
  | (k, .states xs) :: rest, h => by
    have hn := List.nodup_cons.1 h
    have ih := matchesOf_pairwise name q rest hn.2
    rw [matchesOf]
    split
    · rename_i hk
      subst hk
      refine List.pairwise_append.2 ⟨qitems_pairwise q k xs, ih, ?_⟩
      intro a _ b hb
      obtain ⟨l, i, x, h1, _⟩ := mem_matchesOf.1 hb
      exact absurd (List.mem_map_of_mem (f := (·.1)) h1) hn.1
    · exact ih

theorem childrenOf_pairwise (name : String) (q : QItem) : ∀ (vals : List (String × PVal)),
    (vals.map (·.1)).Nodup → (childrenOf name q vals).Pairwise Apart
  | [], _ => by simp [childrenOf]
  | (k, .arr a) :: rest, h => by
    rw [childrenOf]; exact childrenOf_pairwise name q rest (List.nodup_cons.1 h).2
  | (k, .objs a) :: rest, h => by
    rw [childrenOf]; exact childrenOf_pairwise name q rest (List.nodup_cons.1 h).2
  | (k, .states xs) :: rest, h => by
    have hn := List.nodup_cons.1 h
    have ih := childrenOf_pairwise name q rest hn.2
    rw [childrenOf]
    split
    · exact ih
    · refine List.pairwise_append.2 ⟨qitems_pairwise q k xs, ih, ?_⟩
      intro a ha b hb
      obtain ⟨i, x, h1, rfl⟩ := mem_qitems.1 ha
      obtain ⟨k', l, j, y, h2, _, _, rfl⟩ := mem_childrenOf.1 hb
      refine apart_siblings (q := q) (e := (k, i)) (f := (k', j)) rfl rfl rfl rfl ?_
      intro he
      injection he with he _
      exact absurd (he ▸ List.mem_map_of_mem (f := (·.1)) h2) hn.1

theorem bfs_pairwise {name : String} : ∀ (fuel : ℕ) (queue : List QItem), nodesQ queue ≤ fuel →
    QWf queue → queue.Pairwise Apart → (bfs name fuel queue).Pairwise Apart
  | fuel, [], _, _, _ => by simp [bfs]
  | 0, q :: queue, hf, _, _ => by
    unfold nodesQ at hf
    rw [List.map_cons, nodesList, PSState.nodes_eq] at hf
    omega
  | fuel + 1, q :: queue, hf, hw, hp => by
    have hq := List.pairwise_cons.1 hp
    have hn := (hw q (by simp)).nodup
    rw [bfs]
    have hqc : (queue ++ childrenOf name q q.st.vals).Pairwise Apart := by
      refine List.pairwise_append.2 ⟨hq.2, childrenOf_pairwise name q _ hn, ?_⟩
      intro a ha b hb
      obtain ⟨k, l, i, x, _, _, _, rfl⟩ := mem_childrenOf.1 hb
      exact (hq.1 a ha).symm.extend (loc_append (path := [(k, i)]) rfl rfl)
    refine List.pairwise_append.2 ⟨matchesOf_pairwise name q _ hn,
      bfs_pairwise fuel _ (nodesQ_step hf) hw.step hqc, ?_⟩
    intro a ha b hb
    obtain ⟨q', hq', path, _, hk, hpath⟩ := (mem_bfs fuel _ (nodesQ_step hf)).1 hb
    obtain ⟨l, i, x, _, _, rfl⟩ := mem_matchesOf.1 ha
    refine Apart.extend (b := q') ?_ (loc_append hk hpath)
    rcases List.mem_append.1 hq' with hq' | hq'
    · exact (Apart.extend (c := ⟨q.key, q.path ++ [(name, i)], x⟩) (hq.1 q' hq').symm
        (loc_append (path := [(name, i)]) rfl rfl)).symm
    · obtain ⟨k, l', j, y, _, hne, _, rfl⟩ := mem_childrenOf.1 hq'
      refine apart_siblings (q := q) (e := (name, i)) (f := (k, j)) rfl rfl rfl rfl ?_
      intro he
      injection he with he _
      exact hne he.symm

theorem apart_of_key {a b : QItem} (h : a.key ≠ b.key) : Apart a b := by
  constructor
  · rintro ⟨c, hc⟩
    simp only [QItem.loc, List.cons_append, List.cons.injEq, Prod.mk.injEq] at hc
    exact h hc.1.1
  · rintro ⟨c, hc⟩
    simp only [QItem.loc, List.cons_append, List.cons.injEq, Prod.mk.injEq] at hc
    exact h hc.1.1.symm

theorem matchesTop_pairwise (name : String) : ∀ (p : Params), (p.map (·.1)).Nodup →
    (matchesTop name p).Pairwise Apart
  | [], _ => by simp [matchesTop]
  | (k, .noise d) :: rest, h => by
    rw [matchesTop]; exact matchesTop_pairwise name rest (List.nodup_cons.1 h).2
  | (k, .ps s) :: rest, h => by
    have hn := List.nodup_cons.1 h
    have ih := matchesTop_pairwise name rest hn.2
    rw [matchesTop]
    split
    · rename_i hk
      subst hk
      refine List.pairwise_cons.2 ⟨?_, ih⟩
      intro b hb
      obtain ⟨s', h1, _⟩ := mem_matchesTop.1 hb
      exact absurd (List.mem_map_of_mem (f := (·.1)) h1) hn.1
    · exact ih

theorem childrenTop_pairwise (name : String) : ∀ (p : Params), (p.map (·.1)).Nodup →
    (childrenTop name p).Pairwise Apart
  | [], _ => by simp [childrenTop]
  | (k, .noise d) :: rest, h => by
    rw [childrenTop]; exact childrenTop_pairwise name rest (List.nodup_cons.1 h).2
  | (k, .ps s) :: rest, h => by
    have hn := List.nodup_cons.1 h
    have ih := childrenTop_pairwise name rest hn.2
    rw [childrenTop]
    split
    · exact ih
    · refine List.pairwise_cons.2 ⟨?_, ih⟩
      intro b hb
      obtain ⟨k', s', h1, _, rfl⟩ := mem_childrenTop.1 hb
      refine apart_of_key ?_
      intro he
      have he' : k = k' := he
      subst he'
      exact absurd (List.mem_map_of_mem (f := (·.1)) h1) hn.1

theorem instancesOf_pairwise {name : String} {p : Params} (h : ParamsWf p) :
    (instancesOf name p).Pairwise Apart := by
  unfold instancesOf
  refine List.pairwise_append.2 ⟨matchesTop_pairwise name p h.1,
    bfs_pairwise _ _ (nodes_childrenTop name p) (QWf_childrenTop h)
      (childrenTop_pairwise name p h.1), ?_⟩
  intro a ha b hb
  obtain ⟨s, _, rfl⟩ := mem_matchesTop.1 ha
  obtain ⟨q, hq, path, _, hk, _⟩ := (mem_bfs _ _ (nodes_childrenTop name p)).1 hb
  obtain ⟨k, s', _, hne, rfl⟩ := mem_childrenTop.1 hq
  exact apart_of_key (by rw [hk]; exact hne.symm)

theorem instancesOf_nodup {name : String} {p : Params} (h : ParamsWf p) :
    ((instancesOf name p).map fun q => (q.key, q.path)).Nodup := by
  unfold List.Nodup
  rw [List.pairwise_map]
  refine (instancesOf_pairwise h).imp ?_
  intro a b hab he
  injection he with h1 h2
  exact hab.1 (by simp only [QItem.loc, h1, h2]; exact List.prefix_refl _)

/-! ### what is replaced -/

theorem dset_split {α : Type} {k : String} {v v' : α} : ∀ {pre post : List (String × α)},
    k ∉ pre.map (·.1) → dset (pre ++ (k, v) :: post) k v' = pre ++ (k, v') :: post
  | [], post, _ => by simp [dset]
  | (k2, v2) :: pre, post, h => by
    simp only [List.map_cons, List.mem_cons, not_or] at h
    rw [List.cons_append, dset, if_neg (Ne.symm h.1), dset_split h.2, List.cons_append]

theorem mem_split_nodup {α : Type} {k : String} {v : α} {d : List (String × α)}
    (hd : (d.map (·.1)).Nodup) (h : (k, v) ∈ d) :
    ∃ pre post, d = pre ++ (k, v) :: post ∧ k ∉ pre.map (·.1) := by
  obtain ⟨pre, post, rfl⟩ := List.append_of_mem h
  refine ⟨pre, post, rfl, ?_⟩
  rw [List.map_append, List.map_cons] at hd
  have := List.disjoint_of_nodup_append hd
  intro hm
  exact this hm (by simp)

theorem getElem?_split {α : Type} {l : List α} {i : ℕ} {x : α} (h : l[i]? = some x) :
    ∃ a b, l = a ++ x :: b ∧ a.length = i := by
  obtain ⟨hi, hx⟩ := List.getElem?_eq_some_iff.1 h
  refine ⟨l.take i, l.drop (i + 1), ?_, by simp; omega⟩
  rw [← hx]
  simp

theorem modifyAt_replaced {name : String} {x' : PSState} :
    ∀ {s : PSState} {path : Path} {x : PSState}, PSWf s → Within name s path x →
    ReplacedAt x' path s (s.modifyAt (fun _ => x') path) := by
  intro s path x hw h
  induction h with
  | @here s x l i h1 h2 =>
    obtain ⟨pre, post, he, hk⟩ := mem_split_nodup hw.nodup h1
    obtain ⟨a, b, rfl, rfl⟩ := getElem?_split h2
    cases s with | mk n vals kd =>
    simp only [PSState.vals] at he h1
    subst he
    have hg : dget (pre ++ (name, PVal.states (a ++ x :: b)) :: post) name =
        some (.states (a ++ x :: b)) := dget_of_mem hw.nodup h1
    have : PSState.modifyAt (fun _ => x') [(name, a.length)]
        (.mk n (pre ++ (name, .states (a ++ x :: b)) :: post) kd) =
        .mk n (pre ++ (name, .states (a ++ x' :: b)) :: post) kd := by
      rw [PSState.modifyAt]
      simp only [PSState.get, PSState.vals, hg, h2, PSState.n, PSState.kd, dset_split hk,
        PSState.modifyAt]
      simp
    rw [this]
    exact .cons .nil
  | @deeper s y x k l i path h1 h2 h3 h4 ih =>
    obtain ⟨pre, post, he, hk⟩ := mem_split_nodup hw.nodup h1
    obtain ⟨a, b, rfl, rfl⟩ := getElem?_split h3
    have hy := hw.nested h1 (List.mem_of_getElem? h3)
    cases s with | mk n vals kd =>
    simp only [PSState.vals] at he h1
    subst he
    have hg : dget (pre ++ (k, PVal.states (a ++ y :: b)) :: post) k =
        some (.states (a ++ y :: b)) := dget_of_mem hw.nodup h1
    have : PSState.modifyAt (fun _ => x') ((k, a.length) :: path)
        (.mk n (pre ++ (k, .states (a ++ y :: b)) :: post) kd) =
        .mk n (pre ++ (k, .states (a ++ y.modifyAt (fun _ => x') path :: b)) :: post) kd := by
      rw [PSState.modifyAt]
      simp only [PSState.get, PSState.vals, hg, h3, PSState.n, PSState.kd, dset_split hk]
      simp
    rw [this]
    exact .cons (ih hy)

theorem params_modifyAt_replaced {name : String} {x' : PSState} {p : Params} {k : String}
    {path : Path} {x : PSState} (hw : ParamsWf p) (h : Instance name p k path x) :
    ReplacedTop x' k path p (p.modifyAt (fun _ => x') k path) := by
  have key : ∀ {k : String} {s : PSState} {path : Path}, (k, TopVal.ps s) ∈ p →
      ReplacedAt x' path s (s.modifyAt (fun _ => x') path) →
      ReplacedTop x' k path p (p.modifyAt (fun _ => x') k path) := by
    intro k s path hm hr
    obtain ⟨pre, post, he, hk⟩ := mem_split_nodup hw.1 hm
    have hg : dget p k = some (.ps s) := dget_of_mem hw.1 hm
    unfold Params.modifyAt
    simp only [hg]
    rw [he, dset_split hk]
    exact .mk hr
  cases h with
  | top h1 => exact key h1 (by rw [PSState.modifyAt]; exact .nil)
  | nested h1 h2 h3 => exact key h1 (modifyAt_replaced (hw.2 _ _ h1) h3)

end BB.Lemmas
