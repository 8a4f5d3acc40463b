import Verif.Lemmas.HeapTree
import Verif.Lemmas.Instances

/-!
`ParamSpacePerturbation.perturb` on the heap computes what it computes on values.
-/

namespace BB.Lemmas
open BB BB.Spec BB.HM

/-! ### counting -/

theorem countValsH_sim {h : Heap} (name : String) : ∀ {vals : List (String × PVal)} {vs : List (String × Addr)},
    RepVals h vals vs →
    Sim AnyHeap (fun h' r r' => h = h' ∧ r.1 = r'.1 ∧ RepList h r'.2 r.2) h (countValsH name vs)
      (M.lift (countVals name vals))
  | [], vs, hr => by
    rw [RepVals] at hr; subst hr
    exact fun _ => ⟨rfl, rfl, rfl, by rw [RepList]⟩
  | (k, .arr x) :: rest, vs, hr => by
    rw [RepVals] at hr
    obtain ⟨b, vs', rfl, hv, hr⟩ := hr
    rw [RepVal] at hv
    rw [countValsH, countVals]
    refine Sim.of_eq (read_bind hv _) ?_
    exact countValsH_sim name hr
  | (k, .objs x) :: rest, vs, hr => by
    rw [RepVals] at hr
    obtain ⟨b, vs', rfl, hv, hr⟩ := hr
    rw [RepVal] at hv
    obtain ⟨as, hv, _⟩ := hv
    rw [countValsH, countVals]
    refine Sim.of_eq (read_bind hv _) ?_
    exact countValsH_sim name hr
  | (k, .states l) :: rest, vs, hr => by
    rw [RepVals] at hr
    obtain ⟨b, vs', rfl, hv, hr⟩ := hr
    rw [RepVal] at hv
    obtain ⟨as, hv, hl⟩ := hv
    rw [countValsH, countVals]
    refine Sim.of_eq (read_bind hv _) ?_
    simp only
    have hlen := repList_length hl
    by_cases hk : k = name
    · rw [if_pos hk, if_pos hk, lift_bind_eq]
      refine Sim.bind (countValsH_sim name hr) ?_
      rintro h' ⟨n, q⟩ ⟨n', q'⟩ ⟨rfl, h1, h2⟩
      cases h1
      exact fun _ => ⟨rfl, rfl, by simp only [hlen], h2⟩
    · rw [if_neg hk, if_neg hk]
      have he : as.isEmpty = l.isEmpty := by
        cases as <;> cases l <;> simp at hlen <;> rfl
      rw [he]
      by_cases hl' : l.isEmpty
      · rw [if_pos hl', if_pos hl']; exact Sim.error trivial
      · rw [if_neg hl', if_neg hl', lift_bind_eq]
        refine Sim.bind (countValsH_sim name hr) ?_
        rintro h' ⟨n, q⟩ ⟨n', q'⟩ ⟨rfl, h1, h2⟩
        cases h1
        exact fun _ => ⟨rfl, rfl, rfl, repList_append hl h2⟩

theorem countQueue_cons (name : String) (s : PSState) (queue : List PSState) (n : ℕ) :
    countQueue name (s :: queue) n = countVals name s.vals >>= fun r => countQueue name (queue ++ r.2) (n + r.1) := by
  rw [countQueue]
  split
  · rename_i e he; rw [he]; rfl
  · rename_i m q he
    simp only [he]; rfl

theorem countQueueH_sim {h : Heap} (name : String) : ∀ (fuel : ℕ) {l : List PSState} {as : List Addr} (n : ℕ),
    RepList h l as → nodesList l ≤ fuel →
    Sim AnyHeap (fun h' r r' => h = h' ∧ r = r') h (countQueueH name fuel as n) (M.lift (countQueue name l n))
  | fuel, [], as, n, hr, _ => by
    rw [RepList] at hr; subst hr
    rw [countQueueH, countQueue]
    exact fun _ => ⟨rfl, rfl, rfl⟩
  | 0, s :: l, as, n, hr, hf => by
    rw [nodesList] at hf; cases s; simp only [PSState.nodes] at hf; omega
  | fuel + 1, s :: l, as, n, hr, hf => by
    rw [RepList] at hr
    obtain ⟨a, as', rfl, hs, hl⟩ := hr
    obtain ⟨m, vals, kd⟩ := s
    rw [RepPS] at hs
    obtain ⟨vs, attrs, kd', ho, hvs⟩ := hs
    rw [countQueueH, countQueue_cons, lift_bind_eq]
    refine Sim.of_eq (readPS_bind ho _) ?_
    have hn : ∀ r, countVals name vals = .ok r → nodesList (l ++ r.2) ≤ fuel := by
      intro r hr
      have := countVals_nodes (n := r.1) (q := r.2) hr
      rw [nodesList_append]
      rw [nodesList, PSState.nodes] at hf
      omega
    refine Sim.bind (countValsH_sim name hvs).lift_ok ?_
    rintro h' ⟨m', q⟩ ⟨m'', q'⟩ ⟨⟨rfl, h1, h2⟩, h3⟩
    cases h1
    exact countQueueH_sim name fuel (n + m') (repList_append hl h2) (hn _ h3)

theorem countTopH_eq {h : Heap} (name : String) : ∀ {p : Params} {vs : List (String × TRef)}, RepTop h p vs →
    (countTopH name vs).1 = (countTop name p).1 ∧ RepList h (countTop name p).2 (countTopH name vs).2
  | [], vs, hr => by
    have hr : vs = [] := hr
    subst hr; exact ⟨rfl, by simp only [countTop, countTopH]; rw [RepList]⟩
  | (k, .noise d) :: rest, vs, hr => by
    obtain ⟨vs', rfl, hr⟩ := hr
    simp only [countTop, countTopH]
    exact countTopH_eq name hr
  | (k, .ps s) :: rest, vs, hr => by
    obtain ⟨a, vs', rfl, hs, hr⟩ := hr
    have ih := countTopH_eq name hr
    by_cases hk : k = name
    · simp only [countTop, countTopH, if_pos hk]
      exact ⟨by rw [ih.1], ih.2⟩
    · simp only [countTop, countTopH, if_neg hk]
      exact ⟨ih.1, by rw [RepList]; exact ⟨a, _, rfl, hs, ih.2⟩⟩

theorem nodes_countTop (name : String) : ∀ (p : Params), nodesList (countTop name p).2 ≤ nodesParams p
  | [] => by simp [countTop, nodesList]
  | (k, .noise d) :: rest => nodes_countTop name rest
  | (k, .ps s) :: rest => by
    have ih := nodes_countTop name rest
    by_cases hk : k = name
    · simp only [countTop, if_pos hk, nodesParams]; omega
    · simp only [countTop, if_neg hk, nodesParams, nodesList]; omega

/-! ### depth and number of nodes -/

mutual
theorem depthPS_le_nodes : ∀ (s : PSState), depthPS s ≤ s.nodes
  | .mk n vals kd => by
    rw [depthPS, PSState.nodes]; have := depthVals_le_nodes vals; omega
theorem depthVals_le_nodes : ∀ (vals : List (String × PVal)), depthVals vals ≤ nodesVals vals
  | [] => by rw [depthVals, nodesVals]
  | (k, .arr x) :: rest => by
    rw [depthVals, depthVal, nodesVals]; have := depthVals_le_nodes rest; omega
  | (k, .objs x) :: rest => by
    rw [depthVals, depthVal, nodesVals]; have := depthVals_le_nodes rest; omega
  | (k, .states l) :: rest => by
    rw [depthVals, depthVal, nodesVals]; have := depthVals_le_nodes rest; have := depthList_le_nodes l; omega
theorem depthList_le_nodes : ∀ (l : List PSState), depthList l ≤ nodesList l
  | [] => by rw [depthList, nodesList]
  | s :: l => by
    rw [depthList, nodesList]; have := depthPS_le_nodes s; have := depthList_le_nodes l; omega
end

theorem depthTop_le_nodes : ∀ (p : Params), depthTop p ≤ nodesParams p
  | [] => by rw [depthTop, nodesParams]
  | (k, .noise d) :: rest => by rw [depthTop, nodesParams]; exact depthTop_le_nodes rest
  | (k, .ps s) :: rest => by
    rw [depthTop, nodesParams]; have := depthTop_le_nodes rest; have := depthPS_le_nodes s; omega

/-! ### the members of a list -/

/-- The variables other than the new state. -/
structure LocEq (l : PertVars) (l' : PertLocals) : Prop where
  i : l.i = l'.i
  lpr : l.lpr = l'.lpr
  stats : l.stats = l'.stats

theorem copyPS_made {h₀ h : Heap} {F : Set Addr} {s : PSState} {a : Addr} {fuel : ℕ} (c : Ctx h₀ F h)
    (hr : RepPS h₀ s a) (hv : ValidPS s) (hd : depthPS s ≤ fuel) (t : List Draw) :
    ∃ b h', copyPS fuel a h t = (.ok b, h', t) ∧ Keep Set.univ h h' ∧ Firm F h' (RepPS · s b) := by
  obtain ⟨b, h', hc, g, hb, own, _⟩ := copyPS_run 0 h₀ s a fuel h t c.keep hr hv hd (.inl rfl) (Nat.zero_le _)
  refine ⟨b, h', hc, keep_prefix g.pre, firm_own_ps own ?_ ?_⟩
  · rw [Set.disjoint_left]
    intro x hx hx'
    exact absurd hx' (not_lt.2 (c.new x hx))
  · intro x hx hx'
    exact absurd hx'.1 (not_le.2 (c.old x hx))

/-- The outcome of going through a list. -/
def ListOut (target : ℕ) (key : String) (path : Path) (k : String) (off : ℕ) (xs ys : List PSState)
    (l l₁ : PertLocals) : Prop :=
  (ys = xs ∧ l₁.params = l.params ∧ l.i ≤ l₁.i) ∨
  (∃ j z, j < xs.length ∧ ys = xs.set j z ∧ l₁.params = l.params.modifyAt (fun _ => z) key (path ++ [(k, off + j)]) ∧
    l.i ≤ target ∧ target < l₁.i)

theorem visitAllH_sim {h₀ : Heap} {F : Set Addr} {fuel : ℕ} (g : PSPert) (target : ℕ) (key : String) (path : Path)
    (k : String) : ∀ {xs : List PSState} {as : List Addr} {h : Heap} (off : ℕ) {l : PertVars} {l' : PertLocals},
    Ctx h₀ F h → RepList h₀ xs as → ValidList xs → depthList xs ≤ fuel → LocEq l l' →
    Sim AnyHeap (fun h' r l₁ => Keep Set.univ h h' ∧ LocEq r.2 l₁ ∧
        ∃ ys, Firm F h' (RepList · ys r.1) ∧ ListOut target key path k off xs ys l' l₁) h
      (g.visitAllH fuel target as l)
      (g.visitAll target (xs.mapIdx fun i s => { key := key, path := path ++ [(k, off + i)], st := s }) l')
  | [], as, h, off, l, l', c, hr, hv, hd, he => by
    rw [RepList] at hr; subst hr
    exact Sim.pure (b := l') ⟨keep_refl h, he, [], Firm.pure fun _ => by rw [RepList], .inl ⟨rfl, rfl, le_refl _⟩⟩
  | x :: xs, as, h, off, l, l', c, hr, hv, hd, he => by
    rw [RepList] at hr
    obtain ⟨a, as', rfl, hx, hr⟩ := hr
    rw [ValidList] at hv
    rw [depthList] at hd
    rw [PSPert.visitAllH, List.mapIdx_cons, PSPert.visitAll]
    have hmap : (xs.mapIdx fun i s => ({ key := key, path := path ++ [(k, off + (i + 1))], st := s } : QItem)) =
        xs.mapIdx fun i s => { key := key, path := path ++ [(k, (off + 1) + i)], st := s } := by
      congr 1; funext i s; rw [show off + (i + 1) = off + 1 + i by omega]
    rw [hmap]
    have key1 : Sim AnyHeap (fun h' r l₁ => Keep Set.univ h h' ∧ LocEq r.2 l₁ ∧ ∃ y, Firm F h' (RepPS · y r.1) ∧
        ((y = x ∧ l₁.params = l'.params ∧ l₁.i = l'.i + 1) ∨
         (l₁.params = l'.params.modifyAt (fun _ => y) key (path ++ [(k, off)]) ∧ l'.i = target ∧
          l₁.i = target + 1))) h
        (if l.i = target then do
            let (new, r, nm) ← g.perturbPSH fuel a
            return (new, l.done r nm)
          else do
            let new ← copyPS fuel a
            return (new, { l with i := l.i + 1 }) : HM (Addr × PertVars))
        (g.visit target key (path ++ [(k, off + 0)]) x l') := by
      rw [PSPert.visit, he.i]
      by_cases ht : l'.i = target
      · rw [if_pos ht, if_pos ht]
        refine Sim.bind (perturbPSH_sim g c hx hv.1 (by omega)) ?_
        rintro h' ⟨b, r, nm⟩ ⟨y, r', nm'⟩ ⟨hk, hf, e⟩
        cases e
        refine Sim.pure ⟨hk, ⟨?_, ?_, ?_⟩, y, hf, .inr ⟨rfl, ht, ?_⟩⟩
        · simp only [PertVars.done, he.i]
        · simp only [PertVars.done, he.lpr]
        · simp only [PertVars.done, he.stats]
        · simp only [ht]
      · rw [if_neg ht, if_neg ht]
        intro t
        obtain ⟨b, h', hc, hk, hf⟩ := copyPS_made (fuel := fuel) c hx hv.1 (by omega) t
        rw [bind_of hc]
        exact ⟨rfl, hk, ⟨rfl, he.lpr, he.stats⟩, x, hf, .inl ⟨rfl, rfl, rfl⟩⟩
    refine Sim.bind key1 ?_
    rintro h₁ ⟨b, l₁⟩ l₁' ⟨k1, e1, y, hy, ho⟩
    refine Sim.of_eq_right (bind_pure _).symm ?_
    refine Sim.bind (visitAllH_sim (xs := xs) g target key path k (off + 1) (c.step k1) hr hv.2
      ((le_max_right _ _).trans hd) e1) ?_
    rintro h₂ ⟨bs, l₂⟩ l₂' ⟨k2, e2, ys, hys, ho2⟩
    refine Sim.pure (b := l₂') ⟨k1.trans k2, e2, y :: ys, ?_, ?_⟩
    · intro h₃ k3
      rw [RepList]
      exact ⟨b, bs, rfl, hy.keep' k2 h₃ k3, hys h₃ k3⟩
    · rcases ho with ⟨rfl, p1, i1⟩ | ⟨p1, ht, i1⟩
      · rcases ho2 with ⟨rfl, p2, i2⟩ | ⟨j, z, hj, rfl, p2, i2, i3⟩
        · exact .inl ⟨rfl, p2.trans p1, by omega⟩
        · refine .inr ⟨j + 1, z, by simpa using hj, rfl, ?_, by omega, i3⟩
          rw [p2, p1]
          congr 4; omega
      · rcases ho2 with ⟨rfl, p2, i2⟩ | ⟨j, z, hj, rfl, p2, i2, i3⟩
        · exact .inr ⟨0, y, by simp, rfl, by rw [p2, p1]; rfl, by omega, by omega⟩
        · omega

/-! ### the queue and the new state -/

theorem mem_validVals {n : ℕ} {k : String} {l : List PSState} : ∀ {vals : List (String × PVal)},
    ValidVals n vals → (k, PVal.states l) ∈ vals → l ≠ [] ∧ ValidList l
  | [], _, hm => by simp at hm
  | (k', v) :: rest, hv, hm => by
    rw [ValidVals] at hv
    rcases List.mem_cons.1 hm with h | h
    · cases h; have := hv.1.2; rw [ValidVal] at this; exact this
    · exact mem_validVals hv.2 h

theorem mem_depthVals {k : String} {l : List PSState} : ∀ {vals : List (String × PVal)},
    (k, PVal.states l) ∈ vals → depthList l ≤ depthVals vals
  | [], hm => by simp at hm
  | (k', v) :: rest, hm => by
    rw [depthVals]
    rcases List.mem_cons.1 hm with h | h
    · cases h; rw [depthVal]; exact le_max_left _ _
    · exact (mem_depthVals h).trans (le_max_right _ _)

theorem mem_validList {x : PSState} : ∀ {l : List PSState}, ValidList l → x ∈ l → ValidPS x
  | [], _, hm => by simp at hm
  | s :: l, hv, hm => by
    rw [ValidList] at hv
    rcases List.mem_cons.1 hm with h | h
    · rw [h]; exact hv.1
    · exact mem_validList hv.2 h

theorem mem_depthList {x : PSState} : ∀ {l : List PSState}, x ∈ l → depthPS x ≤ depthList l
  | [], hm => by simp at hm
  | s :: l, hm => by
    rw [depthList]
    rcases List.mem_cons.1 hm with h | h
    · rw [h]; exact le_max_left _ _
    · exact (mem_depthList h).trans (le_max_right _ _)

theorem Ctx.set {h₀ h : Heap} {F : Set Addr} (c : Ctx h₀ F h) {x : Addr} (hx : x ∈ F) (o : Obj) :
    Ctx h₀ F (h.set x o) := by
  refine ⟨?_, c.new, fun y hy => by rw [List.length_set]; exact c.old y hy⟩
  intro a _ o₁ ho₁
  have : x ≠ a := by
    rintro rfl
    exact absurd (lt_of_get ho₁) (not_lt.2 (c.new x hx))
  obtain ⟨o₂, ho₂, hu⟩ := c.keep a trivial o₁ ho₁
  exact ⟨o₂, by rw [List.getElem?_set_ne this]; exact ho₂, hu⟩

/-- The `State` itself is modified. -/
theorem AtN.top {h h' : Heap} {st a b : Addr} {p : Path} {vs attrs temp cache extra} (ha : AtN h a p b)
    (hk : Keep {st}ᶜ h h') (ho : h[st]? = some (.state vs attrs temp cache extra)) : AtN h' a p b := by
  induction ha with
  | here a => exact .here a
  | @deeper a a' b c n₁ vs₁ attrs₁ kd₁ k as i path ha hg hl hi _ ih =>
    have hc : c ≠ st := by rintro rfl; rw [ho] at hl; cases hl
    have hx : a ≠ st := by rintro rfl; rw [ho] at ha; cases ha
    obtain ⟨kd'', ha'⟩ := hk.ps (a := a) hx ha
    exact .deeper ha' hg (hk.list (a := c) hc hl) hi ih

/-- A pair in the queue on the heap, and an item in the queue on values. -/
structure QRel (name : String) (h₀ : Heap) (p₀ : Params) (st : Addr) (fuel : ℕ) (h : Heap) (na : Addr × Addr)
    (q : QItem) : Prop where
  rep : RepPS h₀ q.st na.2
  ne : q.key ≠ name
  node : ∃ s₀, dget p₀ q.key = some (.ps s₀) ∧ NodeAt name s₀ q.path q.st
  pos : ∃ vs attrs temp cache extra a, h[st]? = some (.state vs attrs temp cache extra) ∧
    dget vs q.key = some (.ps a) ∧ AtN h a q.path na.1
  valid : ValidPS q.st
  depth : depthPS q.st ≤ fuel
  wf : PSWf q.st

section
variable {name : String} {h₀ : Heap} {p₀ : Params} {st : Addr} {fuel : ℕ} {temp : ℝ} {F : Set Addr}

/-- The pairs in the queue stay what they are. -/
def Mono (name : String) (h₀ : Heap) (p₀ : Params) (st : Addr) (fuel : ℕ) (h h' : Heap) : Prop :=
  ∀ na q, QRel name h₀ p₀ st fuel h na q → QRel name h₀ p₀ st fuel h' na q

theorem Mono.refl (h : Heap) : Mono name h₀ p₀ st fuel h h := fun _ _ hq => hq

theorem Mono.trans {h₁ h₂ h₃ : Heap} (h : Mono name h₀ p₀ st fuel h₁ h₂) (h' : Mono name h₀ p₀ st fuel h₂ h₃) :
    Mono name h₀ p₀ st fuel h₁ h₃ := fun na q hq => h' na q (h na q hq)

theorem Mono.of_keep {h h' : Heap} (hk : Keep Set.univ h h') : Mono name h₀ p₀ st fuel h h' := by
  rintro na q ⟨h1, h2, h3, ⟨vs, attrs, tmp, cache, extra, a, ho, hg, ha⟩, h5, h6, h7⟩
  exact ⟨h1, h2, h3, ⟨vs, attrs, tmp, cache, extra, a, hk.state trivial ho, hg, ha.keep hk⟩, h5, h6, h7⟩

theorem Mono.of_node {h h' : Heap} {x₀ : Addr} {n n' : ℕ} {vs vs' attrs attrs' : List (String × Addr)}
    {kd kd' : Option (List (ℝ × ℝ))} (hk : Keep {x₀}ᶜ h h') (ho : h[x₀]? = some (.ps n vs attrs kd))
    (ho' : h'[x₀]? = some (.ps n' vs' attrs' kd')) (hd : ∀ k, k ≠ name → dget vs' k = dget vs k) :
    Mono name h₀ p₀ st fuel h h' := by
  rintro na q ⟨h1, h2, ⟨s₀, h3, h3'⟩, ⟨vs₁, attrs₁, tmp, cache, extra, a, hs, hg, ha⟩, h5, h6, h7⟩
  have hne : st ≠ x₀ := by rintro rfl; rw [ho] at hs; cases hs
  exact ⟨h1, h2, ⟨s₀, h3, h3'⟩, ⟨vs₁, attrs₁, tmp, cache, extra, a, hk.state (a := st) hne hs, hg,
    ha.set h3' hk ho ho' hd⟩, h5, h6, h7⟩

theorem Mono.of_top {h h' : Heap} {vs attrs temp cache extra vs' attrs' temp' cache' extra'} (hk : Keep {st}ᶜ h h')
    (ho : h[st]? = some (.state vs attrs temp cache extra))
    (ho' : h'[st]? = some (.state vs' attrs' temp' cache' extra')) (hd : ∀ k, k ≠ name → dget vs' k = dget vs k) :
    Mono name h₀ p₀ st fuel h h' := by
  rintro na q ⟨h1, h2, h3, ⟨vs₁, attrs₁, tmp, cache₁, extra₁, a, hs, hg, ha⟩, h5, h6, h7⟩
  have ha' := ha.top hk hs
  rw [ho] at hs; cases hs
  exact ⟨h1, h2, h3, ⟨vs', attrs', temp', cache', extra', a, ho', by rw [hd q.key h2]; exact hg, ha'⟩, h5, h6, h7⟩

/-- The new state. -/
def Cur (name : String) (F : Set Addr) (st : Addr) (temp : ℝ) (h : Heap) (p : Params) : Prop :=
  ∃ vs attrs N, h[st]? = some (.state vs attrs temp [] []) ∧ NTop name F h p vs N ∧ N ⊆ F ∧ st ∉ N

theorem Cur.keep {h h' : Heap} {p : Params} (hc : Cur name F st temp h p) (hk : Keep Set.univ h h') :
    Cur name F st temp h' p := by
  obtain ⟨vs, attrs, N, ho, hv, h1, h2⟩ := hc
  exact ⟨vs, attrs, N, hk.state trivial ho, nTop_keep (hk.mono (Set.subset_univ _)) (hk.mono (Set.subset_univ _)) hv,
    h1, h2⟩

/-- The node of an item, when its state is `x`. -/
theorem Cur.node {h : Heap} {p : Params} {s x : PSState} {na : Addr × Addr} {q : QItem}
    (hc : Cur name F st temp h p) (hq : QRel name h₀ p₀ st fuel h na q) (hg : dget p q.key = some (.ps s))
    (hn : NodeAt name s q.path x) : ∃ N, RepN name F h x na.1 N := by
  obtain ⟨vs, attrs, N, ho, hv, h1, h2⟩ := hc
  obtain ⟨vs₁, attrs₁, tmp, cache₁, extra₁, a, hs, hga, ha⟩ := hq.pos
  rw [ho] at hs; cases hs
  obtain ⟨Nx, _, hr, _⟩ := nTop_focus hq.ne hv hg hga ha hn
  exact ⟨Nx, hr⟩

theorem NodeAt.modify {s x : PSState} {p : Path} (hn : NodeAt name s p x) (y : PSState) :
    NodeAt name (s.modifyAt (fun _ => y) p) p y := by
  induction hn with
  | here s => exact .here y
  | @deeper s y' x k l i path hg hk hi _ ih =>
    rw [PSState.modifyAt, hg]
    simp only [hi]
    refine .deeper (l := l.set i (y'.modifyAt (fun _ => y) path)) ?_ hk ?_ ih
    · rw [PSState.get]; exact dget_dset_same _ _ _
    · rw [List.getElem?_set_self]
      exact (List.getElem?_eq_some_iff.1 hi).1

/-- The list of the perturbed space in a node is replaced, `_param_space.py` line 68. -/
theorem setNode_run {h : Heap} {na : Addr × Addr} {q : QItem} {s₀ : PSState} {ys : List PSState} {bs : List Addr}
    (c : Ctx h₀ F h) (hc : Cur name F st temp h p₀) (hq : QRel name h₀ p₀ st fuel h na q)
    (hg : dget p₀ q.key = some (.ps s₀)) (hn : NodeAt name s₀ q.path q.st)
    (hys : Firm F h (RepList · ys bs)) (hne : ys ≠ []) :
    ∃ h', (∀ {γ : Type} (f : Unit → HM γ),
        (alloc (.list bs) >>= fun b => setValH na.1 name b >>= f) h = f () h') ∧ Ctx h₀ F h' ∧
      Cur name F st temp h' (dset p₀ q.key (.ps (s₀.modifyAt
        (fun _ => .mk q.st.n (dset q.st.vals name (.states ys)) q.st.kd) q.path))) ∧
      Mono name h₀ p₀ st fuel h h' := by
  have hc' := hc
  obtain ⟨vs, attrs, N, ho, hv, h1, h2⟩ := hc
  obtain ⟨vs₁, attrs₁, tmp, cache₁, extra₁, a, hs, hga, ha⟩ := hq.pos
  rw [ho] at hs; cases hs
  obtain ⟨Nx, hNx, hr, hu⟩ := nTop_focus hq.ne hv hg hga ha hn
  obtain ⟨new, old⟩ := na
  obtain ⟨key, path, ⟨n, vals, kd⟩⟩ := q
  simp only [PSState.n, PSState.vals, PSState.kd] at *
  rw [RepN] at hr
  obtain ⟨vs₂, attrs₂, kd₂, N', hon, hvs, h3, h4, h5⟩ := hr
  have hnF : new ∈ F := h1 (hNx h4)
  have hbs : bs ≠ [] := by
    intro hb
    have := repList_length hys.here
    rw [hb] at this
    exact hne (List.length_eq_zero_iff.1 this.symm)
  set h₁ := h ++ [Obj.list bs] with hh₁
  set o' : Obj := .ps n (dset vs₂ name h.length) (dset attrs₂ name h.length) kd₂ with ho'
  have hp : h <+: h₁ := prefix_snoc _
  have kp : Keep Set.univ h h₁ := keep_prefix hp
  have hon₁ := prefix_get hp hon
  have kset : Keep {new}ᶜ h₁ (h₁.set new o') := keep_set (fun hx => hx rfl)
  have kall : Keep {new}ᶜ h (h₁.set new o') := (kp.mono (Set.subset_univ _)).trans kset
  have kF : Keep Fᶜ h (h₁.set new o') := kall.mono fun x hx => by rintro rfl; exact hx hnF
  have hself : (h₁.set new o')[new]? = some o' := set_self hon₁
  refine ⟨h₁.set new o', ?_, (c.step kp).set hnF o', ?_, ?_⟩
  · intro γ f
    change ((setValH new name h.length) >>= f) h₁ = _
    rw [setValH, bind_assoc', checkH, bind_assoc', read_bind (get_snoc (.list bs))]
    simp only [Option.any_none, Bool.false_eq_true, if_false]
    rw [if_neg (by simpa using hbs)]
    show ((readPS new >>= _) >>= f) h₁ = _
    rw [bind_assoc', readPS_bind hon₁]
    rfl
  · refine ⟨vs, attrs, N, kall.state (a := st) (fun hx => h2 (hNx (by rw [hx]; exact h4))) ho, ?_, h1, h2⟩
    refine hu _ _ kF (kall.mono fun x hx => by rintro rfl; exact hx h4) ?_
    rw [RepN]
    refine ⟨_, _, kd₂, N', hself, ?_, h3, h4, h5⟩
    refine nVals_dset ?_ (nVals_keep kF (kall.mono fun x hx => by rintro rfl; exact h3 hx) hvs)
    have : Firm F h₁ (RepVal · (.states ys) h.length) := made_list c hys
    exact this.keep (kset.mono fun x hx => by rintro rfl; exact hx hnF)
  · exact Mono.of_node kall hon hself fun k hk => dget_dset_ne _ _ _ _ hk

/-- What is known after a part of the loops: the variables agree, the new state is as on values. -/
structure After (name : String) (h₀ : Heap) (p₀ : Params) (st : Addr) (fuel : ℕ) (temp : ℝ) (F : Set Addr)
    (target : ℕ) (h h' : Heap) (l : PertVars) (l' : PertLocals) : Prop where
  loc : LocEq l l'
  ctx : Ctx h₀ F h'
  cur : Cur name F st temp h' l'.params
  pre : l'.i ≤ target → l'.params = p₀
  mono : Mono name h₀ p₀ st fuel h h'

theorem members_run {h : Heap} {x : PSState} {a : Addr} {N : Set Addr} {k : String} {l : List PSState}
    (hr : RepN name F h x a N) (hg : x.get k = some (.states l)) :
    ∃ n vs attrs kd c as, h[a]? = some (.ps n vs attrs kd) ∧ dget vs k = some c ∧ h[c]? = some (.list as) ∧
      as.length = l.length ∧ ∀ {γ : Type} (f : List Addr → HM γ), (membersH a k >>= f) h = f as h := by
  have hr := repN_rep hr
  obtain ⟨n, vals, kd⟩ := x
  rw [RepPS] at hr
  obtain ⟨vs, attrs, kd', ho, hvs⟩ := hr
  have h1 := repVals_get k hvs
  rw [PSState.get, PSState.vals] at hg
  rw [hg] at h1
  cases hc : dget vs k with
  | none => rw [hc] at h1; exact absurd h1 not_false
  | some c =>
    rw [hc] at h1
    have h1 : RepVal h (.states l) c := h1
    rw [RepVal] at h1
    obtain ⟨as, hl, hr⟩ := h1
    refine ⟨n, vs, attrs, kd', c, as, ho, hc, hl, repList_length hr, ?_⟩
    intro γ f
    rw [membersH, bind_assoc', getH_bind ho, hc]
    simp only
    rw [bind_assoc', read_bind hl]
    rfl

theorem pertValsH_sim (g : PSPert) (hname : g.name = name) (target : ℕ) {q : QItem} {na : Addr × Addr} {s₀ : PSState}
    (hg : dget p₀ q.key = some (.ps s₀)) (hn : NodeAt name s₀ q.path q.st) :
    ∀ {rest : List (String × PVal)} {vs : List (String × Addr)} {h : Heap} {x : PSState} {l : PertVars}
      {l' : PertLocals},
    Ctx h₀ F h → RepVals h₀ rest vs → (∀ kv ∈ rest, q.st.get kv.1 = some kv.2) → (dkeys rest).Nodup →
    QRel name h₀ p₀ st fuel h na q →
    l'.params = dset p₀ q.key (.ps (s₀.modifyAt (fun _ => x) q.path)) → Cur name F st temp h l'.params →
    (∀ k, k ≠ name → x.get k = q.st.get k) → (name ∈ dkeys rest → x = q.st) → (l'.i ≤ target → x = q.st) →
    LocEq l l' →
    Sim AnyHeap (fun h' r r' => After name h₀ p₀ st fuel temp F target h h' r.1 r'.1 ∧
        List.Forall₂ (QRel name h₀ p₀ st fuel h') r.2 r'.2 ∧ nodesQ r'.2 ≤ nodesVals rest) h
      (g.pertValsH fuel target na.1 vs l) (g.pertVals target q rest l')
  | [], vs, h, x, l, l', c, hr, hsub, hnd, hq, hp, hc, hx, hx1, hx2, he => by
    rw [RepVals] at hr; subst hr
    refine Sim.pure (b := (l', [])) ⟨⟨he, c, hc, fun hi => ?_, Mono.refl h⟩, .nil, Nat.zero_le _⟩
    rw [hp, hx2 hi, modifyAt_self hn, dset_eq_self hg]
  | (k, .arr y) :: rest, vs, h, x, l, l', c, hr, hsub, hnd, hq, hp, hc, hx, hx1, hx2, he => by
    rw [RepVals] at hr
    obtain ⟨b, vs', rfl, hv, hr⟩ := hr
    rw [RepVal] at hv
    rw [PSPert.pertValsH, PSPert.pertVals]
    refine Sim.of_eq (read_bind (c.keep.arr trivial hv) _) ?_
    rw [nodesVals]
    exact pertValsH_sim (rest := rest) g hname target hg hn c hr (fun kv h => hsub kv (List.mem_cons_of_mem _ h))
      (List.nodup_cons.1 hnd).2 hq hp hc hx (fun h => hx1 (List.mem_cons_of_mem _ h)) hx2 he
  | (k, .objs y) :: rest, vs, h, x, l, l', c, hr, hsub, hnd, hq, hp, hc, hx, hx1, hx2, he => by
    rw [RepVals] at hr
    obtain ⟨b, vs', rfl, hv, hr⟩ := hr
    rw [RepVal] at hv
    obtain ⟨as, hv, _⟩ := hv
    rw [PSPert.pertValsH, PSPert.pertVals]
    refine Sim.of_eq (read_bind (c.keep.objs trivial hv) _) ?_
    rw [nodesVals]
    exact pertValsH_sim (rest := rest) g hname target hg hn c hr (fun kv h => hsub kv (List.mem_cons_of_mem _ h))
      (List.nodup_cons.1 hnd).2 hq hp hc hx (fun h => hx1 (List.mem_cons_of_mem _ h)) hx2 he
  | (k, .states xs) :: rest, vs, h, x, l, l', c, hr, hsub, hnd, hq, hp, hc, hx, hx1, hx2, he => by
    rw [RepVals] at hr
    obtain ⟨b, vs', rfl, hv, hr⟩ := hr
    rw [RepVal] at hv
    obtain ⟨as, hv, hl⟩ := hv
    have hsub' : ∀ kv ∈ rest, q.st.get kv.1 = some kv.2 := fun kv h => hsub kv (List.mem_cons_of_mem _ h)
    have hnd' : (dkeys rest).Nodup := (List.nodup_cons.1 hnd).2
    have hk : q.st.get k = some (.states xs) := hsub (k, .states xs) (List.mem_cons_self ..)
    have hmem : (k, PVal.states xs) ∈ q.st.vals := dget_some_mem hk
    have hval := hq.valid
    have hdep := hq.depth
    have hne : xs ≠ [] ∧ ValidList xs := by
      cases hst : q.st with
      | mk n vals kd =>
        rw [hst, ValidPS] at hval
        rw [hst] at hmem
        exact mem_validVals hval hmem
    have hdl : depthList xs ≤ fuel := by
      cases hst : q.st with
      | mk n vals kd =>
        rw [hst, depthPS] at hdep
        rw [hst] at hmem
        have := mem_depthVals hmem
        simp only [PSState.vals] at this
        omega
    have hemp : ¬ xs.isEmpty = true := by simpa using hne.1
    have hemp' : ¬ as.isEmpty = true := by
      have := repList_length hl
      intro h0
      rw [List.isEmpty_iff] at h0
      rw [h0] at this
      exact hne.1 (List.length_eq_zero_iff.1 this.symm)
    rw [PSPert.pertValsH, PSPert.pertVals]
    refine Sim.of_eq (read_bind (c.keep.list trivial hv) _) ?_
    simp only
    by_cases hkn : k = g.name
    · rw [if_pos hkn, if_pos hkn]
      have hkn' : k = name := hkn.trans hname
      have hxq : x = q.st := hx1 (by rw [← hkn']; exact List.mem_cons_self ..)
      have hpp : l'.params = p₀ := by rw [hp, hxq, modifyAt_self hn, dset_eq_self hg]
      have hvis := visitAllH_sim (fuel := fuel) g target q.key q.path k 0 c hl hne.2 hdl he
      simp only [Nat.zero_add] at hvis
      refine Sim.bind hvis ?_
      rintro h₁ ⟨bs, l₁⟩ l₁' ⟨k1, e1, ys, hys, hout⟩
      rw [if_neg hemp]
      have hysne : ys ≠ [] := by
        rcases hout with ⟨rfl, _⟩ | ⟨j, z, hj, rfl, _⟩
        · exact hne.1
        · intro h0
          have := congrArg List.length h0
          rw [List.length_set] at this
          exact hne.1 (List.length_eq_zero_iff.1 this)
      rw [hpp] at hc
      obtain ⟨h₂, hrun, c2, cur2, mono2⟩ := setNode_run (c.step k1) (hc.keep k1) (Mono.of_keep k1 na q hq) hg hn hys
        hysne
      rw [← hkn'] at hrun
      refine Sim.of_eq (hrun _) ?_
      have mono12 : Mono name h₀ p₀ st fuel h h₂ := (Mono.of_keep k1).trans mono2
      have hnm : name ∉ dkeys rest := by rw [← hkn']; exact (List.nodup_cons.1 hnd).1
      have hpar : ∃ x', l₁'.params = dset p₀ q.key (.ps (s₀.modifyAt (fun _ => x') q.path)) ∧
          Cur name F st temp h₂ l₁'.params ∧ (∀ k, k ≠ name → x'.get k = q.st.get k) ∧
          (l₁'.i ≤ target → x' = q.st) := by
        rcases hout with ⟨rfl, p1, i1⟩ | ⟨j, z, hj, rfl, p1, i1, i2⟩
        · have heq : PSState.mk q.st.n (dset q.st.vals name (.states ys)) q.st.kd = q.st := by
            rw [dset_eq_self (by rw [← hkn']; exact hk)]; cases q.st; rfl
          rw [heq] at cur2
          have hp0 : l₁'.params = dset p₀ q.key (.ps (s₀.modifyAt (fun _ => q.st) q.path)) := by
            rw [p1, hpp, modifyAt_self hn, dset_eq_self hg]
          exact ⟨q.st, hp0, by rw [hp0]; exact cur2, fun _ _ => rfl, fun _ => rfl⟩
        · have hp0 : l₁'.params = dset p₀ q.key (.ps (s₀.modifyAt
              (fun _ => .mk q.st.n (dset q.st.vals name (.states (xs.set j z))) q.st.kd) q.path)) := by
            rw [p1, hpp, Params.modifyAt, hg]
            simp only
            rw [Nat.zero_add, modifyAt_snoc hn hk (List.getElem?_eq_getElem hj) z, hkn']
          refine ⟨_, hp0, by rw [hp0]; exact cur2, fun k hk => ?_, fun hi => by omega⟩
          rw [PSState.get]
          exact dget_dset_ne _ _ _ _ hk
      obtain ⟨x', hp', cur', hx', hi'⟩ := hpar
      refine (pertValsH_sim g hname target hg hn c2 hr hsub' hnd' (mono12 na q hq) hp' cur' hx'
        (fun h => absurd h hnm) hi' e1).mono (fun _ h => h) ?_
      rintro h₃ r r' ⟨⟨a1, a2, a3, a4, a5⟩, hf, hnodes⟩
      refine ⟨⟨a1, a2, a3, a4, mono12.trans a5⟩, hf, ?_⟩
      rw [nodesVals]; omega
    · rw [if_neg hkn, if_neg hkn, if_neg hemp, if_neg hemp']
      have hkn' : k ≠ name := fun h => hkn (h.trans hname.symm)
      have hnode : NodeAt name (s₀.modifyAt (fun _ => x) q.path) q.path x := hn.modify x
      obtain ⟨N, hN⟩ := hc.node hq (by rw [hp]; exact dget_dset_same _ _ _) hnode
      obtain ⟨n, vs₁, attrs₁, kd₁, cc, as₁, ho, hgc, hlc, hlen, hrun⟩ := members_run hN ((hx k hkn').trans hk)
      refine Sim.of_eq (hrun _) ?_
      refine Sim.bind (pertValsH_sim g hname target hg hn c hr hsub' hnd' hq hp hc hx
        (fun h => hx1 (List.mem_cons_of_mem _ h)) hx2 he) ?_
      rintro h₃ ⟨l₃, q₃⟩ ⟨l₃', q₃'⟩ ⟨af, hf, hnodes⟩
      refine Sim.pure (b := (l₃', qitems q k xs ++ q₃')) ⟨af, ?_, ?_⟩
      · refine List.rel_append ?_ hf
        rw [List.forall₂_iff_get]
        have hla := repList_length hl
        refine ⟨by rw [List.length_zip, qitems_length, hlen, hla, Nat.min_self], fun i h1 h2 => af.mono _ _ ?_⟩
        rw [qitems_length] at h2
        have hi1 : i < as₁.length := by omega
        have hi2 : i < as.length := by omega
        have hxi : xs[i]? = some xs[i] := List.getElem?_eq_getElem h2
        have hmx : xs[i] ∈ xs := List.getElem_mem h2
        have e1 : (as₁.zip as).get ⟨i, h1⟩ = (as₁[i], as[i]) := by simp
        have e2 : (qitems q k xs).get ⟨i, by rw [qitems_length]; exact h2⟩ =
            ⟨q.key, q.path ++ [(k, i)], xs[i]⟩ := by simp [qitems]
        rw [e1, e2]
        obtain ⟨vs₂, attrs₂, tmp, cache₂, extra₂, a, hs, hga, ha⟩ := hq.pos
        refine ⟨?_, hq.ne, ⟨s₀, hg, hn.append (.deeper hk hkn' hxi (.here _))⟩,
          ⟨vs₂, attrs₂, tmp, cache₂, extra₂, a, hs, hga,
            ha.append (.deeper ho hgc hlc (List.getElem?_eq_getElem hi1) (.here _))⟩,
          mem_validList hne.2 hmx, (mem_depthList hmx).trans hdl, hq.wf.nested hmem hmx⟩
        rcases repList_get hl i with ⟨h0, _⟩ | ⟨s', a', h3, h4, h5⟩
        · rw [hxi] at h0; cases h0
        · rw [hxi] at h3; cases h3
          rw [List.getElem?_eq_getElem hi2] at h4; cases h4
          exact h5
      · rw [nodesQ_append, nodesVals]
        have : nodesQ (qitems q k xs) = nodesList xs := by rw [nodesQ, qitems_map_st]
        simp only at hnodes
        omega

theorem pertQueueH_sim (g : PSPert) (hname : g.name = name) (target : ℕ) :
    ∀ (n m : ℕ) {queue : List (Addr × Addr)} {queue' : List QItem} {h : Heap} {l : PertVars} {l' : PertLocals},
    nodesQ queue' ≤ n → nodesQ queue' ≤ m → Ctx h₀ F h → Cur name F st temp h l'.params →
    (l'.i ≤ target → l'.params = p₀) → LocEq l l' → List.Forall₂ (QRel name h₀ p₀ st fuel h) queue queue' →
    Sim AnyHeap (fun h' r r' => LocEq r r' ∧ Ctx h₀ F h' ∧ Cur name F st temp h' r'.params) h
      (g.pertQueueH fuel target n queue l) (g.pertQueue target m queue' l')
  | n, m, _, [], h, l, l', hn, hm, c, hc, hp, he, .nil => by
    rw [PSPert.pertQueueH, PSPert.pertQueue]
    exact Sim.pure (b := l') ⟨he, c, hc⟩
  | n, m, (new, old) :: queue, q :: queue', h, l, l', hn, hm, c, hc, hp, he, .cons hq hqs => by
    have hpos : 0 < nodesQ (q :: queue') := by
      simp only [nodesQ, List.map_cons, nodesList, PSState.nodes_eq]; omega
    obtain ⟨n, rfl⟩ := Nat.exists_eq_succ_of_ne_zero (by omega : n ≠ 0)
    obtain ⟨m, rfl⟩ := Nat.exists_eq_succ_of_ne_zero (by omega : m ≠ 0)
    rw [PSPert.pertQueueH, PSPert.pertQueue, he.i]
    by_cases hi : l'.i ≤ target
    · rw [if_pos hi, if_pos hi]
      obtain ⟨s₀, hg, hnode⟩ := hq.node
      have hrep := hq.rep
      have hnd := hq.wf.nodup
      have hq' : ∃ vs attrs kd, h[old]? = some (.ps q.st.n vs attrs kd) ∧ RepVals h₀ q.st.vals vs := by
        cases hst : q.st with
        | mk n vals kd =>
          rw [hst, RepPS] at hrep
          obtain ⟨vs, attrs, kd', ho, hvs⟩ := hrep
          obtain ⟨kd'', ho'⟩ := c.keep.ps trivial ho
          exact ⟨vs, attrs, kd'', ho', hvs⟩
      obtain ⟨vs, attrs, kd, ho, hvs⟩ := hq'
      refine Sim.of_eq (readPS_bind ho _) ?_
      have hp0 : l'.params = dset p₀ q.key (.ps (s₀.modifyAt (fun _ => q.st) q.path)) := by
        rw [hp hi, modifyAt_self hnode, dset_eq_self hg]
      refine Sim.bind (pertValsH_sim (na := (new, old)) g hname target hg hnode c hvs
        (fun kv hkv => dget_of_mem hnd hkv) hnd hq hp0 hc (fun _ _ => rfl) (fun _ => rfl) (fun _ => rfl) he) ?_
      rintro h₁ ⟨l₁, q₁⟩ ⟨l₁', q₁'⟩ ⟨af, hf, hnodes⟩
      simp only at af hf hnodes
      have hstep : nodesQ (q :: queue') = 1 + nodesVals q.st.vals + nodesQ queue' := by
        simp only [nodesQ, List.map_cons, nodesList, PSState.nodes_eq]
      have happ := nodesQ_append queue' q₁'
      exact pertQueueH_sim g hname target n m (by omega) (by omega) af.ctx af.cur af.pre af.loc
        (List.rel_append (hqs.imp fun na q hq => af.mono na q hq) hf)
    · rw [if_neg hi, if_neg hi]
      exact Sim.pure (b := l') ⟨he, c, hc⟩

theorem pertTopH_sim (g : PSPert) (hname : g.name = name) (target : ℕ) (hst : st ∈ F) :
    ∀ {rest : Params} {vs : List (String × TRef)} {h : Heap} {l : PertVars} {l' : PertLocals},
    Ctx h₀ F h → RepTop h₀ rest vs → (∀ kv ∈ rest, dget p₀ kv.1 = some kv.2) → ValidTop rest →
    depthTop rest ≤ fuel → (∀ k s, (k, TopVal.ps s) ∈ rest → PSWf s) →
    Cur name F st temp h l'.params → (l'.i ≤ target → l'.params = p₀) →
    (∀ k, k ≠ name → dget l'.params k = dget p₀ k) → LocEq l l' →
    Sim AnyHeap (fun h' r r' => After name h₀ p₀ st fuel temp F target h h' r.1 r'.1 ∧
        List.Forall₂ (QRel name h₀ p₀ st fuel h') r.2 r'.2 ∧ nodesQ r'.2 ≤ nodesParams rest) h
      (g.pertTopH fuel target st vs l) (g.pertTop target rest l')
  | [], vs, h, l, l', c, hr, hsub, hv, hd, hw, hc, hp, hx, he => by
    have hr : vs = [] := hr
    subst hr
    exact Sim.pure (b := (l', [])) ⟨⟨he, c, hc, hp, Mono.refl h⟩, .nil, Nat.zero_le _⟩
  | (k, .noise d) :: rest, vs, h, l, l', c, hr, hsub, hv, hd, hw, hc, hp, hx, he => by
    obtain ⟨vs', rfl, hr⟩ := hr
    rw [PSPert.pertTopH, PSPert.pertTop, nodesParams]
    rw [depthTop] at hd
    exact pertTopH_sim (rest := rest) g hname target hst c hr (fun kv h => hsub kv (List.mem_cons_of_mem _ h))
      hv hd (fun k s h => hw k s (List.mem_cons_of_mem _ h)) hc hp hx he
  | (k, .ps s) :: rest, vs, h, l, l', c, hr, hsub, hv, hd, hw, hc, hp, hx, he => by
    obtain ⟨a, vs', rfl, hs, hr⟩ := hr
    rw [depthTop] at hd
    have hsub' : ∀ kv ∈ rest, dget p₀ kv.1 = some kv.2 := fun kv h => hsub kv (List.mem_cons_of_mem _ h)
    have hw' : ∀ k s, (k, TopVal.ps s) ∈ rest → PSWf s := fun k s h => hw k s (List.mem_cons_of_mem _ h)
    have hk : dget p₀ k = some (.ps s) := hsub (k, .ps s) (List.mem_cons_self ..)
    have hd1 : depthPS s ≤ fuel := (le_max_left _ _).trans hd
    have hd2 : depthTop rest ≤ fuel := (le_max_right _ _).trans hd
    rw [PSPert.pertTopH, PSPert.pertTop]
    by_cases hkn : k = g.name
    · rw [if_pos hkn, if_pos hkn, PSPert.visit, he.i]
      have hkn' : k = name := hkn.trans hname
      have fin : ∀ (h₁ : Heap) (l₁ : PertVars) (l₁' : PertLocals), Mono name h₀ p₀ st fuel h h₁ →
          Ctx h₀ F h₁ → Cur name F st temp h₁ l₁'.params → (l₁'.i ≤ target → l₁'.params = p₀) →
          (∀ k, k ≠ name → dget l₁'.params k = dget p₀ k) → LocEq l₁ l₁' →
          Sim AnyHeap (fun h' r r' => After name h₀ p₀ st fuel temp F target h h' r.1 r'.1 ∧
            List.Forall₂ (QRel name h₀ p₀ st fuel h') r.2 r'.2 ∧ nodesQ r'.2 ≤ nodesParams ((k, .ps s) :: rest)) h₁
          (g.pertTopH fuel target st vs' l₁) (g.pertTop target rest l₁') := by
        intro h₁ l₁ l₁' m1 c1 hc1 hp1 hx1 he1
        refine (pertTopH_sim (rest := rest) g hname target hst c1 hr hsub' hv.2 hd2 hw' hc1 hp1 hx1 he1).mono
          (fun _ h => h) ?_
        rintro h₂ r r' ⟨⟨a1, a2, a3, a4, a5⟩, hf, hnodes⟩
        exact ⟨⟨a1, a2, a3, a4, m1.trans a5⟩, hf, by rw [nodesParams]; omega⟩
      by_cases ht : l'.i = target
      · rw [if_pos ht, if_pos ht]
        refine Sim.of_eq_right (bind_assoc _ _ _) ?_
        refine Sim.bind (perturbPSH_sim g c hs hv.1 hd1) ?_
        rintro h₁ ⟨b, r, nm⟩ ⟨y, r', nm'⟩ ⟨k1, hf, e⟩
        cases e
        have hpp : l'.params = p₀ := hp (by omega)
        obtain ⟨vs₁, attrs₁, N, ho, hvt, hN1, hN2⟩ := hc
        have ho₁ := k1.state (a := st) trivial ho
        set o' : Obj := .state (dset vs₁ name (.ps b)) (dset attrs₁ name (.ps b)) temp [] [] with ho'
        have kset : Keep {st}ᶜ h₁ (h₁.set st o') := keep_set (fun hx => hx rfl)
        have kF : Keep Fᶜ h₁ (h₁.set st o') := kset.mono fun x hx => by rintro rfl; exact hx hst
        have hself : (h₁.set st o')[st]? = some o' := set_self ho₁
        have hrun : ∀ {γ : Type} (f : Unit → HM γ), (setTopH st k (.ps b) >>= f) h₁ = f () (h₁.set st o') := by
          intro γ f
          rw [setTopH, bind_assoc', readState_bind ho₁, hkn']
          rfl
        refine Sim.of_eq (hrun _) ?_
        refine Sim.of_eq_right (pure_bind _ _) ?_
        have hpar : l'.params.modifyAt (fun _ => y) k [] = dset p₀ name (.ps y) := by
          rw [hpp, Params.modifyAt, hk]
          simp only [PSState.modifyAt]
          rw [hkn']
        refine fin _ _ _ ?_ ((c.step k1).set hst o') ?_ ?_ ?_ ?_
        · exact (Mono.of_keep k1).trans (Mono.of_top kset ho₁ hself fun k hk => dget_dset_ne _ _ _ _ hk)
        · refine ⟨_, _, N, hself, ?_, hN1, hN2⟩
          rw [hpar]
          refine nTop_dset (hf.keep kF) ?_
          rw [← hpp]
          exact nTop_keep kF (kset.mono fun x hx => by rintro rfl; exact hN2 hx)
            (nTop_keep (k1.mono (Set.subset_univ _)) (k1.mono (Set.subset_univ _)) hvt)
        · intro hi; simp only at hi; omega
        · intro k' hk'
          simp only [hpar]
          exact dget_dset_ne _ _ _ _ hk'
        · refine ⟨?_, ?_, ?_⟩
          · simp only [PertVars.done, he.i]
          · simp only [PertVars.done, he.lpr]
          · simp only [PertVars.done, he.stats]
      · rw [if_neg ht, if_neg ht]
        refine Sim.of_eq_right (pure_bind _ _) ?_
        exact fin h _ _ (Mono.refl h) c hc (fun hi => hp (by simp only at hi; omega)) hx
          ⟨by simp only, he.lpr, he.stats⟩
    · rw [if_neg hkn, if_neg hkn]
      have hkn' : k ≠ name := fun h => hkn (h.trans hname.symm)
      have hc' := hc
      obtain ⟨vs₁, attrs₁, N, ho, hvt, hN1, hN2⟩ := hc'
      refine Sim.of_eq (readState_bind ho _) ?_
      simp only
      have hgt := repTop_get k (nTop_rep hvt)
      rw [hx k hkn', hk] at hgt
      have hb : ∃ b, dget vs₁ k = some (.ps b) := by
        cases hb : dget vs₁ k with
        | none => rw [hb] at hgt; exact absurd hgt not_false
        | some y =>
          rw [hb] at hgt
          have hgt : RepTopVal h (.ps s) y := hgt
          obtain ⟨b, rfl, _⟩ := hgt
          exact ⟨b, rfl⟩
      obtain ⟨b, hb⟩ := hb
      rw [hb]
      simp only
      refine Sim.bind (pertTopH_sim (rest := rest) g hname target hst c hr hsub' hv.2 hd2 hw' hc hp hx he) ?_
      rintro h₃ ⟨l₃, q₃⟩ ⟨l₃', q₃'⟩ ⟨af, hf, hnodes⟩
      simp only at af hf hnodes
      refine Sim.pure (a := (l₃, (b, a) :: q₃)) (b := (l₃', { key := k, path := [], st := s } :: q₃')) ?_
      refine ⟨af, List.Forall₂.cons (af.mono _ _ ?_) hf, ?_⟩
      · exact ⟨hs, hkn', ⟨s, hk, .here s⟩, ⟨vs₁, attrs₁, temp, [], [], b, ho, hb, .here b⟩, hv.1, hd1,
          hw k s (List.mem_cons_self ..)⟩
      · simp only at hnodes ⊢
        rw [nodesParams, nodesQ, List.map_cons, nodesList]
        rw [nodesQ] at hnodes
        exact Nat.add_le_add_left hnodes _

end

/-- `ParamSpacePerturbation.perturb` on the heap and on values: the same draws, the same exceptions, and the new
state represents the new value.  Nothing older is modified. -/
theorem perturbH_sim {h : Heap} {s : State} {a : Addr} {fuel : ℕ} (g : PSPert) (hr : RepState h s a)
    (hv : ValidTop s.params) (hw : ParamsWf s.params) (hf : nodesParams s.params ≤ fuel) :
    Sim AnyHeap (fun h' r r' => Keep Set.univ h h' ∧ RepState h' r'.1 r.1 ∧ r.2 = r'.2) h
      (g.perturbH fuel a) (g.perturb s) := by
  intro t
  have hd : depthTop s.params ≤ fuel := (depthTop_le_nodes _).trans hf
  obtain ⟨vs, h₁, hcopy, gr, hpre, own⟩ := copyState_run 0 false t hr hv hd (.inl rfl) (Nat.zero_le _)
  rw [PSPert.perturbH, bind_of hcopy]
  set o : Obj := .state vs (attrsOf vs) s.temperature
    (if false then s.cache.filter (fun kv => kv.1 == "dpred") else []) [] with ho
  set h₂ : Heap := h₁ ++ [o] with hh₂
  obtain ⟨N, hN, hNT⟩ := own_nTop (name := g.name) own
  set F : Set Addr := insert h₁.length N with hF
  have hst : h₁.length ∉ N := fun hx => absurd (hN hx).2 (lt_irrefl _)
  have k12 : Keep Set.univ h₁ h₂ := keep_prefix (prefix_snoc _)
  have k02 : Keep Set.univ h h₂ := (keep_prefix hpre).trans k12
  have c : Ctx h F h₂ := by
    refine ⟨k02, ?_, ?_⟩
    · rintro x (rfl | hx)
      · exact hpre.length_le
      · exact (hN hx).1
    · rintro x (rfl | hx)
      · rw [hh₂, List.length_append]; simp
      · rw [hh₂, List.length_append]; exact lt_of_lt_of_le (hN hx).2 (Nat.le_add_right _ _)
  have hnt : NTop g.name F h₁ s.params vs N := by
    refine hNT F ?_ ?_ (Set.subset_insert _ _)
    · rw [Set.disjoint_left]
      intro x hx hx'
      exact absurd hx' (not_lt.2 (c.new x hx))
    · rintro x (rfl | hx) hx'
      · exact absurd hx'.2 (lt_irrefl _)
      · exact hx
  have cur : Cur g.name F h₁.length s.temperature h₂ s.params :=
    ⟨vs, attrsOf vs, N, get_snoc o, nTop_keep (k12.mono (Set.subset_univ _)) (k12.mono (Set.subset_univ _)) hnt,
      Set.subset_insert _ _, hst⟩
  obtain ⟨vs₀, attrs₀, ho₀, hv₀⟩ := hr
  have ho₂ := k02.state (a := a) trivial ho₀
  have hrt : RepTop h₂ s.params vs₀ := repTop_keep k02 hv₀
  refine Sim.mono (X := AnyHeap) (R := fun h' (r : Addr × PyF) (r' : State × PyF) => Keep Set.univ h h' ∧ RepState h' r'.1 r.1 ∧
    r.2 = r'.2) ?_
    (fun _ h => h) (fun _ _ _ h => h) t
  refine Sim.of_eq (readState_bind ho₂ _) ?_
  rw [PSPert.perturb]
  simp only
  obtain ⟨e1, e2⟩ := countTopH_eq g.name hrt
  have hcount : Sim AnyHeap (fun h' r r' => h₂ = h' ∧ r = r') h₂
      (countQueueH g.name fuel (countTopH g.name vs₀).2 (countTopH g.name vs₀).1)
      (M.lift (countInstances g.name s.params)) := by
    rw [countInstances, e1]
    exact countQueueH_sim g.name fuel _ e2 ((nodes_countTop _ _).trans hf)
  refine Sim.bind hcount ?_
  rintro h₃ n _ ⟨rfl, rfl⟩
  refine Sim.bind (Sim.ofM _ trivial) ?_
  rintro h₃ target _ ⟨rfl, rfl⟩
  refine Sim.bind (pertTopH_sim (p₀ := s.params) g rfl target (.inl rfl) c hv₀ (fun kv hkv => dget_of_mem hw.1 hkv) hv hd
    hw.2 cur (fun _ => rfl) (fun _ _ => rfl) ⟨rfl, rfl, rfl⟩) ?_
  rintro h₃ ⟨l, queue⟩ ⟨l', queue'⟩ ⟨af, hq, hnodes⟩
  simp only at af hq hnodes ⊢
  refine Sim.bind (pertQueueH_sim g rfl target fuel (nodesParams s.params) (hnodes.trans hf) hnodes af.ctx af.cur af.pre
    af.loc hq) ?_
  rintro h₄ l l' ⟨he, c₄, vs₄, attrs₄, N₄, ho₄, hvt, hN₄, hst₄⟩
  refine Sim.of_eq (readState_bind ho₄ _) ?_
  simp only
  refine Sim.of_eq (write_bind _ _ _) ?_
  have hs4 : h₁.length ∈ F := .inl rfl
  have c₅ := c₄.set hs4 (.state vs₄ attrs₄ s.temperature (dset [] "perturb_stats"
    (.stats (l.stats.map fun kv => (kv.1, kv.2 / (l.stats.map (·.2)).sum)))) [])
  refine Sim.pure ⟨c₅.keep, ⟨vs₄, attrs₄, ?_, ?_⟩, he.lpr⟩
  · rw [set_self ho₄, he.stats]
    rfl
  · have kset : Keep {h₁.length}ᶜ h₄ (h₄.set h₁.length (.state vs₄ attrs₄ s.temperature (dset [] "perturb_stats"
      (.stats (l.stats.map fun kv => (kv.1, kv.2 / (l.stats.map (·.2)).sum)))) [])) := keep_set (fun hx => hx rfl)
    refine nTop_rep (nTop_keep (kset.mono fun x hx => ?_) (kset.mono fun x hx => ?_) hvt)
    · rintro rfl; exact hx hs4
    · rintro rfl; exact hst₄ hx

end BB.Lemmas
