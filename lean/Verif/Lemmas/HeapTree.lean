import Verif.Lemmas.HeapBirths

/-!
The tree of parameter-space states of the copy made by `ParamSpacePerturbation.perturb`: the nodes are modified
in place, everything else in the copy stays as it is.
-/

namespace BB.Lemmas
open BB.Spec

/-- The state at a path along which no key is the name of the perturbed space. -/
inductive NodeAt (name : String) : PSState → Path → PSState → Prop
  | here (s : PSState) : NodeAt name s [] s
  | deeper {s y x : PSState} {k : String} {l : List PSState} {i : ℕ} {path : Path}
      (hg : s.get k = some (.states l)) (hk : k ≠ name) (hi : l[i]? = some y) (h : NodeAt name y path x) :
      NodeAt name s ((k, i) :: path) x

/-- The object found by following a path on the heap. -/
inductive AtN (h : Heap) : Addr → Path → Addr → Prop
  | here (a : Addr) : AtN h a [] a
  | deeper {a a' b c : Addr} {n : ℕ} {vs attrs : List (String × Addr)} {kd : Option (List (ℝ × ℝ))} {k : String}
      {as : List Addr} {i : ℕ} {path : Path} (ho : h[a]? = some (.ps n vs attrs kd)) (hg : dget vs k = some c)
      (hl : h[c]? = some (.list as)) (hi : as[i]? = some a') (hp : AtN h a' path b) :
      AtN h a ((k, i) :: path) b

theorem NodeAt.append {name : String} {s x y : PSState} {p q : Path} (h : NodeAt name s p x)
    (h' : NodeAt name x q y) : NodeAt name s (p ++ q) y := by
  induction h with
  | here s => exact h'
  | deeper hg hk hi _ ih => exact .deeper hg hk hi (ih h')

theorem AtN.append {h : Heap} {a b c : Addr} {p q : Path} (h1 : AtN h a p b) (h2 : AtN h b q c) :
    AtN h a (p ++ q) c := by
  induction h1 with
  | here a => exact h2
  | deeper ho hg hl hi _ ih => exact .deeper ho hg hl hi (ih h2)

theorem AtN.keep {h h' : Heap} {a b : Addr} {p : Path} (ha : AtN h a p b) (hk : Keep Set.univ h h') :
    AtN h' a p b := by
  induction ha with
  | here a => exact .here a
  | deeper ho hg hl hi _ ih =>
    obtain ⟨kd', ho'⟩ := hk.ps trivial ho
    exact .deeper ho' hg (hk.list trivial hl) hi ih

/-- One value of one node is replaced. -/
theorem AtN.set {name : String} {s x : PSState} {h h' : Heap} {a b x₀ : Addr} {p : Path} {n n' : ℕ}
    {vs vs' attrs attrs' : List (String × Addr)} {kd kd' : Option (List (ℝ × ℝ))} (ha : AtN h a p b)
    (hn : NodeAt name s p x) (hk : Keep {x₀}ᶜ h h') (ho : h[x₀]? = some (.ps n vs attrs kd))
    (ho' : h'[x₀]? = some (.ps n' vs' attrs' kd')) (hd : ∀ k, k ≠ name → dget vs' k = dget vs k) :
    AtN h' a p b := by
  induction ha generalizing s with
  | here a => exact .here a
  | @deeper a a' b c n₁ vs₁ attrs₁ kd₁ k as i path ha hg hl hi _ ih =>
    cases hn with
    | deeper hg' hk' hi' hn' =>
      have hc : c ≠ x₀ := by rintro rfl; rw [ho] at hl; cases hl
      have hl' := hk.list (a := c) hc hl
      by_cases hx : a = x₀
      · subst hx
        rw [ho] at ha; cases ha
        exact .deeper ho' (by rw [hd k hk']; exact hg) hl' hi (ih hn')
      · obtain ⟨kd'', ha'⟩ := hk.ps (a := a) hx ha
        exact .deeper ha' hg hl' hi (ih hn')

/-! ### paths in values -/

theorem modifyAt_self {name : String} {s x : PSState} {p : Path} (hn : NodeAt name s p x) :
    s.modifyAt (fun _ => x) p = s := by
  induction hn with
  | here s => rfl
  | @deeper s y x k l i path hg hk hi _ ih =>
    rw [PSState.modifyAt, hg]
    simp only [hi]
    rw [ih]
    have : l.set i y = l := by
      apply List.ext_getElem?
      intro j
      rw [List.getElem?_set]
      split
      · rename_i hij; subst hij
        split
        · rw [hi]
        · rename_i h2; rw [List.getElem?_eq_none (by omega)]
      · rfl
    rw [this]
    cases s with
    | mk n vals kd => simp only [PSState.n, PSState.vals, PSState.kd]; rw [dset_eq_self]; exact hg

theorem modifyAt_snoc {name k : String} {s x y : PSState} {p : Path} {l : List PSState} {j : ℕ}
    (hn : NodeAt name s p x) (hg : x.get k = some (.states l)) (hj : l[j]? = some y) (z : PSState) :
    s.modifyAt (fun _ => z) (p ++ [(k, j)]) =
      s.modifyAt (fun _ => .mk x.n (dset x.vals k (.states (l.set j z))) x.kd) p := by
  induction hn with
  | here s =>
    simp only [List.nil_append, PSState.modifyAt, hg, hj]
  | @deeper s y' x k' l' i path hg' hk hi _ ih =>
    rw [List.cons_append, PSState.modifyAt, PSState.modifyAt, hg']
    simp only [hi]
    rw [ih hg]

/-! ### the tree -/

mutual
/-- The object `a` represents the value; the parameter-space states that the loop of `perturb` goes through are
different objects, all in `N`; everything else outside `F`. -/
def RepN (name : String) (F : Set Addr) (h : Heap) : PSState → Addr → Set Addr → Prop
  | .mk n vals _, a, N => ∃ vs attrs kd N', h[a]? = some (.ps n vs attrs kd) ∧ NVals name F h vals vs N' ∧
      a ∉ N' ∧ a ∈ N ∧ N' ⊆ N
def NVals (name : String) (F : Set Addr) (h : Heap) :
    List (String × PVal) → List (String × Addr) → Set Addr → Prop
  | [], vs, _ => vs = []
  | (k, v) :: rest, vs, N => ∃ b vs' N₁ N₂, vs = (k, b) :: vs' ∧ NVal name F h k v b N₁ ∧
      NVals name F h rest vs' N₂ ∧ Disjoint N₁ N₂ ∧ N₁ ⊆ N ∧ N₂ ⊆ N
def NVal (name : String) (F : Set Addr) (h : Heap) (k : String) : PVal → Addr → Set Addr → Prop
  | .arr x, b, _ => Firm F h (RepVal · (.arr x) b)
  | .objs l, b, _ => Firm F h (RepVal · (.objs l) b)
  | .states l, b, N => (k = name ∧ Firm F h (RepVal · (.states l) b)) ∨
      (k ≠ name ∧ ∃ as, b ∉ F ∧ h[b]? = some (.list as) ∧ NList name F h l as N)
def NList (name : String) (F : Set Addr) (h : Heap) : List PSState → List Addr → Set Addr → Prop
  | [], as, _ => as = []
  | s :: l, as, N => ∃ a as' N₁ N₂, as = a :: as' ∧ RepN name F h s a N₁ ∧ NList name F h l as' N₂ ∧
      Disjoint N₁ N₂ ∧ N₁ ⊆ N ∧ N₂ ⊆ N
end

/-- The same for the entries of the dictionary of a `State`. -/
def NTop (name : String) (F : Set Addr) (h : Heap) : Params → List (String × TRef) → Set Addr → Prop
  | [], vs, _ => vs = []
  | (k, .noise d) :: rest, vs, N => ∃ vs', vs = (k, .noise d) :: vs' ∧ NTop name F h rest vs' N
  | (k, .ps s) :: rest, vs, N => ∃ a vs' N₁ N₂, vs = (k, .ps a) :: vs' ∧
      ((k = name ∧ Firm F h (RepPS · s a)) ∨ (k ≠ name ∧ RepN name F h s a N₁)) ∧
      NTop name F h rest vs' N₂ ∧ Disjoint N₁ N₂ ∧ N₁ ⊆ N ∧ N₂ ⊆ N

mutual
theorem repN_keep {name : String} {F : Set Addr} {h h' : Heap} (hF : Keep Fᶜ h h') :
    ∀ {s : PSState} {a : Addr} {N : Set Addr}, Keep N h h' → RepN name F h s a N → RepN name F h' s a N
  | .mk n vals _, a, N, hk, hr => by
    rw [RepN] at hr ⊢
    obtain ⟨vs, attrs, kd, N', ho, hv, h1, h2, h3⟩ := hr
    obtain ⟨kd', ho'⟩ := hk.ps h2 ho
    exact ⟨vs, attrs, kd', N', ho', nVals_keep hF (hk.mono h3) hv, h1, h2, h3⟩
theorem nVals_keep {name : String} {F : Set Addr} {h h' : Heap} (hF : Keep Fᶜ h h') :
    ∀ {vals : List (String × PVal)} {vs : List (String × Addr)} {N : Set Addr}, Keep N h h' →
      NVals name F h vals vs N → NVals name F h' vals vs N
  | [], _, _, _, hr => by rw [NVals] at hr ⊢; exact hr
  | (k, v) :: rest, vs, N, hk, hr => by
    rw [NVals] at hr ⊢
    obtain ⟨b, vs', N₁, N₂, e, hv, hvs, hd, h1, h2⟩ := hr
    exact ⟨b, vs', N₁, N₂, e, nVal_keep hF (hk.mono h1) hv, nVals_keep hF (hk.mono h2) hvs, hd, h1, h2⟩
theorem nVal_keep {name : String} {F : Set Addr} {h h' : Heap} (hF : Keep Fᶜ h h') {k : String} :
    ∀ {v : PVal} {b : Addr} {N : Set Addr}, Keep N h h' → NVal name F h k v b N → NVal name F h' k v b N
  | .arr x, b, N, hk, hr => by rw [NVal] at hr ⊢; exact hr.keep hF
  | .objs x, b, N, hk, hr => by rw [NVal] at hr ⊢; exact hr.keep hF
  | .states l, b, N, hk, hr => by
    rw [NVal] at hr ⊢
    rcases hr with ⟨e, hr⟩ | ⟨e, as, hb, ho, hl⟩
    · exact .inl ⟨e, hr.keep hF⟩
    · exact .inr ⟨e, as, hb, hF.list hb ho, nList_keep hF hk hl⟩
theorem nList_keep {name : String} {F : Set Addr} {h h' : Heap} (hF : Keep Fᶜ h h') :
    ∀ {l : List PSState} {as : List Addr} {N : Set Addr}, Keep N h h' →
      NList name F h l as N → NList name F h' l as N
  | [], _, _, _, hr => by rw [NList] at hr ⊢; exact hr
  | s :: l, as, N, hk, hr => by
    rw [NList] at hr ⊢
    obtain ⟨b, vs', N₁, N₂, e, hv, hvs, hd, h1, h2⟩ := hr
    exact ⟨b, vs', N₁, N₂, e, repN_keep hF (hk.mono h1) hv, nList_keep hF (hk.mono h2) hvs, hd, h1, h2⟩
end

theorem nTop_keep {name : String} {F : Set Addr} {h h' : Heap} (hF : Keep Fᶜ h h') :
    ∀ {p : Params} {vs : List (String × TRef)} {N : Set Addr}, Keep N h h' →
      NTop name F h p vs N → NTop name F h' p vs N
  | [], _, _, _, hr => hr
  | (k, .noise d) :: rest, vs, N, hk, hr => by
    obtain ⟨vs', e, hr⟩ := hr
    exact ⟨vs', e, nTop_keep hF hk hr⟩
  | (k, .ps s) :: rest, vs, N, hk, hr => by
    obtain ⟨b, vs', N₁, N₂, e, hv, hvs, hd, h1, h2⟩ := hr
    refine ⟨b, vs', N₁, N₂, e, ?_, nTop_keep hF (hk.mono h2) hvs, hd, h1, h2⟩
    rcases hv with ⟨e, hv⟩ | ⟨e, hv⟩
    · exact .inl ⟨e, hv.keep hF⟩
    · exact .inr ⟨e, repN_keep hF (hk.mono h1) hv⟩

mutual
theorem repN_mono {name : String} {F : Set Addr} {h : Heap} :
    ∀ {s : PSState} {a : Addr} {N N' : Set Addr}, N ⊆ N' → RepN name F h s a N → RepN name F h s a N'
  | .mk n vals _, a, N, N', hs, hr => by
    rw [RepN] at hr ⊢
    obtain ⟨vs, attrs, kd, N'', ho, hv, h1, h2, h3⟩ := hr
    exact ⟨vs, attrs, kd, N'', ho, hv, h1, hs h2, h3.trans hs⟩
end

mutual
theorem repN_rep {name : String} {F : Set Addr} {h : Heap} :
    ∀ {s : PSState} {a : Addr} {N : Set Addr}, RepN name F h s a N → RepPS h s a
  | .mk n vals _, a, N, hr => by
    rw [RepN] at hr; rw [RepPS]
    obtain ⟨vs, attrs, kd, N', ho, hv, h1, h2, h3⟩ := hr
    exact ⟨vs, attrs, kd, ho, nVals_rep hv⟩
theorem nVals_rep {name : String} {F : Set Addr} {h : Heap} :
    ∀ {vals : List (String × PVal)} {vs : List (String × Addr)} {N : Set Addr},
      NVals name F h vals vs N → RepVals h vals vs
  | [], _, _, hr => by rw [NVals] at hr; rw [RepVals]; exact hr
  | (k, v) :: rest, vs, N, hr => by
    rw [NVals] at hr; rw [RepVals]
    obtain ⟨b, vs', N₁, N₂, e, hv, hvs, hd, h1, h2⟩ := hr
    exact ⟨b, vs', e, nVal_rep hv, nVals_rep hvs⟩
theorem nVal_rep {name : String} {F : Set Addr} {h : Heap} {k : String} :
    ∀ {v : PVal} {b : Addr} {N : Set Addr}, NVal name F h k v b N → RepVal h v b
  | .arr x, b, N, hr => by rw [NVal] at hr; exact hr.here
  | .objs x, b, N, hr => by rw [NVal] at hr; exact hr.here
  | .states l, b, N, hr => by
    rw [NVal] at hr
    rcases hr with ⟨e, hr⟩ | ⟨e, as, hb, ho, hl⟩
    · exact hr.here
    · rw [RepVal]; exact ⟨as, ho, nList_rep hl⟩
theorem nList_rep {name : String} {F : Set Addr} {h : Heap} :
    ∀ {l : List PSState} {as : List Addr} {N : Set Addr}, NList name F h l as N → RepList h l as
  | [], _, _, hr => by rw [NList] at hr; rw [RepList]; exact hr
  | s :: l, as, N, hr => by
    rw [NList] at hr; rw [RepList]
    obtain ⟨b, vs', N₁, N₂, e, hv, hvs, hd, h1, h2⟩ := hr
    exact ⟨b, vs', e, repN_rep hv, nList_rep hvs⟩
end

theorem nTop_rep {name : String} {F : Set Addr} {h : Heap} :
    ∀ {p : Params} {vs : List (String × TRef)} {N : Set Addr}, NTop name F h p vs N → RepTop h p vs
  | [], _, _, hr => hr
  | (k, .noise d) :: rest, vs, N, hr => by
    obtain ⟨vs', e, hr⟩ := hr
    exact ⟨vs', e, nTop_rep hr⟩
  | (k, .ps s) :: rest, vs, N, hr => by
    obtain ⟨b, vs', N₁, N₂, e, hv, hvs, hd, h1, h2⟩ := hr
    refine ⟨b, vs', e, ?_, nTop_rep hvs⟩
    rcases hv with ⟨e, hv⟩ | ⟨e, hv⟩
    · exact hv.here
    · exact repN_rep hv

/-! ### the tree of a copy -/

theorem firm_own_val {G F F' : Set Addr} {h : Heap} {v : PVal} {b : Addr} (ho : OwnVal G h v b F')
    (hG : Disjoint F G) (hF : ∀ x ∈ F, x ∉ F') : Firm F h (RepVal · v b) := by
  intro h' hk
  exact ownVal_rep (ownVal_keep (hk.mono fun x hx hx' => hG.ne_of_mem hx' hx rfl)
    (hk.mono fun x hx hx' => hF x hx' hx) ho)

theorem firm_own_ps {G F F' : Set Addr} {h : Heap} {s : PSState} {a : Addr} (ho : OwnPS G h s a F')
    (hG : Disjoint F G) (hF : ∀ x ∈ F, x ∉ F') : Firm F h (RepPS · s a) := by
  intro h' hk
  exact ownPS_rep (ownPS_keep (hk.mono fun x hx hx' => hG.ne_of_mem hx' hx rfl)
    (hk.mono fun x hx hx' => hF x hx' hx) ho)

mutual
theorem own_repN {name : String} {G : Set Addr} {h : Heap} : ∀ {s : PSState} {a : Addr} {F₁ : Set Addr},
    OwnPS G h s a F₁ → ∃ N ⊆ F₁, ∀ F : Set Addr, Disjoint F G → (∀ x ∈ F, x ∈ F₁ → x ∈ N) → N ⊆ F →
      RepN name F h s a N
  | .mk n vals _, a, F₁, ho => by
    rw [OwnPS] at ho
    obtain ⟨vs, attrs, kd, F', ho, hv, h1, h2, h3⟩ := ho
    obtain ⟨N, hN, hr⟩ := own_nVals (name := name) hv
    refine ⟨insert a N, ?_, fun F hG hF hNF => ?_⟩
    · rintro x (rfl | hx)
      · exact h2
      · exact h3 (hN hx)
    · rw [RepN]
      refine ⟨vs, attrs, kd, N, ho, hr F hG ?_ (fun x hx => hNF (.inr hx)), fun hx => h1 (hN hx), .inl rfl,
        Set.subset_insert _ _⟩
      intro x hx hx'
      rcases hF x hx (h3 hx') with rfl | h
      · exact absurd hx' h1
      · exact h
theorem own_nVals {name : String} {G : Set Addr} {h : Heap} :
    ∀ {vals : List (String × PVal)} {vs : List (String × Addr)} {F₁ : Set Addr},
    OwnVals G h vals vs F₁ → ∃ N ⊆ F₁, ∀ F : Set Addr, Disjoint F G → (∀ x ∈ F, x ∈ F₁ → x ∈ N) → N ⊆ F →
      NVals name F h vals vs N
  | [], vs, F₁, ho => by
    rw [OwnVals] at ho
    exact ⟨∅, Set.empty_subset _, fun F _ _ _ => by rw [NVals]; exact ho⟩
  | (k, v) :: rest, vs, F₁, ho => by
    rw [OwnVals] at ho
    obtain ⟨b, vs', A, B, e, hv, hvs, hd, h1, h2⟩ := ho
    obtain ⟨N₁, hN1, hr1⟩ := own_nVal (name := name) k hv
    obtain ⟨N₂, hN2, hr2⟩ := own_nVals (name := name) hvs
    refine ⟨N₁ ∪ N₂, Set.union_subset (hN1.trans h1) (hN2.trans h2), fun F hG hF hNF => ?_⟩
    rw [NVals]
    refine ⟨b, vs', N₁, N₂, e, hr1 F hG ?_ (Set.subset_union_left.trans hNF), hr2 F hG ?_
      (Set.subset_union_right.trans hNF), Set.disjoint_of_subset hN1 hN2 hd, Set.subset_union_left,
      Set.subset_union_right⟩
    · intro x hx hx'
      rcases hF x hx (h1 hx') with h | h
      · exact h
      · exact absurd rfl (hd.ne_of_mem hx' (hN2 h))
    · intro x hx hx'
      rcases hF x hx (h2 hx') with h | h
      · exact absurd rfl (hd.ne_of_mem (hN1 h) hx')
      · exact h
theorem own_nVal {name : String} {G : Set Addr} {h : Heap} (k : String) :
    ∀ {v : PVal} {b : Addr} {F₁ : Set Addr},
    OwnVal G h v b F₁ → ∃ N ⊆ F₁, ∀ F : Set Addr, Disjoint F G → (∀ x ∈ F, x ∈ F₁ → x ∈ N) → N ⊆ F →
      NVal name F h k v b N
  | .arr x, b, F₁, ho => ⟨∅, Set.empty_subset _, fun F hG hF _ => by
      rw [NVal]; exact firm_own_val ho hG fun x hx hx' => hF x hx hx'⟩
  | .objs x, b, F₁, ho => ⟨∅, Set.empty_subset _, fun F hG hF _ => by
      rw [NVal]; exact firm_own_val ho hG fun x hx hx' => hF x hx hx'⟩
  | .states l, b, F₁, ho => by
    by_cases hk : k = name
    · exact ⟨∅, Set.empty_subset _, fun F hG hF _ => by
        rw [NVal]; exact .inl ⟨hk, firm_own_val ho hG fun x hx hx' => hF x hx hx'⟩⟩
    · rw [OwnVal] at ho
      obtain ⟨as, F', hb, hl, h1, h2, h3⟩ := ho
      obtain ⟨N, hN, hr⟩ := own_nList (name := name) hl
      refine ⟨N, hN.trans h3, fun F hG hF hNF => ?_⟩
      rw [NVal]
      exact .inr ⟨hk, as, fun hx => h1 (hN (hF b hx h2)), hb, hr F hG (fun x hx hx' => hF x hx (h3 hx')) hNF⟩
theorem own_nList {name : String} {G : Set Addr} {h : Heap} :
    ∀ {l : List PSState} {as : List Addr} {F₁ : Set Addr},
    OwnList G h l as F₁ → ∃ N ⊆ F₁, ∀ F : Set Addr, Disjoint F G → (∀ x ∈ F, x ∈ F₁ → x ∈ N) → N ⊆ F →
      NList name F h l as N
  | [], vs, F₁, ho => by
    rw [OwnList] at ho
    exact ⟨∅, Set.empty_subset _, fun F _ _ _ => by rw [NList]; exact ho⟩
  | s :: rest, vs, F₁, ho => by
    rw [OwnList] at ho
    obtain ⟨b, vs', A, B, e, hv, hvs, hd, h1, h2⟩ := ho
    obtain ⟨N₁, hN1, hr1⟩ := own_repN (name := name) hv
    obtain ⟨N₂, hN2, hr2⟩ := own_nList (name := name) hvs
    refine ⟨N₁ ∪ N₂, Set.union_subset (hN1.trans h1) (hN2.trans h2), fun F hG hF hNF => ?_⟩
    rw [NList]
    refine ⟨b, vs', N₁, N₂, e, hr1 F hG ?_ (Set.subset_union_left.trans hNF), hr2 F hG ?_
      (Set.subset_union_right.trans hNF), Set.disjoint_of_subset hN1 hN2 hd, Set.subset_union_left,
      Set.subset_union_right⟩
    · intro x hx hx'
      rcases hF x hx (h1 hx') with h | h
      · exact h
      · exact absurd rfl (hd.ne_of_mem hx' (hN2 h))
    · intro x hx hx'
      rcases hF x hx (h2 hx') with h | h
      · exact absurd rfl (hd.ne_of_mem (hN1 h) hx')
      · exact h
end

theorem own_nTop {name : String} {G : Set Addr} {h : Heap} :
    ∀ {p : Params} {vs : List (String × TRef)} {F₁ : Set Addr},
    OwnTop G h p vs F₁ → ∃ N ⊆ F₁, ∀ F : Set Addr, Disjoint F G → (∀ x ∈ F, x ∈ F₁ → x ∈ N) → N ⊆ F →
      NTop name F h p vs N
  | [], vs, F₁, ho => ⟨∅, Set.empty_subset _, fun F _ _ _ => ho⟩
  | (k, .noise d) :: rest, vs, F₁, ho => by
    obtain ⟨vs', e, ho⟩ := ho
    obtain ⟨N, hN, hr⟩ := own_nTop (name := name) ho
    exact ⟨N, hN, fun F hG hF hNF => ⟨vs', e, hr F hG hF hNF⟩⟩
  | (k, .ps s) :: rest, vs, F₁, ho => by
    obtain ⟨b, vs', A, B, e, hv, hvs, hd, h1, h2⟩ := ho
    obtain ⟨N₂, hN2, hr2⟩ := own_nTop (name := name) hvs
    have key : ∃ N₁ ⊆ A, ∀ F : Set Addr, Disjoint F G → (∀ x ∈ F, x ∈ A → x ∈ N₁) → N₁ ⊆ F →
        ((k = name ∧ Firm F h (RepPS · s b)) ∨ (k ≠ name ∧ RepN name F h s b N₁)) := by
      by_cases hk : k = name
      · exact ⟨∅, Set.empty_subset _, fun F hG hF _ => .inl ⟨hk, firm_own_ps hv hG fun x hx hx' => hF x hx hx'⟩⟩
      · obtain ⟨N₁, hN1, hr1⟩ := own_repN (name := name) hv
        exact ⟨N₁, hN1, fun F hG hF hNF => .inr ⟨hk, hr1 F hG hF hNF⟩⟩
    obtain ⟨N₁, hN1, hr1⟩ := key
    refine ⟨N₁ ∪ N₂, Set.union_subset (hN1.trans h1) (hN2.trans h2), fun F hG hF hNF => ?_⟩
    refine ⟨b, vs', N₁, N₂, e, hr1 F hG ?_ (Set.subset_union_left.trans hNF), hr2 F hG ?_
      (Set.subset_union_right.trans hNF), Set.disjoint_of_subset hN1 hN2 hd, Set.subset_union_left,
      Set.subset_union_right⟩
    · intro x hx hx'
      rcases hF x hx (h1 hx') with h | h
      · exact h
      · exact absurd rfl (hd.ne_of_mem hx' (hN2 h))
    · intro x hx hx'
      rcases hF x hx (h2 hx') with h | h
      · exact absurd rfl (hd.ne_of_mem (hN1 h) hx')
      · exact h

/-! ### one node -/

theorem nList_focus {name : String} {F : Set Addr} {h : Heap} : ∀ {l : List PSState} {as : List Addr}
    {N : Set Addr} {i : ℕ} {y : PSState} {a : Addr}, NList name F h l as N → l[i]? = some y → as[i]? = some a →
    ∃ Ny ⊆ N, RepN name F h y a Ny ∧ ∀ h' y', Keep Fᶜ h h' → Keep Nyᶜ h h' → RepN name F h' y' a Ny →
      NList name F h' (l.set i y') as N
  | [], _, _, _, _, _, _, hl, _ => by simp at hl
  | s :: l, as, N, i, y, a, hr, hl, ha => by
    rw [NList] at hr
    obtain ⟨b, as', N₁, N₂, rfl, hv, hvs, hd, h1, h2⟩ := hr
    cases i with
    | zero =>
      simp only [List.getElem?_cons_zero, Option.some.injEq] at hl ha
      subst hl ha
      refine ⟨N₁, h1, hv, fun h' y' hF hN hy' => ?_⟩
      rw [List.set_cons_zero, NList]
      exact ⟨b, as', N₁, N₂, rfl, hy', nList_keep hF (hN.mono fun x hx hx' => hd.ne_of_mem hx' hx rfl) hvs, hd,
        h1, h2⟩
    | succ i =>
      simp only [List.getElem?_cons_succ] at hl ha
      obtain ⟨Ny, hs, hy, hu⟩ := nList_focus hvs hl ha
      refine ⟨Ny, hs.trans h2, hy, fun h' y' hF hN hy' => ?_⟩
      rw [List.set_cons_succ, NList]
      exact ⟨b, as', N₁, N₂, rfl, repN_keep hF (hN.mono fun x hx hx' => hd.ne_of_mem hx (hs hx') rfl) hv,
        hu h' y' hF hN hy', hd, h1, h2⟩

theorem nVals_focus {name : String} {F : Set Addr} {h : Heap} {k : String} (hk : k ≠ name) :
    ∀ {vals : List (String × PVal)} {vs : List (String × Addr)}
    {N : Set Addr} {l : List PSState} {as : List Addr} {c : Addr} {i : ℕ} {y : PSState} {a : Addr},
    NVals name F h vals vs N → dget vals k = some (.states l) → dget vs k = some c → h[c]? = some (.list as) →
    l[i]? = some y → as[i]? = some a →
    ∃ Ny ⊆ N, RepN name F h y a Ny ∧ ∀ h' y', Keep Fᶜ h h' → Keep Nyᶜ h h' → RepN name F h' y' a Ny →
      NVals name F h' (dset vals k (.states (l.set i y'))) vs N
  | [], _, _, _, _, _, _, _, _, _, hl, _, _, _, _ => by simp [dget] at hl
  | (k', v) :: rest, vs, N, l, as, c, i, y, a, hr, hg, hgc, hc, hl, ha => by
    rw [NVals] at hr
    obtain ⟨b, vs', N₁, N₂, rfl, hv, hvs, hd, h1, h2⟩ := hr
    by_cases hkk : k' = k
    · subst hkk
      have e1 : v = .states l := by simpa [dget] using hg
      have e2 : b = c := by simpa [dget] using hgc
      subst e1 e2
      rw [NVal] at hv
      rcases hv with ⟨e, _⟩ | ⟨_, as', hb, ho, hlist⟩
      · exact absurd e hk
      · rw [hc] at ho; cases ho
        obtain ⟨Ny, hs, hy, hu⟩ := nList_focus hlist hl ha
        refine ⟨Ny, hs.trans h1, hy, fun h' y' hF hN hy' => ?_⟩
        simp only [dset, if_pos]
        rw [NVals]
        refine ⟨b, vs', N₁, N₂, rfl, ?_, nVals_keep hF (hN.mono fun x hx hx' => hd.ne_of_mem (hs hx') hx rfl) hvs,
          hd, h1, h2⟩
        rw [NVal]
        exact .inr ⟨hk, as, hb, hF.list hb hc, hu h' y' hF hN hy'⟩
    · have hg' : dget rest k = some (.states l) := by simpa [dget, hkk] using hg
      have hgc' : dget vs' k = some c := by simpa [dget, hkk] using hgc
      obtain ⟨Ny, hs, hy, hu⟩ := nVals_focus hk hvs hg' hgc' hc hl ha
      refine ⟨Ny, hs.trans h2, hy, fun h' y' hF hN hy' => ?_⟩
      simp only [dset, if_neg hkk]
      rw [NVals]
      exact ⟨b, vs', N₁, N₂, rfl, nVal_keep hF (hN.mono fun x hx hx' => hd.ne_of_mem hx (hs hx') rfl) hv,
        hu h' y' hF hN hy', hd, h1, h2⟩

theorem repN_focus {name : String} {F : Set Addr} {h : Heap} {s x : PSState} {a b : Addr} {N : Set Addr}
    {p : Path} (hr : RepN name F h s a N) (ha : AtN h a p b) (hn : NodeAt name s p x) :
    ∃ Nx ⊆ N, RepN name F h x b Nx ∧ ∀ h' x', Keep Fᶜ h h' → Keep Nxᶜ h h' → RepN name F h' x' b Nx →
      RepN name F h' (s.modifyAt (fun _ => x') p) a N := by
  induction hn generalizing a N with
  | here s =>
    cases ha
    exact ⟨N, subset_rfl, hr, fun h' x' _ _ hx => hx⟩
  | @deeper s y x k l i path hg hk hi _ ih =>
    cases ha with
    | @deeper _ a' _ c n vs attrs kd _ as _ _ ho hgc hl hia hp =>
      cases s with
      | mk n' vals kd' =>
        rw [RepN] at hr
        obtain ⟨vs', attrs', kd'', N', ho', hv, h1, h2, h3⟩ := hr
        rw [ho] at ho'; cases ho'
        obtain ⟨Ny, hs, hy, hu⟩ := nVals_focus hk hv hg hgc hl hi hia
        obtain ⟨Nx, hs', hx, hu'⟩ := ih hy hp
        refine ⟨Nx, (hs'.trans hs).trans h3, hx, fun h' x' hF hN hx' => ?_⟩
        rw [PSState.modifyAt, hg]
        simp only [hi]
        rw [RepN]
        obtain ⟨kd₁, ho₁⟩ := hN.ps (a := a) (fun hx => h1 (hs (hs' hx))) ho
        exact ⟨vs, attrs, kd₁, N', ho₁, hu h' _ hF (hN.mono fun z hz hz' => hz (hs' hz')) (hu' h' x' hF hN hx'),
          h1, h2, h3⟩

theorem nTop_focus {name : String} {F : Set Addr} {h : Heap} {k : String} (hk : k ≠ name) {x : PSState} {b : Addr}
    {path : Path} : ∀ {p : Params} {vs : List (String × TRef)} {N : Set Addr} {s : PSState} {a : Addr},
    NTop name F h p vs N → dget p k = some (.ps s) → dget vs k = some (.ps a) → AtN h a path b →
    NodeAt name s path x →
    ∃ Nx ⊆ N, RepN name F h x b Nx ∧ ∀ h' x', Keep Fᶜ h h' → Keep Nxᶜ h h' → RepN name F h' x' b Nx →
      NTop name F h' (dset p k (.ps (s.modifyAt (fun _ => x') path))) vs N
  | [], _, _, _, _, _, hl, _, _, _ => by simp [dget] at hl
  | (k', .noise d) :: rest, vs, N, s, a, hr, hg, hgc, ha, hn => by
    obtain ⟨vs', rfl, hvs⟩ := hr
    by_cases hkk : k' = k
    · subst hkk; simp [dget] at hg
    · have hg' : dget rest k = some (.ps s) := by simpa [dget, hkk] using hg
      have hgc' : dget vs' k = some (.ps a) := by simpa [dget, hkk] using hgc
      obtain ⟨Ny, hs, hy, hu⟩ := nTop_focus hk hvs hg' hgc' ha hn
      refine ⟨Ny, hs, hy, fun h' y' hF hN hy' => ?_⟩
      simp only [dset, if_neg hkk]
      exact ⟨vs', rfl, hu h' y' hF hN hy'⟩
  | (k', .ps s') :: rest, vs, N, s, a, hr, hg, hgc, ha, hn => by
    obtain ⟨b', vs', N₁, N₂, rfl, hv, hvs, hd, h1, h2⟩ := hr
    by_cases hkk : k' = k
    · subst hkk
      have e1 : s' = s := by simpa [dget] using hg
      have e2 : b' = a := by simpa [dget] using hgc
      subst e1 e2
      rcases hv with ⟨e, _⟩ | ⟨_, hv⟩
      · exact absurd e hk
      · obtain ⟨Ny, hs, hy, hu⟩ := repN_focus hv ha hn
        refine ⟨Ny, hs.trans h1, hy, fun h' y' hF hN hy' => ?_⟩
        simp only [dset, if_pos]
        exact ⟨b', vs', N₁, N₂, rfl, .inr ⟨hk, hu h' y' hF hN hy'⟩,
          nTop_keep hF (hN.mono fun x hx hx' => hd.ne_of_mem (hs hx') hx rfl) hvs, hd, h1, h2⟩
    · have hg' : dget rest k = some (.ps s) := by simpa [dget, hkk] using hg
      have hgc' : dget vs' k = some (.ps a) := by simpa [dget, hkk] using hgc
      obtain ⟨Ny, hs, hy, hu⟩ := nTop_focus hk hvs hg' hgc' ha hn
      refine ⟨Ny, hs.trans h2, hy, fun h' y' hF hN hy' => ?_⟩
      simp only [dset, if_neg hkk]
      refine ⟨b', vs', N₁, N₂, rfl, ?_, hu h' y' hF hN hy', hd, h1, h2⟩
      rcases hv with ⟨e, hv⟩ | ⟨e, hv⟩
      · exact .inl ⟨e, hv.keep hF⟩
      · exact .inr ⟨e, repN_keep hF (hN.mono fun x hx hx' => hd.ne_of_mem hx (hs hx') rfl) hv⟩

/-! ### the values of the perturbed space -/

theorem nVals_dset {name : String} {F : Set Addr} {h : Heap} {l : List PSState} {b : Addr}
    (hv : Firm F h (RepVal · (.states l) b)) : ∀ {vals : List (String × PVal)} {vs : List (String × Addr)}
    {N : Set Addr}, NVals name F h vals vs N → NVals name F h (dset vals name (.states l)) (dset vs name b) N
  | [], vs, N, hr => by
    rw [NVals] at hr; subst hr
    simp only [dset]
    rw [NVals]
    exact ⟨b, [], ∅, ∅, rfl, by rw [NVal]; exact .inl ⟨rfl, hv⟩, by rw [NVals], Set.disjoint_empty _,
      Set.empty_subset _, Set.empty_subset _⟩
  | (k, v) :: rest, vs, N, hr => by
    rw [NVals] at hr
    obtain ⟨b', vs', N₁, N₂, rfl, hv', hvs, hd, h1, h2⟩ := hr
    by_cases hk : k = name
    · subst hk
      simp only [dset, if_pos]
      rw [NVals]
      exact ⟨b, vs', ∅, N₂, rfl, by rw [NVal]; exact .inl ⟨rfl, hv⟩, hvs, Set.empty_disjoint _,
        Set.empty_subset _, h2⟩
    · simp only [dset, if_neg hk]
      rw [NVals]
      exact ⟨b', _, N₁, N₂, rfl, hv', nVals_dset hv hvs, hd, h1, h2⟩

theorem nTop_dset {name : String} {F : Set Addr} {h : Heap} {s : PSState} {b : Addr}
    (hv : Firm F h (RepPS · s b)) : ∀ {p : Params} {vs : List (String × TRef)} {N : Set Addr},
    NTop name F h p vs N → NTop name F h (dset p name (.ps s)) (dset vs name (.ps b)) N
  | [], vs, N, hr => by
    have hr : vs = [] := hr
    subst hr
    exact ⟨b, [], ∅, ∅, rfl, .inl ⟨rfl, hv⟩, rfl, Set.disjoint_empty _, Set.empty_subset _, Set.empty_subset _⟩
  | (k, .noise d) :: rest, vs, N, hr => by
    obtain ⟨vs', rfl, hvs⟩ := hr
    by_cases hk : k = name
    · subst hk
      simp only [dset, if_pos]
      exact ⟨b, vs', ∅, N, rfl, .inl ⟨rfl, hv⟩, hvs, Set.empty_disjoint _, Set.empty_subset _, subset_rfl⟩
    · simp only [dset, if_neg hk]
      exact ⟨_, rfl, nTop_dset hv hvs⟩
  | (k, .ps s') :: rest, vs, N, hr => by
    obtain ⟨b', vs', N₁, N₂, rfl, hv', hvs, hd, h1, h2⟩ := hr
    by_cases hk : k = name
    · subst hk
      simp only [dset, if_pos]
      exact ⟨b, vs', ∅, N₂, rfl, .inl ⟨rfl, hv⟩, hvs, Set.empty_disjoint _, Set.empty_subset _, h2⟩
    · simp only [dset, if_neg hk]
      exact ⟨b', _, N₁, N₂, rfl, hv', nTop_dset hv hvs, hd, h1, h2⟩

end BB.Lemmas
