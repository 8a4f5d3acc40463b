import Verif.Spec.Groups
import Verif.Model.Moves
import Mathlib.Data.List.Forall2

/-!
# The perturbations of a parameterization
-/

namespace BB.Lemmas

open BB Spec

theorem priorsOf_eq (sp : Space) : priorsOf sp = sp.params.priors := by
  unfold priorsOf
  have : ∀ ps : ParamList, ps.toList.filterMap (fun kp => match kp.2 with
      | .prior p => some p | .space _ => none) = ps.priors := by
    intro ps
    induction ps using ParamList.rec (motive_1 := fun _ => True) (motive_2 := fun _ => True) with
    | nil => rfl
    | cons name p rest _ ih =>
      rw [ParamList.toList]
      cases p with
      | prior p => simp only [List.filterMap_cons, ih, ParamList.priors]
      | space sp => simp only [List.filterMap_cons, ih, ParamList.priors]
    | _ => trivial
  exact this _

/-- The own group of a space. -/
theorem own_group (sp : Space) : IsGroup sp sp.ownPert sp.ownPert.weights.sum := by
  have hp := priorsOf_eq sp
  have ht : sp.info.transD = true ↔ sp.info.nDim = none := by simp [Info.transD]
  have hd : sp.info.kind.isDisc = true ↔ sp.info.kind ≠ .plain := by
    cases sp.info.kind <;> simp [Kind.isDisc]
  refine ⟨rfl, by simp [Space.ownPert], ?_, ?_, rfl⟩
  · unfold Space.ownPert Space.ownFuncs
    simp only
    rw [← hp]
    split <;> split <;> split <;> simp
  · intro f x
    have hz : sp.ownPert.funcs.zip sp.ownPert.weights = sp.ownFuncs := by
      unfold Space.ownPert
      simp only
      rw [List.zip_map']
      simp
    rw [hz]
    unfold Space.ownFuncs
    rw [← hp]
    simp only [List.mem_append]
    constructor
    · rintro ((h | h) | h)
      · split at h
        · next h0 =>
          simp only [List.mem_cons, Prod.mk.injEq, List.not_mem_nil, or_false] at h
          rcases h with ⟨rfl, rfl⟩ | ⟨rfl, rfl⟩
          · exact .birth (ht.1 h0)
          · exact .death (ht.1 h0)
        · cases h
      · split at h
        · cases h
        · next h0 =>
          simp only [List.mem_cons, Prod.mk.injEq, List.not_mem_nil, or_false] at h
          obtain ⟨rfl, rfl⟩ := h
          exact .values h0
      · split at h
        · next h0 =>
          simp only [List.mem_cons, Prod.mk.injEq, List.not_mem_nil, or_false] at h
          obtain ⟨rfl, rfl⟩ := h
          exact .site (hd.1 h0)
        · cases h
    · intro h
      cases h with
      | birth h => left; left; rw [if_pos (ht.2 h)]; simp
      | death h => left; left; rw [if_pos (ht.2 h)]; simp
      | values h =>
        left; right
        cases hq : priorsOf sp with
        | nil => exact absurd hq h
        | cons a l => simp
      | site h => right; rw [if_pos (hd.2 h)]; simp

mutual
theorem perts_space : ∀ sp : Space, List.Forall₂ (fun s g => IsGroup s g.1 g.2) (spacesOf sp) sp.perts
  | .mk info ps => by
    rw [spacesOf, Space.perts]
    exact List.rel_append (perts_list ps) (.cons (own_group _) .nil)
theorem perts_list : ∀ ps : ParamList, List.Forall₂ (fun s g => IsGroup s g.1 g.2) (spacesOfList ps) ps.perts
  | .nil => by rw [spacesOfList, ParamList.perts]; exact .nil
  | .cons _ p rest => by
    rw [spacesOfList, ParamList.perts]
    exact List.rel_append (perts_param p) (perts_list rest)
theorem perts_param : ∀ p : Param, List.Forall₂ (fun s g => IsGroup s g.1 g.2) (spacesOfParam p) p.perts
  | .prior _ => by rw [spacesOfParam, Param.perts]; exact .nil
  | .space sp => by rw [spacesOfParam, Param.perts]; exact perts_space sp
end


/-- A group has positive weight exactly if the space has something to perturb. -/
theorem group_pos {sp : Space} {g : PSPert} {w : ℝ} (h : IsGroup sp g w) : 0 < w ↔ Perturbable sp := by
  have hw : ∀ x ∈ g.weights, 0 < x := by
    intro x hx
    obtain ⟨i, hi, rfl⟩ := List.getElem_of_mem hx
    have hi' : i < g.funcs.length := h.lengths ▸ hi
    have hm : (g.funcs[i], g.weights[i]) ∈ g.funcs.zip g.weights := by
      rw [← List.getElem_zip (h := by simp; omega)]
      exact List.getElem_mem _
    have ho := (h.members _ _).1 hm
    generalize g.weights[i] = x at ho
    generalize g.funcs[i] = f at ho
    cases ho <;> norm_num
  have hmem : ∀ {f x}, Offered sp f x → x ∈ g.weights := fun ho =>
    (List.of_mem_zip ((h.members _ _).2 ho)).2
  constructor
  · intro h0
    by_contra hn
    have hnil : g.weights = [] := by
      cases hg : g.weights with
      | nil => rfl
      | cons x l =>
        exfalso
        cases hf : g.funcs with
        | nil => have := h.lengths; simp [hf, hg] at this
        | cons f l' =>
          have ho := (h.members f x).1 (by simp [hf, hg])
          refine hn ?_
          cases ho with
          | birth h => exact .inl h
          | death h => exact .inl h
          | values h => exact .inr (.inl h)
          | site h => exact .inr (.inr h)
    rw [h.weight, hnil] at h0
    simp at h0
  · intro hp
    rw [h.weight]
    have : ∃ f x, Offered sp f x := by
      rcases hp with h | h | h
      · exact ⟨_, _, .birth h⟩
      · exact ⟨_, _, .values h⟩
      · exact ⟨_, _, .site h⟩
    obtain ⟨f, x, ho⟩ := this
    exact lt_of_lt_of_le (hw x (hmem ho)) (List.single_le_sum (fun y hy => (hw y hy).le) x (hmem ho))

open Classical in
theorem forall₂_filter {α β : Type} {R : α → β → Prop} {p : α → Prop} {q : β → Prop}
    (hpq : ∀ a b, R a b → (p a ↔ q b)) {l : List α} {l' : List β} (h : List.Forall₂ R l l') :
    List.Forall₂ R (l.filter (fun a => decide (p a))) (l'.filter (fun b => decide (q b))) := by
  induction h with
  | nil => exact .nil
  | @cons a b _ _ h _ ih =>
    have := hpq _ _ h
    simp only [List.filter_cons]
    by_cases hp : p a
    · rw [if_pos (decide_eq_true hp), if_pos (decide_eq_true (this.1 hp))]
      exact .cons h ih
    · rw [if_neg (by simpa using hp), if_neg (by simpa using fun hq => hp (this.2 hq))]
      exact ih

mutual
theorem spacesOf_sub : ∀ (sp : Space) {s : Space}, s ∈ spacesOf sp → SubSpace sp s
  | .mk info ps, s, h => by
    rw [spacesOf, List.mem_append] at h
    rcases h with h | h
    · obtain ⟨k, sp1, hk, hs⟩ := spacesOfList_sub ps h
      exact .step hk hs
    · rw [List.mem_singleton.1 h]
      exact .refl
theorem spacesOfList_sub : ∀ (ps : ParamList) {s : Space}, s ∈ spacesOfList ps →
    ∃ k sp1, (k, Param.space sp1) ∈ ps.toList ∧ SubSpace sp1 s
  | .nil, s, h => by rw [spacesOfList] at h; cases h
  | .cons k p rest, s, h => by
    rw [spacesOfList, List.mem_append] at h
    rcases h with h | h
    · obtain ⟨sp1, rfl, hs⟩ := spacesOfParam_sub p h
      exact ⟨k, sp1, by simp [ParamList.toList], hs⟩
    · obtain ⟨k', sp1, hk, hs⟩ := spacesOfList_sub rest h
      exact ⟨k', sp1, by simp [ParamList.toList, hk], hs⟩
theorem spacesOfParam_sub : ∀ (p : Param) {s : Space}, s ∈ spacesOfParam p →
    ∃ sp1, p = .space sp1 ∧ SubSpace sp1 s
  | .prior _, s, h => by rw [spacesOfParam] at h; cases h
  | .space sp, s, h => by
    rw [spacesOfParam] at h
    exact ⟨sp, rfl, spacesOf_sub sp h⟩
end

theorem mem_spacesOfList {k : String} {sp s : Space} : ∀ {ps : ParamList}, (k, Param.space sp) ∈ ps.toList →
    s ∈ spacesOf sp → s ∈ spacesOfList ps
  | .nil, h, _ => by simp [ParamList.toList] at h
  | .cons k' p rest, h, hs => by
    rw [spacesOfList, List.mem_append]
    rw [ParamList.toList, List.mem_cons] at h
    rcases h with h | h
    · cases h
      left
      rw [spacesOfParam]
      exact hs
    · exact .inr (mem_spacesOfList h hs)

/-- The enumeration lists the nested spaces. -/
theorem mem_spacesOf {sp s : Space} : s ∈ spacesOf sp ↔ SubSpace sp s := by
  refine ⟨spacesOf_sub sp, fun h => ?_⟩
  induction h with
  | @refl sp => cases sp; rw [spacesOf]; simp
  | @step sp sp1 s k hk _ ih =>
    cases sp with
    | mk info ps =>
      rw [spacesOf, List.mem_append]
      exact .inl (mem_spacesOfList hk ih)

end BB.Lemmas
