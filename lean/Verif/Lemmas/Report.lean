import Verif.Model.Report
import Verif.Lemmas.Statistics
import Verif.Lemmas.Dict

/-!
# Lemmas on the progress that chains print
-/

namespace BB.Lemmas

open BB.Spec

/-- All entries of the explored models are positive. -/
def PosEntry : Stat → Prop
  | .count n => 1 ≤ n
  | .sub d => ∀ x ∈ d, (0 : ℝ) < x.2

def PosStats (p : List (String × Stat)) : Prop := ∀ x ∈ p, PosEntry x.2

theorem forall_dset {α : Type} {P : α → Prop} {d : List (String × α)} (h : ∀ x ∈ d, P x.2) {k : String} {v : α} (hv : P v) :
    ∀ x ∈ dset d k v, P x.2 := by
  induction d with
  | nil => intro x hx; simp only [dset, List.mem_singleton] at hx; rw [hx]; exact hv
  | cons y d ih =>
    obtain ⟨k', v'⟩ := y
    intro x hx
    unfold dset at hx
    split_ifs at hx
    · rcases List.mem_cons.1 hx with rfl | hx
      · exact hv
      · exact h x (List.mem_cons_of_mem _ hx)
    · rcases List.mem_cons.1 hx with rfl | hx
      · exact h _ List.mem_cons_self
      · exact ih (fun x hx => h x (List.mem_cons_of_mem _ hx)) x hx

theorem bumpSub_pos {p p' : List (String × Stat)} (h : PosStats p) {name k : String} {v : ℝ} (hv : 0 < v)
    (he : bumpSub p name k v = .ok p') : PosStats p' := by
  unfold bumpSub at he
  match hp : dget p name with
  | none =>
    rw [hp] at he
    simp only [Except.ok.injEq] at he
    subst he
    exact forall_dset h (by intro x hx; simp only [List.mem_singleton] at hx; rw [hx]; simpa using hv)
  | some (.count n) => rw [hp] at he; simp at he
  | some (.sub m) =>
    rw [hp] at he
    simp only [Except.ok.injEq] at he
    subst he
    have hm : ∀ x ∈ m, (0 : ℝ) < x.2 := h _ (dget_some_mem hp)
    refine forall_dset h (forall_dset hm ?_)
    cases hk : dget m k with
    | none => simpa using hv
    | some y => simpa using add_pos (hm _ (dget_some_mem hk)) hv

theorem bumpSubs_pos {name : String} {acc : Bool} {st : List (String × ℝ)} (hst : ∀ kv ∈ st, 0 < kv.2)
    {p a p' a' : List (String × Stat)} (h : PosStats p) (he : bumpSubs name acc st p a = .ok (p', a')) : PosStats p' := by
  induction st generalizing p a with
  | nil =>
    simp only [bumpSubs, Except.ok.injEq, Prod.mk.injEq] at he
    rw [← he.1]; exact h
  | cons kv st ih =>
    obtain ⟨k, v⟩ := kv
    unfold bumpSubs at he
    cases h1 : bumpSub p name k v with
    | error e => simp [h1, bind, Except.bind] at he
    | ok p1 =>
      cases h2 : bumpSub a name k (if acc then v else 0) with
      | error e => simp [h1, h2, bind, Except.bind] at he
      | ok a1 =>
        simp only [h1, h2, bind, Except.bind] at he
        exact ih (fun kv hkv => hst kv (List.mem_cons_of_mem _ hkv)) (bumpSub_pos h (hst _ List.mem_cons_self) h1) he

theorem bumpCount_pos {name : String} {acc : Bool} {p a : List (String × Stat)} (h : PosStats p) :
    PosStats (bumpCount name acc p a).1 := by
  unfold bumpCount
  split
  · exact forall_dset h (by simp [PosEntry])
  · exact forall_dset h (by simp [PosEntry])

section

variable {S σ E : Type} (cfg : ChainCfg S σ)

theorem newStats_pos {name : String} {acc : Bool} {new : S} {p a p' a' : List (String × Stat)}
    (hst : PS name → ∀ st, cfg.stats new = .ok st → ∀ kv ∈ st, 0 < kv.2) (h : PosStats p)
    (he : newStats cfg name acc new p a = .ok (p', a')) : PosStats p' := by
  unfold newStats at he
  by_cases hn : name.startsWith "ParamSpacePerturbation" = true
  · rw [if_pos hn] at he
    match hs : cfg.stats new with
    | .error e => rw [hs] at he; simp [Bind.bind, Except.bind] at he
    | .ok st =>
      rw [hs] at he
      exact bumpSubs_pos (hst hn st hs) h he
  · rw [if_neg hn] at he
    simp only [Except.ok.injEq] at he
    have := bumpCount_pos (name := name) (acc := acc) (a := a) h
    rw [he] at this
    exact this

/-- What every update of the statistics keeps, attempts keep, whatever their outcome. -/
theorem attempt_keeps_stats {G : S → Prop} {Q : List (String × Stat) → Prop}
    (hQ : ∀ name acc new p a p' a', (PS name → G new) → Q p → newStats cfg name acc new p a = .ok (p', a') → Q p')
    (hf : ∀ nf ∈ cfg.perturbs, PS nf.1 → ∀ s t new lpr t', nf.2 s t = (.ok (new, lpr), t') → G new)
    (hllr : ∀ a b T, G b → G (cfg.llr a b T).2.2) :
    Act.Keeps (Chain.attempt cfg : Act (Chain S σ E) _) (fun c c' => Q c.proposed → Q c'.proposed) := by
  classical
  have hfin : ∀ (c : Chain S σ E) t name new lp, (PS name → G new) → Q c.proposed →
      Q (Chain.finish cfg name new lp c t).2.1.proposed := by
    intro c t name new lp hg h
    cases t with
    | nil => exact h
    | cons d t =>
      rw [finish_run]
      split
      · exact h
      · split
        · exact h
        · rename_i p a hn
          have h3 : Q p := hQ _ _ _ _ _ _ _ hg h hn
          have h4 : ∀ c1 : Chain S σ E, Q c1.proposed → Q (Chain.saveIfDue cfg c1 t).2.1.proposed := by
            intro c1 h
            unfold Chain.saveIfDue
            split
            · exact h
            · exact h
          have h5 := h4 (afterStats c new (decide (lp.gtFin (Real.log d.u))) p a) h3
          split
          · rename_i c1 t1 hs; rw [hs] at h5; exact h5
          · rename_i e c1 t1 hs; rw [hs] at h5; exact h5
  intro c t h
  by_cases hch : ∃ name f t1, Chosen cfg t name f t1
  · obtain ⟨name, f, t1, hch⟩ := hch
    have hmem : (name, f) ∈ cfg.perturbs := by
      obtain ⟨i, -, hi⟩ := hch
      exact List.mem_of_getElem? hi
    rw [attempt_chosen cfg hch]
    split
    · exact h
    · exact h
    · rename_i new lpr t2 hprop
      have hgood : PS name → G new := fun hps => hf _ hmem hps _ _ _ _ _ hprop
      split
      · have := hfin c t2 name new (lpr.add (.fin 0)) hgood h
        split
        · rename_i ev c1 t3 hs; rw [hs] at this; exact this
        · rename_i e c1 t3 hs; rw [hs] at this; exact this
      · split
        · exact h
        · exact h
        · exact h
        · rename_i r cur new1 hl
          have hgood1 : PS name → G new1 := by
            intro hps
            have := hllr c.cur new c.temp (hgood hps)
            rw [hl] at this; exact this
          have := hfin { c with cur := cur } t2 name new1 (lpr.add r) hgood1 h
          split
          · rename_i ev c1 t3 hs; rw [hs] at this; exact this
          · rename_i e c1 t3 hs; rw [hs] at this; exact this
  · obtain ⟨e, t', he⟩ := attempt_not_chosen cfg (c := c) (t := t)
      (fun name f t1 hh => hch ⟨name, f, t1, hh⟩)
    rw [he]; exact h

end

theorem acceptanceRate_pos {a e : ℝ} (h : e ≠ 0) : acceptanceRate a e = .ok (a / e * 100) := by
  simp [acceptanceRate, h]

theorem mem_sortedKeys {α : Type} {d : List (String × α)} {k : String} : k ∈ sortedKeys d ↔ ∃ v, dget d k = some v := by
  unfold sortedKeys
  rw [List.mem_mergeSort]
  constructor
  · intro h
    cases hd : dget d k with
    | some v => exact ⟨v, rfl⟩
    | none => exact absurd h (dget_none_iff.1 hd)
  · rintro ⟨v, hv⟩
    exact List.mem_map.2 ⟨_, dget_some_mem hv, rfl⟩

theorem collectLines_ok {f : String → Except PyErr (List RateLine)} {ks : List String} (h : ∀ k ∈ ks, ∃ l, f k = .ok l) :
    ∃ lines, collectLines f ks = .ok lines ∧ ∀ x, x ∈ lines ↔ ∃ k ∈ ks, ∃ l, f k = .ok l ∧ x ∈ l := by
  induction ks with
  | nil => exact ⟨[], rfl, by simp⟩
  | cons k ks ih =>
    obtain ⟨l, hl⟩ := h k List.mem_cons_self
    obtain ⟨lines, h1, h2⟩ := ih fun k hk => h k (List.mem_cons_of_mem _ hk)
    refine ⟨l ++ lines, by simp [collectLines, hl, h1, bind, Except.bind], fun x => ?_⟩
    rw [List.mem_append, h2]
    constructor
    · rintro (hx | ⟨k', hk', l', hl', hx⟩)
      · exact ⟨k, List.mem_cons_self, l, hl, hx⟩
      · exact ⟨k', List.mem_cons_of_mem _ hk', l', hl', hx⟩
    · rintro ⟨k', hk', l', hl', hx⟩
      rcases List.mem_cons.1 hk' with rfl | hk'
      · rw [hl] at hl'; cases hl'; exact Or.inl hx
      · exact Or.inr ⟨k', hk', l', hl', hx⟩

end BB.Lemmas
