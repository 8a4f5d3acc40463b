import Verif.Lemmas.HeapCopy
import Verif.Lemmas.Inversion

/-!
# Which objects the programs on the heap modify
-/

namespace BB.Lemmas

open BB BB.Spec BB.HM

/-! ### triples -/

/-- From a heap with `P`, the program ends in a heap with `E` and an exception, or in a heap with `Q`. -/
def Tri {α : Type} (P : Heap → Prop) (m : HM α) (E : Heap → Prop) (Q : α → Heap → Prop) : Prop :=
  ∀ h t, P h → match m h t with
    | (.ok a, h', _) => Q a h'
    | (.error _, h', _) => E h'

variable {α β γ : Type} {P P' E E' I : Heap → Prop} {Q Q' : α → Heap → Prop} {S : β → Heap → Prop}

theorem Tri.pure {a : α} (hq : ∀ h, P h → Q a h) : Tri P (Pure.pure a : HM α) E Q := fun h _ hp => hq h hp

theorem Tri.throw {e : PyErr} (hq : ∀ h, P h → E h) : Tri P (Act.throw e : HM α) E Q := fun h _ hp => hq h hp

theorem Tri.mono {m : HM α} (hm : Tri P m E Q) (hp : ∀ h, P' h → P h) (he : ∀ h, E h → E' h)
    (hq : ∀ a h, Q a h → Q' a h) : Tri P' m E' Q' := by
  intro h t hp'
  have := hm h t (hp h hp')
  generalize m h t = x at this ⊢
  obtain ⟨r, h', t'⟩ := x
  cases r
  · exact he _ this
  · exact hq _ _ this

theorem Tri.bind {m : HM α} {f : α → HM β} (hm : Tri P m E Q) (hf : ∀ a, Tri (Q a) (f a) E S) :
    Tri P (m >>= f) E S := by
  intro h t hp
  have := hm h t hp
  rw [Act.bind_run]
  generalize m h t = x at this ⊢
  obtain ⟨r, h', t'⟩ := x
  cases r
  · exact this
  · exact hf _ _ _ this

/-- The program keeps `I`, also when it raises an exception. -/
def Hold {α : Type} (I : Heap → Prop) (m : HM α) (Q : α → Prop) : Prop :=
  Tri I m I (fun a h => I h ∧ Q a)

variable {R R' : α → Prop} {T : β → Prop}

theorem Hold.pure {a : α} (hq : R a) : Hold I (Pure.pure a : HM α) R := Tri.pure fun _ h => ⟨h, hq⟩

theorem Hold.throw {e : PyErr} : Hold I (Act.throw e : HM α) R := Tri.throw fun _ h => h

theorem Hold.mono {m : HM α} (hm : Hold I m R) (hq : ∀ a, R a → R' a) : Hold I m R' :=
  Tri.mono hm (fun _ h => h) (fun _ h => h) fun a _ h => ⟨h.1, hq a h.2⟩

theorem Hold.any {m : HM α} (hm : Hold I m R) : Hold I m (fun _ => True) := hm.mono fun _ _ => trivial

theorem Hold.bind {m : HM α} {f : α → HM β} (hm : Hold I m R) (hf : ∀ a, R a → Hold I (f a) T) :
    Hold I (m >>= f) T :=
  Tri.bind hm fun a h t hh => hf a hh.2 h t hh.1

theorem Hold.ofM (m : M α) : Hold I (Act.ofM m) (fun _ => True) := by
  intro h t hi
  simp only [Act.ofM]
  rcases m t with ⟨r, t'⟩
  cases r
  · exact hi
  · exact ⟨hi, trivial⟩

theorem Hold.lift (x : Except PyErr α) : Hold I (HM.lift x) (fun _ => True) := by
  intro h t hi
  cases x
  · exact hi
  · exact ⟨hi, trivial⟩

theorem Hold.read (a : Addr) : Hold I (HM.read a) (fun _ => True) := by
  intro h t hi
  simp only [HM.read]
  cases h[a]? with
  | none => exact hi
  | some o => exact ⟨hi, trivial⟩

theorem Hold.forEach {f : α → HM β} (xs : List α) (hf : ∀ x ∈ xs, Hold I (f x) T) :
    Hold I (HM.forEach f xs) (fun ys => ∀ y ∈ ys, T y) := by
  induction xs with
  | nil => exact Hold.pure (by simp)
  | cons x xs ih =>
    rw [HM.forEach]
    refine (hf x (by simp)).bind fun y hy => ?_
    refine (ih fun x hx => hf x (by simp [hx])).bind fun ys hys => ?_
    refine Hold.pure ?_
    intro z hz
    rcases List.mem_cons.1 hz with rfl | hz
    · exact hy
    · exact hys z hz

theorem Hold.ite {c : Prop} [Decidable c] {m m' : HM α} (h₁ : c → Hold I m R) (h₂ : ¬ c → Hold I m' R) :
    Hold I (if c then m else m') R := by
  split
  · exact h₁ ‹_›
  · exact h₂ ‹_›

/-! ### programs that only read -/

section reads

theorem readPS_hold (a : Addr) : Hold I (readPS a) (fun _ => True) := by
  rw [readPS]
  refine (Hold.read a).bind fun o _ => ?_
  cases o with
  | ps n vs attrs kd => exact Hold.pure trivial
  | _ => exact Hold.throw

theorem readState_hold (a : Addr) : Hold I (readState a) (fun _ => True) := by
  rw [readState]
  refine (Hold.read a).bind fun o _ => ?_
  cases o with
  | state => exact Hold.pure trivial
  | _ => exact Hold.throw

theorem getH_hold (a : Addr) (k : String) : Hold I (getH a k) (fun _ => True) := by
  rw [getH]
  exact (readPS_hold a).bind fun _ _ => Hold.pure trivial

theorem checkH_hold (n : Option ℕ) (b : Addr) : Hold I (checkH n b) (fun _ => True) := by
  rw [checkH]
  refine (Hold.read b).bind fun o _ => ?_
  cases o with
  | arr x => exact Hold.ite (fun _ => Hold.throw) fun _ => Hold.pure trivial
  | objs l => exact Hold.ite (fun _ => Hold.throw) fun _ => Hold.pure trivial
  | list l =>
    exact Hold.ite (fun _ => Hold.throw) fun _ => Hold.ite (fun _ => Hold.throw) fun _ => Hold.pure trivial
  | _ => exact Hold.throw

theorem checksH_hold (n : ℕ) (vs : List (String × Addr)) : Hold I (checksH n vs) (fun _ => True) := by
  induction vs with
  | nil => exact Hold.pure trivial
  | cons kv vs ih =>
    obtain ⟨k, b⟩ := kv
    rw [checksH]
    exact (checkH_hold _ b).bind fun _ _ => ih

theorem numAtH_hold (v : Option Addr) (i : ℕ) : Hold I (numAtH v i) (fun _ => True) := by
  cases v with
  | none => exact Hold.throw
  | some b =>
    rw [numAtH]
    refine (Hold.read b).bind fun o _ => ?_
    cases o with
    | arr x => exact Hold.lift _
    | _ => exact Hold.throw

theorem stateAtH_hold (v : Option Addr) (i : ℕ) : Hold I (stateAtH v i) (fun _ => True) := by
  have key : ∀ l : List Addr, Hold I (match l[i]? with
      | some a => pure a
      | none => Act.throw .indexError : HM Addr) (fun _ => True) := by
    intro l
    cases l[i]? with
    | none => exact Hold.throw
    | some a => exact Hold.pure trivial
  cases v with
  | none => exact Hold.throw
  | some b =>
    rw [stateAtH]
    refine (Hold.read b).bind fun o _ => ?_
    cases o with
    | list l => exact key l
    | objs l => exact key l
    | _ => exact Hold.throw

theorem nearestH_hold (k : Kind) (v : Option Addr) (q : Pos) : Hold I (nearestH k v q) (fun _ => True) := by
  cases v with
  | none => exact Hold.throw
  | some b =>
    rw [nearestH]
    refine (Hold.read b).bind fun o _ => ?_
    cases o with
    | arr x => exact Hold.lift _
    | _ => exact Hold.throw

theorem sitesH_hold (a : Addr) : Hold I (sitesH a) (fun _ => True) := by
  rw [sitesH]
  refine (getH_hold a _).bind fun v _ => ?_
  cases v with
  | none => exact Hold.throw
  | some b =>
    refine (Hold.read b).bind fun o _ => ?_
    cases o with
    | arr x => exact Hold.pure trivial
    | _ => exact Hold.throw

theorem posAtH_hold (a : Addr) (i : ℕ) : Hold I (posAtH a i) (fun _ => True) := by
  rw [posAtH]
  refine (getH_hold a _).bind fun v _ => ?_
  cases v with
  | none => exact Hold.pure trivial
  | some b =>
    refine (Hold.read b).bind fun o _ => ?_
    cases o with
    | arr x =>
      show Hold I (match x.positions[i]? with
        | some p => pure p
        | none => Act.throw .indexError : HM Pos) _
      cases x.positions[i]? with
      | none => exact Hold.throw
      | some p => exact Hold.pure trivial
    | _ => exact Hold.throw

theorem forSitesH_hold {σ : Type} {body : ℕ → Pos → σ → HM σ}
    (hb : ∀ i p s, Hold I (body i p s) (fun _ => True)) : ∀ (l : List Pos) (i : ℕ) (s : σ),
    Hold I (forSitesH body i l s) (fun _ => True)
  | [], _, _ => Hold.pure trivial
  | p :: ps, i, s => by
    rw [forSitesH]
    exact (hb i p s).bind fun s _ => forSitesH_hold hb ps (i + 1) s

mutual
theorem deathPSH_hold : ∀ (sp : Space) (old new : Addr), Hold I (sp.deathPSH old new) (fun _ => True)
  | .mk info ps, old, new => by
    rw [Space.deathPSH]
    refine (sitesH_hold old).bind fun sites _ => ?_
    refine forSitesH_hold (fun i p s => ?_) sites 0 _
    refine (getH_hold new _).bind fun v _ => ?_
    refine (nearestH_hold _ v p).bind fun inear _ => ?_
    exact plDeathPointH_hold ps old new i inear p s
theorem plDeathPointH_hold : ∀ (ps : ParamList) (old new : Addr) (i inear : ℕ) (pos : Pos) (acc : PyF),
    Hold I (ps.deathPointH old new i inear pos acc) (fun _ => True)
  | .nil, old, new, i, inear, pos, acc => by rw [ParamList.deathPointH]; exact Hold.pure trivial
  | .cons name p rest, old, new, i, inear, pos, acc => by
    rw [ParamList.deathPointH]
    exact (pDeathPointH_hold p name old new i inear pos acc).bind fun acc _ =>
      plDeathPointH_hold rest old new i inear pos acc
theorem pDeathPointH_hold : ∀ (p : Param) (name : String) (old new : Addr) (i inear : ℕ) (pos : Pos)
    (acc : PyF), Hold I (p.deathPointH name old new i inear pos acc) (fun _ => True)
  | .prior p, name, old, new, i, inear, pos, acc => by
    rw [Param.deathPointH]
    refine (getH_hold old _).bind fun v _ => ?_
    refine (numAtH_hold v i).bind fun x _ => ?_
    refine (getH_hold new _).bind fun v _ => ?_
    refine (numAtH_hold v inear).bind fun y _ => ?_
    exact Hold.lift _
  | .space s, name, old, new, i, inear, pos, acc => by
    rw [Param.deathPointH]
    refine Hold.ite (fun _ => ?_) fun _ => Hold.pure trivial
    refine (getH_hold old _).bind fun v _ => ?_
    refine (stateAtH_hold v i).bind fun x _ => ?_
    refine (getH_hold new _).bind fun v _ => ?_
    refine (stateAtH_hold v inear).bind fun y _ => ?_
    exact (deathPSH_hold s x y).bind fun r _ => Hold.pure trivial
end

theorem deathRatioH_hold (sp : Space) (old new : Addr) (i : ℕ) :
    Hold I (sp.deathRatioH old new i) (fun _ => True) := by
  rw [Space.deathRatioH]
  refine Hold.ite (fun _ => Hold.pure trivial) fun _ => ?_
  refine (sitesH_hold old).bind fun sites _ => ?_
  cases sites[i]? with
  | none => exact Hold.throw
  | some pos =>
    refine (getH_hold new _).bind fun v _ => ?_
    refine (nearestH_hold _ v pos).bind fun inear _ => ?_
    exact plDeathPointH_hold _ old new i inear pos _

theorem countValsH_hold (name : String) : ∀ vs : List (String × Addr),
    Hold I (countValsH name vs) (fun _ => True)
  | [] => Hold.pure trivial
  | (k, b) :: rest => by
    rw [countValsH]
    refine (Hold.read b).bind fun o _ => ?_
    cases o with
    | list l =>
      refine Hold.ite (fun _ => ?_) fun _ => Hold.ite (fun _ => Hold.throw) fun _ => ?_
      · exact (countValsH_hold name rest).bind fun _ _ => Hold.pure trivial
      · exact (countValsH_hold name rest).bind fun _ _ => Hold.pure trivial
    | _ => exact countValsH_hold name rest

theorem countQueueH_hold (name : String) : ∀ (fuel : ℕ) (q : List Addr) (n : ℕ),
    Hold I (countQueueH name fuel q n) (fun _ => True)
  | fuel, [], n => by rw [countQueueH]; exact Hold.pure trivial
  | 0, _ :: _, n => by rw [countQueueH]; exact Hold.throw
  | fuel + 1, a :: q, n => by
    rw [countQueueH]
    refine (readPS_hold a).bind fun x _ => ?_
    refine (countValsH_hold name x.2.1).bind fun y _ => ?_
    exact countQueueH_hold name fuel _ _

theorem perturbNoisesH_hold (a : Addr) : ∀ (ts : List Target) (acc : List (String × TRef)),
    Hold I (perturbNoisesH a ts acc) (fun r => ∀ k, (∀ t ∈ ts, t.name ≠ k) → dget r k = dget acc k)
  | [], acc => Hold.pure fun _ _ => rfl
  | t :: ts, acc => by
    rw [perturbNoisesH]
    refine (readState_hold a).bind fun x _ => ?_
    obtain ⟨vals, x⟩ := x
    show Hold I (match dget vals t.name with
      | some (.noise d) => do
        let d ← Act.ofM (t.perturbNoise d)
        perturbNoisesH a ts (dset acc t.name (.noise d))
      | _ => Act.throw .attributeError : HM (List (String × TRef))) _
    cases dget vals t.name with
    | none => exact Hold.throw
    | some v =>
      cases v with
      | ps b => exact Hold.throw
      | noise d =>
        refine (Hold.ofM _).bind fun d' _ => ?_
        refine (perturbNoisesH_hold a ts _).mono fun r hr k hk => ?_
        rw [hr k fun t' ht' => hk t' (by simp [ht']), dget_dset_ne]
        exact fun h => hk t (by simp) h.symm

end reads

/-! ### the invariant -/

/-- The objects an object refers to, except from an array of states. -/
def refsL : Obj → List Addr
  | .objs _ => []
  | o => refs o

/-- No references. -/
def refs0 : Obj → List Addr := fun _ => []

/-- A choice of references. -/
structure RefsOk (rf : Obj → List Addr) : Prop where
  sub : ∀ o, ∀ b ∈ rf o, b ∈ refs o
  kd : ∀ n vs attrs kd kd', rf (.ps n vs attrs kd) = rf (.ps n vs attrs kd')

theorem refsOk_refs : RefsOk refs := ⟨fun _ _ h => h, fun _ _ _ _ _ => rfl⟩

theorem refsOk_refsL : RefsOk refsL := by
  refine ⟨fun o b h => ?_, fun _ _ _ _ _ => rfl⟩
  cases o with
  | objs l => simp [refsL] at h
  | _ => exact h

theorem refsOk_refs0 : RefsOk refs0 := ⟨fun _ _ h => by simp [refs0] at h, fun _ _ _ _ _ => rfl⟩

/-- What holds of every object made since. -/
def Fine (B N : Set String) (rf : Obj → List Addr) (base : ℕ) (o : Obj) : Prop :=
  AgreeObj B N o ∧ ∀ b ∈ rf o, base ≤ b

/-- The objects of `h₀` are unmodified, apart from the trees of states in `W`; the attributes of the new
objects agree; the references in new objects are to new objects. -/
structure Inv (B N : Set String) (W : Set Addr) (rf : Obj → List Addr) (h₀ h : Heap) : Prop where
  len : h₀.length ≤ h.length
  old : Unmodified W h₀ h
  new : ∀ (x : Addr) (o : Obj), h₀.length ≤ x → h[x]? = some o → Fine B N rf h₀.length o

variable {B N : Set String} {W : Set Addr} {rf : Obj → List Addr} {h₀ h : Heap}

theorem _root_.BB.Spec.Unmodified.refl (h : Heap) : Unmodified W h h := fun _ _ ho => .inl ho

theorem _root_.BB.Spec.Unmodified.trans {h₁ h₂ h₃ : Heap} (ha : Unmodified W h₁ h₂) (hb : Unmodified W h₂ h₃) :
    Unmodified W h₁ h₃ := by
  intro a o ho
  rcases ha a o ho with h1 | ⟨hw, n, vs, attrs, kd, kd', rfl, h1⟩
  · exact hb a o h1
  · rcases hb a _ h1 with h2 | ⟨_, n', vs', attrs', kd₁, kd₂, he, h2⟩
    · exact .inr ⟨hw, n, vs, attrs, kd, kd', rfl, h2⟩
    · cases he
      exact .inr ⟨hw, n, vs, attrs, kd, kd₂, rfl, h2⟩

theorem _root_.BB.Spec.Unmodified.prefix {h h' : Heap} (hp : h <+: h') : Unmodified W h h' :=
  fun _ _ ho => .inl (prefix_get hp ho)

theorem _root_.BB.Spec.Unmodified.mono {W' : Set Addr} {h h' : Heap} (hu : Unmodified W h h') (hs : W ⊆ W') :
    Unmodified W' h h' := by
  intro a o ho
  rcases hu a o ho with h1 | ⟨hw, h1⟩
  · exact .inl h1
  · exact .inr ⟨hs hw, h1⟩

theorem _root_.BB.Spec.Unmodified.keep {F : Set Addr} {h h' : Heap} (hu : Unmodified W h h') : Keep F h h' := by
  intro a _ o ho
  rcases hu a o ho with h1 | ⟨hw, n, vs, attrs, kd, kd', rfl, h1⟩
  · exact ⟨o, h1, .refl o⟩
  · exact ⟨_, h1, .kd ..⟩

/-- Nothing at all has been modified. -/
theorem _root_.BB.Spec.Unmodified.toPrefix {h h' : Heap} (hu : Unmodified ∅ h h') : h <+: h' := by
  have : h = h'.take h.length := by
    apply List.ext_getElem?
    intro i
    by_cases hi : i < h.length
    · rw [List.getElem?_take_of_lt hi]
      have h1 : h[i]? = some h[i] := List.getElem?_eq_getElem hi
      rcases hu i _ h1 with h2 | ⟨hw, _⟩
      · rw [h1, h2]
      · exact absurd hw (Set.notMem_empty _)
    · rw [List.getElem?_eq_none (by omega), List.getElem?_eq_none (by simp; omega)]
  rw [this]
  exact List.take_prefix _ _

theorem Inv.refl (h : Heap) : Inv B N W rf h h :=
  ⟨le_refl _, Unmodified.refl h, fun _ _ hx ho => absurd (lt_of_get ho) (not_lt.2 hx)⟩

theorem Inv.weaken (hi : Inv B N W rf h₀ h) : Inv B N W refs0 h₀ h :=
  ⟨hi.len, hi.old, fun x o hx ho => ⟨(hi.new x o hx ho).1, fun b hb => by simp [refs0] at hb⟩⟩

theorem Inv.alloc (hi : Inv B N W rf h₀ h) {o : Obj} (ho : Fine B N rf h₀.length o) :
    Inv B N W rf h₀ (h ++ [o]) := by
  refine ⟨by rw [List.length_append]; exact hi.len.trans (Nat.le_add_right _ _),
    hi.old.trans (Unmodified.prefix (prefix_snoc _)), ?_⟩
  intro x o' hx ho'
  by_cases hlt : x < h.length
  · rw [List.getElem?_append_left hlt] at ho'
    exact hi.new x o' hx ho'
  · have hlt' := lt_of_get ho'
    rw [List.length_append, List.length_singleton] at hlt'
    have : x = h.length := le_antisymm (Nat.le_of_lt_succ hlt') (Nat.le_of_not_lt hlt)
    subst this
    rw [get_snoc] at ho'; cases ho'; exact ho

theorem Inv.write (hi : Inv B N W rf h₀ h) {a : Addr} {o : Obj} (ha : h₀.length ≤ a)
    (ho : Fine B N rf h₀.length o) : Inv B N W rf h₀ (h.set a o) := by
  refine ⟨by rw [List.length_set]; exact hi.len, ?_, ?_⟩
  · intro x o' ho'
    have hx := lt_of_get ho'
    have hne : a ≠ x := fun h => absurd hx (by subst h; exact not_lt.2 ha)
    rw [set_ne hne]
    exact hi.old x o' ho'
  · intro x o' hx ho'
    by_cases hax : a = x
    · subst hax
      have hlt := lt_of_get ho'
      rw [List.length_set] at hlt
      rw [List.getElem?_set_self hlt] at ho'
      cases ho'; exact ho
    · rw [set_ne hax] at ho'
      exact hi.new x o' hx ho'

/-- One program after another. -/
theorem Inv.nest {rf' : Obj → List Addr} {h₁ : Heap} (hi : Inv B N W refs0 h₀ h₁)
    (hj : Inv B N W rf' h₁ h) : Inv B N W refs0 h₀ h := by
  refine ⟨hi.len.trans hj.len, hi.old.trans hj.old, ?_⟩
  intro x o hx ho
  refine ⟨?_, fun b hb => by simp [refs0] at hb⟩
  by_cases hlt : x < h₁.length
  · have h1 : h₁[x]? = some h₁[x] := List.getElem?_eq_getElem hlt
    rcases hj.old x _ h1 with h2 | ⟨hw, n, vs, attrs, kd, kd', he, h2⟩
    · rw [h2] at ho; cases ho
      exact (hi.new x _ hx h1).1
    · rw [h2] at ho; cases ho
      have := (hi.new x _ hx h1).1
      rw [he] at this
      exact this
  · exact (hj.new x o (Nat.le_of_not_lt hlt) ho).1

theorem Hold.nest {rf' : Obj → List Addr} {m : HM α} {Q : ℕ → α → Prop} (hQ : ∀ i j a, i ≤ j → Q j a → Q i a)
    (hm : ∀ h₁ : Heap, Tri (Inv B N W rf' h₁) m (Inv B N W refs0 h₁)
      (fun a h => Inv B N W refs0 h₁ h ∧ Q h₁.length a)) :
    Hold (Inv B N W refs0 h₀) m (Q h₀.length) := by
  intro h t hi
  have := hm h h t (Inv.refl h)
  generalize m h t = x at this ⊢
  obtain ⟨r, h', t'⟩ := x
  cases r with
  | error e => exact hi.nest this
  | ok a => exact ⟨hi.nest this.1, hQ _ _ _ hi.len this.2⟩

/-! ### making and modifying new objects -/

theorem alloc_hold {o : Obj} (ho : Fine B N rf h₀.length o) :
    Hold (Inv B N W rf h₀) (alloc o) (fun a => h₀.length ≤ a) :=
  fun _ _ hi => ⟨hi.alloc ho, hi.len⟩

theorem write_hold {a : Addr} {o : Obj} (ha : h₀.length ≤ a) (ho : Fine B N rf h₀.length o) :
    Hold (Inv B N W rf h₀) (write a o) (fun _ => True) :=
  fun _ _ hi => ⟨hi.write ha ho, trivial⟩

/-- A new object is as it must be. -/
theorem read_new {a : Addr} (ha : h₀.length ≤ a) :
    Hold (Inv B N W rf h₀) (read a) (Fine B N rf h₀.length) := by
  intro h t hi
  simp only [HM.read]
  cases ho : h[a]? with
  | none => exact hi
  | some o => exact ⟨hi, hi.new a o ha ho⟩

theorem fine_arr (hrf : RefsOk rf) {base : ℕ} (x : Arr) : Fine B N rf base (.arr x) :=
  ⟨trivial, fun b hb => by have := hrf.sub _ b hb; simp [refs] at this⟩

theorem fine_list (hrf : RefsOk rf) {base : ℕ} {l : List Addr} (hl : ∀ b ∈ l, base ≤ b) :
    Fine B N rf base (.list l) := ⟨trivial, fun b hb => hl b (hrf.sub _ b hb)⟩

theorem fine_objs (hrf : RefsOk rf) {base : ℕ} {l : List Addr} (hl : ∀ b ∈ l, base ≤ b) :
    Fine B N rf base (.objs l) := ⟨trivial, fun b hb => hl b (hrf.sub _ b hb)⟩

theorem agree_attrsOf {vs : List (String × α)} (hn : (dkeys vs).Nodup) (k : String) :
    dget (attrsOf vs) k = dget vs k := by
  rw [attrsOf, dget_dupdate _ _ hn]; simp

theorem fine_ps (hrf : RefsOk rf) {base n : ℕ} {vs : List (String × Addr)} {kd}
    (hl : ∀ kb ∈ vs, base ≤ kb.2) : Fine B N rf base (.ps n vs (attrsOf vs) kd) := by
  refine ⟨fun hn k _ => agree_attrsOf hn k, fun b hb => ?_⟩
  obtain ⟨kb, h1, rfl⟩ := refs_ps_attrsOf (hrf.sub _ b hb)
  exact hl kb h1

theorem fine0 {base : ℕ} {o : Obj} (ho : AgreeObj B N o) : Fine B N refs0 base o :=
  ⟨ho, fun b hb => by simp [refs0] at hb⟩

theorem mkPSH_hold {n : ℕ} {vs : List (String × Addr)} (hf : Fine B N rf h₀.length (.ps n vs (attrsOf vs) none)) :
    Hold (Inv B N W rf h₀) (mkPSH n vs) (fun a => h₀.length ≤ a) := by
  rw [mkPSH]
  exact (checksH_hold n vs).bind fun _ _ => alloc_hold hf

theorem agree_ps {n : ℕ} {vs : List (String × Addr)} {kd} : AgreeObj B N (.ps n vs (attrsOf vs) kd) :=
  fun hn k _ => agree_attrsOf hn k

theorem agree_state {vs : List (String × TRef)} {temp cache extra} :
    AgreeObj B N (.state vs (attrsOf vs) temp cache extra) :=
  fun hn k _ => agree_attrsOf hn k

theorem nodup_of_dset {d : List (String × α)} {k : String} {v : α} (hn : (dkeys (dset d k v)).Nodup) :
    (dkeys d).Nodup := by
  induction d with
  | nil => simp [dkeys]
  | cons kv d ih =>
    obtain ⟨k', v'⟩ := kv
    rw [dset] at hn
    split at hn
    · next hk => subst hk; exact hn
    · simp only [dkeys, List.map_cons, List.nodup_cons] at hn ⊢
      refine ⟨fun hm => hn.1 ?_, ih hn.2⟩
      obtain ⟨x, hx, he⟩ := List.mem_map.1 hm
      have : x.1 ∈ dkeys (dset d k v) := by
        by_cases hxk : x.1 = k
        · by_contra hc
          rw [← dget_none_iff, hxk, dget_dset_same] at hc; cases hc
        · by_contra hc
          rw [← dget_none_iff, dget_dset_ne _ _ _ _ hxk, dget_none_iff] at hc
          exact hc (List.mem_map_of_mem hx)
      rw [← he]; exact this

theorem setVal_agree {n : ℕ} {vs attrs : List (String × Addr)} {kd} {k : String} {b : Addr}
    (ha : AgreeObj B N (.ps n vs attrs kd)) : AgreeObj B N (.ps n (dset vs k b) (dset attrs k b) kd) := by
  intro hn k' hk'
  by_cases hkk : k' = k
  · subst hkk; rw [dget_dset_same, dget_dset_same]
  · rw [dget_dset_ne _ _ _ _ hkk, dget_dset_ne _ _ _ _ hkk]
    exact ha (nodup_of_dset hn) k' hk'

theorem setTop_agree {vs attrs : List (String × TRef)} {temp cache extra} {k : String} {b : TRef}
    (ha : AgreeObj B N (.state vs attrs temp cache extra)) :
    AgreeObj B N (.state (dset vs k b) (dset attrs k b) temp cache extra) := by
  intro hn k' hk'
  by_cases hkk : k' = k
  · subst hkk; rw [dget_dset_same, dget_dset_same]
  · rw [dget_dset_ne _ _ _ _ hkk, dget_dset_ne _ _ _ _ hkk]
    exact ha (nodup_of_dset hn) k' hk'

/-- Which references count for parameter-space states. -/
inductive RfKind : (Obj → List Addr) → Prop
  | full : RfKind refs
  | lists : RfKind refsL
  | nothing : RfKind refs0

theorem RfKind.ok (hk : RfKind rf) : RefsOk rf := by
  cases hk
  · exact refsOk_refs
  · exact refsOk_refsL
  · exact refsOk_refs0

theorem setVal_fine (hk : RfKind rf) {base n : ℕ} {vs attrs : List (String × Addr)} {kd} {k : String}
    {b : Addr} (ha : Fine B N rf base (.ps n vs attrs kd)) (hb : base ≤ b ∨ rf = refs0) :
    Fine B N rf base (.ps n (dset vs k b) (dset attrs k b) kd) := by
  refine ⟨setVal_agree ha.1, fun c hc => ?_⟩
  have key : (∀ c ∈ refs (.ps n vs attrs kd), base ≤ c) → base ≤ b →
      c ∈ refs (.ps n (dset vs k b) (dset attrs k b) kd) → base ≤ c := by
    intro hr hb hc
    simp only [refs, List.mem_append, List.mem_map] at hc hr
    rcases hc with ⟨x, hx, rfl⟩ | ⟨x, hx, rfl⟩
    · rcases mem_dset_snd hx with h | h
      · rw [h]; exact hb
      · exact hr _ (.inl ⟨x, h, rfl⟩)
    · rcases mem_dset_snd hx with h | h
      · rw [h]; exact hb
      · exact hr _ (.inr ⟨x, h, rfl⟩)
  cases hk with
  | full =>
    rcases hb with hb | hb
    · exact key ha.2 hb hc
    · rw [hb] at hc; simp [refs0] at hc
  | lists =>
    rcases hb with hb | hb
    · exact key ha.2 hb hc
    · rw [hb] at hc; simp [refs0] at hc
  | nothing => simp [refs0] at hc

theorem setValH_hold (hk : RfKind rf) {a b : Addr} {k : String} (ha : h₀.length ≤ a)
    (hb : h₀.length ≤ b ∨ rf = refs0) : Hold (Inv B N W rf h₀) (setValH a k b) (fun _ => True) := by
  rw [setValH]
  refine (checkH_hold none b).bind fun _ _ => ?_
  rw [readPS, bind_assoc']
  refine (read_new ha).bind fun o ho => ?_
  cases o with
  | ps n vs attrs kd => exact write_hold ha (setVal_fine hk ho hb)
  | _ => exact Hold.throw

theorem setItemH_hold (hrf : RefsOk rf) {v : Option Addr} {i : ℕ} {x : ℝ} (ha : ∀ b, v = some b → h₀.length ≤ b) :
    Hold (Inv B N W rf h₀) (setItemH v i x) (fun _ => True) := by
  cases v with
  | none => exact Hold.throw
  | some b =>
    rw [setItemH]
    refine (Hold.read b).bind fun o _ => ?_
    cases o with
    | arr y =>
      cases y with
      | vec xs => exact Hold.ite (fun _ => write_hold (ha b rfl) (fine_arr hrf _)) fun _ => Hold.throw
      | pts ps => exact Hold.throw
    | _ => exact Hold.throw

/-! ### new objects for a value, copies -/

mutual
theorem storePS_hold (hrf : RefsOk rf) : ∀ s : PSState,
    Hold (Inv B N W rf h₀) (storePS s) (fun a => h₀.length ≤ a)
  | .mk n vals kd => by
    rw [storePS]
    exact (storeVals_hold hrf vals).bind fun vs hvs => alloc_hold (fine_ps hrf hvs)
theorem storeVals_hold (hrf : RefsOk rf) : ∀ vals : List (String × PVal),
    Hold (Inv B N W rf h₀) (storeVals vals) (fun vs => ∀ kb ∈ vs, h₀.length ≤ kb.2)
  | [] => by rw [storeVals]; exact Hold.pure (by simp)
  | (k, .arr x) :: rest => by
    rw [storeVals]
    refine (alloc_hold (fine_arr hrf x)).bind fun b hb => ?_
    refine (storeVals_hold hrf rest).bind fun vs hvs => Hold.pure ?_
    intro kb hkb
    rcases List.mem_cons.1 hkb with rfl | hkb
    · exact hb
    · exact hvs kb hkb
  | (k, .states l) :: rest => by
    rw [storeVals]
    refine (storeList_hold hrf l).bind fun as has => ?_
    refine (alloc_hold (fine_list hrf has)).bind fun b hb => ?_
    refine (storeVals_hold hrf rest).bind fun vs hvs => Hold.pure ?_
    intro kb hkb
    rcases List.mem_cons.1 hkb with rfl | hkb
    · exact hb
    · exact hvs kb hkb
  | (k, .objs l) :: rest => by
    rw [storeVals]
    refine (storeList_hold hrf l).bind fun as has => ?_
    refine (alloc_hold (fine_objs hrf has)).bind fun b hb => ?_
    refine (storeVals_hold hrf rest).bind fun vs hvs => Hold.pure ?_
    intro kb hkb
    rcases List.mem_cons.1 hkb with rfl | hkb
    · exact hb
    · exact hvs kb hkb
theorem storeList_hold (hrf : RefsOk rf) : ∀ l : List PSState,
    Hold (Inv B N W rf h₀) (storeList l) (fun as => ∀ b ∈ as, h₀.length ≤ b)
  | [] => by rw [storeList]; exact Hold.pure (by simp)
  | s :: rest => by
    rw [storeList]
    refine (storePS_hold hrf s).bind fun a ha => ?_
    refine (storeList_hold hrf rest).bind fun as has => Hold.pure ?_
    intro b hb
    rcases List.mem_cons.1 hb with rfl | hb
    · exact ha
    · exact has b hb
end

theorem fresh_hold (hrf : RefsOk rf) (m : M PSState) :
    Hold (Inv B N W rf h₀) (fresh m) (fun a => h₀.length ≤ a) := by
  rw [fresh]
  exact (Hold.ofM m).bind fun s _ => storePS_hold hrf s

theorem copyVals_hold (hrf : RefsOk rf) (hobjs : ∀ l, rf (.objs l) = []) {copy : Addr → HM Addr}
    (hc : ∀ a, Hold (Inv B N W rf h₀) (copy a) (fun b => h₀.length ≤ b)) : ∀ vs : List (String × Addr),
    Hold (Inv B N W rf h₀) (copyVals copy vs) (fun vs => ∀ kb ∈ vs, h₀.length ≤ kb.2)
  | [] => Hold.pure (by simp)
  | (k, b) :: rest => by
    rw [copyVals]
    have h1 : Hold (Inv B N W rf h₀) (copyVal copy b) (fun b => h₀.length ≤ b) := by
      rw [copyVal]
      refine (Hold.read b).bind fun o _ => ?_
      cases o with
      | arr x => exact alloc_hold (fine_arr hrf x)
      | objs l => exact alloc_hold ⟨trivial, fun b hb => by rw [hobjs] at hb; simp at hb⟩
      | list l => exact (Hold.forEach l fun a _ => hc a).bind fun l' hl' => alloc_hold (fine_list hrf hl')
      | _ => exact Hold.throw
    refine h1.bind fun c hc' => ?_
    refine (copyVals_hold hrf hobjs hc rest).bind fun vs hvs => Hold.pure ?_
    intro kb hkb
    rcases List.mem_cons.1 hkb with rfl | hkb
    · exact hc'
    · exact hvs kb hkb

theorem copyPS_hold (hrf : RefsOk rf) (hobjs : ∀ l, rf (.objs l) = []) : ∀ (fuel : ℕ) (a : Addr),
    Hold (Inv B N W rf h₀) (copyPS fuel a) (fun b => h₀.length ≤ b)
  | 0, a => by rw [copyPS]; exact Hold.throw
  | fuel + 1, a => by
    rw [copyPS]
    refine (readPS_hold a).bind fun x _ => ?_
    obtain ⟨n, vals, attrs, kd⟩ := x
    refine (copyVals_hold hrf hobjs (copyPS_hold hrf hobjs fuel) vals).bind fun vs hvs => ?_
    refine (mkPSH_hold (fine_ps hrf hvs)).bind fun b hb => ?_
    exact (write_hold hb (fine_ps hrf hvs)).bind fun _ _ => Hold.pure hb

end BB.Lemmas
