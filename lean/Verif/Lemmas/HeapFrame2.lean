import Verif.Lemmas.HeapFrame

/-!
# Which objects the programs on the heap modify: births, deaths, moves, new values
-/

namespace BB.Lemmas

open BB BB.Spec BB.HM

variable {B N : Set String} {W : Set Addr} {rf : Obj → List Addr} {h₀ h : Heap}

/-! ### births from the nearest neighbour -/

theorem getH_new {a : Addr} (ha : h₀.length ≤ a) (k : String) :
    Hold (Inv B N W refs h₀) (getH a k) (fun v => ∀ b, v = some b → h₀.length ≤ b) := by
  rw [getH, readPS, bind_assoc']
  refine (read_new ha).bind fun o ho => ?_
  cases o with
  | ps n vs attrs kd =>
    refine Hold.pure ?_
    intro b hb
    refine ho.2 b ?_
    rw [refs, List.mem_append]
    exact .inl (List.mem_map.2 ⟨(k, b), dget_some_mem hb, rfl⟩)
  | _ => exact Hold.throw

theorem stateAtH_new {v : Option Addr} (hv : ∀ b, v = some b → h₀.length ≤ b) (i : ℕ) :
    Hold (Inv B N W refs h₀) (stateAtH v i) (fun a => h₀.length ≤ a) := by
  have key : ∀ l : List Addr, (∀ b ∈ l, h₀.length ≤ b) → Hold (Inv B N W refs h₀) (match l[i]? with
      | some a => pure a
      | none => Act.throw .indexError : HM Addr) (fun a => h₀.length ≤ a) := by
    intro l hl
    cases hi : l[i]? with
    | none => exact Hold.throw
    | some a => exact Hold.pure (hl a (List.mem_of_getElem? hi))
  cases v with
  | none => exact Hold.throw
  | some b =>
    rw [stateAtH]
    refine (read_new (hv b rfl)).bind fun o ho => ?_
    cases o with
    | list l => exact key l ho.2
    | objs l => exact key l ho.2
    | _ => exact Hold.throw

theorem fillInitialH_hold : ∀ (ps : List (String × Param)) (a : Addr), h₀.length ≤ a →
    Hold (Inv B N W refs h₀) (fillInitialH ps a) (fun _ => True)
  | [], a, ha => by rw [fillInitialH]; exact Hold.pure trivial
  | (name, p) :: rest, a, ha => by
    rw [fillInitialH]
    refine (readPS_hold a).bind fun x _ => ?_
    obtain ⟨n, vals, attrs, kd⟩ := x
    have h1 : Hold (Inv B N W refs h₀) (match p with
      | .prior _ => alloc (.arr (.vec (List.replicate n 0)))
      | .space sp =>
        if sp.info.kind.isDisc then do
          let l ← forEach (fun _ => fresh sp.sampleDisc) (List.range n)
          alloc (.list l)
        else do
          let l ← forEach (fun _ => fresh sp.sample) (List.range n)
          alloc (.list l) : HM Addr) (fun b => h₀.length ≤ b) := by
      cases p with
      | prior _ => exact alloc_hold (fine_arr refsOk_refs _)
      | space sp =>
        refine Hold.ite (fun _ => ?_) fun _ => ?_
        · exact (Hold.forEach _ fun _ _ => fresh_hold refsOk_refs _).bind fun l hl =>
            alloc_hold (fine_list refsOk_refs hl)
        · exact (Hold.forEach _ fun _ _ => fresh_hold refsOk_refs _).bind fun l hl =>
            alloc_hold (fine_list refsOk_refs hl)
    refine Hold.bind h1 fun b hb => ?_
    refine (setValH_hold .full ha (.inl hb)).bind fun _ _ => ?_
    exact fillInitialH_hold rest a ha

mutual
theorem sampleFromNeighbourH_hold : ∀ (sp : Space) (old new : Addr), h₀.length ≤ new →
    Hold (Inv B N W refs h₀) (sp.sampleFromNeighbourH old new) (fun _ => True)
  | .mk info ps, old, new, hn => by
    rw [Space.sampleFromNeighbourH]
    refine (fillInitialH_hold _ new hn).bind fun _ _ => ?_
    refine (sitesH_hold new).bind fun sites _ => ?_
    refine forSitesH_hold (fun i p s => ?_) sites 0 _
    refine (getH_hold old _).bind fun v _ => ?_
    refine (nearestH_hold _ v p).bind fun inear _ => ?_
    exact plFillPointH_hold ps old new i inear p s hn
theorem plFillPointH_hold : ∀ (ps : ParamList) (old new : Addr) (i inear : ℕ) (pos : Pos) (acc : PyF),
    h₀.length ≤ new → Hold (Inv B N W refs h₀) (ps.fillPointH old new i inear pos acc) (fun _ => True)
  | .nil, old, new, i, inear, pos, acc, hn => by rw [ParamList.fillPointH]; exact Hold.pure trivial
  | .cons name p rest, old, new, i, inear, pos, acc, hn => by
    rw [ParamList.fillPointH]
    exact (pFillPointH_hold p name old new i inear pos acc hn).bind fun acc _ =>
      plFillPointH_hold rest old new i inear pos acc hn
theorem pFillPointH_hold : ∀ (p : Param) (name : String) (old new : Addr) (i inear : ℕ) (pos : Pos)
    (acc : PyF), h₀.length ≤ new →
    Hold (Inv B N W refs h₀) (p.fillPointH name old new i inear pos acc) (fun _ => True)
  | .prior p, name, old, new, i, inear, pos, acc, hn => by
    rw [Param.fillPointH]
    refine (getH_hold old _).bind fun v _ => ?_
    refine (numAtH_hold v inear).bind fun x _ => ?_
    refine (Hold.ofM _).bind fun y _ => ?_
    refine (getH_new hn name).bind fun v hv => ?_
    exact (setItemH_hold refsOk_refs hv).bind fun _ _ => Hold.pure trivial
  | .space s, name, old, new, i, inear, pos, acc, hn => by
    rw [Param.fillPointH]
    refine Hold.ite (fun _ => ?_) fun _ => Hold.pure trivial
    refine (getH_hold old _).bind fun v _ => ?_
    refine (stateAtH_hold v inear).bind fun x _ => ?_
    refine (getH_new hn name).bind fun v hv => ?_
    refine (stateAtH_new hv i).bind fun y hy => ?_
    exact (sampleFromNeighbourH_hold s x y hy).bind fun r _ => Hold.pure trivial
end

theorem newbornFromPriorH_hold : ∀ (ps : List (String × Param)) (pos : Pos),
    Hold (Inv B N W refs0 h₀) (newbornFromPriorH ps pos) (fun _ => True)
  | [], pos => Hold.pure trivial
  | (name, p) :: rest, pos => by
    rw [newbornFromPriorH.eq_def]; simp only
    have h1 : Hold (Inv B N W refs0 h₀) (match p with
      | .prior p => do return .num (← Act.ofM (p.sample pos))
      | .space s => do return .ps (← fresh s.sample) : HM HVal) (fun _ => True) := by
      cases p with
      | prior p => exact (Hold.ofM _).bind fun _ _ => Hold.pure trivial
      | space s => exact (fresh_hold refsOk_refs0 _).bind fun _ _ => Hold.pure trivial
    refine Hold.bind h1 fun v _ => ?_
    exact (newbornFromPriorH_hold rest pos).bind fun _ _ => Hold.pure trivial

theorem newbornFromNeighbourH_hold (old : Addr) (inear : ℕ) (pos : Pos) :
    ∀ (ps : List (String × Param)) (lpr : PyF),
    Hold (Inv B N W refs0 h₀) (newbornFromNeighbourH old inear pos ps lpr) (fun _ => True)
  | [], lpr => Hold.pure trivial
  | (name, p) :: rest, lpr => by
    rw [newbornFromNeighbourH.eq_def]; simp only
    have h1 : Hold (Inv B N W refs0 h₀) (match p with
      | .prior p => do
        let nb ← numAtH (← getH old name) inear
        let (x, r) ← Act.ofM (p.fromNeighbour nb pos)
        return (.num x, lpr.add r)
      | .space s =>
        if s.info.kind.isDisc then do
          let oldi ← stateAtH (← getH old s.info.name) inear
          let newi ← fresh s.sampleDisc
          let r ← s.sampleFromNeighbourH oldi newi
          return (.ps newi, lpr.add r)
        else do
          let _ ← fresh s.sample
          Act.throw .typeError : HM (HVal × PyF)) (fun _ => True) := by
      cases p with
      | prior p =>
        refine (getH_hold old _).bind fun v _ => ?_
        refine (numAtH_hold v inear).bind fun x _ => ?_
        exact (Hold.ofM _).bind fun _ _ => Hold.pure trivial
      | space s =>
        refine Hold.ite (fun _ => ?_) fun _ => ?_
        · refine (getH_hold old _).bind fun v _ => ?_
          refine (stateAtH_hold v inear).bind fun oldi _ => ?_
          have h2 : Hold (Inv B N W refs0 h₀) (do
              let newi ← fresh s.sampleDisc
              let r ← s.sampleFromNeighbourH oldi newi
              return (HVal.ps newi, lpr.add r) : HM (HVal × PyF)) (fun _ => True) := by
            refine Hold.nest (rf' := refs) (Q := fun _ _ => True) (fun _ _ _ _ _ => trivial) fun h₁ => ?_
            refine Tri.mono (P := Inv B N W refs h₁) (E := Inv B N W refs h₁)
              (Q := fun _ h => Inv B N W refs h₁ h ∧ True) ?_ (fun _ h => h) (fun _ h => h.weaken)
              fun _ _ h => ⟨h.1.weaken, trivial⟩
            change Hold _ _ (fun _ => True)
            refine (fresh_hold refsOk_refs _).bind fun newi hn => ?_
            exact (sampleFromNeighbourH_hold s oldi newi hn).bind fun r _ => Hold.pure trivial
          exact h2
        · exact (fresh_hold refsOk_refs0 _).bind fun _ _ => Hold.throw
    refine Hold.bind h1 fun v _ => ?_
    exact (newbornFromNeighbourH_hold old inear pos rest v.2).bind fun _ _ => Hold.pure trivial

theorem newbornH_hold (sp : Space) (pos : Pos) (old : Addr) :
    Hold (Inv B N W refs0 h₀) (sp.newbornH pos old) (fun _ => True) := by
  rw [Space.newbornH]
  refine Hold.ite (fun _ => ?_) fun _ => ?_
  · exact (newbornFromPriorH_hold _ pos).bind fun _ _ => Hold.pure trivial
  · refine (getH_hold old _).bind fun v _ => ?_
    refine (nearestH_hold _ v pos).bind fun inear _ => ?_
    exact newbornFromNeighbourH_hold old inear pos _ _

/-! ### new values from old ones -/

theorem new0 {o : Obj} (ho : AgreeObj B N o) : Hold (Inv B N W refs0 h₀) (alloc o) (fun a => h₀.length ≤ a) :=
  alloc_hold (fine0 ho)

theorem newArr {x : Arr} : Hold (Inv B N W refs0 h₀) (alloc (.arr x)) (fun a => h₀.length ≤ a) := new0 trivial

theorem insertAtH_hold (v : Option Addr) (i : ℕ) (x : HVal) :
    Hold (Inv B N W refs0 h₀) (insertAtH v i x) (fun a => h₀.length ≤ a) := by
  cases v with
  | none => exact Hold.throw
  | some b =>
    rw [insertAtH]
    refine (Hold.read b).bind fun o _ => ?_
    cases o with
    | arr y =>
      cases y with
      | vec xs =>
        cases x with
        | num z => exact (Hold.lift _).bind fun ys _ => new0 trivial
        | ps a => exact Hold.throw
      | pts ps => cases x <;> exact Hold.throw
    | list l =>
      cases x with
      | num z => exact Hold.throw
      | ps a => exact new0 trivial
    | objs l => cases x <;> exact Hold.throw
    | ps => cases x <;> exact Hold.throw
    | state => cases x <;> exact Hold.throw

theorem appendH_hold (v : Option Addr) (x : HVal) :
    Hold (Inv B N W refs0 h₀) (appendH v x) (fun a => h₀.length ≤ a) := by
  cases v with
  | none => exact Hold.throw
  | some b =>
    rw [appendH]
    refine (Hold.read b).bind fun o _ => ?_
    cases o with
    | arr y =>
      cases y with
      | vec xs =>
        cases x with
        | num z => exact new0 trivial
        | ps a => exact Hold.throw
      | pts ps =>
        cases x with
        | num z => exact new0 trivial
        | ps a => exact Hold.throw
    | list l =>
      cases x with
      | num z => exact Hold.throw
      | ps a => exact new0 trivial
    | objs l =>
      cases x with
      | num z => exact Hold.throw
      | ps a => exact new0 trivial
    | ps => cases x <;> exact Hold.throw
    | state => cases x <;> exact Hold.throw

theorem deleteAtH_hold (b : Addr) (i : ℕ) :
    Hold (Inv B N W refs0 h₀) (deleteAtH b i) (fun a => h₀.length ≤ a) := by
  rw [deleteAtH]
  refine (Hold.read b).bind fun o _ => ?_
  cases o with
  | arr y =>
    cases y with
    | vec xs => exact (Hold.lift _).bind fun ys _ => new0 trivial
    | pts ps => exact Hold.throw
  | list l => exact new0 trivial
  | _ => exact Hold.throw

theorem npDeleteH_hold (b : Addr) (i : ℕ) :
    Hold (Inv B N W refs0 h₀) (npDeleteH b i) (fun a => h₀.length ≤ a) := by
  rw [npDeleteH]
  refine (Hold.read b).bind fun o _ => ?_
  cases o with
  | arr y =>
    cases y with
    | vec xs => exact Hold.ite (fun _ => new0 trivial) fun _ => Hold.throw
    | pts ps => exact Hold.ite (fun _ => new0 trivial) fun _ => Hold.throw
  | objs l => exact Hold.ite (fun _ => new0 trivial) fun _ => Hold.throw
  | list l => exact new0 trivial
  | _ => exact Hold.throw

theorem gatherH_hold (b : Addr) (is : List ℕ) :
    Hold (Inv B N W refs0 h₀) (gatherH b is) (fun a => h₀.length ≤ a) := by
  rw [gatherH]
  refine (Hold.read b).bind fun o _ => ?_
  cases o with
  | arr y =>
    cases y with
    | vec xs => exact (Hold.lift _).bind fun ys _ => new0 trivial
    | pts ps => exact (Hold.lift _).bind fun ys _ => new0 trivial
  | objs l => exact (Hold.lift _).bind fun ys _ => new0 trivial
  | list l => exact (Hold.lift _).bind fun ys _ => new0 trivial
  | _ => exact Hold.throw

theorem mapValsH_hold {I : Heap → Prop} {f : Addr → HM Addr} (hf : ∀ b, Hold I (f b) (fun _ => True)) :
    ∀ vs : List (String × Addr), Hold I (mapValsH f vs) (fun _ => True)
  | [] => Hold.pure trivial
  | (k, b) :: rest => by
    rw [mapValsH]
    refine (hf b).bind fun c _ => ?_
    exact (mapValsH_hold hf rest).bind fun _ _ => Hold.pure trivial

theorem birthValuesH_hold (ps : ParamList) (i : ℕ) : ∀ vs : List (String × Addr),
    Hold (Inv B N W refs0 h₀) (birthValuesH ps i vs) (fun _ => True)
  | [] => Hold.pure trivial
  | (k, b) :: rest => by
    rw [birthValuesH]
    have h1 : Hold (Inv B N W refs0 h₀) (match ps.get? k with
      | none => Act.throw .keyError
      | some (.prior p) => do return .num (← Act.ofM (p.sample .none))
      | some (.space s) => do return .ps (← fresh s.sample) : HM HVal) (fun _ => True) := by
      cases ps.get? k with
      | none => exact Hold.throw
      | some p =>
        cases p with
        | prior p => exact (Hold.ofM _).bind fun _ _ => Hold.pure trivial
        | space s => exact (fresh_hold refsOk_refs0 _).bind fun _ _ => Hold.pure trivial
    refine Hold.bind h1 fun x _ => ?_
    refine (insertAtH_hold _ i x).bind fun c _ => ?_
    exact (birthValuesH_hold ps i rest).bind fun _ _ => Hold.pure trivial

theorem addNewbornH_hold (old : Addr) {add : Option Addr → HVal → HM Addr}
    (ha : ∀ v x, Hold (Inv B N W refs0 h₀) (add v x) (fun _ => True)) :
    ∀ (nv : List (String × HVal)) (vs : List (String × Addr)),
    Hold (Inv B N W refs0 h₀) (addNewbornH old add nv vs) (fun _ => True)
  | [], vs => Hold.pure trivial
  | (name, x) :: rest, vs => by
    rw [addNewbornH]
    refine (getH_hold old name).bind fun v _ => ?_
    refine (ha v x).bind fun c _ => ?_
    exact addNewbornH_hold old ha rest _

theorem moveValuesH_hold (old : Addr) (isite : ℕ) (p q : Pos) {f : Addr → HM Addr}
    (hf : ∀ b, Hold (Inv B N W refs0 h₀) (f b) (fun _ => True)) :
    ∀ (ps : List (String × Param)) (vs : List (String × Addr)) (lpr : PyF),
    Hold (Inv B N W refs0 h₀) (moveValuesH old isite p q f ps vs lpr) (fun _ => True)
  | [], vs, lpr => Hold.pure trivial
  | (name, pr) :: rest, vs, lpr => by
    rw [moveValuesH]
    refine (getH_hold old name).bind fun v _ => ?_
    have h1 : Hold (Inv B N W refs0 h₀) (match pr with
      | .prior pr =>
        if pr.hasPosition then do
          let x ← numAtH v isite
          let a ← lift (pr.logPrior x p)
          let b ← lift (pr.logPrior x q)
          return lpr.add (b.sub a)
        else return lpr
      | .space _ => return lpr : HM PyF) (fun _ => True) := by
      cases pr with
      | prior pr =>
        refine Hold.ite (fun _ => ?_) fun _ => Hold.pure trivial
        refine (numAtH_hold v isite).bind fun x _ => ?_
        refine (Hold.lift _).bind fun a _ => ?_
        exact (Hold.lift _).bind fun b _ => Hold.pure trivial
      | space s => exact Hold.pure trivial
    refine Hold.bind h1 fun lpr _ => ?_
    clear h1
    have h2 : Hold (Inv B N W refs0 h₀) (match v with
      | none => Act.throw .typeError
      | some b => f b : HM Addr) (fun _ => True) := by
      cases v with
      | none => exact Hold.throw
      | some b => exact hf b
    refine Hold.bind h2 fun c _ => ?_
    exact moveValuesH_hold old isite p q hf rest _ lpr

/-! ### births, deaths, moves of the sites -/

/-- Only the tree of a state is replaced. -/
theorem addKdH_hold {a : Addr} (ha : a ∈ W ∨ h₀.length ≤ a) :
    Hold (Inv B N W refs0 h₀) (addKdH a) (fun _ => True) := by
  intro h t hi
  rw [addKdH]
  have hbad : (∀ n vs attrs kd, h[a]? ≠ some (.ps n vs attrs kd)) → ∃ e, readPS a h t = (.error e, h, t) := by
    intro hne
    rw [readPS, Act.bind_run]
    simp only [HM.read]
    cases ho : h[a]? with
    | none => exact ⟨_, rfl⟩
    | some o =>
      cases o with
      | ps n vs attrs kd => exact absurd ho (hne n vs attrs kd)
      | _ => exact ⟨_, rfl⟩
  by_cases hps : ∀ n vs attrs kd, h[a]? ≠ some (.ps n vs attrs kd)
  · obtain ⟨e, he⟩ := hbad hps
    rw [Act.bind_run, he]
    exact hi
  · push Not at hps
    obtain ⟨n, vs, attrs, kd, ho⟩ := hps
    rw [readPS_bind ho]
    simp only
    cases dget vs "discretization" with
    | none => exact hi
    | some b =>
      simp only
      rw [Act.bind_run]
      simp only [HM.read]
      cases h[b]? with
      | none => exact hi
      | some o =>
        cases o with
        | arr y =>
          cases y with
          | vec xs => exact hi
          | pts ps =>
            refine ⟨?_, trivial⟩
            by_cases hle : h₀.length ≤ a
            · exact hi.write hle (fine0 (hi.new a _ hle ho).1)
            · have hw : a ∈ W := ha.resolve_right hle
              refine ⟨by rw [List.length_set]; exact hi.len, ?_, ?_⟩
              · intro x o' ho'
                by_cases hax : a = x
                · subst hax
                  rcases hi.old a o' ho' with h1 | ⟨_, n', vs', attrs', kd₁, kd₂, rfl, h1⟩
                  · rw [ho] at h1; cases h1
                    exact .inr ⟨hw, n, vs, attrs, kd, some ps, rfl, set_self ho⟩
                  · rw [ho] at h1; cases h1
                    exact .inr ⟨hw, n, vs, attrs, kd₁, some ps, rfl, set_self ho⟩
                · rw [set_ne hax]
                  exact hi.old x o' ho'
              · intro x o' hx ho'
                have hne : a ≠ x := fun h => hle (h ▸ hx)
                rw [set_ne hne] at ho'
                exact hi.new x o' hx ho'
        | _ => exact hi

theorem withKdH_hold (k : Kind) {a : Addr} (ha : (hasTree k = true → a ∈ W) ∨ h₀.length ≤ a) :
    Hold (Inv B N W refs0 h₀) (k.withKdH a) (fun _ => True) := by
  cases k with
  | plain => exact Hold.pure trivial
  | vor1 v => exact Hold.pure trivial
  | vor2 v =>
    rw [Kind.withKdH]
    refine Hold.ite (fun hk => addKdH_hold ?_) fun _ => Hold.pure trivial
    rcases ha with ha | ha
    · exact .inl (ha hk)
    · exact .inr ha

theorem plainBirthH_hold (info : Info) (ps : ParamList) (a : Addr) :
    Hold (Inv B N W refs0 h₀) (plainBirthH info ps a) (fun r => r.1 = a ∨ h₀.length ≤ r.1) := by
  rw [plainBirthH]
  refine (readPS_hold a).bind fun x _ => ?_
  obtain ⟨n, vals, attrs, kd⟩ := x
  refine Hold.ite (fun _ => Hold.pure (.inl rfl)) fun _ => ?_
  refine (Hold.ofM _).bind fun i _ => ?_
  refine (birthValuesH_hold ps i vals).bind fun vs _ => ?_
  exact (mkPSH_hold (fine0 agree_ps)).bind fun new hn => Hold.pure (.inr hn)

theorem plainDeathH_hold (info : Info) (a : Addr) :
    Hold (Inv B N W refs0 h₀) (plainDeathH info a) (fun r => r.1 = a ∨ h₀.length ≤ r.1) := by
  rw [plainDeathH]
  refine (readPS_hold a).bind fun x _ => ?_
  obtain ⟨n, vals, attrs, kd⟩ := x
  refine Hold.ite (fun _ => Hold.pure (.inl rfl)) fun _ => ?_
  refine (Hold.ofM _).bind fun i _ => ?_
  refine (mapValsH_hold (fun b => (deleteAtH_hold b i).any) vals).bind fun vs _ => ?_
  exact (mkPSH_hold (fine0 agree_ps)).bind fun new hn => Hold.pure (.inr hn)

theorem vorBirthH_hold (sp : Space) (a : Addr) :
    Hold (Inv B N W refs0 h₀) (vorBirthH sp a) (fun r => h₀.length ≤ r.1) := by
  rw [vorBirthH]
  cases sp.info.kind with
  | plain => exact Hold.throw
  | vor1 v =>
    refine (Hold.ofM _).bind fun x _ => ?_
    refine (newbornH_hold sp (.one x) a).bind fun nv _ => ?_
    obtain ⟨nv, lpr⟩ := nv
    refine (readPS_hold a).bind fun y _ => ?_
    obtain ⟨n, vals, attrs, kd⟩ := y
    simp only
    cases dget vals "discretization" with
    | none => exact Hold.throw
    | some b =>
      refine (Hold.read b).bind fun o _ => ?_
      cases o with
      | arr y =>
        cases y with
        | vec xs =>
          refine (Hold.lift _).bind fun sites _ => ?_
          refine newArr.bind fun c _ => ?_
          refine (addNewbornH_hold a (fun v y => (insertAtH_hold v _ y).any) nv _).bind fun vs _ => ?_
          exact (mkPSH_hold (fine0 agree_ps)).bind fun new hn => Hold.pure hn
        | pts ps => exact Hold.throw
      | _ => exact Hold.throw
  | vor2 v =>
    refine (Hold.ofM _).bind fun x _ => ?_
    refine (newbornH_hold sp (.two x) a).bind fun nv _ => ?_
    obtain ⟨nv, lpr⟩ := nv
    refine (readPS_hold a).bind fun y _ => ?_
    obtain ⟨n, vals, attrs, kd⟩ := y
    simp only
    cases dget vals "discretization" with
    | none => exact Hold.throw
    | some b =>
      refine (Hold.read b).bind fun o _ => ?_
      cases o with
      | arr y =>
        cases y with
        | vec xs => exact Hold.throw
        | pts ps =>
          refine newArr.bind fun c _ => ?_
          refine (addNewbornH_hold a (fun v y => (appendH_hold v y).any) nv _).bind fun vs _ => ?_
          exact (mkPSH_hold (fine0 agree_ps)).bind fun new hn => Hold.pure hn
      | _ => exact Hold.throw

theorem vorDeathH_hold (sp : Space) (a : Addr) :
    Hold (Inv B N W refs0 h₀) (vorDeathH sp a) (fun r => h₀.length ≤ r.1) := by
  rw [vorDeathH]
  refine (readPS_hold a).bind fun x _ => ?_
  obtain ⟨n, vals, attrs, kd⟩ := x
  refine (Hold.ofM _).bind fun i _ => ?_
  refine (mapValsH_hold (fun b => ?_) vals).bind fun vs _ => ?_
  · cases sp.info.kind with
    | vor2 v => exact (npDeleteH_hold b i).any
    | plain => exact (deleteAtH_hold b i).any
    | vor1 v => exact (deleteAtH_hold b i).any
  · refine (mkPSH_hold (fine0 agree_ps)).bind fun new hn => ?_
    exact (deathRatioH_hold sp a new i).bind fun _ _ => Hold.pure hn

/-- `birth`: nothing is modified, or only the tree in the cache of the state that was given. -/
theorem birthH_hold (sp : Space) (a : Addr) (ha : hasTree sp.info.kind = true → a ∈ W) :
    Hold (Inv B N W refs0 h₀) (sp.birthH a) (fun r => r.1 = a ∨ h₀.length ≤ r.1) := by
  rw [Space.birthH]
  refine Hold.ite (fun _ => ?_) fun _ => plainBirthH_hold _ _ a
  refine (readPS_hold a).bind fun x _ => ?_
  obtain ⟨n, vals, attrs, kd⟩ := x
  have h1 : Hold (Inv B N W refs0 h₀) (if n = sp.info.hi then pure (a, .ninf) else vorBirthH sp a : HM (Addr × PyF))
      (fun r => r.1 = a ∨ h₀.length ≤ r.1) :=
    Hold.ite (fun _ => Hold.pure (.inl rfl)) fun _ => (vorBirthH_hold sp a).mono fun _ h => .inr h
  refine Hold.bind h1 fun r hr => ?_
  obtain ⟨new, lpr⟩ := r
  refine (withKdH_hold _ ?_).bind fun _ _ => Hold.pure hr
  rcases hr with rfl | hr
  · exact .inl ha
  · exact .inr hr

theorem deathH_hold (sp : Space) (a : Addr) (ha : hasTree sp.info.kind = true → a ∈ W) :
    Hold (Inv B N W refs0 h₀) (sp.deathH a) (fun r => r.1 = a ∨ h₀.length ≤ r.1) := by
  rw [Space.deathH]
  refine Hold.ite (fun _ => ?_) fun _ => plainDeathH_hold _ a
  refine (readPS_hold a).bind fun x _ => ?_
  obtain ⟨n, vals, attrs, kd⟩ := x
  have h1 : Hold (Inv B N W refs0 h₀) (if n = sp.info.lo then pure (a, .ninf) else vorDeathH sp a : HM (Addr × PyF))
      (fun r => r.1 = a ∨ h₀.length ≤ r.1) :=
    Hold.ite (fun _ => Hold.pure (.inl rfl)) fun _ => (vorDeathH_hold sp a).mono fun _ h => .inr h
  refine Hold.bind h1 fun r hr => ?_
  obtain ⟨new, lpr⟩ := r
  refine (withKdH_hold _ ?_).bind fun _ _ => Hold.pure hr
  rcases hr with rfl | hr
  · exact .inl ha
  · exact .inr hr

theorem vorMoveH_hold (sp : Space) (a : Addr) (isite : ℕ) :
    Hold (Inv B N W refs0 h₀) (vorMoveH sp a isite) (fun r => h₀.length ≤ r.1) := by
  rw [vorMoveH]
  cases sp.info.kind with
  | plain => exact Hold.throw
  | vor1 v =>
    refine (readPS_hold a).bind fun y _ => ?_
    obtain ⟨n, vals, attrs, kd⟩ := y
    simp only
    cases dget vals "discretization" with
    | none => exact Hold.throw
    | some b =>
      refine (Hold.read b).bind fun o _ => ?_
      cases o with
      | arr y =>
        cases y with
        | vec xs =>
          simp only
          cases xs[isite]? with
          | none => exact Hold.throw
          | some x =>
            refine (Hold.ofM _).bind fun y _ => ?_
            refine newArr.bind fun c hc => ?_
            refine (setItemH_hold refsOk_refs0 (by rintro b h; cases h; exact hc)).bind fun _ _ => ?_
            refine (gatherH_hold c _).bind fun c' _ => ?_
            refine (moveValuesH_hold a isite _ _ (fun b => (gatherH_hold b _).any) _ _ _).bind fun r _ => ?_
            obtain ⟨vs, lpr⟩ := r
            exact (mkPSH_hold (fine0 agree_ps)).bind fun new hn => Hold.pure hn
        | pts ps => exact Hold.throw
      | _ => exact Hold.throw
  | vor2 v =>
    refine (readPS_hold a).bind fun y _ => ?_
    obtain ⟨n, vals, attrs, kd⟩ := y
    simp only
    cases dget vals "discretization" with
    | none => exact Hold.throw
    | some b =>
      refine (Hold.read b).bind fun o _ => ?_
      cases o with
      | arr y =>
        cases y with
        | vec xs => exact Hold.throw
        | pts ps =>
          simp only
          cases ps[isite]? with
          | none => exact Hold.throw
          | some x =>
            refine (Hold.ofM _).bind fun y _ => ?_
            refine newArr.bind fun c hc => ?_
            refine (write_hold hc (fine_arr refsOk_refs0 _)).bind fun _ _ => ?_
            refine (moveValuesH_hold a isite _ _ (fun b => Hold.pure trivial) _ _ _).bind fun r _ => ?_
            obtain ⟨vs, lpr⟩ := r
            exact (mkPSH_hold (fine0 agree_ps)).bind fun new hn => Hold.pure hn
      | _ => exact Hold.throw

theorem perturbSiteH_hold (sp : Space) (a : Addr) (isite : ℕ) :
    Hold (Inv B N W refs0 h₀) (sp.perturbSiteH a isite) (fun r => h₀.length ≤ r.1) := by
  rw [Space.perturbSiteH]
  refine (vorMoveH_hold sp a isite).bind fun r hr => ?_
  obtain ⟨new, lpr⟩ := r
  exact (withKdH_hold _ (.inr hr)).bind fun _ _ => Hold.pure hr

/-! ### new values -/

theorem perturbPriorsH_hold (a : Addr) (idx : ℕ) : ∀ (priors : List Prior) (vs : List (String × Addr))
    (lpr : PyF), Hold (Inv B N W refs0 h₀) (perturbPriorsH a idx priors vs lpr)
      (fun r => ∀ k ∈ dkeys r.1, k ∈ dkeys vs ∨ ∃ p ∈ priors, p.name = k)
  | [], vs, lpr => Hold.pure fun k hk => .inl hk
  | p :: rest, vs, lpr => by
    rw [perturbPriorsH]
    refine (getH_hold a _).bind fun v _ => ?_
    cases v with
    | none => exact Hold.throw
    | some b =>
      refine (Hold.read b).bind fun o _ => ?_
      cases o with
      | arr y =>
        cases y with
        | vec xs =>
          refine newArr.bind fun c hc => ?_
          refine (numAtH_hold _ idx).bind fun old _ => ?_
          refine (posAtH_hold a idx).bind fun pos _ => ?_
          refine (Hold.ofM _).bind fun r _ => ?_
          obtain ⟨new, r⟩ := r
          refine (setItemH_hold refsOk_refs0 (by rintro b h; cases h; exact hc)).bind fun _ _ => ?_
          refine (perturbPriorsH_hold a idx rest _ _).mono fun r hr k hk => ?_
          rcases hr k hk with h1 | ⟨q, hq, h1⟩
          · by_cases hkp : k = p.name
            · exact .inr ⟨p, by simp, hkp.symm⟩
            · left
              by_contra hc
              rw [← dget_none_iff, ← dget_dset_ne _ p.name k c hkp, dget_none_iff] at hc
              exact hc h1
          · exact .inr ⟨q, by simp [hq], h1⟩
        | pts ps => exact Hold.throw
      | _ => exact Hold.throw

theorem nodup_of_dupdate {α : Type} : ∀ {e d : List (String × α)}, (dkeys (dupdate d e)).Nodup → (dkeys d).Nodup
  | [], d, hn => hn
  | (k, v) :: e, d, hn => by
    have hn : (dkeys (dupdate (dset d k v) e)).Nodup := hn
    exact nodup_of_dset (nodup_of_dupdate hn)

theorem dget_dupdate_ne {α : Type} : ∀ {e d : List (String × α)} {k : String}, k ∉ dkeys e →
    dget (dupdate d e) k = dget d k
  | [], d, k, hk => rfl
  | (k', v) :: e, d, k, hk => by
    show dget (dupdate (dset d k' v) e) k = _
    rw [dget_dupdate_ne (fun h => hk (by simp [dkeys] at h ⊢; exact .inr h)), dget_dset_ne]
    intro h; exact hk (by simp [dkeys, h])

/-- `perturb_param_space_state`: nothing is modified, except that a birth or a death in a `Voronoi2D` can
replace the tree in the cache of the state that was given; the attributes of the new states agree apart from
the parameters that have been perturbed. -/
theorem runH_hold (fuel : ℕ) (f : PSFunc) (a : Addr)
    (hW : ∀ sp, f = .birth sp ∨ f = .death sp → hasTree sp.info.kind = true → a ∈ W)
    (hB : ∀ nm priors, f = .values nm priors → ∀ p ∈ priors, p.name ∈ B) :
    Hold (Inv B N W refs0 h₀) (f.runH fuel a) (fun r => r.1 = a ∨ h₀.length ≤ r.1) := by
  cases f with
  | birth sp => exact birthH_hold sp a (hW sp (.inl rfl))
  | death sp => exact deathH_hold sp a (hW sp (.inr rfl))
  | site sp =>
    rw [PSFunc.runH]
    refine (readPS_hold a).bind fun x _ => ?_
    refine (Hold.ofM _).bind fun i _ => ?_
    exact (perturbSiteH_hold sp a i).mono fun _ h => .inr h
  | values nm priors =>
    rw [PSFunc.runH]
    refine (readPS_hold a).bind fun x _ => ?_
    refine (Hold.ofM _).bind fun i _ => ?_
    refine (perturbPriorsH_hold a i priors [] _).bind fun r hr => ?_
    obtain ⟨vals, lpr⟩ := r
    refine (copyPS_hold refsOk_refs0 (fun _ => rfl) fuel a).bind fun new hn => ?_
    rw [readPS, bind_assoc']
    refine (read_new hn).bind fun o ho => ?_
    cases o with
    | ps n vs attrs kd =>
      refine (write_hold hn (fine0 ?_)).bind fun _ _ => Hold.pure (.inr hn)
      intro hnd k hk
      have hk' : k ∉ dkeys vals := by
        intro h
        rcases hr k h with h1 | ⟨p, hp, rfl⟩
        · simp [dkeys] at h1
        · exact hk (hB nm priors rfl p hp)
      rw [dget_dupdate_ne hk']
      exact ho.1 (nodup_of_dupdate hnd) k hk
    | _ => exact Hold.throw

end BB.Lemmas
