import Verif.Spec.Neighbour
import Verif.Lemmas.Rows
import Verif.Props.C46_C48_Interpolation

/-!
# Births from the nearest neighbour and the deaths that undo them
-/

namespace BB.Lemmas

open BB BB.Spec

/-! ### arithmetic -/

theorem add_assoc' (a b c : PyF) : (a.add b).add c = a.add (b.add c) := by
  cases a <;> cases b <;> cases c <;> simp [PyF.add, add_assoc]

theorem zero_add' (a : PyF) : (PyF.fin 0).add a = a := by cases a <;> simp [PyF.add]

theorem add_zero' (a : PyF) : a.add (.fin 0) = a := by cases a <;> simp [PyF.add]

theorem neg_add' (a b : PyF) : (a.add b).neg = a.neg.add b.neg := by
  cases a <;> cases b <;> simp [PyF.add, PyF.neg, add_comm]

theorem sub_zero' (a : PyF) : a.sub (.fin 0) = a := by cases a <;> simp [PyF.sub, PyF.neg, PyF.add]

theorem negLogGauss_ok {std x y g : ℝ} : negLogGauss std x y = .ok g ↔
    0 < std ∧ g = -Real.log (normalPDF y std x) := by
  unfold negLogGauss pyLog
  have hpi : 0 < Real.sqrt (2 * Real.pi) := Real.sqrt_pos.2 (by positivity)
  by_cases hs : 0 < std
  · rw [if_pos (by positivity)]
    have hl : Real.log (normalPDF y std x) =
        -(Real.log (std * Real.sqrt (2 * Real.pi)) + (x - y) ^ 2 / (2 * std ^ 2)) := by
      unfold normalPDF ProbabilityTheory.gaussianPDFReal
      have hv : ((Real.toNNReal (std ^ 2) : NNReal) : ℝ) = std ^ 2 := Real.coe_toNNReal _ (by positivity)
      rw [hv, Real.log_mul (by positivity) (by positivity), Real.log_exp, Real.log_inv]
      have : Real.sqrt (2 * Real.pi * std ^ 2) = std * Real.sqrt (2 * Real.pi) := by
        rw [Real.sqrt_mul (by positivity), Real.sqrt_sq hs.le, mul_comm]
      rw [this]
      ring
    rw [hl]
    constructor
    · intro h
      injection h with h
      exact ⟨hs, by rw [← h]; ring⟩
    · rintro ⟨_, rfl⟩
      change Except.ok _ = _
      congr 1
      ring
  · rw [if_neg (by rw [mul_pos_iff_of_pos_right hpi]; exact hs)]
    constructor
    · intro h; cases h
    · rintro ⟨h, _⟩; exact absurd h hs

theorem numAt_ok {v : Option PVal} {i : ℕ} {x : ℝ} : numAt v i = .ok x ↔ Num v i x := by
  unfold numAt Num
  constructor
  · intro h
    split at h
    · next xs =>
      split at h
      · next y hy => injection h with h; subst h; exact ⟨xs, rfl, hy⟩
      · cases h
    · cases h
  · rintro ⟨xs, rfl, h⟩
    simp only [h]

theorem stateAt_ok {v : Option PVal} {i : ℕ} {x : PSState} : stateAt v i = .ok x ↔ Nested v i x := by
  unfold stateAt Nested
  constructor
  · intro h
    split at h
    · next l =>
      split at h
      · next y hy => injection h with h; subst h; exact ⟨l, .inl rfl, hy⟩
      · cases h
    · next l =>
      split at h
      · next y hy => injection h with h; subst h; exact ⟨l, .inr rfl, hy⟩
      · cases h
    · cases h
  · rintro ⟨xs, rfl | rfl, h⟩ <;> simp only [h]

/-- What the code takes for the nearest site. -/
def nearOf : Near := fun k sites pos j => nearest k sites pos = .ok j

/-! ### deaths -/

mutual
theorem deathPS_ratio : ∀ (sp : Space) (old new : PSState) (r : PyF), SpaceRatio nearOf sp old new r →
    sp.deathPS new old = .ok r.neg
  | .mk info ps, old, new, r, h => by
    rw [SpaceRatio] at h
    obtain ⟨a, rs, h1, h2, h3, rfl⟩ := h
    rw [Space.deathPS]
    have hs : new.sites = .ok a.positions := by
      unfold PSState.sites
      rw [h1]
    rw [hs]
    change forSitesE _ 0 a.positions (PyF.fin 0) = _
    have key : ∀ (l : List Pos) (rs : List PyF) (i : ℕ) (acc : PyF), rs.length = l.length →
        (∀ (j : ℕ) pos ri, l[j]? = some pos → rs[j]? = some ri →
          ∃ k, nearOf info.kind (old.get "discretization") pos k ∧ PointRatio nearOf ps old new (i + j) k pos ri) →
        forSitesE (fun i pos acc => do
          let inear ← nearest info.kind (old.get "discretization") pos
          ps.deathPoint new old i inear pos acc) i l acc = .ok (acc.add (sumF rs).neg) := by
      intro l
      induction l with
      | nil =>
        intro rs i acc hl _
        have : rs = [] := by simpa using hl
        subst this
        rw [forSitesE, sumF]
        simp [PyF.neg, add_zero']
      | cons pos l ih =>
        intro rs i acc hl hr
        cases rs with
        | nil => simp at hl
        | cons r rs =>
          obtain ⟨k, e1, e2⟩ := hr 0 pos r rfl rfl
          rw [Nat.add_zero] at e2
          have e3 := deathPoint_ratio ps old new i k pos r acc e2
          rw [forSitesE]
          unfold nearOf at e1
          rw [e1]
          change (ps.deathPoint new old i k pos acc).bind _ = _
          rw [e3]
          change forSitesE _ (i + 1) l _ = _
          rw [ih rs (i + 1) _ (by simpa using hl) fun j pos' ri hp hi => by
            have := hr (j + 1) pos' ri (by simpa using hp) (by simpa using hi)
            rw [show i + 1 + j = i + (j + 1) by omega]
            exact this]
          rw [sumF, neg_add', add_assoc']
    rw [key a.positions rs 0 (.fin 0) h2 (by simpa using h3), zero_add']
theorem deathPoint_ratio : ∀ (ps : ParamList) (old new : PSState) (i j : ℕ) (pos : Pos) (r acc : PyF),
    PointRatio nearOf ps old new i j pos r → ps.deathPoint new old i j pos acc = .ok (acc.add r.neg)
  | .nil, old, new, i, j, pos, r, acc, h => by
    rw [PointRatio] at h
    subst h
    rw [ParamList.deathPoint]
    simp [PyF.neg, add_zero']
  | .cons name p rest, old, new, i, j, pos, r, acc, h => by
    rw [PointRatio] at h
    obtain ⟨a, b, h1, h2, rfl⟩ := h
    rw [ParamList.deathPoint, paramDeath_ratio p name old new i j pos a acc h1]
    change rest.deathPoint new old i j pos _ = _
    rw [deathPoint_ratio rest old new i j pos b _ h2, neg_add', add_assoc']
theorem paramDeath_ratio : ∀ (p : Param) (name : String) (old new : PSState) (i j : ℕ) (pos : Pos) (r acc : PyF),
    ParamRatio nearOf p name old new i j pos r → p.deathPoint name new old i j pos acc = .ok (acc.add r.neg)
  | .prior p, name, old, new, i, j, pos, r, acc, h => by
    rw [ParamRatio] at h
    obtain ⟨x, nb, std, lp, h1, h2, h3, h4, h5, rfl⟩ := h
    rw [Param.deathPoint, numAt_ok.2 h1, numAt_ok.2 h2]
    have hg : negLogGauss std x nb = .ok (-Real.log (normalPDF nb std x)) := negLogGauss_ok.2 ⟨h4, rfl⟩
    have hs : p.getStd true pos = .ok std := h3
    change p.toNeighbour x nb pos acc = _
    unfold Prior.toNeighbour
    rw [hs, h5]
    change (negLogGauss std x nb).bind _ = _
    rw [hg]
    change Except.ok _ = _
    congr 1
    unfold PyF.sub
    rw [neg_add', add_assoc']
    rfl
  | .space sp, name, old, new, i, j, pos, r, acc, h => by
    rw [ParamRatio] at h
    rw [Param.deathPoint]
    rcases h with ⟨h1, rfl⟩ | ⟨h1, o, n, h2, h3, h4⟩
    · rw [if_neg (by rw [h1]; simp)]
      simp [PyF.neg, add_zero']
    · rw [if_pos h1, stateAt_ok.2 h2, stateAt_ok.2 h3]
      change (sp.deathPS n o).bind _ = _
      rw [deathPS_ratio sp o n r h4]
      change Except.ok _ = _
      rw [sub_zero']
end

/-! ### births -/

/-- Two states agree at an entry. -/
def Agree (s s' : PSState) (k : String) (i : ℕ) : Prop :=
  (∀ x, Num (s.get k) i x → Num (s'.get k) i x) ∧ (∀ x, Nested (s.get k) i x → Nested (s'.get k) i x)

theorem Agree.refl (s : PSState) (k : String) (i : ℕ) : Agree s s k i := ⟨fun _ h => h, fun _ h => h⟩

theorem Agree.trans {a b c : PSState} {k : String} {i : ℕ} (h : Agree a b k i) (h' : Agree b c k i) : Agree a c k i :=
  ⟨fun x hx => h'.1 x (h.1 x hx), fun x hx => h'.2 x (h.2 x hx)⟩

theorem Agree.of_get {a b : PSState} {k : String} (h : b.get k = a.get k) (i : ℕ) : Agree a b k i := by
  unfold Agree; rw [h]; exact ⟨fun _ h => h, fun _ h => h⟩

theorem paramRatio_agree {near : Near} {p : Param} {name : String} {old new new' : PSState} {i j : ℕ} {pos : Pos} {r : PyF}
    (h : ParamRatio near p name old new i j pos r) (ha : Agree new new' name i) :
    ParamRatio near p name old new' i j pos r := by
  cases p with
  | prior p =>
    rw [ParamRatio] at *
    obtain ⟨x, nb, std, lp, h1, h2⟩ := h
    exact ⟨x, nb, std, lp, ha.1 x h1, h2⟩
  | space sp =>
    rw [ParamRatio] at *
    rcases h with h | ⟨h1, o, n, h2, h3, h4⟩
    · exact .inl h
    · exact .inr ⟨h1, o, n, h2, ha.2 n h3, h4⟩

theorem pointRatio_agree {near : Near} : ∀ {ps : ParamList} {old new new' : PSState} {i j : ℕ} {pos : Pos} {r : PyF},
    PointRatio near ps old new i j pos r → (∀ k ∈ ps.toList.map (·.1), Agree new new' k i) →
    PointRatio near ps old new' i j pos r
  | .nil, _, _, _, _, _, _, _, h, _ => by rw [PointRatio] at *; exact h
  | .cons name p rest, _, _, _, _, _, _, _, h, ha => by
    rw [PointRatio] at *
    obtain ⟨a, b, h1, h2, h3⟩ := h
    rw [ParamList.toList, List.map_cons] at ha
    exact ⟨a, b, paramRatio_agree h1 (ha name (List.mem_cons_self ..)),
      pointRatio_agree h2 fun k hk => ha k (List.mem_cons_of_mem _ hk), h3⟩

/-- All parameters of a space and of the spaces nested in it have distinct names. -/
def NamesOk (sp : Space) : Prop := ∀ sp', SubSpace sp sp' → SpaceOk sp'

theorem fromNeighbour_ok (p : Prior) (nb : ℝ) (pos : Pos) :
    Post (p.fromNeighbour nb pos) (fun r => ∃ std lp, p.stdBirth.get pos = .ok std ∧ 0 < std ∧
      p.logPrior r.1 pos = .ok lp ∧ r.2 = lp.sub (.fin (Real.log (normalPDF nb std r.1)))) := by
  unfold Prior.fromNeighbour
  refine Post.bind_any fun new => (Post.lift' (P := fun std => p.getStd true pos = .ok std) fun _ h => h).bind'
    fun std hstd => (Post.lift' (P := fun lp => p.logPrior new.1 pos = .ok lp) fun _ h => h).bind' fun lp hlp =>
    (Post.lift' (P := fun g => negLogGauss std new.1 nb = .ok g) fun _ h => h).bind' fun g hg => Post.pure' ?_
  obtain ⟨h1, rfl⟩ := negLogGauss_ok.1 hg
  exact ⟨std, lp, hstd, h1, hlp, rfl⟩

theorem get_mk {n : ℕ} {vals : List (String × PVal)} {kd : Option (List (ℝ × ℝ))} {k : String} :
    (PSState.mk n vals kd).get k = dget vals k := rfl

/-- What `fillPoint` does, for the parameters with the given names. -/
def Filled (names : List String) (i : ℕ) (new new' : PSState) : Prop :=
  new'.n = new.n ∧ (∀ k, k ∉ names → new'.get k = new.get k) ∧ ∀ k j, j ≠ i → Agree new new' k j

theorem Filled.trans {l1 l2 : List String} {i : ℕ} {a b c : PSState} (h : Filled l1 i a b) (h' : Filled l2 i b c) :
    Filled (l1 ++ l2) i a c := by
  refine ⟨h'.1.trans h.1, fun k hk => ?_, fun k j hj => (h.2.2 k j hj).trans (h'.2.2 k j hj)⟩
  rw [List.mem_append, not_or] at hk
  rw [h'.2.1 k hk.2, h.2.1 k hk.1]

theorem setNumAt_filled {new new' : PSState} {name : String} {i : ℕ} {x : ℝ} (h : new.setNumAt name i x = .ok new') :
    Filled [name] i new new' ∧ Num (new'.get name) i x := by
  unfold PSState.setNumAt at h
  split at h
  · next xs hxs =>
    split at h
    · next hi =>
      injection h with h
      subst h
      refine ⟨⟨rfl, fun k hk => ?_, fun k j hj => ?_⟩, ?_⟩
      · rw [List.mem_singleton] at hk
        rw [get_mk, dget_dset_ne _ _ _ _ hk]; rfl
      · by_cases hk : k = name
        · subst hk
          unfold Agree
          rw [hxs, get_mk, dget_dset_same]
          refine ⟨?_, ?_⟩
          · rintro y ⟨ys, e1, e2⟩
            injection e1 with e1; injection e1 with e1; injection e1 with e1
            subst e1
            exact ⟨_, rfl, by rw [List.getElem?_set_ne (Ne.symm hj)]; exact e2⟩
          · rintro y ⟨ys, e1 | e1, e2⟩ <;> cases e1
        · exact .of_get (by rw [get_mk, dget_dset_ne _ _ _ _ hk]; rfl) j
      · exact ⟨_, by rw [get_mk, dget_dset_same], by rw [List.getElem?_set_self hi]⟩
    · cases h
  · cases h

theorem setStateAt_filled {new : PSState} {name : String} {i : ℕ} {y x : PSState} (h : Nested (new.get name) i y) :
    Filled [name] i new (new.setStateAt name i x) ∧ Nested ((new.setStateAt name i x).get name) i x := by
  obtain ⟨l, hl, hy⟩ := h
  have hi : i < l.length := (List.getElem?_eq_some_iff.1 hy).1
  unfold PSState.setStateAt
  rcases hl with hl | hl
  all_goals
    rw [hl]
    simp only
    refine ⟨⟨rfl, fun k hk => ?_, fun k j hj => ?_⟩, ?_⟩
    · rw [List.mem_singleton] at hk
      rw [get_mk, dget_dset_ne _ _ _ _ hk]; rfl
    · by_cases hk : k = name
      · subst hk
        unfold Agree
        rw [hl, get_mk, dget_dset_same]
        refine ⟨?_, ?_⟩
        · rintro y ⟨ys, e1, e2⟩; cases e1
        · rintro y ⟨ys, e1 | e1, e2⟩ <;> cases e1
          first
          | exact ⟨_, .inl rfl, by rw [List.getElem?_set_ne (Ne.symm hj)]; exact e2⟩
          | exact ⟨_, .inr rfl, by rw [List.getElem?_set_ne (Ne.symm hj)]; exact e2⟩
      · exact .of_get (by rw [get_mk, dget_dset_ne _ _ _ _ hk]; rfl) j
    · rw [get_mk, dget_dset_same]
      first
      | exact ⟨_, .inl rfl, by rw [List.getElem?_set_self hi]⟩
      | exact ⟨_, .inr rfl, by rw [List.getElem?_set_self hi]⟩

mutual
theorem sampleFromNeighbour_ratio : ∀ (sp : Space), NamesOk sp → ∀ (old new : PSState),
    Post (sp.sampleFromNeighbour old new) (fun r => SpaceRatio nearOf sp old r.1 r.2)
  | .mk info ps, hok, old, new => by
    have hok1 : SpaceOk (.mk info ps) := hok _ .refl
    rw [Space.sampleFromNeighbour]
    refine Post.bind_any fun new1 => (Post.lift' (P := fun sites => new1.sites = .ok sites) fun _ h => h).bind'
      fun sites hsites => ?_
    have hdisc : ∃ a, new1.get "discretization" = some (.arr a) ∧ sites = a.positions := by
      unfold PSState.sites at hsites
      split at hsites
      · next a ha => injection hsites with hsites; exact ⟨a, ha, hsites.symm⟩
      · cases hsites
    obtain ⟨a, ha, rfl⟩ := hdisc
    have key : ∀ (l : List Pos) (i : ℕ) (s : PSState × PyF), Post (forSites (fun i pos (acc : PSState × PyF) => do
        let inb ← M.lift (nearest info.kind (old.get "discretization") pos)
        ps.fillPoint old i inb pos acc) i l s) (fun r => ∃ rs : List PyF, rs.length = l.length ∧
          r.2 = s.2.add (sumF rs) ∧ r.1.get "discretization" = s.1.get "discretization" ∧
          (∀ k j, j < i → Agree s.1 r.1 k j) ∧
          ∀ (j : ℕ) pos ri, l[j]? = some pos → rs[j]? = some ri →
            ∃ k, nearOf info.kind (old.get "discretization") pos k ∧
              PointRatio nearOf ps old r.1 (i + j) k pos ri) := by
      intro l
      induction l with
      | nil =>
        intro i s
        rw [forSites]
        exact Post.pure' ⟨[], rfl, by rw [sumF, add_zero'], rfl, fun k j _ => .refl _ _ _,
          fun j pos ri hp _ => by simp at hp⟩
      | cons pos l ih =>
        intro i s
        rw [forSites]
        have hstep : Post (do
            let inb ← M.lift (nearest info.kind (old.get "discretization") pos)
            ps.fillPoint old i inb pos s) (fun r => ∃ k ri, nearOf info.kind (old.get "discretization") pos k ∧
              r.2 = s.2.add ri ∧ PointRatio nearOf ps old r.1 i k pos ri ∧
              Filled (ps.toList.map (·.1)) i s.1 r.1) := by
          refine (Post.lift' (P := fun k => nearest info.kind (old.get "discretization") pos = .ok k)
            fun _ h => h).bind' fun k hk => ?_
          refine (fillPoint_ratio ps hok1.nodup (fun k sp1 hsp => fun sp' hsub => hok sp' (.step hsp hsub))
            old i k pos s).mono fun r hr => ?_
          obtain ⟨ri, h1, h2, h3⟩ := hr
          exact ⟨k, ri, hk, h1, h2, h3⟩
        refine hstep.bind' fun s1 hs1 => (ih (i + 1) s1).mono fun r hr => ?_
        obtain ⟨k, ri, e1, e2, e3, e4⟩ := hs1
        obtain ⟨rs, f1, f2, f3, f4, f5⟩ := hr
        refine ⟨ri :: rs, by simp [f1], by rw [f2, e2, sumF, add_assoc'], ?_, fun k j hj => ?_, fun j pos' ri' hp hri => ?_⟩
        · rw [f3, e4.2.1 _ hok1.disc]
        · exact (e4.2.2 k j (by omega)).trans (f4 k j (by omega))
        · cases j with
          | zero =>
            simp only [List.getElem?_cons_zero, Option.some.injEq] at hp hri
            subst hp hri
            exact ⟨k, e1, pointRatio_agree e3 fun k _ => f4 k i (by omega)⟩
          | succ j =>
            rw [show i + (j + 1) = i + 1 + j by omega]
            exact f5 j pos' ri' (by simpa using hp) (by simpa using hri)
    refine (key a.positions 0 (new1, .fin 0)).mono fun r hr => ?_
    obtain ⟨rs, f1, f2, f3, _, f5⟩ := hr
    rw [SpaceRatio]
    simp only at f2 f3
    exact ⟨a, rs, by rw [f3, ha], f1, by simpa using f5, by rw [f2, zero_add']⟩
theorem fillPoint_ratio : ∀ (ps : ParamList), (ps.toList.map (·.1)).Nodup →
    (∀ k sp, (k, Param.space sp) ∈ ps.toList → NamesOk sp) → ∀ (old : PSState) (i j : ℕ) (pos : Pos) (s : PSState × PyF),
    Post (ps.fillPoint old i j pos s) (fun r => ∃ ri, r.2 = s.2.add ri ∧ PointRatio nearOf ps old r.1 i j pos ri ∧
      Filled (ps.toList.map (·.1)) i s.1 r.1)
  | .nil, _, _, old, i, j, pos, s => by
    rw [ParamList.fillPoint]
    refine Post.pure' ⟨.fin 0, (add_zero' _).symm, by rw [PointRatio], rfl, fun _ _ => rfl, fun _ _ _ => .refl _ _ _⟩
  | .cons name p rest, hn, hok, old, i, j, pos, s => by
    rw [ParamList.fillPoint]
    rw [ParamList.toList] at hn hok
    rw [List.map_cons, List.nodup_cons] at hn
    refine (paramFill_ratio p name (fun sp hsp => hok name sp (by rw [hsp]; exact List.mem_cons_self ..)) old i j pos s).bind'
      fun s1 h1 => (fillPoint_ratio rest hn.2 (fun k sp hk => hok k sp (List.mem_cons_of_mem _ hk)) old i j pos s1).mono
      fun r hr => ?_
    obtain ⟨a, e1, e2, e3⟩ := h1
    obtain ⟨b, f1, f2, f3⟩ := hr
    refine ⟨a.add b, by rw [f1, e1, add_assoc'], ?_, ?_⟩
    · rw [PointRatio]
      exact ⟨a, b, paramRatio_agree e2 (.of_get (f3.2.1 name hn.1) i), f2, rfl⟩
    · exact e3.trans f3
theorem paramFill_ratio : ∀ (p : Param) (name : String), (∀ sp, p = .space sp → NamesOk sp) →
    ∀ (old : PSState) (i j : ℕ) (pos : Pos) (s : PSState × PyF),
    Post (p.fillPoint name old i j pos s) (fun r => ∃ ri, r.2 = s.2.add ri ∧
      ParamRatio nearOf p name old r.1 i j pos ri ∧ Filled [name] i s.1 r.1)
  | .prior p, name, _, old, i, j, pos, (new, lpr) => by
    rw [Param.fillPoint]
    refine (Post.lift' (P := fun nb => numAt (old.get name) j = .ok nb) fun _ h => h).bind' fun nb hnb =>
      (fromNeighbour_ok p nb pos).bind' fun xr hxr => ?_
    obtain ⟨x, r⟩ := xr
    simp only at hxr ⊢
    refine (Post.lift' (P := fun new' => new.setNumAt name i x = .ok new') fun _ h => h).bind' fun new' hnew =>
      Post.pure' ?_
    obtain ⟨h1, h2⟩ := setNumAt_filled hnew
    obtain ⟨std, lp, h3, h4, h5, h6⟩ := hxr
    refine ⟨r, rfl, ?_, h1⟩
    rw [ParamRatio]
    exact ⟨x, nb, std, lp, h2, numAt_ok.1 hnb, h3, h4, h5, h6⟩
  | .space sp, name, hok, old, i, j, pos, (new, lpr) => by
    rw [Param.fillPoint]
    refine Post.ite' (fun hd => ?_) fun hd => ?_
    · refine (Post.lift' (P := fun o => stateAt (old.get name) j = .ok o) fun _ h => h).bind' fun o ho =>
        (Post.lift' (P := fun n => stateAt (new.get name) i = .ok n) fun _ h => h).bind' fun n hn =>
        (sampleFromNeighbour_ratio sp (hok sp rfl) o n).bind' fun xr hxr => ?_
      obtain ⟨x, r⟩ := xr
      simp only at hxr ⊢
      refine Post.pure' ?_
      obtain ⟨h1, h2⟩ := setStateAt_filled (x := x) (stateAt_ok.1 hn)
      refine ⟨r, rfl, ?_, h1⟩
      rw [ParamRatio]
      exact .inr ⟨hd, o, x, stateAt_ok.1 ho, h2, hxr⟩
    · refine Post.pure' ⟨.fin 0, (add_zero' _).symm, ?_, rfl, fun _ _ => rfl, fun _ _ _ => .refl _ _ _⟩
      rw [ParamRatio]
      exact .inl ⟨by simpa using hd, rfl⟩
end

end BB.Lemmas
