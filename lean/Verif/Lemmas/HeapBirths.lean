import Verif.Lemmas.HeapNeighbour

/-!
# Births and deaths on the heap do what they do on values
-/

namespace BB.Lemmas

open BB BB.Spec BB.HM

theorem own_firm {h : Heap} {s : PSState} {a : Addr} {F F' : Set Addr} (own : OwnPS ∅ h s a F')
    (hd : ∀ x ∈ F', x ∉ F) : Firm F h (RepPS · s a) :=
  fun _ hk => ownPS_rep (ownPS_keep keep_empty (hk.mono fun x hx => hd x hx) own)

theorem Firm.high {F : Set Addr} {h : Heap} {P : Heap → Prop} (hf : Firm F h P) :
    Firm {x | h.length ≤ x} h P := by
  intro h' hk
  refine hf h' fun a _ o ho => hk a ?_ o ho
  exact fun hc => absurd (lt_of_get ho) (not_lt.2 hc)

theorem Ctx.fresh {h₀ h : Heap} {F : Set Addr} (c : Ctx h₀ F h) {x : Addr} (hx : h.length ≤ x) : x ∉ F :=
  fun hf => absurd (c.old x hf) (not_lt.2 hx)

theorem fresh_made {h₀ h : Heap} {F : Set Addr} (c : Ctx h₀ F h) (m : M PSState) :
    Sim AnyHeap (Made F h RepPS) h (fresh m) m := by
  refine (fresh_sim ∅ h m).mono (fun _ h => h) ?_
  rintro h' a s ⟨hp, own⟩
  exact ⟨keep_prefix hp, own_firm own fun x hx => c.fresh hx.1⟩

/-! ### the values of the newborn dimension -/

/-- The newborn values, by name. -/
def RepHs (h : Heap) : List (String × NVal) → List (String × HVal) → Prop
  | [], vs => vs = []
  | (k, v) :: rest, vs => ∃ b vs', vs = (k, b) :: vs' ∧ RepH h v b ∧ RepHs h rest vs'

theorem firm_hs_cons {F : Set Addr} {h : Heap} {k : String} {v : NVal} {rest : List (String × NVal)}
    {vs : List (String × HVal)} (hf : Firm F h (RepHs · ((k, v) :: rest) vs)) :
    ∃ b vs', vs = (k, b) :: vs' ∧ Firm F h (RepH · v b) ∧ Firm F h (RepHs · rest vs') := by
  have h1 := hf.here
  simp only [RepHs] at h1
  obtain ⟨b, vs', rfl, _, _⟩ := h1
  refine ⟨b, vs', rfl, fun h' hk => ?_, fun h' hk => ?_⟩
  all_goals
    have := hf h' hk
    simp only [RepHs] at this
    obtain ⟨b', vs'', he, h1, h2⟩ := this
    cases he
    assumption

theorem firm_hs {F : Set Addr} {h : Heap} {k : String} {v : NVal} {rest : List (String × NVal)} {b : HVal}
    {vs : List (String × HVal)} (hv : Firm F h (RepH · v b)) (hr : Firm F h (RepHs · rest vs)) :
    Firm F h (RepHs · ((k, v) :: rest) ((k, b) :: vs)) := by
  intro h' hk
  rw [RepHs]
  exact ⟨b, vs, rfl, hv h' hk, hr h' hk⟩

theorem newbornFromPriorH_sim {h₀ : Heap} {F : Set Addr} (pos : Pos) : ∀ (ps : List (String × Param)) {h : Heap},
    Ctx h₀ F h → Sim AnyHeap (Made F h RepHs) h (newbornFromPriorH ps pos) (newbornFromPrior ps pos)
  | [], h, c => Sim.pure (b := []) ⟨keep_refl h, Firm.pure fun _ => by rw [RepHs]⟩
  | (name, p) :: rest, h, c => by
    rw [newbornFromPriorH.eq_def, newbornFromPrior.eq_def]
    simp only
    refine Sim.bind (R := Made F h RepH) ?_ ?_
    · cases p with
      | prior p =>
        simp only
        refine Sim.bind (Sim.ofM _ trivial) ?_
        rintro h' x _ ⟨rfl, rfl⟩
        exact Sim.pure (b := NVal.num x) ⟨keep_refl _, Firm.pure fun _ => rfl⟩
      | space s =>
        simp only
        refine Sim.bind (fresh_made c _) ?_
        rintro h' a s' ⟨hk, hf⟩
        exact Sim.pure (b := NVal.ps s') ⟨hk, hf⟩
    · rintro h₁ v v' ⟨k₁, hv⟩
      refine Sim.bind (newbornFromPriorH_sim pos rest (c.step k₁)) ?_
      rintro h₂ vs vs' ⟨k₂, hvs⟩
      exact Sim.pure (b := (name, v') :: vs') ⟨k₁.trans k₂, firm_hs (hv.keep' k₂) hvs⟩

/-- The result of a function that returns a value beside the log ratio. -/
def MadeL {α β : Type} (F : Set Addr) (h : Heap) (P : Heap → β → α → Prop) : Heap → α × PyF → β × PyF → Prop :=
  fun h' a b => Keep Set.univ h h' ∧ Firm F h' (P · b.1 a.1) ∧ a.2 = b.2

theorem newbornFromNeighbourH_sim {h₀ : Heap} {F : Set Addr} {old : PSState} {oa : Addr} (inear : ℕ) (pos : Pos) :
    ∀ (ps : List (String × Param)) (lpr : PyF) {h : Heap}, Ctx h₀ F h → Firm F h (RepPS · old oa) →
    Sim AnyHeap (MadeL F h RepHs) h (newbornFromNeighbourH oa inear pos ps lpr)
      (newbornFromNeighbour old inear pos ps lpr)
  | [], lpr, h, c, _ => Sim.pure (b := ([], lpr)) ⟨keep_refl h, Firm.pure fun _ => by rw [RepHs], rfl⟩
  | (name, p) :: rest, lpr, h, c, ho => by
    rw [newbornFromNeighbourH.eq_def, newbornFromNeighbour.eq_def]
    simp only
    refine Sim.bind (R := MadeL F h RepH) ?_ ?_
    · cases p with
      | prior p =>
        simp only
        obtain ⟨v, hv, hg⟩ := firm_get ho name
        refine Sim.of_eq (hg _) ?_
        refine Sim.bind (numAtH_sim hv.here inear trivial) ?_
        rintro h' nb _ ⟨rfl, rfl⟩
        refine Sim.bind (Sim.ofM _ trivial) ?_
        rintro h' ⟨x, r⟩ _ ⟨rfl, rfl⟩
        exact Sim.pure (b := (NVal.num x, lpr.add r)) ⟨keep_refl _, Firm.pure fun _ => rfl, rfl⟩
      | space s =>
        simp only
        split
        · obtain ⟨v, hv, hg⟩ := firm_get ho s.info.name
          refine Sim.of_eq (hg _) ?_
          refine Sim.bind (stateAt_firm hv inear) ?_
          rintro h' oai oldi ⟨rfl, hold⟩
          refine Sim.bind (fresh_sim ∅ h _) ?_
          rintro h₁ na newi ⟨hp, own⟩
          refine Sim.bind (sampleFromNeighbourH_sim s (N := h.length) (F := Since h h₁) ⟨hp.length_le,
            hold.high.keep' (keep_prefix hp), own, fun x hx => hx.2, fun x hx => hx.1⟩) ?_
          rintro h₂ r ⟨newi', r'⟩ ⟨rfl, F', u⟩
          refine Sim.pure (b := (NVal.ps newi', lpr.add r)) ⟨?_, ?_, rfl⟩
          · intro x _ o hx
            refine (keep_prefix (F := (Since h h₁)ᶜ) hp).trans u.keep x ?_ o hx
            exact fun hc => absurd (lt_of_get hx) (not_lt.2 hc.1)
          · refine own_firm (s := newi') u.own fun x hx => c.fresh ?_
            rcases u.sub x hx with h1 | h1
            · exact h1.1
            · exact hp.length_le.trans h1
        · refine Sim.bind (fresh_made c _) ?_
          rintro h' a s' -
          exact Sim.throw trivial
    · rintro h₁ ⟨v, l⟩ ⟨v', l'⟩ ⟨k₁, hv, rfl⟩
      simp only
      refine Sim.bind (newbornFromNeighbourH_sim inear pos rest l (c.step k₁) (ho.keep' k₁)) ?_
      rintro h₂ ⟨vs, l⟩ ⟨vs', l'⟩ ⟨k₂, hvs, rfl⟩
      exact Sim.pure (b := ((name, v') :: vs', l)) ⟨k₁.trans k₂, firm_hs (hv.keep' k₂) hvs, rfl⟩

theorem newbornH_sim {h₀ h : Heap} {F : Set Addr} {old : PSState} {oa : Addr} (sp : Space) (pos : Pos)
    (c : Ctx h₀ F h) (ho : Firm F h (RepPS · old oa)) :
    Sim AnyHeap (MadeL F h RepHs) h (sp.newbornH pos oa) (sp.newborn pos old) := by
  rw [Space.newbornH, Space.newborn]
  split
  · refine Sim.bind (newbornFromPriorH_sim pos _ c) ?_
    rintro h₁ vs vs' ⟨k₁, hv⟩
    exact Sim.pure (b := (vs', PyF.fin 0)) ⟨k₁, hv, rfl⟩
  · obtain ⟨v, hv, hg⟩ := firm_get ho "discretization"
    refine Sim.of_eq (hg _) ?_
    refine Sim.bind (nearestH_sim _ hv.here pos trivial) ?_
    rintro h' i _ ⟨rfl, rfl⟩
    exact newbornFromNeighbourH_sim i pos _ _ c ho

/-! ### log ratios of deaths -/

theorem forSitesE_sim {σ : Type} {h : Heap} {f : ℕ → Pos → σ → HM σ} {g : ℕ → Pos → σ → Except PyErr σ}
    (hb : ∀ i p a, Sim AnyHeap (fun h' x y => h = h' ∧ x = y) h (f i p a) (M.lift (g i p a))) :
    ∀ (ps : List Pos) (i : ℕ) (a : σ),
      Sim AnyHeap (fun h' x y => h = h' ∧ x = y) h (forSitesH f i ps a) (M.lift (forSitesE g i ps a))
  | [], i, a => Sim.pure (b := a) ⟨rfl, rfl⟩
  | p :: ps, i, a => by
    rw [forSitesH, forSitesE, lift_bind_eq]
    refine Sim.bind (hb i p a) ?_
    rintro h' a' _ ⟨rfl, rfl⟩
    exact forSitesE_sim hb ps (i + 1) a'

mutual
theorem deathPSH_sim : ∀ (sp : Space) {h : Heap} {old new : PSState} {oa na : Addr}, RepPS h old oa →
    RepPS h new na →
    Sim AnyHeap (fun h' x y => h = h' ∧ x = y) h (sp.deathPSH oa na) (M.lift (sp.deathPS old new))
  | .mk info ps, h, old, new, oa, na, ho, hn => by
    rw [Space.deathPSH, Space.deathPS, lift_bind_eq]
    refine Sim.bind (sitesH_sim ho trivial) ?_
    rintro h' sites _ ⟨rfl, rfl⟩
    refine forSitesE_sim ?_ sites 0 _
    intro i pos acc
    obtain ⟨v, hv, hg⟩ := repPS_get hn "discretization"
    refine Sim.of_eq (hg _) ?_
    rw [lift_bind_eq]
    refine Sim.bind (nearestH_sim _ hv pos trivial) ?_
    rintro h' inear _ ⟨rfl, rfl⟩
    exact deathPointsH_sim ps i inear pos acc ho hn
theorem deathPointsH_sim : ∀ (ps : ParamList) (i inear : ℕ) (pos : Pos) (acc : PyF) {h : Heap} {old new : PSState}
    {oa na : Addr}, RepPS h old oa → RepPS h new na →
    Sim AnyHeap (fun h' x y => h = h' ∧ x = y) h (ps.deathPointH oa na i inear pos acc)
      (M.lift (ps.deathPoint old new i inear pos acc))
  | .nil, i, inear, pos, acc, h, old, new, oa, na, ho, hn => by
    rw [ParamList.deathPointH, ParamList.deathPoint]
    exact Sim.pure (b := acc) ⟨rfl, rfl⟩
  | .cons name p rest, i, inear, pos, acc, h, old, new, oa, na, ho, hn => by
    rw [ParamList.deathPointH, ParamList.deathPoint, lift_bind_eq]
    refine Sim.bind (deathPointH_sim p name i inear pos acc ho hn) ?_
    rintro h' acc' _ ⟨rfl, rfl⟩
    exact deathPointsH_sim rest i inear pos acc' ho hn
theorem deathPointH_sim : ∀ (p : Param) (name : String) (i inear : ℕ) (pos : Pos) (acc : PyF) {h : Heap}
    {old new : PSState} {oa na : Addr}, RepPS h old oa → RepPS h new na →
    Sim AnyHeap (fun h' x y => h = h' ∧ x = y) h (p.deathPointH name oa na i inear pos acc)
      (M.lift (p.deathPoint name old new i inear pos acc))
  | .prior p, name, i, inear, pos, acc, h, old, new, oa, na, ho, hn => by
    rw [Param.deathPointH, Param.deathPoint, lift_bind_eq]
    obtain ⟨v, hv, hg⟩ := repPS_get ho name
    refine Sim.of_eq (hg _) ?_
    refine Sim.bind (numAtH_sim hv i trivial) ?_
    rintro h' x _ ⟨rfl, rfl⟩
    rw [lift_bind_eq]
    obtain ⟨w, hw, hg⟩ := repPS_get hn name
    refine Sim.of_eq (hg _) ?_
    refine Sim.bind (numAtH_sim hw inear trivial) ?_
    rintro h' y _ ⟨rfl, rfl⟩
    exact Sim.lift _ trivial
  | .space s, name, i, inear, pos, acc, h, old, new, oa, na, ho, hn => by
    rw [Param.deathPointH, Param.deathPoint]
    split
    · rw [lift_bind_eq]
      obtain ⟨v, hv, hg⟩ := repPS_get ho name
      refine Sim.of_eq (hg _) ?_
      refine Sim.bind (stateAtH_sim hv i trivial) ?_
      rintro h' x sx ⟨rfl, hx⟩
      rw [lift_bind_eq]
      obtain ⟨w, hw, hg⟩ := repPS_get hn name
      refine Sim.of_eq (hg _) ?_
      refine Sim.bind (stateAtH_sim hw inear trivial) ?_
      rintro h' y sy ⟨rfl, hy⟩
      rw [lift_bind_eq]
      refine Sim.bind (deathPSH_sim s hx hy) ?_
      rintro h' r _ ⟨rfl, rfl⟩
      exact Sim.pure (b := (acc.sub (.fin 0)).add r) ⟨rfl, rfl⟩
    · exact Sim.pure (b := acc) ⟨rfl, rfl⟩
end

theorem deathRatioH_sim (sp : Space) (i : ℕ) {h : Heap} {old new : PSState} {oa na : Addr} (ho : RepPS h old oa)
    (hn : RepPS h new na) :
    Sim AnyHeap (fun h' x y => h = h' ∧ x = y) h (sp.deathRatioH oa na i) (M.lift (sp.deathRatio old new i)) := by
  rw [Space.deathRatioH, Space.deathRatio]
  split
  · exact Sim.pure (b := PyF.fin 0) ⟨rfl, rfl⟩
  · rw [lift_bind_eq]
    refine Sim.bind (sitesH_sim ho trivial) ?_
    rintro h' sites _ ⟨rfl, rfl⟩
    cases sites[i]? with
    | none => exact Sim.error trivial
    | some pos =>
      simp only
      obtain ⟨v, hv, hg⟩ := repPS_get hn "discretization"
      refine Sim.of_eq (hg _) ?_
      rw [lift_bind_eq]
      refine Sim.bind (nearestH_sim _ hv pos trivial) ?_
      rintro h' inear _ ⟨rfl, rfl⟩
      exact deathPointsH_sim _ i inear pos _ ho hn

/-! ### the k-d tree -/

theorem withKdH_sim {h : Heap} {F : Set Addr} (k : Kind) {s : PSState} {a : Addr} (hr : Firm F h (RepPS · s a)) :
    Sim AnyHeap (fun h' _ s' => Keep Set.univ h h' ∧ Firm F h' (RepPS · s' a)) h (k.withKdH a)
      (M.lift (k.withKd s)) := by
  have hid : Sim AnyHeap (fun h' _ s' => Keep Set.univ h h' ∧ Firm F h' (RepPS · s' a)) h (Pure.pure () : HM Unit)
      (M.lift (.ok s)) := fun _ => ⟨rfl, keep_refl h, hr⟩
  cases k with
  | plain => exact hid
  | vor1 v => exact hid
  | vor2 v =>
    rw [Kind.withKdH, Kind.withKd]
    split
    · obtain ⟨n, vals, kd₀⟩ := s
      obtain ⟨vs, attrs, kd, ho, hv⟩ := firm_ps hr
      rw [addKdH, addKd]
      refine Sim.of_eq (readPS_bind ho _) ?_
      simp only [PSState.get, PSState.vals]
      have hg := hv.imp fun _ h => repVals_get "discretization" h
      rcases firm_opt hg with ⟨h1, h2⟩ | ⟨v, b, h1, h2, hb⟩
      · rw [h1, h2]; exact Sim.error trivial
      · rw [h1, h2]
        simp only
        cases v with
        | arr z =>
          have hz : RepVal h (.arr z) b := hb.here
          rw [RepVal] at hz
          refine Sim.of_eq (read_bind hz _) ?_
          cases z with
          | vec xs => exact Sim.error trivial
          | pts ps =>
            have hk : Keep Set.univ h (h.set a (.ps n vs attrs (some ps))) := keep_kd ho
            refine fun _ => ⟨rfl, hk, ?_⟩
            refine (hr.keep' hk).imp fun h' hh => ?_
            rw [RepPS] at hh ⊢
            exact hh
        | states l =>
          obtain ⟨as, h3, _⟩ := firm_list hb
          exact Sim.of_eq (read_bind h3 _) (Sim.error trivial)
        | objs l =>
          obtain ⟨as, h3, _⟩ := firm_objs hb
          exact Sim.of_eq (read_bind h3 _) (Sim.error trivial)
    · exact hid

/-! ### births -/

theorem birthValuesH_sim {h₀ : Heap} {F : Set Addr} (ps : ParamList) (i : ℕ) : ∀ (vals : List (String × PVal))
    {vs : List (String × Addr)} {h : Heap}, Ctx h₀ F h → Firm F h (RepVals · vals vs) →
    Sim AnyHeap (Made F h RepVals) h (birthValuesH ps i vs) (birthValues ps i vals)
  | [], vs, h, c, hv => by
    rw [firm_vals_nil hv]
    exact Sim.pure (b := []) ⟨keep_refl h, Firm.pure fun _ => by rw [RepVals]⟩
  | (k, v) :: rest, vs, h, c, hv => by
    obtain ⟨b, vs', rfl, hb, hr⟩ := firm_vals_cons hv
    rw [birthValuesH.eq_def, birthValues.eq_def]
    simp only
    refine Sim.bind (R := Made F h RepH) ?_ ?_
    · cases ps.get? k with
      | none => exact Sim.throw trivial
      | some p =>
        cases p with
        | prior p =>
          simp only
          refine Sim.bind (Sim.ofM _ trivial) ?_
          rintro h' x _ ⟨rfl, rfl⟩
          exact Sim.pure (b := NVal.num x) ⟨keep_refl _, Firm.pure fun _ => rfl⟩
        | space s =>
          simp only
          refine Sim.bind (fresh_made c _) ?_
          rintro h' a s' ⟨hk, hf⟩
          exact Sim.pure (b := NVal.ps s') ⟨hk, hf⟩
    · rintro h₁ x x' ⟨k₁, hx⟩
      refine Sim.bind (insertAtH_sim (c.step k₁) (v := some v) (b := some b) (hb.keep' k₁) i hx) ?_
      rintro h₂ b' v' ⟨k₂, hv'⟩
      refine Sim.bind (birthValuesH_sim ps i rest ((c.step k₁).step k₂) ((hr.keep' k₁).keep' k₂)) ?_
      rintro h₃ vs₃ vals₃ ⟨k₃, hr₃⟩
      exact Sim.pure (b := (k, v') :: vals₃) ⟨(k₁.trans k₂).trans k₃, firm_cons (hv'.keep' k₃) hr₃⟩

theorem plainBirthH_sim {h₀ h : Heap} {F : Set Addr} (info : Info) (ps : ParamList) {s : PSState} {a : Addr}
    (c : Ctx h₀ F h) (hr : Firm F h (RepPS · s a)) :
    Sim AnyHeap (MadeL F h RepPS) h (plainBirthH info ps a) (plainBirth info ps s) := by
  obtain ⟨n, vals, kd₀⟩ := s
  obtain ⟨vs, attrs, kd, ho, hv⟩ := firm_ps hr
  rw [plainBirthH, plainBirth]
  refine Sim.of_eq (readPS_bind ho _) ?_
  simp only [PSState.n, PSState.vals]
  by_cases hn : n = info.hi
  · rw [if_pos hn]
    refine Sim.of_eq_right (if_pos hn) ?_
    exact Sim.pure (b := (PSState.mk n vals kd₀, PyF.ninf)) ⟨keep_refl h, hr, rfl⟩
  · rw [if_neg hn]
    refine Sim.of_eq_right (if_neg hn) ?_
    refine Sim.bind (Sim.ofM _ trivial) ?_
    rintro h' i _ ⟨rfl, rfl⟩
    refine Sim.bind (birthValuesH_sim ps i vals c hv) ?_
    rintro h₁ vs₁ vals₁ ⟨k₁, hv₁⟩
    refine Sim.bind (mkPSH_made (c.step k₁) (n + 1) hv₁) ?_
    rintro h₂ a₂ s₂ ⟨k₂, hr₂⟩
    exact Sim.pure (b := (s₂, PyF.fin 0)) ⟨k₁.trans k₂, hr₂, rfl⟩

theorem plainDeathH_sim {h₀ h : Heap} {F : Set Addr} (info : Info) {s : PSState} {a : Addr}
    (c : Ctx h₀ F h) (hr : Firm F h (RepPS · s a)) :
    Sim AnyHeap (MadeL F h RepPS) h (plainDeathH info a) (plainDeath info s) := by
  obtain ⟨n, vals, kd₀⟩ := s
  obtain ⟨vs, attrs, kd, ho, hv⟩ := firm_ps hr
  rw [plainDeathH, plainDeath]
  refine Sim.of_eq (readPS_bind ho _) ?_
  simp only [PSState.n, PSState.vals]
  by_cases hn : n = info.lo
  · rw [if_pos hn]
    refine Sim.of_eq_right (if_pos hn) ?_
    exact Sim.pure (b := (PSState.mk n vals kd₀, PyF.ninf)) ⟨keep_refl h, hr, rfl⟩
  · rw [if_neg hn]
    refine Sim.of_eq_right (if_neg hn) ?_
    refine Sim.bind (Sim.ofM _ trivial) ?_
    rintro h' i _ ⟨rfl, rfl⟩
    refine Sim.bind (mapValsH_sim (fun _ _ _ c hv => deleteAtH_sim c hv i) vals vs h c hv) ?_
    rintro h₁ vs₁ vals₁ ⟨k₁, hv₁⟩
    refine Sim.bind (mkPSH_made (c.step k₁) (n - 1) hv₁) ?_
    rintro h₂ a₂ s₂ ⟨k₂, hr₂⟩
    exact Sim.pure (b := (s₂, PyF.fin 0)) ⟨k₁.trans k₂, hr₂, rfl⟩

theorem addNewbornH_sim {h₀ : Heap} {F : Set Addr} {old : PSState} {oa : Addr} {add : Option Addr → HVal → HM Addr}
    {add' : Option PVal → NVal → Except PyErr PVal}
    (hadd : ∀ h v b x y, Ctx h₀ F h → Firm F h (OptRep · v b) → Firm F h (RepH · x y) →
      Sim AnyHeap (Made F h RepVal) h (add b y) (M.lift (add' v x))) :
    ∀ (nv : List (String × NVal)) (nv' : List (String × HVal)) (vals : List (String × PVal))
      (vs : List (String × Addr)) {h : Heap}, Ctx h₀ F h → Firm F h (RepPS · old oa) → Firm F h (RepHs · nv nv') →
      Firm F h (RepVals · vals vs) →
      Sim AnyHeap (Made F h RepVals) h (addNewbornH oa add nv' vs) (M.lift (addNewborn old add' nv vals))
  | [], nv', vals, vs, h, c, ho, hn, hv => by
    have h1 := hn.here
    simp only [RepHs] at h1
    subst h1
    exact Sim.pure (b := vals) ⟨keep_refl h, hv⟩
  | (name, x) :: rest, nv', vals, vs, h, c, ho, hn, hv => by
    obtain ⟨y, nv', rfl, hx, hr⟩ := firm_hs_cons hn
    rw [addNewbornH, addNewborn, lift_bind_eq]
    obtain ⟨v, hvo, hg⟩ := firm_get ho name
    refine Sim.of_eq (hg _) ?_
    refine Sim.bind (hadd h _ v x y c hvo hx) ?_
    rintro h₁ b₁ v₁ ⟨k₁, hv₁⟩
    refine (addNewbornH_sim hadd rest nv' (dset vals name v₁) (dset vs name b₁) (c.step k₁) (ho.keep' k₁) (hr.keep' k₁)
      (((hv.keep' k₁).and hv₁).imp fun _ hh => repVals_dset name hh.2 hh.1)).mono (fun _ h => h) ?_
    rintro h₂ vs₂ vals₂ ⟨k₂, hv₂⟩
    exact ⟨k₁.trans k₂, hv₂⟩

theorem firm_single {h₀ h : Heap} {F : Set Addr} (c : Ctx h₀ F h) (k : String) (x : Arr) :
    Firm F (h ++ [.arr x]) (RepVals · [(k, .arr x)] [(k, h.length)]) :=
  firm_cons (made_arr c x) (Firm.pure fun _ => by rw [RepVals])

theorem vorBirthH_sim {h₀ h : Heap} {F : Set Addr} (sp : Space) {s : PSState} {a : Addr}
    (c : Ctx h₀ F h) (hr : Firm F h (RepPS · s a)) :
    Sim AnyHeap (MadeL F h RepPS) h (vorBirthH sp a) (vorBirth sp s) := by
  rw [vorBirthH, vorBirth]
  cases sp.info.kind with
  | plain => exact Sim.throw trivial
  | vor1 v =>
    simp only
    refine Sim.bind (Sim.ofM _ trivial) ?_
    rintro h' x _ ⟨rfl, rfl⟩
    refine Sim.bind (newbornH_sim sp (.one x) c hr) ?_
    rintro h₁ ⟨nv, lpr⟩ ⟨nv', lpr'⟩ ⟨k₁, hnv, rfl⟩
    have c₁ := c.step k₁
    have hr₁ := hr.keep' k₁
    obtain ⟨n, vals, kd₀⟩ := s
    obtain ⟨vs, attrs, kd, ho, hv⟩ := firm_ps hr₁
    simp only
    refine Sim.of_eq (readPS_bind ho _) ?_
    simp only [PSState.get, PSState.vals]
    rcases firm_opt (hv.imp fun _ h => repVals_get "discretization" h) with ⟨h1, h2⟩ | ⟨v, b, h1, h2, hb⟩
    · rw [h1, h2]; exact Sim.throw trivial
    · rw [h1, h2]
      simp only
      cases v with
      | arr z =>
        have hz : RepVal h₁ (.arr z) b := hb.here
        rw [RepVal] at hz
        refine Sim.of_eq (read_bind hz _) ?_
        cases z with
        | pts ps => exact Sim.throw trivial
        | vec xs =>
          simp only
          refine Sim.bind (Sim.lift _ trivial) ?_
          rintro h' sites _ ⟨rfl, rfl⟩
          refine Sim.of_eq (alloc_bind _ _) ?_
          have k₂ : Keep Set.univ h₁ (h₁ ++ [.arr (.vec sites)]) := keep_prefix (prefix_snoc _)
          refine Sim.bind (addNewbornH_sim (fun _ _ _ _ _ c hv hx => insertAtH_sim c hv _ hx) nv' nv _ _ (c₁.step k₂)
            (hr₁.keep' k₂) (hnv.keep' k₂) (firm_single c₁ _ _)) ?_
          rintro h₃ vs₃ vals₃ ⟨k₃, hv₃⟩
          refine Sim.bind (mkPSH_made ((c₁.step k₂).step k₃) (n + 1) hv₃) ?_
          rintro h₄ a₄ s₄ ⟨k₄, hr₄⟩
          exact Sim.pure (b := (s₄, lpr)) ⟨((k₁.trans k₂).trans k₃).trans k₄, hr₄, rfl⟩
      | states l =>
        obtain ⟨as, h3, _⟩ := firm_list hb
        exact Sim.of_eq (read_bind h3 _) (Sim.throw trivial)
      | objs l =>
        obtain ⟨as, h3, _⟩ := firm_objs hb
        exact Sim.of_eq (read_bind h3 _) (Sim.throw trivial)
  | vor2 v =>
    simp only
    refine Sim.bind (Sim.ofM _ trivial) ?_
    rintro h' p _ ⟨rfl, rfl⟩
    refine Sim.bind (newbornH_sim sp (.two p) c hr) ?_
    rintro h₁ ⟨nv, lpr⟩ ⟨nv', lpr'⟩ ⟨k₁, hnv, rfl⟩
    have c₁ := c.step k₁
    have hr₁ := hr.keep' k₁
    obtain ⟨n, vals, kd₀⟩ := s
    obtain ⟨vs, attrs, kd, ho, hv⟩ := firm_ps hr₁
    simp only
    refine Sim.of_eq (readPS_bind ho _) ?_
    simp only [PSState.get, PSState.vals]
    rcases firm_opt (hv.imp fun _ h => repVals_get "discretization" h) with ⟨h1, h2⟩ | ⟨v, b, h1, h2, hb⟩
    · rw [h1, h2]; exact Sim.throw trivial
    · rw [h1, h2]
      simp only
      cases v with
      | arr z =>
        have hz : RepVal h₁ (.arr z) b := hb.here
        rw [RepVal] at hz
        refine Sim.of_eq (read_bind hz _) ?_
        cases z with
        | vec xs => exact Sim.throw trivial
        | pts ps =>
          simp only
          refine Sim.of_eq (alloc_bind _ _) ?_
          have k₂ : Keep Set.univ h₁ (h₁ ++ [.arr (.pts (ps ++ [p]))]) := keep_prefix (prefix_snoc _)
          refine Sim.bind (addNewbornH_sim (fun _ _ _ _ _ c hv hx => appendH_sim c hv hx) nv' nv _ _ (c₁.step k₂)
            (hr₁.keep' k₂) (hnv.keep' k₂) (firm_single c₁ _ _)) ?_
          rintro h₃ vs₃ vals₃ ⟨k₃, hv₃⟩
          refine Sim.bind (mkPSH_made ((c₁.step k₂).step k₃) (n + 1) hv₃) ?_
          rintro h₄ a₄ s₄ ⟨k₄, hr₄⟩
          exact Sim.pure (b := (s₄, lpr)) ⟨((k₁.trans k₂).trans k₃).trans k₄, hr₄, rfl⟩
      | states l =>
        obtain ⟨as, h3, _⟩ := firm_list hb
        exact Sim.of_eq (read_bind h3 _) (Sim.throw trivial)
      | objs l =>
        obtain ⟨as, h3, _⟩ := firm_objs hb
        exact Sim.of_eq (read_bind h3 _) (Sim.throw trivial)

theorem withKd_bind {h₁ h : Heap} {F : Set Addr} (k : Kind) {s : PSState} {a : Addr} {lpr : PyF}
    (k₁ : Keep Set.univ h h₁) (hr : Firm F h₁ (RepPS · s a)) :
    Sim AnyHeap (MadeL F h RepPS) h₁ (k.withKdH a >>= fun _ => Pure.pure (a, lpr))
      (M.lift (k.withKd s) >>= fun s => Pure.pure (s, lpr)) := by
  refine Sim.bind (withKdH_sim k hr) ?_
  rintro h₂ - s₂ ⟨k₂, hr₂⟩
  exact Sim.pure (b := (s₂, lpr)) ⟨k₁.trans k₂, hr₂, rfl⟩

theorem birthH_sim {h₀ h : Heap} {F : Set Addr} (sp : Space) {s : PSState} {a : Addr}
    (c : Ctx h₀ F h) (hr : Firm F h (RepPS · s a)) :
    Sim AnyHeap (MadeL F h RepPS) h (sp.birthH a) (sp.birth s) := by
  rw [Space.birthH, Space.birth]
  split
  · have hn : ∃ vs attrs kd, h[a]? = some (.ps s.n vs attrs kd) := by
      obtain ⟨n, vals, kd₀⟩ := s
      obtain ⟨vs, attrs, kd, ho, _⟩ := firm_ps hr
      exact ⟨vs, attrs, kd, ho⟩
    obtain ⟨vs, attrs, kd, ho⟩ := hn
    refine Sim.of_eq (readPS_bind ho _) ?_
    refine Sim.bind (R := MadeL F h RepPS) ?_ ?_
    · split
      · exact Sim.pure (b := (s, PyF.ninf)) ⟨keep_refl h, hr, rfl⟩
      · exact vorBirthH_sim sp c hr
    · rintro h₁ ⟨a₁, l⟩ ⟨s₁, l'⟩ ⟨k₁, hr₁, rfl⟩
      exact withKd_bind _ k₁ hr₁
  · exact plainBirthH_sim _ _ c hr

/-! ### deaths -/

theorem vorDeathH_sim {h₀ h : Heap} {F : Set Addr} (sp : Space) {s : PSState} {a : Addr}
    (c : Ctx h₀ F h) (hr : Firm F h (RepPS · s a)) :
    Sim AnyHeap (MadeL F h RepPS) h (vorDeathH sp a) (vorDeath sp s) := by
  obtain ⟨n, vals, kd₀⟩ := s
  obtain ⟨vs, attrs, kd, ho, hv⟩ := firm_ps hr
  rw [vorDeathH, vorDeath]
  refine Sim.of_eq (readPS_bind ho _) ?_
  simp only [PSState.n, PSState.vals]
  refine Sim.bind (Sim.ofM _ trivial) ?_
  rintro h' i _ ⟨rfl, rfl⟩
  have hd : ∀ h v b, Ctx h₀ F h → Firm F h (RepVal · v b) → Sim AnyHeap (Made F h RepVal) h
      (match sp.info.kind with | .vor2 _ => npDeleteH b i | _ => deleteAtH b i)
      (M.lift (match sp.info.kind with | .vor2 _ => v.npDelete i | _ => v.deleteAt i)) := by
    intro h v b c hv
    cases sp.info.kind with
    | vor2 w => exact npDeleteH_sim c hv i
    | vor1 w => exact deleteAtH_sim c hv i
    | plain => exact deleteAtH_sim c hv i
  refine Sim.bind (mapValsH_sim hd vals vs h c hv) ?_
  rintro h₁ vs₁ vals₁ ⟨k₁, hv₁⟩
  refine Sim.bind (mkPSH_made (c.step k₁) (n - 1) hv₁) ?_
  rintro h₂ a₂ s₂ ⟨k₂, hr₂⟩
  refine Sim.bind (deathRatioH_sim sp i ((hr.keep' k₁).keep' k₂).here hr₂.here) ?_
  rintro h' lpr _ ⟨rfl, rfl⟩
  exact Sim.pure (b := (s₂, lpr)) ⟨k₁.trans k₂, hr₂, rfl⟩

theorem deathH_sim {h₀ h : Heap} {F : Set Addr} (sp : Space) {s : PSState} {a : Addr}
    (c : Ctx h₀ F h) (hr : Firm F h (RepPS · s a)) :
    Sim AnyHeap (MadeL F h RepPS) h (sp.deathH a) (sp.death s) := by
  rw [Space.deathH, Space.death]
  split
  · have hn : ∃ vs attrs kd, h[a]? = some (.ps s.n vs attrs kd) := by
      obtain ⟨n, vals, kd₀⟩ := s
      obtain ⟨vs, attrs, kd, ho, _⟩ := firm_ps hr
      exact ⟨vs, attrs, kd, ho⟩
    obtain ⟨vs, attrs, kd, ho⟩ := hn
    refine Sim.of_eq (readPS_bind ho _) ?_
    refine Sim.bind (R := MadeL F h RepPS) ?_ ?_
    · split
      · exact Sim.pure (b := (s, PyF.ninf)) ⟨keep_refl h, hr, rfl⟩
      · exact vorDeathH_sim sp c hr
    · rintro h₁ ⟨a₁, l⟩ ⟨s₁, l'⟩ ⟨k₁, hr₁, rfl⟩
      exact withKd_bind _ k₁ hr₁
  · exact plainDeathH_sim _ c hr

/-! ### moves of the sites -/

theorem moveValuesH_sim {h₀ : Heap} {F : Set Addr} {old : PSState} {oa : Addr} (isite : ℕ) (p q : Pos)
    {f : Addr → HM Addr} {f' : PVal → Except PyErr PVal}
    (hf : ∀ h v b, Ctx h₀ F h → Firm F h (RepVal · v b) → Sim AnyHeap (Made F h RepVal) h (f b) (M.lift (f' v))) :
    ∀ (ps : List (String × Param)) (vals : List (String × PVal)) (vs : List (String × Addr)) (lpr : PyF) {h : Heap},
      Ctx h₀ F h → Firm F h (RepPS · old oa) → Firm F h (RepVals · vals vs) →
      Sim AnyHeap (MadeL F h RepVals) h (moveValuesH oa isite p q f ps vs lpr)
        (M.lift (moveValues old isite p q f' ps vals lpr))
  | [], vals, vs, lpr, h, c, ho, hv => Sim.pure (b := (vals, lpr)) ⟨keep_refl h, hv, rfl⟩
  | (name, pr) :: rest, vals, vs, lpr, h, c, ho, hv => by
    rw [moveValuesH.eq_def, moveValues.eq_def]
    simp only
    obtain ⟨v, hvo, hg⟩ := firm_get ho name
    refine Sim.of_eq (hg _) ?_
    rw [lift_bind_eq]
    refine Sim.bind (R := fun h' x y => h = h' ∧ x = y) ?_ ?_
    · cases pr with
      | space s => exact Sim.pure (b := lpr) ⟨rfl, rfl⟩
      | prior pr =>
        simp only
        split
        · rw [lift_bind_eq]
          refine Sim.bind (numAtH_sim hvo.here isite trivial) ?_
          rintro h' x _ ⟨rfl, rfl⟩
          rw [lift_bind_eq]
          refine Sim.bind (Sim.lift _ trivial) ?_
          rintro h' a _ ⟨rfl, rfl⟩
          rw [lift_bind_eq]
          refine Sim.bind (Sim.lift _ trivial) ?_
          rintro h' b _ ⟨rfl, rfl⟩
          exact Sim.pure (b := lpr.add (b.sub a)) ⟨rfl, rfl⟩
        · exact Sim.pure (b := lpr) ⟨rfl, rfl⟩
    · rintro h' lpr' _ ⟨rfl, rfl⟩
      rw [lift_bind_eq]
      refine Sim.bind (R := Made F h RepVal) ?_ ?_
      · rcases firm_opt hvo with ⟨h1, rfl⟩ | ⟨v', b', h1, rfl, hb⟩
        · rw [h1]; exact Sim.error trivial
        · rw [h1]; exact hf h v' b' c hb
      · rintro h₁ b₁ v₁ ⟨k₁, hv₁⟩
        refine (moveValuesH_sim isite p q hf rest (dset vals name v₁) (dset vs name b₁) lpr' (c.step k₁) (ho.keep' k₁)
          (((hv.keep' k₁).and hv₁).imp fun _ hh => repVals_dset name hh.2 hh.1)).mono (fun _ h => h) ?_
        rintro h₂ ⟨vs₂, l₂⟩ ⟨vals₂, l₂'⟩ ⟨k₂, hv₂, rfl⟩
        exact ⟨k₁.trans k₂, hv₂, rfl⟩

theorem vorMoveH_sim {h₀ h : Heap} {F : Set Addr} (sp : Space) {s : PSState} {a : Addr} (isite : ℕ)
    (c : Ctx h₀ F h) (hr : Firm F h (RepPS · s a)) :
    Sim AnyHeap (MadeL F h RepPS) h (vorMoveH sp a isite) (vorMove sp s isite) := by
  rw [vorMoveH, vorMove]
  cases sp.info.kind with
  | plain => exact Sim.throw trivial
  | vor1 v =>
    simp only
    obtain ⟨n, vals, kd₀⟩ := s
    obtain ⟨vs, attrs, kd, ho, hv⟩ := firm_ps hr
    refine Sim.of_eq (readPS_bind ho _) ?_
    simp only [PSState.get, PSState.vals]
    rcases firm_opt (hv.imp fun _ h => repVals_get "discretization" h) with ⟨h1, h2⟩ | ⟨w, b, h1, h2, hb⟩
    · rw [h1, h2]; exact Sim.throw trivial
    · rw [h1, h2]
      simp only
      cases w with
      | arr z =>
        have hz : RepVal h (.arr z) b := hb.here
        rw [RepVal] at hz
        refine Sim.of_eq (read_bind hz _) ?_
        cases z with
        | pts ps => exact Sim.throw trivial
        | vec xs =>
          simp only
          cases hx : xs[isite]? with
          | none => exact Sim.throw trivial
          | some x =>
            have hi : isite < xs.length := by
              by_contra hi
              rw [List.getElem?_eq_none (Nat.le_of_not_lt hi)] at hx
              cases hx
            simp only
            refine Sim.bind (Sim.ofM _ trivial) ?_
            rintro h' y _ ⟨rfl, rfl⟩
            refine Sim.of_eq (alloc_bind _ _) ?_
            have he : ∀ f : Unit → HM (Addr × PyF), (setItemH (some h.length) isite y >>= f)
                (h ++ [.arr (.vec xs)]) = f () (h ++ [.arr (.vec (xs.set isite y))]) := by
              intro f
              rw [setItemH, bind_assoc', read_bind (get_snoc _)]
              simp only [hi, if_true]
              rw [write_bind, set_snoc]
            refine Sim.of_eq (he _) ?_
            have k₁ : Keep Set.univ h (h ++ [.arr (.vec (xs.set isite y))]) := keep_prefix (prefix_snoc _)
            rw [gatherH, bind_assoc']
            refine Sim.of_eq (read_bind (get_snoc _) _) ?_
            simp only
            rw [bind_assoc']
            refine Sim.bind (Sim.lift _ trivial) ?_
            rintro h' sites _ ⟨rfl, rfl⟩
            refine Sim.of_eq (alloc_bind _ _) ?_
            have c₁ := c.step k₁
            have k₂ := k₁.trans (keep_prefix (F := Set.univ)
              (prefix_snoc (h := h ++ [.arr (.vec (xs.set isite y))]) (.arr (.vec sites))))
            refine Sim.bind (moveValuesH_sim isite (.one x) (.one y) (fun _ _ _ c hv => gatherH_sim c hv _) _ _ _ _
              (c.step k₂) (hr.keep' k₂) (firm_single c₁ _ _)) ?_
            rintro h₃ ⟨vs₃, lpr⟩ ⟨vals₃, lpr'⟩ ⟨k₃, hv₃, rfl⟩
            refine Sim.bind (mkPSH_made ((c.step k₂).step k₃) n hv₃) ?_
            rintro h₄ a₄ s₄ ⟨k₄, hr₄⟩
            exact Sim.pure (b := (s₄, lpr)) ⟨(k₂.trans k₃).trans k₄, hr₄, rfl⟩
      | states l =>
        obtain ⟨as, h3, _⟩ := firm_list hb
        exact Sim.of_eq (read_bind h3 _) (Sim.throw trivial)
      | objs l =>
        obtain ⟨as, h3, _⟩ := firm_objs hb
        exact Sim.of_eq (read_bind h3 _) (Sim.throw trivial)
  | vor2 v =>
    simp only
    obtain ⟨n, vals, kd₀⟩ := s
    obtain ⟨vs, attrs, kd, ho, hv⟩ := firm_ps hr
    refine Sim.of_eq (readPS_bind ho _) ?_
    simp only [PSState.get, PSState.vals]
    rcases firm_opt (hv.imp fun _ h => repVals_get "discretization" h) with ⟨h1, h2⟩ | ⟨w, b, h1, h2, hb⟩
    · rw [h1, h2]; exact Sim.throw trivial
    · rw [h1, h2]
      simp only
      cases w with
      | arr z =>
        have hz : RepVal h (.arr z) b := hb.here
        rw [RepVal] at hz
        refine Sim.of_eq (read_bind hz _) ?_
        cases z with
        | vec xs => exact Sim.throw trivial
        | pts ps =>
          simp only
          cases hx : ps[isite]? with
          | none => exact Sim.throw trivial
          | some p =>
            simp only
            refine Sim.bind (Sim.ofM _ trivial) ?_
            rintro h' q _ ⟨rfl, rfl⟩
            refine Sim.of_eq (alloc_bind _ _) ?_
            refine Sim.of_eq (write_bind _ _ _) ?_
            rw [set_snoc]
            have k₁ : Keep Set.univ h (h ++ [.arr (.pts (ps.set isite q))]) := keep_prefix (prefix_snoc _)
            refine Sim.bind (moveValuesH_sim isite (.two p) (.two q) (f' := fun v => .ok v)
              (fun h v b c hv => Sim.pure (b := v) ⟨keep_refl _, hv⟩) _ _ _ _
              (c.step k₁) (hr.keep' k₁) (firm_single c _ _)) ?_
            rintro h₃ ⟨vs₃, lpr⟩ ⟨vals₃, lpr'⟩ ⟨k₃, hv₃, rfl⟩
            refine Sim.bind (mkPSH_made ((c.step k₁).step k₃) n hv₃) ?_
            rintro h₄ a₄ s₄ ⟨k₄, hr₄⟩
            exact Sim.pure (b := (s₄, lpr)) ⟨(k₁.trans k₃).trans k₄, hr₄, rfl⟩
      | states l =>
        obtain ⟨as, h3, _⟩ := firm_list hb
        exact Sim.of_eq (read_bind h3 _) (Sim.throw trivial)
      | objs l =>
        obtain ⟨as, h3, _⟩ := firm_objs hb
        exact Sim.of_eq (read_bind h3 _) (Sim.throw trivial)

theorem perturbSiteH_sim {h₀ h : Heap} {F : Set Addr} (sp : Space) {s : PSState} {a : Addr} (isite : ℕ)
    (c : Ctx h₀ F h) (hr : Firm F h (RepPS · s a)) :
    Sim AnyHeap (MadeL F h RepPS) h (sp.perturbSiteH a isite) (sp.perturbSite s isite) := by
  rw [Space.perturbSiteH, Space.perturbSite]
  refine Sim.bind (vorMoveH_sim sp isite c hr) ?_
  rintro h₁ ⟨a₁, l⟩ ⟨s₁, l'⟩ ⟨k₁, hr₁, rfl⟩
  exact withKd_bind _ k₁ hr₁

/-! ### new values -/

theorem perturbPriorsH_made {h₀ : Heap} {F : Set Addr} {s : PSState} {a : Addr} (idx : ℕ) : ∀ (priors : List Prior)
    (acc : List (String × PVal)) (vs : List (String × Addr)) (lpr : PyF) {h : Heap}, Ctx h₀ F h →
    Firm F h (RepPS · s a) → Firm F h (RepVals · acc vs) →
    Sim AnyHeap (MadeL F h RepVals) h (perturbPriorsH a idx priors vs lpr) (perturbPriors s idx priors acc lpr)
  | [], acc, vs, lpr, h, c, _, hv => Sim.pure (b := (acc, lpr)) ⟨keep_refl h, hv, rfl⟩
  | p :: rest, acc, vs, lpr, h, c, hr, hv => by
    rw [perturbPriorsH, perturbPriors]
    obtain ⟨b, hb, hg⟩ := firm_get hr p.name
    refine Sim.of_eq (hg _) ?_
    rcases firm_opt hb with ⟨h1, rfl⟩ | ⟨v, b, h1, rfl, hb⟩
    · rw [h1]; exact Sim.throw trivial
    · rw [h1]
      simp only
      cases v with
      | states l =>
        obtain ⟨as, ho, _⟩ := firm_list hb
        exact Sim.of_eq (read_bind ho _) (Sim.throw trivial)
      | objs l =>
        obtain ⟨as, ho, _⟩ := firm_objs hb
        exact Sim.of_eq (read_bind ho _) (Sim.throw trivial)
      | arr x =>
        have hz : RepVal h (.arr x) b := hb.here
        rw [RepVal] at hz
        refine Sim.of_eq (read_bind hz _) ?_
        cases x with
        | pts ps => exact Sim.throw trivial
        | vec xs =>
          refine Sim.of_eq (alloc_bind _ _) ?_
          have hk := keep_prefix (F := Set.univ) (prefix_snoc (h := h) (.arr (.vec xs)))
          have hn := numAtH_sim (X := AnyHeap) (v := some (.arr (.vec xs))) (b := some b)
            (hb.keep' hk).here idx trivial
          refine Sim.bind hn.lift_ok ?_
          rintro h' old _ ⟨⟨rfl, rfl⟩, hnum⟩
          have hi : idx < xs.length := by
            by_contra hi
            simp [numAt, List.getElem?_eq_none (Nat.le_of_not_lt hi)] at hnum
          refine Sim.bind (posAtH_sim (hr.keep' hk).here idx trivial) ?_
          rintro h' pos _ ⟨rfl, rfl⟩
          refine Sim.bind (Sim.ofM _ trivial) ?_
          rintro h' ⟨new, r⟩ _ ⟨rfl, rfl⟩
          simp only
          have he : ∀ f : Unit → HM (List (String × Addr) × PyF), (setItemH (some h.length) idx new >>= f)
              (h ++ [.arr (.vec xs)]) = f () (h ++ [.arr (.vec (xs.set idx new))]) := by
            intro f
            rw [setItemH, bind_assoc', read_bind (get_snoc _)]
            simp only [hi, if_true]
            rw [write_bind, set_snoc]
          refine Sim.of_eq (he _) ?_
          have k₁ : Keep Set.univ h (h ++ [.arr (.vec (xs.set idx new))]) := keep_prefix (prefix_snoc _)
          refine (perturbPriorsH_made idx rest (dset acc p.name (.arr (.vec (xs.set idx new))))
            (dset vs p.name h.length) (lpr.add r) (c.step k₁) (hr.keep' k₁)
            (((hv.keep' k₁).and (made_arr c _)).imp fun _ hh => repVals_dset _ hh.2 hh.1)).mono (fun _ h => h) ?_
          rintro h₂ ⟨vs₂, l₂⟩ ⟨vals₂, l₂'⟩ ⟨k₂, hv₂, rfl⟩
          exact ⟨k₁.trans k₂, hv₂, rfl⟩

theorem valuesH_made {h₀ h : Heap} {F : Set Addr} {s : PSState} {a : Addr} {fuel : ℕ} (nm : String)
    (priors : List Prior) (c : Ctx h₀ F h) (hr : RepPS h₀ s a) (hv : ValidPS s) (hd : depthPS s ≤ fuel) :
    Sim AnyHeap (MadeL F h RepPS) h ((PSFunc.values nm priors).runH fuel a) ((PSFunc.values nm priors).run s) := by
  have hrf := c.repPS hr
  obtain ⟨n, vals, kd₀⟩ := s
  obtain ⟨vs₀, attrs₀, kd, ho, hv₀⟩ := firm_ps hrf
  rw [PSFunc.runH, PSFunc.run]
  refine Sim.of_eq (readPS_bind ho _) ?_
  refine Sim.bind (Sim.ofM _ trivial) ?_
  rintro h' idx _ ⟨rfl, rfl⟩
  refine Sim.bind (perturbPriorsH_made idx priors [] [] (.fin 0) c hrf (Firm.pure fun _ => by rw [RepVals])) ?_
  rintro h₁ ⟨new, lpr⟩ ⟨new', lpr'⟩ ⟨k₁, hnew, rfl⟩
  have c₁ := c.step k₁
  simp only at hnew ⊢
  intro t
  obtain ⟨b, h₂, hc, g, hle, own, hkd⟩ := copyPS_run 0 h₀ (.mk n vals kd₀) a fuel h₁ t c₁.keep hr hv hd (.inl rfl)
    (Nat.zero_le _)
  obtain ⟨vs₁, attrs₁, kd₁, ho₁, -⟩ := firm_ps (hrf.keep' k₁)
  obtain ⟨vs', hb⟩ := hkd n vs₁ attrs₁ kd₁ ho₁
  rw [bind_of hc]
  have he : ∀ (f : _ → HM (Addr × PyF)), (readPS b >>= f) h₂ = f (n, vs', attrsOf vs', kd₁) h₂ :=
    fun f => readPS_bind hb f
  rw [he]
  have hp₁ : h₁ <+: h₂ := g.pre
  have hp₂ : h₁ <+: h₂.set b (.ps n (dupdate vs' new) (attrsOf vs') kd₁) := prefix_set hp₁ hle _
  refine ⟨rfl, k₁.trans (keep_prefix hp₂), ?_, rfl⟩
  rw [OwnPS] at own
  obtain ⟨vs, attrs, kd', F', hb', hown, hnot, hmem, hsub⟩ := own
  rw [hb] at hb'; cases hb'
  change Firm F (h₂.set b (.ps n (dupdate vs' new) (attrsOf vs') kd₁)) (RepPS · (.mk n (dupdate vals new') kd₀) b)
  have hbF : b ∉ F := c₁.fresh hle
  intro h₃ hk₃
  rw [RepPS]
  obtain ⟨kd₃, h4⟩ := hk₃.ps hbF (set_self hb)
  refine ⟨_, _, kd₃, h4, repVals_dupdate ?_ ((hnew.keep' (keep_prefix hp₂)) h₃ hk₃)⟩
  refine ownVals_rep (ownVals_keep (G := Old h₀) (F := F') ?_ ?_ hown)
  · refine (keep_set ?_).trans (hk₃.mono ?_)
    · intro hlt
      exact absurd hlt (not_lt.2 ((keep_length c₁.keep).trans hle))
    · intro x hx hf
      exact absurd hx (not_lt.2 (c.new x hf))
  · refine (keep_set hnot).trans (hk₃.mono ?_)
    intro x hx
    exact c₁.fresh (hsub hx).1

theorem runH_sim {h₀ h : Heap} {F : Set Addr} {s : PSState} {a : Addr} {fuel : ℕ} (f : PSFunc)
    (c : Ctx h₀ F h) (hr : RepPS h₀ s a) (hv : ValidPS s) (hd : depthPS s ≤ fuel) :
    Sim AnyHeap (MadeL F h RepPS) h (f.runH fuel a) (f.run s) := by
  have hrf := c.repPS hr
  cases f with
  | birth sp => exact birthH_sim sp c hrf
  | death sp => exact deathH_sim sp c hrf
  | values nm priors => exact valuesH_made nm priors c hr hv hd
  | site sp =>
    rw [PSFunc.runH, PSFunc.run]
    have hn : ∃ vs attrs kd, h[a]? = some (.ps s.n vs attrs kd) := by
      obtain ⟨n, vals, kd₀⟩ := s
      obtain ⟨vs, attrs, kd, ho, _⟩ := firm_ps hrf
      exact ⟨vs, attrs, kd, ho⟩
    obtain ⟨vs, attrs, kd, ho⟩ := hn
    refine Sim.of_eq (readPS_bind ho _) ?_
    refine Sim.bind (Sim.ofM _ trivial) ?_
    rintro h' idx _ ⟨rfl, rfl⟩
    exact perturbSiteH_sim sp idx c hrf

theorem perturbPSH_sim {h₀ h : Heap} {F : Set Addr} {s : PSState} {a : Addr} {fuel : ℕ} (g : PSPert)
    (c : Ctx h₀ F h) (hr : RepPS h₀ s a) (hv : ValidPS s) (hd : depthPS s ≤ fuel) :
    Sim AnyHeap (fun h' r r' => Keep Set.univ h h' ∧ Firm F h' (RepPS · r'.1 r.1) ∧ r.2 = r'.2) h
      (g.perturbPSH fuel a) (g.perturbPS s) := by
  rw [PSPert.perturbPSH, PSPert.perturbPS]
  refine Sim.bind (Sim.ofM _ trivial) ?_
  rintro h' i _ ⟨rfl, rfl⟩
  cases g.funcs[i]? with
  | none => exact Sim.throw trivial
  | some f =>
    simp only
    refine Sim.bind (runH_sim f c hr hv hd) ?_
    rintro h₁ ⟨a₁, l⟩ ⟨s₁, l'⟩ ⟨k₁, hr₁, rfl⟩
    exact Sim.pure (b := (s₁, l, f.name)) ⟨k₁, hr₁, rfl⟩

end BB.Lemmas
