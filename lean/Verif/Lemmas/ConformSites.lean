import Verif.Lemmas.ConformMoves

/-!
# The invariant of parameter-space states: moves of sites and perturbations of values
-/

namespace BB.Lemmas

open BB BB.Spec

/-! ### moves -/

theorem gather_ok {α : Type} {xs : List α} : ∀ {is : List ℕ} {ys : List α},
    gather xs is = .ok ys ↔ List.Forall₂ (fun i y => xs[i]? = some y) is ys
  | [], ys => by
    rw [gather, List.forall₂_nil_left_iff, Except.ok.injEq]; exact eq_comm
  | i :: is, ys => by
    rw [gather.eq_def, List.forall₂_cons_left_iff]
    simp only
    cases h : xs[i]? with
    | none => simp
    | some x =>
      simp only
      rw [bindE_ok]
      constructor
      · rintro ⟨zs, h1, h2⟩
        rw [pureE_ok] at h2
        exact ⟨x, zs, rfl, gather_ok.1 h1, h2.symm⟩
      · rintro ⟨y, zs, h1, h2, rfl⟩
        injection h1 with h1
        subst h1
        exact ⟨zs, gather_ok.2 h2, rfl⟩

theorem gather_map {α β : Type} {f : α → β} {xs : List α} {is : List ℕ} {ys : List α}
    (h : gather xs is = .ok ys) : gather (xs.map f) is = .ok (ys.map f) := by
  rw [gather_ok] at *
  induction h with
  | nil => exact .nil
  | cons h1 _ ih => exact .cons (by simp [h1]) ih

theorem forall₂_gather {α β : Type} {R : α → β → Prop} {as : List α} {bs : List β}
    (h : List.Forall₂ R as bs) {is : List ℕ} {as' : List α} {bs' : List β}
    (ha : gather as is = .ok as') (hb : gather bs is = .ok bs') : List.Forall₂ R as' bs' := by
  rw [gather_ok] at ha hb
  induction ha generalizing bs' with
  | nil => rw [List.forall₂_nil_left_iff] at hb; subst hb; exact .nil
  | @cons i y is ys h1 _ ih =>
    rw [List.forall₂_cons_left_iff] at hb
    obtain ⟨b, bs'', h2, h3, rfl⟩ := hb
    refine .cons ?_ (ih h3)
    obtain ⟨hi, rfl⟩ := List.getElem?_eq_some_iff.1 h1
    obtain ⟨hj, rfl⟩ := List.getElem?_eq_some_iff.1 h2
    exact (List.forall₂_iff_get.1 h).2 i hi hj

theorem gather_mem {α : Type} {xs ys : List α} {is : List ℕ} (h : gather xs is = .ok ys) :
    ∀ y ∈ ys, y ∈ xs := by
  rw [gather_ok] at h
  induction h with
  | nil => simp
  | cons h1 _ ih =>
    intro y hy
    rcases List.mem_cons.1 hy with rfl | hy
    · exact List.mem_of_getElem? h1
    · exact ih y hy

theorem gather_eq_map {xs ys : List ℝ} {is : List ℕ} (h : gather xs is = .ok ys) :
    ys = is.map fun i => xs.getD i 0 := by
  rw [gather_ok] at h
  induction h with
  | nil => rfl
  | cons h1 _ ih => rw [List.map_cons, ← ih, List.getD_eq_getElem?_getD, h1]; rfl

theorem gather_conf {vs : ValSpec} {p : Param} {poss poss' : List Pos} {v v' : PVal} {is : List ℕ}
    (hv : PConf vs p poss v) (hlen : v.len = poss.length) (hg : gather poss is = .ok poss')
    (h : v.gather is = .ok v') : PConf vs p poss' v' := by
  cases p with
  | prior p =>
    rw [PConf] at *
    obtain ⟨a, rfl, h1, h2⟩ := hv
    cases a with
    | pts ps =>
      obtain ⟨ys, hys, h3⟩ := bindE_ok.1 h
      rw [pureE_ok] at h3
      subst h3
      refine ⟨_, rfl, fun hR => ?_, fun xs hx => by cases hx⟩
      obtain ⟨xs, hx⟩ := h1 hR
      cases hx
    | vec xs =>
      obtain ⟨ys, hys, h3⟩ := bindE_ok.1 h
      rw [pureE_ok] at h3
      subst h3
      refine ⟨_, rfl, fun _ => ⟨_, rfl⟩, fun zs hz _ => ?_⟩
      injection hz with hz
      subst hz
      exact forall₂_gather (h2 xs rfl (by simpa [PVal.len, Arr.len] using hlen)) hg hys
  | space sp =>
    rw [PConf] at *
    obtain ⟨l, hl, h1⟩ := hv
    rcases hl with rfl | ⟨hO, rfl⟩
    · obtain ⟨ys, hys, h3⟩ := bindE_ok.1 h
      rw [pureE_ok] at h3
      subst h3
      exact ⟨_, Or.inl rfl, fun y hy => h1 y (gather_mem hys y hy)⟩
    · obtain ⟨ys, hys, h3⟩ := bindE_ok.1 h
      rw [pureE_ok] at h3
      subst h3
      exact ⟨_, Or.inr ⟨hO, rfl⟩, fun y hy => h1 y (gather_mem hys y hy)⟩

/-- What a move does with one parameter. -/
def KMove (old : PSState) (isite : ℕ) (oldSite newSite : Pos) (f : PVal → Except PyErr PVal)
    (kp : String × Param) (kv : String × PVal) : Prop :=
  kv.1 = kp.1 ∧ ∃ v, old.get kp.1 = some v ∧ f v = .ok kv.2 ∧
    ∀ p, kp.2 = .prior p → p.hasPosition = true → ∃ x a b, numAt (some v) isite = .ok x ∧
      p.logPrior x oldSite = .ok a ∧ p.logPrior x newSite = .ok b ∧ (b.sub a).Ok

theorem moveValues_ok {old : PSState} {isite : ℕ} {oldSite newSite : Pos}
    {f : PVal → Except PyErr PVal} : ∀ {l : List (String × Param)} {acc : List (String × PVal)} {lpr : PyF}
    {out : List (String × PVal) × PyF}, (dkeys acc ++ l.map (·.1)).Nodup →
    moveValues old isite oldSite newSite f l acc lpr = .ok out → out.2.Ok →
    lpr.Ok ∧ ∃ vals, out.1 = acc ++ vals ∧ List.Forall₂ (KMove old isite oldSite newSite f) l vals
  | [], acc, lpr, out, _, h, hok => by
    rw [moveValues] at h
    injection h with h
    subst h
    exact ⟨hok, [], by simp, .nil⟩
  | (name, p) :: l, acc, lpr, out, hk, h, hok => by
    rw [moveValues.eq_def] at h
    simp only at h
    obtain ⟨lpr1, h1, h2⟩ := bindE_ok.1 h
    obtain ⟨v', h3, h4⟩ := bindE_ok.1 h2
    have hk1 : name ∉ dkeys acc := fun hm => (List.nodup_append.1 hk).2.2 _ hm _ (by simp) rfl
    rw [dset_new hk1] at h4
    obtain ⟨h5, vals, h6, h7⟩ := moveValues_ok (by
        have : dkeys (acc ++ [(name, v')]) = dkeys acc ++ [name] := by simp [dkeys]
        rw [this, List.append_assoc]; exact hk) h4 hok
    cases hget : old.get name with
    | none => rw [hget] at h3; cases h3
    | some v =>
      rw [hget] at h3
      simp only at h3
      have h8 : lpr.Ok ∧ ∀ q, p = .prior q → q.hasPosition = true → ∃ x a b, numAt (some v) isite = .ok x ∧
          q.logPrior x oldSite = .ok a ∧ q.logPrior x newSite = .ok b ∧ (b.sub a).Ok := by
        cases p with
        | space sp =>
          simp only [pureE_ok] at h1
          subst h1
          exact ⟨h5, fun q hq => by cases hq⟩
        | prior q =>
          simp only at h1
          by_cases hpos : q.hasPosition = true
          · rw [if_pos hpos] at h1
            obtain ⟨x, e1, h1⟩ := bindE_ok.1 h1
            obtain ⟨a, e2, h1⟩ := bindE_ok.1 h1
            obtain ⟨b, e3, h1⟩ := bindE_ok.1 h1
            rw [pureE_ok] at h1
            subst h1
            obtain ⟨e4, e5⟩ := Ok_add h5
            refine ⟨e4, fun q' hq' _ => ?_⟩
            injection hq' with hq'
            subst hq'
            rw [hget] at e1
            exact ⟨x, a, b, e1, e2, e3, e5⟩
          · rw [if_neg hpos, pureE_ok] at h1
            subst h1
            refine ⟨h5, fun q' hq' hp' => ?_⟩
            injection hq' with hq'
            subst hq'
            exact absurd hp' hpos
      exact ⟨h8.1, (name, v') :: vals, by rw [h6]; simp, .cons ⟨rfl, v, hget, h3, h8.2⟩ h7⟩

theorem forall₂_set_left {α β : Type} {R : α → β → Prop} {as : List α} {bs : List β}
    (h : List.Forall₂ R as bs) {i : ℕ} {a : α} (ha : ∀ b, bs[i]? = some b → R a b) :
    List.Forall₂ R (as.set i a) bs := by
  rw [List.forall₂_iff_get] at *
  refine ⟨by simpa using h.1, fun j hj1 hj2 => ?_⟩
  rw [List.get_eq_getElem, List.get_eq_getElem, List.getElem_set]
  split
  · rename_i hji
    subst hji
    exact ha _ (List.getElem?_eq_getElem hj2)
  · exact h.2 j (by simpa using hj1) hj2

theorem forall₂_set_right {α β : Type} {R : α → β → Prop} {as : List α} {bs : List β}
    (h : List.Forall₂ R as bs) {i : ℕ} {b : β} (ha : ∀ a, as[i]? = some a → R a b) :
    List.Forall₂ R as (bs.set i b) := by
  rw [List.forall₂_iff_get] at *
  refine ⟨by simpa using h.1, fun j hj1 hj2 => ?_⟩
  rw [List.get_eq_getElem, List.get_eq_getElem, List.getElem_set]
  split
  · rename_i hji
    subst hji
    exact ha _ (List.getElem?_eq_getElem hj1)
  · exact h.2 j hj1 (by simpa using hj2)

/-- The values after the site has been moved, before sorting. -/
theorem move_set {vs : ValSpec} {p : Param} (hg : PGood vs p) {poss : List Pos} {v : PVal} {isite : ℕ}
    {oldSite newSite : Pos} (hv : PConf vs p poss v) (ho : poss[isite]? = some oldSite)
    (hm : ∀ q, p = .prior q → q.hasPosition = true → ∃ x a b, numAt (some v) isite = .ok x ∧
      q.logPrior x oldSite = .ok a ∧ q.logPrior x newSite = .ok b ∧ (b.sub a).Ok) :
    PConf vs p (poss.set isite newSite) v := by
  cases p with
  | space sp => rw [PConf] at *; exact hv
  | prior q =>
    rw [PConf] at *
    rw [PGood] at hg
    obtain ⟨a, rfl, h1, h2⟩ := hv
    refine ⟨a, rfl, h1, fun xs hx hl => ?_⟩
    subst hx
    rw [List.length_set] at hl
    have h3 := h2 xs rfl hl
    refine forall₂_set_left h3 fun x hx => ?_
    have hVx : vs.V q oldSite x := by
      obtain ⟨hi, rfl⟩ := List.getElem?_eq_some_iff.1 ho
      obtain ⟨hj, rfl⟩ := List.getElem?_eq_some_iff.1 hx
      exact (List.forall₂_iff_get.1 h3).2 isite hi hj
    by_cases hpos : q.hasPosition = true
    · obtain ⟨y, a, b, e1, e2, e3, e4⟩ := hm q rfl hpos
      unfold numAt at e1
      simp only [hx] at e1
      injection e1 with e1
      subst e1
      exact hg.move hpos hVx e2 e3 e4
    · exact hg.free (by simpa using hpos) hVx

theorem perturbSite1_post (v : Vor1) (x : ℝ) : Post (v.perturbSite x) (fun y => v.vmin ≤ y ∧ y ≤ v.vmax) := by
  classical
  unfold Vor1.perturbSite
  refine until_post (Post.bind_any fun d => Post.pure' ?_)
  intro y hy
  split at hy
  · rename_i h
    injection hy with hy
    subst hy
    exact h
  · cases hy

theorem perturbSite2_post (v : Vor2) (p : ℝ × ℝ) : Post (v.perturbSite p) (InDomain v) := by
  classical
  unfold Vor2.perturbSite
  refine until_post (Post.bind_any fun dx => Post.bind_any fun dy => Post.pure' ?_)
  intro y hy
  simp only at hy
  cases hp : v.polygon with
  | none =>
    simp only [hp] at hy
    split at hy
    · rename_i h
      injection hy with hy
      subst hy
      exact ⟨⟨⟨h.1.1, h.2.1⟩, h.1.2, h.2.2⟩, fun inside hi => by rw [hp] at hi; cases hi⟩
    · cases hy
  | some inside =>
    simp only [hp] at hy
    split at hy
    · rename_i h
      injection hy with hy
      subst hy
      refine ⟨v.bounds inside hp _ h, fun inside' hi => ?_⟩
      rw [hp] at hi; injection hi with hi; subst hi; exact h
    · cases hy

theorem vorMove_conf {vs : ValSpec} {sp : Space} (hg : SGood vs sp) {s : PSState}
    (hs : SConf vs sp s) (isite : ℕ) :
    Post (vorMove sp s isite) (fun r => r.2.Ok → SConf vs sp r.1) := by
  obtain ⟨h1, hsh, hdr, rest, poss, hv, hh, hr⟩ := SConf_iff.1 hs
  obtain ⟨hok, hps⟩ := SGood_iff.1 hg
  have hlen : poss.length = s.n := hh.length fun kv hkv => hsh kv (by rw [hv]; simp [hkv])
  have hget : ∀ kp ∈ sp.params.toList, ∃ v, s.get kp.1 = some v ∧ PConf vs kp.2 poss v ∧
      v.len = poss.length := by
    intro kp hkp
    obtain ⟨v, e1, e2, e3, _⟩ := get_params hok hv hh hr hsh hkp
    exact ⟨v, e1, e2, e3.trans hlen.symm⟩
  have hkeys : ∀ a, (dkeys [("discretization", PVal.arr a)] ++ sp.params.toList.map (·.1)).Nodup := by
    intro a
    simp only [dkeys, List.map_cons, List.map_nil, List.singleton_append, List.nodup_cons]
    exact ⟨hok.disc, hok.nodup⟩
  have hconf := fun s' => SConf_iff (vs := vs) (sp := sp) (s := s')
  have step : ∀ {oldSite newSite : Pos} {f : PVal → Except PyErr PVal} {poss' : List Pos}
      {l : List (String × Param)} {vals : List (String × PVal)}, (∀ kp ∈ l, kp ∈ sp.params.toList) →
      poss[isite]? = some oldSite →
      (∀ p v v', PConf vs p (poss.set isite newSite) v → v.len = poss.length → f v = .ok v' →
        PConf vs p poss' v') →
      List.Forall₂ (KMove s isite oldSite newSite f) l vals → List.Forall₂ (KConf vs poss') l vals := by
    intro oldSite newSite f poss' l vals hl ho hf hm
    induction hm with
    | nil => exact .nil
    | @cons kp kv l vals h2 _ ih =>
      refine .cons ⟨h2.1, ?_⟩ (ih fun kp h => hl kp (List.mem_cons_of_mem _ h))
      obtain ⟨v, e1, e2, e3⟩ := h2.2
      have hmem := hl _ (List.mem_cons_self ..)
      obtain ⟨v0, e4, e5, e6⟩ := hget _ hmem
      rw [e1] at e4
      injection e4 with e4
      subst e4
      exact hf _ _ _ (move_set (hps _ hmem) e5 ho e3) e6 e2
  unfold vorMove
  cases hk : sp.info.kind with
  | plain => exact Post.throw'
  | vor1 v =>
    rw [hk] at hh
    obtain ⟨xs, rfl, hkd, rfl, hsort, hdom⟩ := hh
    have hd : s.get "discretization" = some (.arr (.vec xs)) := by
      unfold PSState.get; rw [hv]; simp [dget]
    simp only [hd]
    cases hx : xs[isite]? with
    | none => exact Post.throw'
    | some x =>
      simp only
      refine (perturbSite1_post v x).bind' fun y hy => ?_
      refine (Post.lift' (P := fun ys => gather (xs.set isite y) (v.argsort.f (xs.set isite y)) = .ok ys)
        fun ys hys => hys).bind' fun sites hsites => ?_
      refine (Post.lift' (P := fun r => r.2.Ok → ∃ vals', r.1 = [("discretization", PVal.arr (.vec sites))] ++
          vals' ∧ List.Forall₂ (KConf vs (sites.map .one)) sp.params.toList vals') fun r hr hok => ?_).bind'
        fun r hr => ?_
      · obtain ⟨_, vals, e1, e2⟩ := moveValues_ok (hkeys _) hr hok
        refine ⟨vals, e1, step (fun _ h => h) (by simp [hx]) ?_ e2⟩
        intro p v1 v2 e3 e4 e5
        refine gather_conf e3 (by rw [List.length_set]; exact e4) ?_ e5
        rw [← List.map_set]
        exact gather_map hsites
      · refine (Post.lift' (P := fun new => Shape new ∧ new = .mk s.n r.1 none)
          fun new hnew => mkPS_shape hnew).bind' fun new hnew => Post.pure' fun hok => ?_
        obtain ⟨hsh', rfl⟩ := hnew
        obtain ⟨vals', e1, hf⟩ := hr hok
        refine (hconf _).2 ⟨h1, hsh', _, vals', _, e1, ?_, hf⟩
        rw [hk]
        refine ⟨_, rfl, rfl, rfl, ?_, fun z hz => ?_⟩
        · rw [gather_eq_map hsites]
          exact v.argsort.sorted _
        · rcases List.mem_or_eq_of_mem_set (gather_mem hsites z hz) with hz | rfl
          · exact hdom z hz
          · exact hy
  | vor2 v =>
    rw [hk] at hh
    obtain ⟨a, rfl, rfl, hkd, hdom⟩ := hh
    have hd : s.get "discretization" = some (.arr a) := by
      unfold PSState.get; rw [hv]; simp [dget]
    simp only [hd]
    cases a with
    | vec xs => exact Post.throw'
    | pts ps =>
      have hdom' : ∀ q ∈ ps, InDomain v q := by
        rcases hdom with hdom | ⟨ps', e, hdom⟩
        · cases hdom
        · injection e with e; subst e; exact hdom
      simp only
      cases hx : ps[isite]? with
      | none => exact Post.throw'
      | some x =>
        simp only
        refine (perturbSite2_post v x).bind' fun y hy => ?_
        refine (Post.lift' (P := fun r => r.2.Ok → ∃ vals', r.1 = [("discretization",
            PVal.arr (.pts (ps.set isite y)))] ++ vals' ∧
            List.Forall₂ (KConf vs ((ps.set isite y).map .two)) sp.params.toList vals')
          fun r hr hok => ?_).bind' fun r hr => ?_
        · obtain ⟨_, vals, e1, e2⟩ := moveValues_ok (hkeys _) hr hok
          refine ⟨vals, e1, step (fun _ h => h) (by simp [Arr.positions, hx]) ?_ e2⟩
          intro p v1 v2 e3 e4 e5
          injection e5 with e5
          subst e5
          rw [List.map_set]
          exact e3
        · refine (Post.lift' (P := fun new => Shape new ∧ new = .mk s.n r.1 none)
            fun new hnew => mkPS_shape hnew).bind' fun new hnew => Post.pure' fun hok => ?_
          obtain ⟨hsh', rfl⟩ := hnew
          obtain ⟨vals', e1, hf⟩ := hr hok
          refine (hconf _).2 ⟨h1, hsh', _, vals', _, e1, ?_, hf⟩
          rw [hk]
          refine ⟨_, rfl, rfl, by simp [PSState.kd], Or.inr ⟨_, rfl, fun z hz => ?_⟩⟩
          rcases List.mem_or_eq_of_mem_set hz with hz | rfl
          · exact hdom' z hz
          · exact hy

theorem perturbSite_conf {vs : ValSpec} {sp : Space} (hg : SGood vs sp) {s : PSState}
    (hs : SConf vs sp s) (isite : ℕ) :
    Post (sp.perturbSite s isite) (fun r => r.2.Ok → SConf vs sp r.1 ∧ KdTop sp r.1) := by
  unfold Space.perturbSite
  refine (vorMove_conf hg hs isite).bind' fun r hr => ?_
  refine (Post.lift' (P := fun new => sp.info.kind.withKd r.1 = .ok new) fun new h => h).bind'
    fun new hnew => Post.pure' fun hok => ?_
  exact withKd_conf (hr hok) hnew

/-! ### values -/

theorem mem_priors : ∀ {ps : ParamList} {p : Prior}, p ∈ ps.priors ↔ ∃ k, (k, Param.prior p) ∈ ps.toList
  | .nil, p => by simp [ParamList.priors, ParamList.toList]
  | .cons name (.prior q) rest, p => by
    rw [ParamList.priors, ParamList.toList, List.mem_cons, mem_priors]
    constructor
    · rintro (rfl | ⟨k, h⟩)
      · exact ⟨name, List.mem_cons_self ..⟩
      · exact ⟨k, List.mem_cons_of_mem _ h⟩
    · rintro ⟨k, h⟩
      rcases List.mem_cons.1 h with h | h
      · injection h with _ h; injection h with h; exact Or.inl h
      · exact Or.inr ⟨k, h⟩
  | .cons name (.space q) rest, p => by
    rw [ParamList.priors, ParamList.toList, mem_priors]
    constructor
    · rintro ⟨k, h⟩; exact ⟨k, List.mem_cons_of_mem _ h⟩
    · rintro ⟨k, h⟩
      rcases List.mem_cons.1 h with h | h
      · injection h with _ h; cases h
      · exact ⟨k, h⟩

/-- One entry set by a perturbation of values. -/
def NewValue (vs : ValSpec) (s : PSState) (idx : ℕ) (ps : List Prior) (kv : String × PVal) : Prop :=
  ∃ p ∈ ps, ∃ xs new pos, kv = (p.name, .arr (.vec (xs.set idx new))) ∧
    s.get p.name = some (.arr (.vec xs)) ∧ posAt s idx = .ok pos ∧ vs.V p pos new

theorem perturbPriors_post {vs : ValSpec} {s : PSState} {idx : ℕ} :
    ∀ (ps : List Prior) (acc : List (String × PVal)) (lpr : PyF), (∀ p ∈ ps, ValOK vs p) →
    (dkeys acc).Nodup →
    Post (perturbPriors s idx ps acc lpr) (fun r => r.2.Ok → lpr.Ok ∧
      ∀ kv ∈ r.1, kv ∈ acc ∨ NewValue vs s idx ps kv)
  | [], acc, lpr, _, _ => by
    rw [perturbPriors]
    exact Post.pure' fun hok => ⟨hok, fun kv h => Or.inl h⟩
  | p :: rest, acc, lpr, hg, hk => by
    rw [perturbPriors.eq_def]
    simp only
    cases hp : s.get p.name with
    | none => exact Post.throw'
    | some v =>
      cases v with
      | states l => exact Post.throw'
      | objs l => exact Post.throw'
      | arr a =>
        cases a with
        | pts ps => exact Post.throw'
        | vec xs =>
          refine Post.bind_any fun old => (Post.lift' (P := fun pos => posAt s idx = .ok pos)
            fun pos h => h).bind' fun pos hpos =>
            ((hg p (List.mem_cons_self ..)).perturb old pos).bind' fun r hr => ?_
          refine (perturbPriors_post rest _ _ (fun q hq => hg q (List.mem_cons_of_mem _ hq))
            (nodup_dset _ _ _ hk)).mono fun out hout hok => ?_
          obtain ⟨h1, h2⟩ := hout hok
          obtain ⟨h3, h4⟩ := Ok_add h1
          refine ⟨h3, fun kv hkv => ?_⟩
          rcases h2 kv hkv with h | ⟨q, hq, h⟩
          · rcases mem_dset hk h with h | rfl
            · exact Or.inl h.1
            · exact Or.inr ⟨p, List.mem_cons_self .., xs, r.1, pos, rfl, hp, hpos, hr h4⟩
          · exact Or.inr ⟨q, List.mem_cons_of_mem _ hq, h⟩

/-- Setting a value of a parameter. -/
theorem dset_conf {vs : ValSpec} {poss : List Pos} {k : String} {p : Param} {v' : PVal} :
    ∀ {l : List (String × Param)} {rest : List (String × PVal)},
    List.Forall₂ (KConf vs poss) l rest → (l.map (·.1)).Nodup → (k, p) ∈ l → PConf vs p poss v' →
    List.Forall₂ (KConf vs poss) l (dset rest k v') := by
  intro l rest h
  induction h with
  | nil => intro _ h; simp at h
  | @cons kp kv l rest h1 h2 ih =>
    intro hnd hm hp
    rw [List.map_cons, List.nodup_cons] at hnd
    obtain ⟨k0, v0⟩ := kv
    have h0 : k0 = kp.1 := h1.1
    rw [dset]
    rcases List.mem_cons.1 hm with hm | hm
    · subst hm
      simp only at h0
      subst h0
      rw [if_pos rfl]
      exact .cons ⟨rfl, hp⟩ h2
    · rw [if_neg]
      · exact .cons h1 (ih hnd.2 hm hp)
      · intro he
        rw [h0] at he
        apply hnd.1
        rw [he]
        exact List.mem_map_of_mem (f := (·.1)) hm

theorem dset_append_right {α : Type} {a b : List (String × α)} {k : String} {v : α} (h : k ∉ dkeys a) :
    dset (a ++ b) k v = a ++ dset b k v := by
  induction a with
  | nil => rfl
  | cons kv a ih =>
    obtain ⟨k', x⟩ := kv
    simp only [dkeys, List.map_cons, List.mem_cons, not_or] at h
    rw [List.cons_append, dset, if_neg (Ne.symm h.1), ih h.2]
    rfl

theorem disc_notin_get {vs : ValSpec} {sp : Space} {s : PSState} (hok : SpaceOk sp)
    {rest : List (String × PVal)} {poss : List Pos} (hv : s.vals = rest)
    (hr : List.Forall₂ (KConf vs poss) sp.params.toList rest) : s.get "discretization" = none := by
  unfold PSState.get
  rw [dget_none_iff, hv, KConf.keys hr]
  exact hok.disc

/-- The position that is read is the one of the site. -/
theorem posAt_eq {vs : ValSpec} {sp : Space} {s : PSState} (hok : SpaceOk sp) {hdr rest poss}
    (hv : s.vals = hdr ++ rest) (hh : Hdr sp.info.kind s.n s.kd hdr poss)
    (hr : List.Forall₂ (KConf vs poss) sp.params.toList rest) {idx : ℕ} {pos q : Pos}
    (hp : posAt s idx = .ok pos) (hq : poss[idx]? = some q) : q = pos := by
  cases hk : sp.info.kind with
  | plain =>
    rw [hk] at hh
    obtain ⟨rfl, _, rfl⟩ := hh
    unfold posAt at hp
    rw [disc_notin_get hok (by rw [hv]; rfl) hr] at hp
    injection hp with hp
    rw [List.getElem?_replicate] at hq
    split at hq
    · injection hq with hq; rw [← hq, ← hp]
    · cases hq
  | vor1 v =>
    rw [hk] at hh
    obtain ⟨xs, rfl, _, rfl, _⟩ := hh
    have hd : s.get "discretization" = some (.arr (.vec xs)) := by
      unfold PSState.get; rw [hv]; simp [dget]
    unfold posAt at hp
    simp only [hd, Arr.positions, hq] at hp
    injection hp with hp
  | vor2 v =>
    rw [hk] at hh
    obtain ⟨a, rfl, rfl, _⟩ := hh
    have hd : s.get "discretization" = some (.arr a) := by
      unfold PSState.get; rw [hv]; simp [dget]
    unfold posAt at hp
    simp only [hd, hq] at hp
    injection hp with hp

/-- Setting new values one after the other keeps the invariant. -/
theorem dupdate_conf {vs : ValSpec} {sp : Space} (hg : SGood vs sp) {s : PSState}
    {hdr rest : List (String × PVal)} {poss : List Pos} (hsh : Shape s)
    (hv : s.vals = hdr ++ rest) (hh : Hdr sp.info.kind s.n s.kd hdr poss)
    (hr : List.Forall₂ (KConf vs poss) sp.params.toList rest) {idx : ℕ} :
    ∀ (e : List (String × PVal)) (rest1 : List (String × PVal)),
    (∀ kv ∈ e, NewValue vs s idx sp.params.priors kv) →
    List.Forall₂ (KConf vs poss) sp.params.toList rest1 →
    (∀ kv ∈ rest1, kv.2.len = s.n ∧ kv.2 ≠ .states []) →
    ∃ rest2, dupdate (hdr ++ rest1) e = hdr ++ rest2 ∧
      List.Forall₂ (KConf vs poss) sp.params.toList rest2 ∧
      (∀ kv ∈ rest2, kv.2.len = s.n ∧ kv.2 ≠ .states [])
  | [], rest1, _, h1, h2 => ⟨rest1, rfl, h1, h2⟩
  | (k, v) :: e, rest1, he, h1, h2 => by
    obtain ⟨hok, hps⟩ := SGood_iff.1 hg
    obtain ⟨p, hp, xs, new, pos, e1, e2, e3, e4⟩ := he _ (List.mem_cons_self ..)
    injection e1 with e1 e1'
    obtain ⟨k', hk'⟩ := mem_priors.1 hp
    have hname : k' = p.name := hok.key _ _ hk'
    rw [← hname] at e1 e2
    subst e1
    obtain ⟨v0, f1, f2, f3, f4⟩ := get_params hok hv hh hr hsh hk'
    simp only at f1 f2
    rw [e2] at f1
    injection f1 with f1
    subst f1
    have hlen : poss.length = s.n := hh.length fun kv hkv => hsh kv (by rw [hv]; simp [hkv])
    have hpc : PConf vs (.prior p) poss v := by
      rw [PConf] at *
      obtain ⟨a, g1, g2, g3⟩ := f2
      injection g1 with g1
      subst g1
      refine ⟨_, e1', fun _ => ⟨_, rfl⟩, fun zs hz _ => ?_⟩
      injection hz with hz
      subst hz
      refine forall₂_set_right (g3 xs rfl (by rw [hlen]; exact f3)) fun q hq => ?_
      rw [posAt_eq hok hv hh hr e3 hq]
      exact e4
    have hknot : k ∉ dkeys hdr := by
      rw [hh.keys]
      split
      · simp only [List.mem_singleton]
        rintro rfl
        exact hok.disc (List.mem_map_of_mem (f := (·.1)) hk')
      · simp
    have hd : dupdate (hdr ++ rest1) ((k, v) :: e) = dupdate (hdr ++ dset rest1 k v) e := by
      rw [← dset_append_right hknot]; rfl
    rw [hd]
    refine dupdate_conf hg hsh hv hh hr e (dset rest1 k v)
      (fun kv hkv => he kv (List.mem_cons_of_mem _ hkv)) (dset_conf h1 hok.nodup hk' hpc) ?_
    intro kv hkv
    have hnd : (dkeys rest1).Nodup := by rw [KConf.keys h1]; exact hok.nodup
    rcases mem_dset hnd hkv with h | rfl
    · exact h2 kv h.1
    · subst e1'
      refine ⟨?_, by simp⟩
      simpa [PVal.len, Arr.len] using f3

theorem values_conf {vs : ValSpec} {sp : Space} (hg : SGood vs sp) {s : PSState} (hs : SConf vs sp s)
    (name : String) :
    Post ((PSFunc.values name sp.params.priors).run s)
      (fun r => r.2.Ok → SConf vs sp r.1 ∧ (KdTop sp s → KdTop sp r.1)) := by
  obtain ⟨h1, hsh, hdr, rest, poss, hv, hh, hr⟩ := SConf_iff.1 hs
  obtain ⟨hok, hps⟩ := SGood_iff.1 hg
  have hpr : ∀ p ∈ sp.params.priors, ValOK vs p := by
    intro p hp
    obtain ⟨k, hk⟩ := mem_priors.1 hp
    have := hps _ hk
    rwa [PGood] at this
  unfold PSFunc.run
  refine Post.bind_any fun idx => (perturbPriors_post _ [] _ hpr (by simp [dkeys])).bind' fun r hrr =>
    Post.pure' fun hrok => ?_
  obtain ⟨_, h2⟩ := hrr hrok
  obtain ⟨rest2, e1, e2, e3⟩ := dupdate_conf hg hsh hv hh hr r.1 rest
    (fun kv hkv => (h2 kv hkv).resolve_left (by simp)) hr
    (fun kv hkv => hsh kv (by rw [hv]; simp [hkv]))
  refine ⟨SConf_iff.2 ⟨h1, ?_, hdr, rest2, poss, ?_, hh, e2⟩, fun hkt => hkt⟩
  · intro kv hkv
    change kv ∈ dupdate s.vals r.1 at hkv
    rw [show dupdate s.vals r.1 = hdr ++ rest2 by rw [hv]; exact e1] at hkv
    rcases List.mem_append.1 hkv with hkv | hkv
    · exact hsh kv (by rw [hv]; simp [hkv])
    · exact e3 kv hkv
  · change dupdate s.vals r.1 = _
    rw [hv]; exact e1

/-- Every perturbation that a space offers keeps the invariant. -/
theorem func_conf {vs : ValSpec} {sp : Space} (hg : SGood vs sp) {s : PSState} (hs : SConf vs sp s)
    {f : PSFunc} (hf : f ∈ sp.ownPert.funcs) :
    Post (f.run s) (fun r => r.2.Ok → SConf vs sp r.1 ∧ (KdTop sp s → KdTop sp r.1)) := by
  have keep : ∀ {m : M (PSState × PyF)}, Post m (fun r => r.2.Ok → SConf vs sp r.1 ∧ KdTop sp r.1) →
      Post m (fun r => r.2.Ok → SConf vs sp r.1 ∧ (KdTop sp s → KdTop sp r.1)) :=
    fun h => h.mono fun r hr hok => ⟨(hr hok).1, fun _ => (hr hok).2⟩
  unfold Space.ownPert at hf
  simp only [List.mem_map] at hf
  obtain ⟨fw, hf, rfl⟩ := hf
  unfold Space.ownFuncs at hf
  rw [List.mem_append, List.mem_append] at hf
  rcases hf with (hf | hf) | hf
  · split at hf
    · rcases List.mem_cons.1 hf with rfl | hf
      · exact keep (birth_conf hg hs)
      · rw [List.mem_singleton] at hf
        subst hf
        exact keep (death_conf hg hs)
    · simp at hf
  · split at hf
    · simp at hf
    · rename_i hq
      rw [List.mem_singleton] at hf
      subst hf
      exact values_conf hg hs _
  · split at hf
    · rw [List.mem_singleton] at hf
      subst hf
      exact keep (Post.bind_any fun idx => perturbSite_conf hg hs idx)
    · simp at hf

end BB.Lemmas
