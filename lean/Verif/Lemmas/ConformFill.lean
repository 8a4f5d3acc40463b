import Verif.Lemmas.ConformInit

/-!
# The invariant of parameter-space states: births from the nearest neighbour
-/

namespace BB.Lemmas

open BB BB.Spec

/-- A state that has sites only. -/
def Bare (sp : Space) (s : PSState) : Prop :=
  (sp.info.lo ≤ s.n ∧ s.n ≤ sp.info.hi) ∧ s.kd = none ∧ Shape s ∧
    ∃ a, s.vals = [("discretization", .arr a)] ∧ a.positions.length = s.n ∧
      Hdr sp.info.kind s.n none s.vals a.positions

theorem sampleDisc_post {sp : Space} (h : SpaceOk sp) : Post sp.sampleDisc (Bare sp) := by
  unfold Space.sampleDisc
  refine (sampleDim_post sp.info).bind' fun n hn => (sampleSites_post h n).bind' fun o ho => ?_
  cases o with
  | none => exact Post.throw'
  | some a =>
    refine Post.lift' fun s hs => ?_
    obtain ⟨hsh, rfl⟩ := mkPS_shape hs
    exact ⟨hn, rfl, hsh, a, rfl, ho.2.1, ho.2.2⟩

/-- The values of a parameter in the course of filling: the first `i` are done. -/
def PFill (vs : ValSpec) (poss : List Pos) (i : ℕ) : Param → PVal → Prop
  | .prior p, v => ∃ xs, v = .arr (.vec xs) ∧ xs.length = poss.length ∧
      ∀ j q x, j < i → poss[j]? = some q → xs[j]? = some x → vs.V p q x
  | .space sp, v => ∃ l, v = .states l ∧ l.length = poss.length ∧ l ≠ [] ∧
      ∀ j x, l[j]? = some x → (sp.info.kind.isDisc = true ∧ i ≤ j ∧ Bare sp x) ∨
        ((sp.info.kind.isDisc = true → j < i) ∧ SConf vs sp x)

def KFill (vs : ValSpec) (poss : List Pos) (i : ℕ) (kp : String × Param) (kv : String × PVal) : Prop :=
  kv.1 = kp.1 ∧ PFill vs poss i kp.2 kv.2

theorem PFill.shape {vs : ValSpec} {poss : List Pos} {i : ℕ} {p : Param} {v : PVal}
    (h : PFill vs poss i p v) : v.len = poss.length ∧ v ≠ .states [] := by
  cases p with
  | prior p =>
    obtain ⟨xs, rfl, h1, _⟩ := h
    exact ⟨h1, by simp⟩
  | space sp =>
    obtain ⟨l, rfl, h1, h2, _⟩ := h
    exact ⟨h1, by simpa using h2⟩

theorem PFill.done {vs : ValSpec} {poss : List Pos} {p : Param} {v : PVal}
    (h : PFill vs poss poss.length p v) : PConf vs p poss v := by
  cases p with
  | prior p =>
    obtain ⟨xs, rfl, h1, h2⟩ := h
    rw [PConf]
    refine ⟨_, rfl, fun _ => ⟨xs, rfl⟩, fun ys hy _ => ?_⟩
    injection hy with hy
    subst hy
    rw [List.forall₂_iff_get]
    refine ⟨h1.symm, fun j hj1 hj2 => ?_⟩
    exact h2 j _ _ hj1 (List.getElem?_eq_getElem hj1) (List.getElem?_eq_getElem hj2)
  | space sp =>
    obtain ⟨l, rfl, h1, _, h2⟩ := h
    rw [PConf]
    refine ⟨l, Or.inl rfl, fun x hx => ?_⟩
    obtain ⟨j, hj, rfl⟩ := List.getElem_of_mem hx
    rcases h2 j _ (List.getElem?_eq_getElem hj) with ⟨_, h3, _⟩ | ⟨_, h3⟩
    · omega
    · exact h3

theorem fillInitial_post {vs : ValSpec} {poss : List Pos} : ∀ (l : List (String × Param)) (s : PSState),
    (∀ kp ∈ l, PGood vs kp.2) → (dkeys s.vals ++ l.map (·.1)).Nodup → poss.length = s.n →
    Post (fillInitial l s) (fun s' => ∃ vs', s' = .mk s.n (s.vals ++ vs') s.kd ∧
      List.Forall₂ (KFill vs poss 0) l vs')
  | [], s, _, _, _ => by
    rw [fillInitial]
    refine Post.pure' ⟨[], ?_, .nil⟩
    cases s; simp [PSState.n, PSState.vals, PSState.kd]
  | (name, p) :: rest, s, hg, hk, hlen => by
    rw [fillInitial.eq_def]
    simp only
    have hk1 : name ∉ dkeys s.vals := fun hm =>
      (List.nodup_append.1 hk).2.2 _ hm _ (by simp) rfl
    have hk2 : ((dkeys s.vals ++ [name]) ++ rest.map (·.1)).Nodup := by
      rw [List.append_assoc]; exact hk
    have hp := hg _ (List.mem_cons_self ..)
    refine Post.bind' (Q := fun v => v ≠ .states [] → PFill vs poss 0 p v) ?_ fun v hv => ?_
    · cases p with
      | prior p =>
        refine Post.pure' fun _ => ⟨_, rfl, by simp [hlen], fun j q x hj => by omega⟩
      | space sp =>
        rw [PGood] at hp
        simp only
        refine Post.ite' (fun hd => ?_) fun hd => ?_
        · refine (times_post (sampleDisc_post (SGood_iff.1 hp.1).1) s.n).bind' fun l hl =>
            Post.pure' fun hne => ?_
          refine ⟨l, rfl, by rw [hlen]; exact hl.1, by simpa using hne, fun j x hx => Or.inl ⟨hd, by omega, ?_⟩⟩
          exact hl.2 x (List.mem_of_getElem? hx)
        · refine (times_post (sample_S sp hp) s.n).bind' fun l hl =>
            Post.pure' fun hne => ?_
          refine ⟨l, rfl, by rw [hlen]; exact hl.1, by simpa using hne, fun j x hx => Or.inr
            ⟨fun h => absurd h hd, ?_⟩⟩
          exact hl.2 x (List.mem_of_getElem? hx)
    · refine (Post.lift' (P := fun s' => v ≠ .states [] ∧ s' = .mk s.n (s.vals ++ [(name, v)]) s.kd)
        fun s' hs => ?_).bind' fun s' hs => ?_
      · obtain ⟨hne, rfl⟩ := setVal_ok.1 hs
        rw [dset_new hk1]
        exact ⟨hne, rfl⟩
      · obtain ⟨hne, rfl⟩ := hs
        refine (fillInitial_post rest (.mk s.n (s.vals ++ [(name, v)]) s.kd)
          (fun kp h => hg kp (List.mem_cons_of_mem _ h)) (by
            change (dkeys (s.vals ++ [(name, v)]) ++ rest.map (·.1)).Nodup
            simpa [dkeys] using hk2) hlen).mono fun s' h => ?_
        obtain ⟨vs', rfl, h2⟩ := h
        exact ⟨(name, v) :: vs', by simp [PSState.n, PSState.vals, PSState.kd], .cons ⟨rfl, hv hne⟩ h2⟩

/-- A loop over the sites. -/
theorem forSites_post {σ : Type} {body : ℕ → Pos → σ → M σ} (good : σ → Prop) (I : ℕ → σ → Prop)
    (poss : List Pos)
    (h : ∀ i pos s, poss[i]? = some pos → Post (body i pos s) (fun s' => good s' →
      good s ∧ (I i s → I (i + 1) s'))) :
    ∀ (done todo : List Pos) (s : σ), poss = done ++ todo →
      Post (forSites body done.length todo s) (fun s' => good s' →
        good s ∧ (I done.length s → I poss.length s'))
  | done, [], s, hp => by
    rw [forSites]
    refine Post.pure' fun hs => ⟨hs, ?_⟩
    rw [hp]; simp
  | done, pos :: todo, s, hp => by
    rw [forSites]
    refine (h done.length pos s (by rw [hp]; simp)).bind' fun s1 h1 => ?_
    have := forSites_post good I poss h (done ++ [pos]) todo s1 (by rw [hp]; simp)
    rw [List.length_append, List.length_singleton] at this
    refine this.mono fun s' h2 hg => ?_
    obtain ⟨h3, h4⟩ := h2 hg
    obtain ⟨h5, h6⟩ := h1 h3
    exact ⟨h5, fun hI => h4 (h6 hI)⟩

mutual
theorem nb_S {vs : ValSpec} : ∀ (sp : Space), SGood vs sp → ∀ (old new : PSState),
    Post (sp.sampleFromNeighbour old new) (fun r => r.2.Ok → Bare sp new → SConf vs sp r.1)
  | .mk info ps, h, old, new => by
    by_cases hb : Bare (.mk info ps) new
    swap
    · intro t a t' _ _ hb'; exact absurd hb' hb
    rw [SGood] at h
    obtain ⟨hok, hl⟩ := h
    rw [Space.sampleFromNeighbour]
    obtain ⟨hn, hkd, hsh, a, hv, hlen, hh⟩ := hb
    have hok1 := hok.nodup
    have hok2 := hok.disc
    simp only [Space.params, Space.info] at *
    refine (fillInitial_post (vs := vs) (poss := a.positions) ps.toList new (LGood_iff.1 hl) ?_ hlen).bind'
      fun s1 hs1 => ?_
    · rw [hv]
      simp only [dkeys, List.map_cons, List.map_nil, List.singleton_append, List.nodup_cons]
      exact ⟨hok2, hok1⟩
    · obtain ⟨vs', rfl, hf⟩ := hs1
      rw [hv]
      refine (Post.lift' (P := fun sites => sites = a.positions) fun sites hs => ?_).bind' fun sites hs => ?_
      · unfold PSState.sites PSState.get at hs
        simp only [PSState.vals, List.cons_append, List.nil_append, dget, if_true] at hs
        injection hs with hs
        exact hs.symm
      · subst hs
        have key := forSites_post (σ := PSState × PyF)
          (body := fun i pos (acc : PSState × PyF) => do
            let inb ← M.lift (nearest info.kind (old.get "discretization") pos)
            ps.fillPoint old i inb pos acc)
          (fun acc => acc.2.Ok)
          (fun i acc => ∃ rest, acc.1 = .mk new.n ([("discretization", .arr a)] ++ rest) none ∧
            List.Forall₂ (KFill vs a.positions i) ps.toList rest)
          a.positions ?_ [] a.positions
          (PSState.mk new.n ([("discretization", .arr a)] ++ vs') new.kd, .fin 0) rfl
        · refine key.mono fun r hr hrok _ => ?_
          obtain ⟨_, h2⟩ := hr hrok
          obtain ⟨rest, h3, h4⟩ := h2 ⟨vs', by rw [hkd], hf⟩
          have h5 : List.Forall₂ (KConf vs a.positions) ps.toList rest :=
            h4.imp fun kp kv hkv => ⟨hkv.1, hkv.2.done⟩
          rw [SConf, h3]
          refine ⟨hn, ?_, _, rest, a.positions, rfl, by rw [hv] at hh; exact hh, LConf_iff.2 h5⟩
          intro kv hkv
          rw [PSState.vals, List.mem_append] at hkv
          rcases hkv with hkv | hkv
          · exact hsh kv (by rw [hv]; exact hkv)
          · obtain ⟨j, hj, rfl⟩ := List.getElem_of_mem hkv
            have h6 := (List.forall₂_iff_get.1 h4).2 j (by rw [h4.length_eq]; exact hj) hj
            have := h6.2.shape
            rw [hlen] at this
            exact this
        · intro i pos acc hpos
          refine Post.bind_any fun inb => (fill_L ps hl old i inb pos acc).mono fun r hr hrok => ?_
          obtain ⟨h1, h2⟩ := hr hrok
          refine ⟨h1, ?_⟩
          rintro ⟨rest, h3, h4⟩
          obtain ⟨rest', h5, h6⟩ := h2 a.positions [("discretization", .arr a)] rest hpos
            (by rw [h3]; rfl) (by
              simp only [dkeys, List.map_cons, List.map_nil, List.singleton_append, List.nodup_cons]
              exact ⟨hok2, hok1⟩) h4
          refine ⟨rest', ?_, h6⟩
          rw [h5, h3]; rfl
theorem fill_L {vs : ValSpec} : ∀ (ps : ParamList), LGood vs ps →
    ∀ (old : PSState) (i inb : ℕ) (pos : Pos) (acc : PSState × PyF),
    Post (ps.fillPoint old i inb pos acc) (fun r => r.2.Ok → acc.2.Ok ∧
      ∀ poss pre rest, poss[i]? = some pos → acc.1.vals = pre ++ rest →
        (dkeys pre ++ ps.toList.map (·.1)).Nodup → List.Forall₂ (KFill vs poss i) ps.toList rest →
        ∃ rest', r.1 = .mk acc.1.n (pre ++ rest') acc.1.kd ∧
          List.Forall₂ (KFill vs poss (i + 1)) ps.toList rest')
  | .nil, _, old, i, inb, pos, acc => by
    rw [ParamList.fillPoint]
    refine Post.pure' fun hok => ⟨hok, fun poss pre rest _ hv _ hf => ⟨rest, ?_, ?_⟩⟩
    · rw [← hv]; obtain ⟨⟨n, v, kd⟩, r⟩ := acc; rfl
    · rw [ParamList.toList, List.forall₂_nil_left_iff] at *; exact hf
  | .cons name p rest, h, old, i, inb, pos, acc => by
    rw [LGood] at h
    rw [ParamList.fillPoint]
    refine (fill_P p h.1 name old i inb pos acc).bind' fun acc1 h1 =>
      (fill_L rest h.2 old i inb pos acc1).mono fun r h2 hok => ?_
    obtain ⟨h3, h4⟩ := h2 hok
    obtain ⟨h5, h6⟩ := h1 h3
    refine ⟨h5, fun poss pre vals hpos hv hk hf => ?_⟩
    obtain ⟨hk1, hk2⟩ := names_nodup_tail hk
    rw [ParamList.toList, List.forall₂_cons_left_iff] at hf
    obtain ⟨⟨k, v⟩, vals', ⟨hk0, hf1⟩, hf2, rfl⟩ := hf
    simp only at hk0 hf1
    subst hk0
    obtain ⟨v', h7, h8⟩ := h6 poss pre v vals' hpos hv hk1 hf1
    obtain ⟨rest', h9, h10⟩ := h4 poss (pre ++ [(k, v')]) vals' hpos (by rw [h7]; simp [PSState.vals])
      (by simpa [dkeys] using hk2) hf2
    refine ⟨(k, v') :: rest', ?_, ?_⟩
    · rw [h9, h7]; simp [PSState.n, PSState.kd]
    · rw [ParamList.toList]
      exact .cons ⟨rfl, h8⟩ h10
theorem fill_P {vs : ValSpec} : ∀ (p : Param), PGood vs p →
    ∀ (name : String) (old : PSState) (i inb : ℕ) (pos : Pos) (acc : PSState × PyF),
    Post (p.fillPoint name old i inb pos acc) (fun r => r.2.Ok → acc.2.Ok ∧
      ∀ poss pre v post, poss[i]? = some pos → acc.1.vals = pre ++ (name, v) :: post →
        name ∉ dkeys pre → PFill vs poss i p v →
        ∃ v', r.1 = .mk acc.1.n (pre ++ (name, v') :: post) acc.1.kd ∧ PFill vs poss (i + 1) p v')
  | .prior p, h, name, old, i, inb, pos, (new, lpr) => by
    rw [PGood] at h
    rw [Param.fillPoint]
    refine Post.bind_any fun nb => (h.fromNb nb pos).bind' fun xr hx => ?_
    obtain ⟨x, r⟩ := xr
    simp only at hx
    refine (Post.lift' (P := fun s => new.setNumAt name i x = .ok s) fun s hs => hs).bind' fun s hs =>
      Post.pure' fun hok => ?_
    obtain ⟨h1, h2⟩ := Ok_add hok
    refine ⟨h1, fun poss pre v post hpos hv hk hf => ?_⟩
    obtain ⟨xs, rfl, hlen, hf⟩ := hf
    unfold PSState.setNumAt PSState.get at hs
    rw [hv, dget_mid hk] at hs
    simp only at hs
    split at hs
    · injection hs with hs
      subst hs
      refine ⟨.arr (.vec (xs.set i x)), ?_, _, rfl, by simpa using hlen, fun j q y hj hq hy => ?_⟩
      · rw [dset_mid hk]
      · by_cases hji : i = j
        · subst hji
          rw [hpos] at hq
          injection hq with hq
          subst hq
          rw [List.getElem?_set_self (by assumption)] at hy
          injection hy with hy
          subst hy
          exact hx h2
        · rw [List.getElem?_set_ne hji] at hy
          exact hf j q y (by omega) hq hy
    · cases hs
  | .space sp, h, name, old, i, inb, pos, (new, lpr) => by
    rw [PGood] at h
    rw [Param.fillPoint]
    refine Post.ite' (fun hd => ?_) fun hd => ?_
    · refine Post.bind_any fun oldi => (Post.lift' (P := fun s => stateAt (new.get name) i = .ok s)
        fun s hs => hs).bind' fun newi hn => (nb_S sp h.1 oldi newi).bind' fun r hr => Post.pure' fun hok => ?_
      obtain ⟨h1, h2⟩ := Ok_add hok
      refine ⟨h1, fun poss pre v post hpos hv hk hf => ?_⟩
      obtain ⟨l, rfl, hlen, hne, hf⟩ := hf
      unfold PSState.get at hn
      rw [hv, dget_mid hk] at hn
      unfold stateAt at hn
      simp only at hn
      split at hn
      swap
      · cases hn
      rename_i x hx
      injection hn with hn
      subst hn
      have hi : i < l.length := (List.getElem?_eq_some_iff.1 hx).1
      refine ⟨.states (l.set i r.1), ?_, _, rfl, by simpa using hlen, by simpa using hne, fun j y hy => ?_⟩
      · unfold PSState.setStateAt PSState.get
        rw [hv, dget_mid hk]
        simp only
        rw [dset_mid hk]
      · by_cases hji : i = j
        · subst hji
          rw [List.getElem?_set_self hi] at hy
          injection hy with hy
          subst hy
          refine Or.inr ⟨fun _ => by omega, hr h2 ?_⟩
          rcases hf i _ hx with ⟨_, _, h3⟩ | ⟨h3, _⟩
          · exact h3
          · have := h3 hd; omega
        · rw [List.getElem?_set_ne hji] at hy
          rcases hf j y hy with ⟨h3, h4, h5⟩ | ⟨h3, h4⟩
          · exact Or.inl ⟨h3, by omega, h5⟩
          · exact Or.inr ⟨fun h => by have := h3 h; omega, h4⟩
    · refine Post.pure' fun hok => ⟨hok, fun poss pre v post hpos hv hk hf => ⟨v, ?_, ?_⟩⟩
      · rw [← hv]; cases new; rfl
      · obtain ⟨l, rfl, hlen, hne, hf⟩ := hf
        refine ⟨l, rfl, hlen, hne, fun j y hy => ?_⟩
        rcases hf j y hy with ⟨h3, h4, h5⟩ | ⟨h3, h4⟩
        · exact absurd h3 hd
        · exact Or.inr ⟨fun h => absurd h hd, h4⟩
end

end BB.Lemmas
