import Verif.Lemmas.Neighbour

/-!
# The death that undoes a birth
-/

namespace BB.Lemmas

open BB BB.Spec

/-- The newborn value is found in the state. -/
def Has (new : PSState) (k : String) (i : ℕ) : NVal → Prop
  | .num x => Num (new.get k) i x
  | .ps x => Nested (new.get k) i x

theorem newbornFromNeighbour_ratio (s : PSState) (j : ℕ) (pos : Pos) : ∀ (ps : ParamList),
    (∀ k sp, (k, Param.space sp) ∈ ps.toList → NamesOk sp ∧ k = sp.info.name) → ∀ (lpr : PyF),
    Post (newbornFromNeighbour s j pos ps.toList lpr) (fun r => ∃ ri, r.2 = lpr.add ri ∧
      ∀ new i, (∀ k x, (k, x) ∈ r.1 → Has new k i x) → PointRatio nearOf ps s new i j pos ri)
  | .nil, _, lpr => by
    rw [ParamList.toList, newbornFromNeighbour]
    exact Post.pure' ⟨.fin 0, (add_zero' _).symm, fun _ _ _ => by rw [PointRatio]⟩
  | .cons name p rest, hok, lpr => by
    rw [ParamList.toList] at *
    rw [newbornFromNeighbour.eq_def]
    simp only
    refine Post.bind' (Q := fun v => ∃ a, v.2 = lpr.add a ∧ ∀ new i, Has new name i v.1 →
      ParamRatio nearOf p name s new i j pos a) ?_ fun v hv => ?_
    · cases p with
      | prior p =>
        simp only
        refine (Post.lift' (P := fun nb => numAt (s.get name) j = .ok nb) fun _ h => h).bind' fun nb hnb =>
          (fromNeighbour_ok p nb pos).bind' fun xr hxr => Post.pure' ?_
        obtain ⟨x, r⟩ := xr
        obtain ⟨std, lp, h3, h4, h5, h6⟩ := hxr
        refine ⟨r, rfl, fun new i h => ?_⟩
        rw [ParamRatio]
        exact ⟨x, nb, std, lp, h, numAt_ok.1 hnb, h3, h4, h5, h6⟩
      | space sp =>
        simp only
        obtain ⟨h1, h2⟩ := hok name sp (List.mem_cons_self ..)
        refine Post.ite' (fun hd => ?_) fun hd => ?_
        · refine (Post.lift' (P := fun o => stateAt (s.get sp.info.name) j = .ok o) fun _ h => h).bind' fun o ho =>
            Post.bind_any fun n => (sampleFromNeighbour_ratio sp h1 o n).bind' fun xr hxr => Post.pure' ?_
          obtain ⟨x, r⟩ := xr
          refine ⟨r, rfl, fun new i h => ?_⟩
          rw [ParamRatio]
          rw [← h2] at ho
          exact .inr ⟨hd, o, x, stateAt_ok.1 ho, h, hxr⟩
        · exact Post.bind_any fun _ => Post.throw'
    · obtain ⟨v, lpr1⟩ := v
      obtain ⟨a, h1, h2⟩ := hv
      simp only at h1 h2 ⊢
      subst h1
      refine (newbornFromNeighbour_ratio s j pos rest (fun k sp hk => hok k sp (List.mem_cons_of_mem _ hk)) _).bind'
        fun w hw => ?_
      obtain ⟨vs, lpr2⟩ := w
      obtain ⟨b, h3, h4⟩ := hw
      simp only at h3 h4 ⊢
      refine Post.pure' ⟨a.add b, by rw [h3, add_assoc'], fun new i h => ?_⟩
      rw [PointRatio]
      exact ⟨a, b, h2 new i (h name v (List.mem_cons_self ..)),
        h4 new i fun k x hk => h k x (List.mem_cons_of_mem _ hk), rfl⟩

theorem entry_num {v : PVal} {i : ℕ} {x : ℝ} (h : (entries v)[i]? = some (.num x)) : Num (some v) i x := by
  unfold entries at h
  split at h <;> rw [List.getElem?_map, Option.map_eq_some_iff] at h <;> obtain ⟨y, h1, h2⟩ := h <;> cases h2
  exact ⟨_, rfl, h1⟩

theorem entry_state {v : PVal} {i : ℕ} {x : PSState} (h : (entries v)[i]? = some (.state x)) : Nested (some v) i x := by
  unfold entries at h
  split at h <;> rw [List.getElem?_map, Option.map_eq_some_iff] at h <;> obtain ⟨y, h1, h2⟩ := h <;> cases h2
  · exact ⟨_, .inl rfl, h1⟩
  · exact ⟨_, .inr rfl, h1⟩

theorem addOp_entries {k : Kind} {i n : ℕ} {v v' : PVal} {x : NVal} (h : addOp k i (some v) x = .ok v') (hl : v.len = n)
    (hl' : v'.len = n + 1) (hi : i ≤ n) (hv : ∀ w, k = .vor2 w → i = n) : (entries v')[i]? = some (nvEntry x) := by
  have h1 : entries v' = listInsert (entries v) i (nvEntry x) := by
    unfold addOp at h
    split at h
    · rw [hv _ rfl]; exact append_entries h hl hl'
    · exact insertAt_entries h
  have h2 : (entries v).length = n := entries_len (hasLen_of hl)
  rw [h1, getElem?_listInsert (by omega)]
  simp

theorem eraseIdx_listInsert {α : Type} {l : List α} {i : ℕ} (h : i ≤ l.length) (x : α) :
    (listInsert l i x).eraseIdx i = l := by
  unfold listInsert
  rw [List.eraseIdx_append_of_length_le (by simp)]
  have : i - (l.take i).length = 0 := by rw [List.length_take]; omega
  rw [this, List.eraseIdx_cons_zero, List.take_append_drop]

theorem delete1d_insert {xs : List ℝ} {i : ℕ} (h : i ≤ xs.length) (x : ℝ) :
    Utils1d.delete1d 0 (listInsert xs i x) i = .ok xs := by
  have hl : (listInsert xs i x).length = xs.length + 1 := by simp [listInsert]; omega
  rw [Props.C45_delete, if_neg (by intro e; rw [e] at hl; simp at hl), if_pos ⟨by omega, by omega⟩]
  congr 1
  have := eraseIdx_listInsert h x
  rw [List.eraseIdx_eq_take_drop_succ] at this
  simpa using this

theorem delOp_addOp {k : Kind} {i n : ℕ} {v v' : PVal} {x : NVal} (h : addOp k i (some v) x = .ok v') (hl : v.len = n)
    (hl' : v'.len = n + 1) (hi : i ≤ n) (hv : ∀ w, k = .vor2 w → i = n) (hn : n = 0 → ∃ xs, v = .arr (.vec xs)) :
    delOp k i v' = .ok v := by
  unfold addOp at h
  split at h
  · have hin := hv _ rfl
    subst hin
    have e : ∀ {β : Type} (l : List β) (y : β), l.length = i → (l ++ [y]).eraseIdx i = l := by
      intro β l y hl
      subst hl
      rw [← listInsert_end]
      exact eraseIdx_listInsert le_rfl y
    change PVal.npDelete v' i = _
    unfold PVal.append at h
    split at h <;> try cases h
    · next xs y hw =>
      injection hw with hw
      subst hw
      have hl2 : xs.length = i := hl
      unfold PVal.npDelete
      simp only
      rw [if_pos (by simp; omega), e xs y hl2]
    · next ps y hw =>
      injection hw with hw
      subst hw
      simp only [PVal.len, Arr.len, List.length_append, List.length_flatMap, List.length_cons, List.length_nil,
        List.map_const', List.sum_replicate, smul_eq_mul] at hl hl'
      rcases Nat.eq_zero_or_pos i with h0 | h0
      · obtain ⟨xs, hxs⟩ := hn h0
        cases hxs
      · omega
    · next l y hw =>
      injection hw with hw
      subst hw
      have hl2 : l.length = i := hl
      unfold PVal.npDelete
      simp only
      rw [if_pos (by simp; omega), e l y hl2]
    · next l y hw =>
      injection hw with hw
      subst hw
      have hl2 : l.length = i := hl
      unfold PVal.npDelete
      simp only
      rw [listDelete_eraseIdx, e l y hl2]
  · next hk =>
    have hd : delOp k i v' = v'.deleteAt i := by
      unfold delOp
      split
      · exact absurd rfl (hk _)
      · rfl
    rw [hd]
    unfold PVal.insertAt at h
    split at h <;> try cases h
    · next xs y hw =>
      injection hw with hw
      subst hw
      obtain ⟨ys, h1, h2⟩ := bindE_ok.1 h
      rw [pureE_ok] at h2
      subst h2
      obtain ⟨rfl, h3⟩ := insert1d_eq h1
      unfold PVal.deleteAt
      simp only
      rw [delete1d_insert h3]
      rfl
    · next l y hw =>
      injection hw with hw
      subst hw
      have hl2 : l.length = n := hl
      unfold PVal.deleteAt
      simp only
      rw [listDelete_eraseIdx, eraseIdx_listInsert (by omega)]

theorem delOp_addSite {k : Kind} {i : ℕ} {pos : Pos} {v v' : PVal} (h : AddSite k i pos v v') :
    delOp k i v' = .ok v := by
  unfold AddSite at h
  split at h
  · exact h.elim
  · obtain ⟨xs, x, rfl, rfl, h1, _⟩ := h
    unfold delOp PVal.deleteAt
    simp only
    rw [delete1d_insert h1]
    rfl
  · obtain ⟨ps, p, rfl, rfl, rfl, _⟩ := h
    unfold delOp PVal.npDelete
    simp only
    rw [if_pos (by simp), ← listInsert_end, eraseIdx_listInsert le_rfl]

theorem rel_flip {R : PVal → PVal → Prop} {a b : List (String × PVal)} (h : Rel R a b) :
    Rel (fun v v' => R v' v) b a := by
  unfold Rel at *
  induction h with
  | nil => exact .nil
  | cons h1 _ ih => exact .cons ⟨h1.1.symm, h1.2⟩ ih

theorem checkVals_of {n : ℕ} : ∀ {vals : List (String × PVal)}, (∀ kv ∈ vals, kv.2.len = n ∧ kv.2 ≠ .states []) →
    checkVals n vals = .ok ()
  | [], _ => rfl
  | (k, v) :: rest, h => by
    rw [checkVals, if_neg (by rw [(h _ (List.mem_cons_self ..)).1]; simp)]
    have : checkVal v = .ok () := by
      have := (h _ (List.mem_cons_self ..)).2
      unfold checkVal
      split
      · exact absurd rfl this
      · rfl
    rw [this]
    exact checkVals_of fun kv hkv => h kv (List.mem_cons_of_mem _ hkv)

/-- The birth as a whole. -/
theorem birth_form {sp : Space} (hok : SpaceOk sp) (hd : sp.info.kind.isDisc = true) (s : PSState) :
    Post (sp.birth s) (fun r => (s.n = sp.info.hi ∧ r.2 = .ninf) ∨
      (s.n ≠ sp.info.hi ∧ ∃ new i pos nv, Born sp s new r.2 i pos nv ∧ r.1.n = new.n ∧ r.1.vals = new.vals)) := by
  unfold Space.birth
  rw [if_pos hd]
  refine Post.bind' (Q := fun r => (s.n = sp.info.hi ∧ r = (s, .ninf)) ∨
      (s.n ≠ sp.info.hi ∧ ∃ i pos nv, Born sp s r.1 r.2 i pos nv)) ?_ fun r hr => ?_
  · exact Post.ite' (fun h => Post.pure' (.inl ⟨h, rfl⟩)) fun h =>
      (vorBirth_form hok s).mono fun r hr => .inr ⟨h, hr⟩
  · obtain ⟨new, lpr⟩ := r
    simp only at hr ⊢
    refine (Post.lift' (P := fun new' => sp.info.kind.withKd new = .ok new') fun _ h => h).bind' fun new' hnew =>
      Post.pure' ?_
    simp only
    rcases hr with ⟨h1, h2⟩ | ⟨hne, i, pos, nv, h⟩
    · injection h2 with h2 h3
      exact .inl ⟨h1, h3⟩
    · exact .inr ⟨hne, new, i, pos, nv, h, withKd_n hnew, withKd_vals hnew⟩

/-- The site of the newborn cell. -/
theorem Born.site {sp : Space} {s new : PSState} {lpr : PyF} {i : ℕ} {pos : Pos} {nv : List (String × NVal)}
    (h : Born sp s new lpr i pos nv) : ∃ a, new.get "discretization" = some (.arr a) ∧ a.positions[i]? = some pos := by
  obtain ⟨v0, v0', vals, h1, h2, h3, _⟩ := h.vals
  have hg : new.get "discretization" = some v0' := by
    unfold PSState.get
    rw [h2]
    simp [dget]
  unfold AddSite at h3
  split at h3
  · exact h3.elim
  · obtain ⟨xs, x, _, rfl, h5, rfl, _⟩ := h3
    refine ⟨_, hg, ?_⟩
    rw [Arr.positions, map_listInsert, getElem?_listInsert (by simpa using h5)]
    simp
  · obtain ⟨ps, p, _, rfl, rfl, rfl, _⟩ := h3
    refine ⟨_, hg, ?_⟩
    rw [Arr.positions]
    simp

/-- The newborn values are in the state. -/
theorem Born.has {sp : Space} {s new : PSState} {lpr : PyF} {i : ℕ} {pos : Pos} {nv : List (String × NVal)}
    (hok : SpaceOk sp) (ha : ArraysOk sp s) (h : Born sp s new lpr i pos nv) :
    ∀ k x, (k, x) ∈ nv → Has new k i x := by
  obtain ⟨v0, v0', vals, h1, h2, h3, h4⟩ := h.vals
  obtain ⟨t, t', hr⟩ := h.ran
  have hn := newborn_names sp pos s t _ t' hr
  simp only at hn
  have hkeys : vals.map (·.1) = nv.map (·.1) := by
    clear h2 hn hr h
    induction h4 with
    | nil => rfl
    | cons a _ ih => simp [ih, a.1]
  have hnd : (dkeys new.vals).Nodup := by
    rw [h2, dkeys, List.map_cons, hkeys, hn]
    exact List.nodup_cons.2 ⟨hok.disc, hok.nodup⟩
  intro k x hkx
  obtain ⟨j, hj, hjx⟩ := List.getElem_of_mem hkx
  have hj2 : j < vals.length := by rw [← h4.length_eq]; exact hj
  have := (List.forall₂_iff_get.1 h4).2 j hj hj2
  simp only [List.get_eq_getElem, hjx] at this
  obtain ⟨e1, e2⟩ := this
  have hmem : (k, vals[j].2) ∈ new.vals := by
    rw [h2, ← e1]; exact List.mem_cons_of_mem _ (List.getElem_mem _)
  have hg : new.get k = some vals[j].2 := dget_of_mem hnd hmem
  have hidx := h.index ha
  cases hs : s.get k with
  | none =>
    rw [hs] at e2
    unfold addOp at e2
    split at e2
    · cases x <;> cases e2
    · cases x <;> cases e2
  | some v =>
    rw [hs] at e2
    have hl : v.len = s.n := len_of_hasLen (ha.2.1 _ _ (dget_some_mem hs))
    have hl' : vals[j].2.len = s.n + 1 := by rw [(h.shape _ hmem).1, h.n]
    have := addOp_entries e2 hl hl' hidx.1 hidx.2
    cases x with
    | num x => rw [Has, hg]; exact entry_num this
    | ps x => rw [Has, hg]; exact entry_state this

theorem subspaces_ok {sp : Space} (hok : NamesOk sp) : ∀ k sp1, (k, Param.space sp1) ∈ sp.params.toList →
    NamesOk sp1 ∧ k = sp1.info.name := fun k sp1 h =>
  ⟨fun sp' h' => hok sp' (.step h h'), (hok sp .refl).key k _ h⟩

/-- The ratio of a birth from the neighbour. -/
theorem Born.ratio {sp : Space} {s new : PSState} {lpr : PyF} {i : ℕ} {pos : Pos} {nv : List (String × NVal)}
    (hok : NamesOk sp) (ha : ArraysOk sp s) (h : Born sp s new lpr i pos nv) (hp : sp.info.fromPrior = false) :
    ∃ j, nearOf sp.info.kind (s.get "discretization") pos j ∧ PointRatio nearOf sp.params s new i j pos lpr := by
  obtain ⟨t, t', hr⟩ := h.ran
  unfold Space.newborn at hr
  rw [if_neg (by rw [hp]; simp)] at hr
  obtain ⟨j, t1, h1, h2⟩ := M.bind_ok.1 hr
  rw [lift_ok] at h1
  obtain ⟨ri, h3, h4⟩ := newbornFromNeighbour_ratio s j pos sp.params (subspaces_ok hok) _ t1 _ t' h2
  simp only [zero_add'] at h3
  subst h3
  exact ⟨j, h1.1, h4 new i (h.has (hok sp .refl) ha)⟩

theorem Born.ratio_prior {sp : Space} {s new : PSState} {lpr : PyF} {i : ℕ} {pos : Pos} {nv : List (String × NVal)}
    (h : Born sp s new lpr i pos nv) (hp : sp.info.fromPrior = true) : lpr = .fin 0 := by
  obtain ⟨t, t', hr⟩ := h.ran
  unfold Space.newborn at hr
  rw [if_pos hp] at hr
  obtain ⟨vs, t1, h1, h2⟩ := M.bind_ok.1 hr
  rw [M.pure_run] at h2
  injection h2 with h2 h3
  injection h2 with h2
  injection h2 with h2 h3
  exact h3.symm

theorem pointRatio_old {near : Near} : ∀ {ps : ParamList} {old old' new new' : PSState} {i j : ℕ} {pos : Pos} {r : PyF},
    PointRatio near ps old new i j pos r → old'.vals = old.vals → new'.vals = new.vals →
    PointRatio near ps old' new' i j pos r
  | .nil, _, _, _, _, _, _, _, _, h, _, _ => by rw [PointRatio] at *; exact h
  | .cons name p rest, old, old', new, new', _, _, _, _, h, h1, h2 => by
    rw [PointRatio] at *
    obtain ⟨a, b, h3, h4, h5⟩ := h
    have g1 : old'.get = old.get := by funext k; unfold PSState.get; rw [h1]
    have g2 : new'.get = new.get := by funext k; unfold PSState.get; rw [h2]
    refine ⟨a, b, ?_, pointRatio_old h4 h1 h2, h5⟩
    cases p with
    | prior p => rw [ParamRatio, g1, g2]; rw [ParamRatio] at h3; exact h3
    | space sp => rw [ParamRatio, g1, g2]; rw [ParamRatio] at h3; exact h3

/-- The death of the newborn cell of a discretization. -/
theorem undo {sp : Space} (hok : NamesOk sp) (hd : sp.info.kind.isDisc = true) {s : PSState} (ha : ArraysOk sp s)
    (hn : s.n = 0 → ∀ kv ∈ s.vals, ∃ xs, kv.2 = .arr (.vec xs)) (hlo : sp.info.lo ≤ s.n) {new0 new : PSState} {lpr : PyF} {i : ℕ} {pos : Pos}
    {nv : List (String × NVal)} (h : Born sp s new0 lpr i pos nv) (e1 : new.n = new0.n) (e2 : new.vals = new0.vals)
    (d : Draw) (t : List Draw) (hdi : d.n % (s.n + 1) = i) :
    ∃ kd, sp.death new (d :: t) = (.ok (.mk s.n s.vals kd, lpr.neg), t) ∧
      sp.info.kind.withKd (.mk s.n s.vals none) = .ok (.mk s.n s.vals kd) := by
  have hok1 := hok sp .refl
  have hnn : new.n = s.n + 1 := by rw [e1, h.n]
  have hidx := h.index ha
  have hrel : Rel (fun v v' => delOp sp.info.kind i v' = .ok v) s.vals new0.vals :=
    h.rel hok1 ha hd (fun v v' _ h2 => delOp_addSite h2) fun k v x v' h1 h2 h3 h4 =>
      delOp_addOp h2 h3 h4 hidx.1 hidx.2 fun h0 => hn h0 (k, v) (dget_some_mem h1)
  have hmap : mapVals (delOp sp.info.kind i) new.vals = .ok s.vals := by
    rw [e2]
    exact mapVals_ok.2 (rel_flip hrel)
  have hshape : ∀ kv ∈ s.vals, kv.2.len = s.n ∧ kv.2 ≠ .states [] := by
    intro kv hkv
    have hl := len_of_hasLen (ha.2.1 kv.1 kv.2 hkv)
    refine ⟨hl, fun e => ?_⟩
    rw [e] at hl
    obtain ⟨xs, hxs⟩ := hn hl.symm kv hkv
    rw [e] at hxs
    cases hxs
  have hmk : mkPS s.n s.vals = .ok (.mk s.n s.vals none) := by
    unfold mkPS
    rw [checkVals_of hshape]
    rfl
  have hratio : sp.deathRatio new (.mk s.n s.vals none) i = .ok lpr.neg := by
    unfold Space.deathRatio
    cases hp : sp.info.fromPrior with
    | true => rw [h.ratio_prior hp]; simp [PyF.neg]
    | false =>
      obtain ⟨j, h1, h2⟩ := h.ratio hok ha hp
      obtain ⟨a, h3, h4⟩ := h.site
      have hs : new.sites = .ok a.positions := by
        unfold PSState.sites PSState.get
        rw [e2]
        unfold PSState.get at h3
        rw [h3]
      rw [hs]
      change (match a.positions[i]? with | none => throw PyErr.indexError | some pos => _) = _
      rw [h4]
      simp only
      have hnear : nearest sp.info.kind ((PSState.mk s.n s.vals none).get "discretization") pos = .ok j := h1
      rw [hnear]
      change sp.params.deathPoint new (.mk s.n s.vals none) i j pos (.fin 0) = _
      rw [deathPoint_ratio sp.params (.mk s.n s.vals none) new i j pos lpr (.fin 0)
        (pointRatio_old h2 rfl e2), zero_add']
  have hdeath : vorDeath sp new (d :: t) = (.ok (.mk s.n s.vals none, lpr.neg), t) := by
    unfold vorDeath
    refine (M.bind_of (M.randIdx_run (by omega) d t)).trans ?_
    rw [hnn, hdi]
    refine (M.bind_of (a := s.vals) (t1 := t) ((M.lift_run _ t).trans (Prod.ext hmap rfl))).trans ?_
    refine (M.bind_of (a := .mk s.n s.vals none) (t1 := t) (by rw [M.lift_run, Nat.add_sub_cancel, hmk])).trans ?_
    refine (M.bind_of (a := lpr.neg) (t1 := t) (by rw [M.lift_run, hratio])).trans ?_
    rfl
  have hkd : ∃ kd, sp.info.kind.withKd (.mk s.n s.vals none) = .ok (.mk s.n s.vals kd) := by
    unfold Kind.withKd
    cases hk : sp.info.kind with
    | plain => exact ⟨none, rfl⟩
    | vor1 v => exact ⟨none, rfl⟩
    | vor2 v =>
      simp only
      split
      · obtain ⟨v0, v0', vals, h1, _, h3, _⟩ := h.vals
        rw [hk] at h3
        obtain ⟨ps, p, rfl, _⟩ := h3
        unfold addKd
        have : (PSState.mk s.n s.vals none).get "discretization" = some (.arr (.pts ps)) := h1
        rw [this]
        exact ⟨some ps, rfl⟩
      · exact ⟨none, rfl⟩
  obtain ⟨kd, hkd⟩ := hkd
  refine ⟨kd, ?_, hkd⟩
  unfold Space.death
  rw [if_pos hd, if_neg (by omega)]
  refine (M.bind_of hdeath).trans ?_
  refine (M.bind_of (a := .mk s.n s.vals kd) (t1 := t) (by rw [M.lift_run, hkd])).trans ?_
  rfl

/-- The death of the newborn dimension of another space. -/
theorem undo_plain {info : Info} {s new : PSState} {i : ℕ} (hlo : info.lo ≤ s.n)
    (hn : s.n = 0 → ∀ kv ∈ s.vals, ∃ xs, kv.2 = .arr (.vec xs))
    (hlen : ∀ kv ∈ s.vals, HasLen kv.2 s.n) (hi : i ≤ s.n) (e1 : new.n = s.n + 1)
    (h : Rel (fun v v' => ∃ x, PVal.insertAt (some v) i x = .ok v') s.vals new.vals) (d : Draw) (t : List Draw)
    (hdi : d.n % (s.n + 1) = i) : plainDeath info new (d :: t) = (.ok (.mk s.n s.vals none, .fin 0), t) := by
  have hshape : ∀ kv ∈ s.vals, kv.2.len = s.n ∧ kv.2 ≠ .states [] := by
    intro kv hkv
    have hl := len_of_hasLen (hlen kv hkv)
    refine ⟨hl, fun e => ?_⟩
    rw [e] at hl
    obtain ⟨xs, hxs⟩ := hn hl.symm kv hkv
    rw [e] at hxs
    cases hxs
  have hmk : mkPS s.n s.vals = .ok (.mk s.n s.vals none) := by
    unfold mkPS
    rw [checkVals_of hshape]
    rfl
  have hmap : mapVals (fun v => v.deleteAt i) new.vals = .ok s.vals := by
    refine mapVals_ok.2 (rel_flip (h.mono (R' := fun v v' => v'.deleteAt i = .ok v) fun kv hkv kv' _ hx => ?_))
    obtain ⟨x, hx⟩ := hx
    have hl := (hshape kv hkv).1
    have hl' : kv'.2.len = s.n + 1 := by
      have h1 := congrArg List.length (insertAt_entries hx)
      have h2 : (entries kv.2).length = s.n := entries_len (hlen kv hkv)
      have h3 : ∀ w : PVal, (entries w).length = w.len := by
        intro w
        unfold entries
        split <;> simp [PVal.len, Arr.len]
      rw [h3] at h1
      rw [h1]
      simp only [listInsert, List.length_append, List.length_take, List.length_cons, List.length_drop, h2]
      omega
    exact delOp_addOp (k := .plain) hx hl hl' hi (by intro w hw; cases hw) fun h0 => hn h0 kv hkv
  unfold plainDeath
  rw [if_neg (by omega)]
  refine (M.bind_of (M.randIdx_run (by omega) d t)).trans ?_
  rw [e1, hdi]
  refine (M.bind_of (a := s.vals) (t1 := t) (by rw [M.lift_run, hmap])).trans ?_
  refine (M.bind_of (a := .mk s.n s.vals none) (t1 := t) (by rw [M.lift_run, Nat.add_sub_cancel, hmk])).trans ?_
  rfl

/-! ### the nearest site -/

theorem argmin_spec : ∀ {l : List ℝ} {j : ℕ}, argmin l = some j → ∃ x, l[j]? = some x ∧ ∀ y ∈ l, x ≤ y
  | [], _, h => by simp [argmin] at h
  | x :: xs, j, h => by
    rw [argmin] at h
    cases hx : argmin xs with
    | none =>
      rw [hx] at h
      injection h with h
      subst h
      cases xs with
      | nil => exact ⟨x, rfl, by simp⟩
      | cons y ys =>
        exfalso
        rw [argmin] at hx
        split at hx
        · cases hx
        · split at hx <;> cases hx
    | some k =>
      rw [hx] at h
      obtain ⟨y, h1, h2⟩ := argmin_spec hx
      simp only at h
      have h3 : xs.getD k 0 = y := by rw [List.getD_eq_getElem?_getD, h1]; rfl
      rw [h3] at h
      split at h
      · next hle =>
        injection h with h
        subst h
        refine ⟨x, rfl, fun z hz => ?_⟩
        rcases List.mem_cons.1 hz with rfl | hz
        · exact le_rfl
        · exact hle.trans (h2 z hz)
      · next hle =>
        injection h with h
        subst h
        refine ⟨y, by simpa using h1, fun z hz => ?_⟩
        rcases List.mem_cons.1 hz with rfl | hz
        · exact (not_le.1 hle).le
        · exact h2 z hz

theorem nearOf_nearest {k : Kind} {s : PSState} {pos : Pos} {j : ℕ}
    (h : nearOf k (s.get "discretization") pos j) (hs : ∀ v, k = .vor1 v → LineOk v s) :
    byDistance k (s.get "discretization") pos j := by
  unfold nearOf nearest at h
  split at h
  · next v xs x hx =>
    left
    obtain ⟨xs', h1, _, h2, _⟩ := hs _ rfl
    rw [hx] at h1
    injection h1 with h1
    injection h1 with h1
    injection h1 with h1
    subst h1
    by_cases hne : xs = []
    · subst hne
      have := Props.C46_no_sites x
      rw [List.length_nil] at h
      rw [h] at this
      cases this
    obtain ⟨i, h3, h4, h5⟩ := Props.C46_nearest xs hne h2 x
    rw [h] at h3
    injection h3 with h3
    subst h3
    refine ⟨xs, xs[j], x, hx, rfl, List.getElem?_eq_getElem h4, fun y hy => ?_⟩
    obtain ⟨m, hm, rfl⟩ := List.getElem_of_mem hy
    exact h5 m hm
  · next v ps p hx =>
    right
    split at h
    · next i hi =>
      injection h with h
      subst h
      obtain ⟨x, h1, h2⟩ := argmin_spec hi
      rw [List.getElem?_map, Option.map_eq_some_iff] at h1
      obtain ⟨q, h3, rfl⟩ := h1
      exact ⟨ps, q, p, hx, rfl, h3, fun y hy => h2 _ (List.mem_map_of_mem hy)⟩
    · cases h
  · cases h
  · cases h

/-- The sites of all 1D tessellations in the state are sorted. -/
def Sorted (sp : Space) (s : PSState) : Prop :=
  ∀ sp' s', SubState sp s sp' s' → ∀ v, sp'.info.kind = .vor1 v → LineOk v s'

mutual
theorem spaceRatio_near : ∀ (sp : Space) (old new : PSState) (r : PyF), Sorted sp old →
    SpaceRatio nearOf sp old new r → SpaceRatio byDistance sp old new r
  | .mk info ps, old, new, r, hs, h => by
    rw [SpaceRatio] at *
    obtain ⟨a, rs, h1, h2, h3, h4⟩ := h
    refine ⟨a, rs, h1, h2, fun i pos ri hi hri => ?_, h4⟩
    obtain ⟨j, h5, h6⟩ := h3 i pos ri hi hri
    exact ⟨j, nearOf_nearest h5 (hs _ _ .refl), pointRatio_near ps old new i j pos ri
      (fun k sp1 hk x hx sp' s' hsub => by
        obtain ⟨l, h7, h8⟩ := hx
        exact hs sp' s' (.step (sp := .mk info ps) hk h7 h8 hsub)) h6⟩
theorem pointRatio_near : ∀ (ps : ParamList) (old new : PSState) (i j : ℕ) (pos : Pos) (r : PyF),
    (∀ k sp1, (k, Param.space sp1) ∈ ps.toList → ∀ x,
      (∃ l, (old.get k = some (.states l) ∨ old.get k = some (.objs l)) ∧ x ∈ l) → Sorted sp1 x) →
    PointRatio nearOf ps old new i j pos r → PointRatio byDistance ps old new i j pos r
  | .nil, _, _, _, _, _, _, _, h => by rw [PointRatio] at *; exact h
  | .cons name p rest, old, new, i, j, pos, r, hs, h => by
    rw [PointRatio] at *
    obtain ⟨a, b, h1, h2, h3⟩ := h
    rw [ParamList.toList] at hs
    exact ⟨a, b, paramRatio_near p name old new i j pos a
      (fun sp1 hp x hx => hs name sp1 (by rw [hp]; exact List.mem_cons_self ..) x hx) h1,
      pointRatio_near rest old new i j pos b (fun k sp1 hk => hs k sp1 (List.mem_cons_of_mem _ hk)) h2, h3⟩
theorem paramRatio_near : ∀ (p : Param) (name : String) (old new : PSState) (i j : ℕ) (pos : Pos) (r : PyF),
    (∀ sp1, p = .space sp1 → ∀ x,
      (∃ l, (old.get name = some (.states l) ∨ old.get name = some (.objs l)) ∧ x ∈ l) → Sorted sp1 x) →
    ParamRatio nearOf p name old new i j pos r → ParamRatio byDistance p name old new i j pos r
  | .prior p, _, _, _, _, _, _, _, _, h => by rw [ParamRatio] at *; exact h
  | .space sp, name, old, new, i, j, pos, r, hs, h => by
    rw [ParamRatio] at *
    rcases h with h | ⟨h1, o, n, h2, h3, h4⟩
    · exact .inl h
    · refine .inr ⟨h1, o, n, h2, h3, spaceRatio_near sp o n r ?_ h4⟩
      obtain ⟨l, h5, h6⟩ := h2
      exact hs sp rfl o ⟨l, h5, List.mem_of_getElem? h6⟩
end

/-! ### the draws -/


theorem perturbValue_draw {p : Prior} {v : ℝ} {pos : Pos} {b : Bool} {t t' : List Draw} {new : ℝ} {r : PyF}
    (h : p.perturbValue v pos b t = (.ok (new, r), t')) :
    ∃ d std, t = d :: t' ∧ p.getStd b pos = .ok std ∧ new = v + d.z * std := by
  match hd : p.dist with
  | .uniform vmin vmax =>
    obtain ⟨s, _, _, d, h1, _, _, h4, h5, _⟩ := (perturbValue_uniform hd).1 h
    exact ⟨d, s, h4, h1, h5⟩
  | .gaussian mean std =>
    obtain ⟨s, _, _, d, h1, _, _, h4, h5, _⟩ := (perturbValue_gaussian hd).1 h
    exact ⟨d, s, h4, h1, h5⟩
  | .laplace mean std =>
    obtain ⟨s, _, _, d, h1, _, _, h4, h5, _⟩ := (perturbValue_laplace hd).1 h
    exact ⟨d, s, h4, h1, h5⟩
  | .custom f g sm =>
    obtain ⟨hb, s, d, _, _, h1, h4, h5, _⟩ := (perturbValue_custom hd).1 h
    subst hb
    exact ⟨d, s, h4, h1, h5⟩

theorem fromNeighbour_draw {p : Prior} {nb : ℝ} {pos : Pos} {t t' : List Draw} {r : ℝ × PyF}
    (h : p.fromNeighbour nb pos t = (.ok r, t')) :
    ∃ d std, t = d :: t' ∧ p.stdBirth.get pos = .ok std ∧ r.1 = nb + d.z * std := by
  unfold Prior.fromNeighbour at h
  obtain ⟨⟨x, q⟩, t1, h1, h2⟩ := M.bind_ok.1 h
  obtain ⟨std, t2, h3, h4⟩ := M.bind_ok.1 h2
  obtain ⟨lp, t3, h5, h6⟩ := M.bind_ok.1 h4
  obtain ⟨g, t4, h7, h8⟩ := M.bind_ok.1 h6
  rw [lift_ok] at h3 h5 h7
  rw [pure_ok] at h8
  obtain ⟨rfl, rfl⟩ := h8
  obtain ⟨d, s, h9, h10, h11⟩ := perturbValue_draw h1
  refine ⟨d, s, ?_, h10, h11⟩
  rw [h9, h3.2, h5.2, h7.2]

/-- A birth on a given tape: first the site, then the values. -/
theorem vorBirth_tape {sp : Space} (hok : SpaceOk sp) {s new : PSState} {lpr : PyF} {t t' : List Draw}
    (h : vorBirth sp s t = (.ok (new, lpr), t')) :
    ∃ i pos nv t1, Born sp s new lpr i pos nv ∧ drawSite sp.info.kind t = (.ok pos, t1) ∧
      sp.newborn pos s t1 = (.ok (nv, lpr), t') := by
  unfold vorBirth at h
  cases hk : sp.info.kind with
  | plain => rw [hk] at h; cases h
  | vor1 v =>
    rw [hk] at h
    simp only at h
    obtain ⟨x, t1, h1, h2⟩ := M.bind_ok.1 h
    obtain ⟨⟨nv, lpr1⟩, t2, h3, h4⟩ := M.bind_ok.1 h2
    simp only at h4
    cases hd : s.get "discretization" with
    | none => rw [hd] at h4; cases h4
    | some a =>
      rw [hd] at h4
      match a, h4 with
      | .arr (.pts ps), h4 => cases h4
      | .states l, h4 => cases h4
      | .objs l, h4 => cases h4
      | .arr (.vec xs), h4 =>
      simp only at h4
      obtain ⟨sites, t3, h5, h6⟩ := M.bind_ok.1 h4
      obtain ⟨vals, t4, h7, h8⟩ := M.bind_ok.1 h6
      obtain ⟨new1, t5, h9, h10⟩ := M.bind_ok.1 h8
      rw [lift_ok] at h5 h7 h9
      rw [pure_ok] at h10
      obtain ⟨h5, rfl⟩ := h5
      obtain ⟨h7, rfl⟩ := h7
      obtain ⟨h9, rfl⟩ := h9
      obtain ⟨h10, rfl⟩ := h10
      injection h10 with h10 h11
      subst h10 h11
      have hs := (mkPS_shape h9).1
      have hnames := newborn_names sp (.one x) s _ _ _ h3
      obtain ⟨vals', h11, h12⟩ := addNewborn_form (by
        rw [hnames]
        exact List.nodup_cons.2 ⟨by simpa using hok.disc, hok.nodup⟩) h7
      have h13 := (mkPS_ok.1 h9).2
      subst h13
      refine ⟨bisectLeft xs x 0 xs.length, .one x, nv, t1, ?_, ?_, h3⟩
      · exact ⟨rfl, rfl, ⟨_, _, h3⟩, hs, _, _, vals', hd, h11, by
          rw [hk]
          exact ⟨xs, x, rfl, by rw [(insert1d_eq h5).1], bisectLeft_le _ _ _ _ (Nat.zero_le _), rfl,
            Post.uniform' (hok.line v hk) t x t1 h1⟩, by rw [hk]; exact h12⟩
      · exact (M.bind_of h1).trans rfl
  | vor2 v =>
    rw [hk] at h
    simp only at h
    obtain ⟨p, t1, h1, h2⟩ := M.bind_ok.1 h
    obtain ⟨⟨nv, lpr1⟩, t2, h3, h4⟩ := M.bind_ok.1 h2
    simp only at h4
    cases hd : s.get "discretization" with
    | none => rw [hd] at h4; cases h4
    | some a =>
      rw [hd] at h4
      match a, h4 with
      | .arr (.vec ps), h4 => cases h4
      | .states l, h4 => cases h4
      | .objs l, h4 => cases h4
      | .arr (.pts ps), h4 =>
      simp only at h4
      obtain ⟨vals, t4, h7, h8⟩ := M.bind_ok.1 h4
      obtain ⟨new1, t5, h9, h10⟩ := M.bind_ok.1 h8
      rw [lift_ok] at h7 h9
      rw [pure_ok] at h10
      obtain ⟨h7, rfl⟩ := h7
      obtain ⟨h9, rfl⟩ := h9
      obtain ⟨h10, rfl⟩ := h10
      injection h10 with h10 h11
      subst h10 h11
      have hs := (mkPS_shape h9).1
      have hnames := newborn_names sp (.two p) s _ _ _ h3
      obtain ⟨vals', h11, h12⟩ := addNewborn_form (by
        rw [hnames]
        exact List.nodup_cons.2 ⟨by simpa using hok.disc, hok.nodup⟩) h7
      have h13 := (mkPS_ok.1 h9).2
      subst h13
      refine ⟨ps.length, .two p, nv, t1, ?_, ?_, h3⟩
      · exact ⟨rfl, rfl, ⟨_, _, h3⟩, hs, _, _, vals', hd, h11, by
          rw [hk]
          exact ⟨ps, p, rfl, rfl, rfl, rfl, sampleSite2_post (hok.plane v hk) t p t1 h1⟩, by rw [hk]; exact h12⟩
      · exact (M.bind_of h1).trans rfl

/-- The birth as a whole, on a given tape. -/
theorem birth_tape {sp : Space} (hok : SpaceOk sp) (hd : sp.info.kind.isDisc = true) {s : PSState}
    (hne : s.n ≠ sp.info.hi) {r : PSState × PyF} {t t' : List Draw} (h : sp.birth s t = (.ok r, t')) :
    ∃ new i pos nv t1, Born sp s new r.2 i pos nv ∧ r.1.n = new.n ∧ r.1.vals = new.vals ∧
      drawSite sp.info.kind t = (.ok pos, t1) ∧ sp.newborn pos s t1 = (.ok (nv, r.2), t') := by
  unfold Space.birth at h
  rw [if_pos hd, if_neg hne] at h
  obtain ⟨⟨new, lpr⟩, t1, h1, h2⟩ := M.bind_ok.1 h
  simp only at h2
  obtain ⟨new', t2, h3, h4⟩ := M.bind_ok.1 h2
  rw [lift_ok] at h3
  obtain ⟨h3, rfl⟩ := h3
  rw [pure_ok] at h4
  obtain ⟨rfl, rfl⟩ := h4
  obtain ⟨i, pos, nv, t3, h5, h6, h7⟩ := vorBirth_tape hok h1
  exact ⟨new, i, pos, nv, t3, h5, withKd_n h3, withKd_vals h3, h6, h7⟩

/-- The draws of a birth from the neighbour: one for each parameter, in turn. -/
theorem newbornFromNeighbour_draws (s : PSState) (j : ℕ) (pos : Pos) : ∀ (ps : List (String × Param)),
    (∀ k p, (k, p) ∈ ps → ∃ q, p = Param.prior q) → ∀ (lpr : PyF) (t t' : List Draw)
    (r : List (String × NVal) × PyF), newbornFromNeighbour s j pos ps lpr t = (.ok r, t') →
    ∃ ds, t = ds ++ t' ∧ ds.length = ps.length ∧ r.1.length = ps.length ∧ ∀ (m : ℕ) k q d, ps[m]? = some (k, .prior q) → ds[m]? = some d →
      ∃ nb std, Num (s.get k) j nb ∧ q.stdBirth.get pos = .ok std ∧ r.1[m]? = some (k, .num (nb + d.z * std))
  | [], _, lpr, t, t', r, h => by
    rw [newbornFromNeighbour, pure_ok] at h
    obtain ⟨rfl, rfl⟩ := h
    exact ⟨[], rfl, rfl, rfl, by simp⟩
  | (name, p) :: rest, hp, lpr, t, t', r, h => by
    obtain ⟨q, rfl⟩ := hp _ _ (List.mem_cons_self ..)
    rw [newbornFromNeighbour.eq_def] at h
    simp only at h
    obtain ⟨v, t1, h1, h2⟩ := M.bind_ok.1 h
    obtain ⟨nb, t2, h3, h4⟩ := M.bind_ok.1 h1
    rw [lift_ok] at h3
    obtain ⟨h3, rfl⟩ := h3
    obtain ⟨x, t3, h5, h6⟩ := M.bind_ok.1 h4
    obtain ⟨d, std, rfl, h7, h8⟩ := fromNeighbour_draw h5
    rw [pure_ok] at h6
    obtain ⟨rfl, rfl⟩ := h6
    simp only at h2
    obtain ⟨w, t4, h9, h10⟩ := M.bind_ok.1 h2
    rw [pure_ok] at h10
    obtain ⟨rfl, rfl⟩ := h10
    obtain ⟨ds, h11, h12, h13, h14⟩ := newbornFromNeighbour_draws s j pos rest
      (fun k p hk => hp k p (List.mem_cons_of_mem _ hk)) _ _ _ _ h9
    refine ⟨d :: ds, by rw [h11]; rfl, by simp [h12], by simp [h13], fun m k q' d' hm hd => ?_⟩
    cases m with
    | zero =>
      simp only [List.getElem?_cons_zero, Option.some.injEq, Prod.mk.injEq, Param.prior.injEq] at hm hd
      obtain ⟨rfl, rfl⟩ := hm
      subst hd
      exact ⟨nb, std, numAt_ok.1 h3, h7, by simp [h8]⟩
    | succ m =>
      simp only [List.getElem?_cons_succ] at hm hd ⊢
      exact h14 m k q' d' hm hd

end BB.Lemmas
