import Verif.Lemmas.PlainSample
import Verif.Lemmas.Births
import Verif.Lemmas.Values

/-!
# Plain parameter spaces: what births, deaths and changes of values compute
-/

namespace BB.Lemmas

open BB Spec MeasureTheory

/-! ### lists of the values of functions -/

theorem listInsert_ofFn {α : Type} {n : ℕ} (v : Fin n → α) (p : Fin (n + 1)) (x : α) :
    listInsert (List.ofFn v) p x = List.ofFn (Fin.insertNth (α := fun _ => α) p x v) := by
  have hp : (p : ℕ) ≤ n := Nat.lt_succ_iff.1 p.2
  unfold listInsert
  refine List.ext_getElem (by simp; omega) fun k h1 h2 => ?_
  rw [List.getElem_ofFn]
  have hk : k < n + 1 := by simpa using h2
  rcases lt_trichotomy k p with h | h | h
  · have h3 : ((⟨k, by omega⟩ : Fin n).castSucc) = ⟨k, hk⟩ := rfl
    have h4 := Fin.insertNth_apply_succAbove (α := fun _ => α) p x v ⟨k, by omega⟩
    rw [Fin.succAbove_of_castSucc_lt _ _ (by rw [h3]; exact h), h3] at h4
    rw [h4, List.getElem_append_left (by simp; omega)]
    simp
  · subst h
    have h4 := Fin.insertNth_apply_same (α := fun _ => α) p x v
    have h5 : (⟨(p : ℕ), hk⟩ : Fin (n + 1)) = p := rfl
    rw [h5, h4, List.getElem_append_right (by simp)]
    simp [hp]
  · have h3 : ((⟨k - 1, by omega⟩ : Fin n).succ) = ⟨k, hk⟩ := Fin.ext (by simp; omega)
    have h4 := Fin.insertNth_apply_succAbove (α := fun _ => α) p x v ⟨k - 1, by omega⟩
    rw [Fin.succAbove_of_le_castSucc _ _ (by rw [Fin.le_def]; simp; omega), h3] at h4
    rw [h4, List.getElem_append_right (by simp; omega)]
    simp only [List.length_take, List.length_ofFn]
    have h6 : k - min (p : ℕ) n = (k - min (p : ℕ) n - 1) + 1 := by omega
    rw [List.getElem_cons, dif_neg (by omega), List.getElem_drop, List.getElem_ofFn]
    congr 1
    exact Fin.ext (by simp; omega)

theorem eraseIdx_ofFn {α : Type} {n : ℕ} (v : Fin (n + 1) → α) (p : Fin (n + 1)) :
    (List.ofFn v).eraseIdx p = List.ofFn (Fin.removeNth p v) := by
  refine List.ext_getElem (by
    have := Nat.lt_succ_iff.1 p.2
    rw [List.length_eraseIdx_of_lt (by simp; omega)]; simp) fun k h1 h2 => ?_
  have hk : k < n := by simpa using h2
  rw [List.getElem_ofFn, List.getElem_eraseIdx]
  unfold Fin.removeNth
  split
  · rename_i h
    rw [List.getElem_ofFn, Fin.succAbove_of_castSucc_lt _ _ (by rw [Fin.lt_def]; exact h)]
    rfl
  · rename_i h
    rw [List.getElem_ofFn, Fin.succAbove_of_le_castSucc _ _ (by rw [Fin.le_def]; exact not_lt.1 h)]
    rfl

theorem set_ofFn {α : Type} {n : ℕ} (v : Fin n → α) (p : Fin n) (x : α) :
    (List.ofFn v).set p x = List.ofFn (Function.update v p x) := by
  refine List.ext_getElem (by simp) fun k h1 h2 => ?_
  have hk : k < n := by simpa using h2
  rw [List.getElem_ofFn, List.getElem_set]
  split
  · rename_i h
    have : (⟨k, hk⟩ : Fin n) = p := Fin.ext h.symm
    rw [this, Function.update_self]
  · rename_i h
    rw [Function.update_of_ne (fun e => h (by rw [← e])), List.getElem_ofFn]

/-! ### dictionaries -/

theorem dset_at {α : Type} {k : String} {v v' : α} : ∀ {pre d : List (String × α)}, k ∉ dkeys pre →
    dset (pre ++ (k, v) :: d) k v' = pre ++ (k, v') :: d
  | [], d, _ => by simp [dset]
  | (k1, v1) :: pre, d, h => by
    have h1 : k1 ≠ k := fun e => h (by rw [e]; exact List.mem_cons_self ..)
    have h2 : k ∉ dkeys pre := fun hm => h (List.mem_cons_of_mem _ hm)
    rw [List.cons_append, dset, if_neg h1, dset_at h2]
    rfl

theorem dupdate_all {α : Type} : ∀ {d e pre : List (String × α)}, (dkeys (pre ++ d)).Nodup → dkeys e = dkeys d →
    dupdate (pre ++ d) e = pre ++ e
  | [], e, pre, _, h => by
    have : e = [] := List.map_eq_nil_iff.1 h
    rw [this]
    rfl
  | (k, v) :: d, e, pre, hn, h => by
    cases e with
    | nil => cases h
    | cons x e =>
      obtain ⟨k', v'⟩ := x
      have h1 : k' = k := by injection h
      have h2 : dkeys e = dkeys d := by injection h
      subst h1
      have hk : k' ∉ dkeys pre := by
        unfold dkeys at hn ⊢
        rw [List.map_append, List.nodup_append] at hn
        exact fun hm => hn.2.2 _ hm _ (List.mem_cons_self ..) rfl
      change dupdate (dset (pre ++ (k', v) :: d) k' v') e = _
      rw [dset_at hk]
      have h3 := dupdate_all (d := d) (e := e) (pre := pre ++ [(k', v')]) (by
        unfold dkeys at hn ⊢
        simpa using hn) h2
      simpa using h3

/-! ### the state of a space -/

variable {s : PlainSpace} {y : Tuple (Fin s.size → ℝ)}

theorem paramDict_toList : ∀ l : List Prior, (paramDict l).toList = l.map fun q => (q.name, Param.prior q)
  | [] => rfl
  | q :: l => by rw [paramDict, ParamList.toList, paramDict_toList l]; rfl

theorem paramDict_priors : ∀ l : List Prior, (paramDict l).priors = l
  | [] => rfl
  | q :: l => by rw [paramDict, ParamList.priors, paramDict_priors l]

theorem paramDict_perts : ∀ l : List Prior, (paramDict l).perts = []
  | [] => rfl
  | q :: l => by rw [paramDict, ParamList.perts, paramDict_perts l, Param.perts]; rfl

theorem getDict_of_mem : ∀ {ps : ParamList}, (ps.toList.map Prod.fst).Nodup → ∀ {n : String} {p : Param},
    (n, p) ∈ ps.toList → ps.get? n = some p
  | .nil, _, n, p, h => by cases h
  | .cons m q rest, hn, n, p, h => by
    rw [ParamList.toList, List.map_cons, List.nodup_cons] at hn
    rw [ParamList.toList] at h
    rw [ParamList.get?]
    rcases List.mem_cons.1 h with h | h
    · injection h with h1 h2
      rw [if_pos h1.symm, h2]
    · have : m ≠ n := by
        rintro rfl
        exact hn.1 (List.mem_map.2 ⟨_, h, rfl⟩)
      rw [if_neg this]
      exact getDict_of_mem hn.2 h

theorem _root_.BB.Spec.PlainSpace.Ok.param (h : s.Ok) (j : Fin s.size) :
    (paramDict (List.ofFn s.prior)).get? (s.prior j).name = some (.prior (s.prior j)) := by
  refine getDict_of_mem ?_ ?_
  · rw [paramDict_toList, List.map_map, List.map_ofFn]
    exact List.nodup_ofFn.2 h.distinct
  · rw [paramDict_toList]
    exact List.mem_map.2 ⟨_, List.mem_ofFn.2 ⟨j, rfl⟩, rfl⟩

theorem stateOf_keys : dkeys (s.stateOf y).vals = List.ofFn fun j => (s.prior j).name := by
  unfold PlainSpace.stateOf PSState.vals dkeys
  rw [List.map_ofFn]
  rfl

theorem _root_.BB.Spec.PlainSpace.Ok.keys (h : s.Ok) : (dkeys (s.stateOf y).vals).Nodup := by
  rw [stateOf_keys]
  exact List.nodup_ofFn.2 h.distinct

theorem _root_.BB.Spec.PlainSpace.Ok.get (h : s.Ok) (j : Fin s.size) :
    (s.stateOf y).get (s.prior j).name = some (.arr (.vec (List.ofFn fun r => y.2 r j))) := by
  unfold PSState.get
  refine dget_of_mem h.keys ?_
  exact List.mem_ofFn.2 ⟨j, rfl⟩

theorem _root_.BB.Spec.PlainSpace.Ok.noSites (h : s.Ok) : (s.stateOf y).get "discretization" = none := by
  unfold PSState.get
  rw [dget_none_iff, stateOf_keys]
  intro hm
  obtain ⟨j, hj⟩ := List.mem_ofFn.1 hm
  exact (h.names j).1 hj

/-- The parameters with their values and the draws for new ones. -/
noncomputable def colsOf (s : PlainSpace) (y : Tuple (Fin s.size → ℝ)) (w : Fin s.size → Draw) : List Col :=
  List.ofFn fun j => ⟨s.prior j, List.ofFn fun r => y.2 r j, samplesOf s.prior w j, w j⟩

theorem colsOf_old (w : Fin s.size → Draw) : (colsOf s y w).map Col.old = (s.stateOf y).vals := by
  unfold colsOf
  rw [List.map_ofFn]
  rfl

theorem colsOf_draw (w : Fin s.size → Draw) : (colsOf s y w).map Col.draw = List.ofFn w := by
  unfold colsOf
  rw [List.map_ofFn]
  rfl

theorem colsOf_mem {w : Fin s.size → Draw} {c : Col} (h : c ∈ colsOf s y w) :
    ∃ j, c = ⟨s.prior j, List.ofFn fun r => y.2 r j, samplesOf s.prior w j, w j⟩ := by
  obtain ⟨j, hj⟩ := List.mem_ofFn.1 h
  exact ⟨j, hj.symm⟩

theorem colsOf_length {w : Fin s.size → Draw} {c : Col} (h : c ∈ colsOf s y w) : c.col.length = (s.stateOf y).n := by
  obtain ⟨j, rfl⟩ := colsOf_mem h
  exact List.length_ofFn

/-- A birth. -/
theorem birth_run (h : s.Ok) (hn : y.1 ≠ s.info.hi) (d : Draw) (w : Fin s.size → Draw) (t : List Draw) :
    s.space.birth (s.stateOf y) (d :: (List.ofFn w ++ t)) =
      (.ok (s.stateOf (addRow s.info.hi y d.n (samplesOf s.prior w)), .fin 0), t) := by
  have hd : s.space.info.kind.isDisc = false := by
    unfold PlainSpace.space Space.info
    rw [h.plain]
    rfl
  unfold Space.birth
  rw [hd, if_neg Bool.false_ne_true]
  have hrun := plainBirth_run (info := s.info) (ps := paramDict (List.ofFn s.prior)) (s := s.stateOf y) (cs := colsOf s y w)
    (colsOf_old w).symm (fun c hc => colsOf_length hc)
    (fun c hc => by obtain ⟨j, rfl⟩ := colsOf_mem hc; exact h.param j)
    (fun c hc => by obtain ⟨j, rfl⟩ := colsOf_mem hc; exact fun rest => (DensityOf.sampled (h.dens j)).1 _ _) hn d t
  rw [colsOf_draw] at hrun
  refine hrun.trans ?_
  congr 1
  have e : (PSState.mk ((s.stateOf y).n + 1) ((colsOf s y w).map (Col.ins (d.n % ((s.stateOf y).n + 1)))) none) =
      s.stateOf (addRow s.info.hi y d.n (samplesOf s.prior w)) := by
    obtain ⟨n, v⟩ := y
    unfold addRow
    rw [if_neg hn]
    unfold PlainSpace.stateOf colsOf
    rw [List.map_ofFn]
    congr 2
    funext j
    change ((s.prior j).name, PVal.arr (.vec (listInsert (List.ofFn fun r => v r j) (Fin.ofNat (n + 1) d.n) _))) = _
    rw [listInsert_ofFn]
    congr 4
    funext r
    simp only
    refine Fin.succAboveCases (Fin.ofNat (n + 1) d.n) ?_ (fun r => ?_) r
    · rw [Fin.insertNth_apply_same, Fin.insertNth_apply_same]
    · rw [Fin.insertNth_apply_succAbove, Fin.insertNth_apply_succAbove]
  rw [e]

theorem birth_full (h : s.Ok) (hn : y.1 = s.info.hi) (t : List Draw) :
    s.space.birth (s.stateOf y) t = (.ok (s.stateOf y, .ninf), t) := by
  have hd : s.space.info.kind.isDisc = false := by
    unfold PlainSpace.space Space.info
    rw [h.plain]
    rfl
  unfold Space.birth plainBirth
  rw [hd, if_neg Bool.false_ne_true]
  exact congrFun (if_pos hn) t

/-- A death. -/
theorem death_run (h : s.Ok) (hn : y.1 ≠ s.info.lo) (h0 : y.1 ≠ 0) (hi : y.1 ≤ s.info.hi) (d : Draw) (t : List Draw) :
    s.space.death (s.stateOf y) (d :: t) = (.ok (s.stateOf (removeRow s.info.lo s.info.hi y d.n), .fin 0), t) := by
  have hd : s.space.info.kind.isDisc = false := by
    unfold PlainSpace.space Space.info
    rw [h.plain]
    rfl
  unfold Space.death
  rw [hd, if_neg Bool.false_ne_true]
  have hrun := plainDeath_run (info := s.info) (s := s.stateOf y) (cs := colsOf s y fun _ => noDraw)
    (colsOf_old _).symm (fun c hc => colsOf_length hc) hn h0 d t
  refine hrun.trans ?_
  congr 1
  have e : (PSState.mk ((s.stateOf y).n - 1) ((colsOf s y fun _ => noDraw).map (Col.del (d.n % (s.stateOf y).n))) none) =
      s.stateOf (removeRow s.info.lo s.info.hi y d.n) := by
    obtain ⟨n, v⟩ := y
    unfold removeRow
    rw [if_neg (by rintro (h | h); exacts [hn h, absurd hi (not_le.2 h)])]
    match n, v, h0 with
    | n + 1, v, _ =>
      unfold PlainSpace.stateOf colsOf
      rw [List.map_ofFn]
      congr 2
      funext j
      change ((s.prior j).name, PVal.arr (.vec ((List.ofFn fun r => v r j).eraseIdx (Fin.ofNat (n + 1) d.n)))) = _
      rw [eraseIdx_ofFn]
      rfl
  rw [e]

theorem death_empty (h : s.Ok) (hn : y.1 = s.info.lo) (t : List Draw) :
    s.space.death (s.stateOf y) t = (.ok (s.stateOf y, .ninf), t) := by
  have hd : s.space.info.kind.isDisc = false := by
    unfold PlainSpace.space Space.info
    rw [h.plain]
    rfl
  unfold Space.death plainDeath
  rw [hd, if_neg Bool.false_ne_true]
  exact congrFun (if_pos hn) t

/-! ### a change of values -/

/-- A parameter with its values, the value that is replaced, the new one, the ratio of densities, and the draw. -/
structure Wk where
  prior : Prior
  col : List ℝ
  old : ℝ
  new : ℝ
  ratio : ℝ
  draw : Draw

theorem perturbPriors_run {st : PSState} {i : ℕ} (hpos : posAt st i = .ok .none) : ∀ (cs : List Wk) (acc : List (String × PVal))
    (r : ℝ), (dkeys acc ++ cs.map fun c => c.prior.name).Nodup → 0 ≤ r →
    (∀ c ∈ cs, st.get c.prior.name = some (.arr (.vec c.col)) ∧ c.col[i]? = some c.old ∧ 0 ≤ c.ratio ∧
      ∀ t, c.prior.perturbValue c.old .none false (c.draw :: t) = (.ok (c.new, logOf c.ratio), t)) → ∀ t,
    perturbPriors st i (cs.map Wk.prior) acc (logOf r) (cs.map Wk.draw ++ t) =
      (.ok (acc ++ cs.map fun c => (c.prior.name, .arr (.vec (c.col.set i c.new))),
        logOf (r * (cs.map Wk.ratio).prod)), t)
  | [], acc, r, _, _, _, t => by simp [perturbPriors]; rfl
  | c :: cs, acc, r, hn, hr, h, t => by
    obtain ⟨h1, h2, h3, h4⟩ := h c (List.mem_cons_self ..)
    have hk : c.prior.name ∉ dkeys acc := by
      rw [List.nodup_append] at hn
      exact fun hm => hn.2.2 _ hm _ (List.mem_cons_self ..) rfl
    rw [List.map_cons, List.map_cons, List.cons_append, perturbPriors.eq_def]
    simp only [h1]
    have hnum : numAt (some (.arr (.vec c.col))) i = .ok c.old := by
      unfold numAt
      simp only [h2]
    rw [hnum, hpos]
    refine (M.bind_of rfl).trans ((M.bind_of rfl).trans ((M.bind_of (h4 _)).trans ?_))
    simp only
    rw [dset_new hk, ← logOf_mul hr h3]
    have ih := perturbPriors_run hpos cs (acc ++ [(c.prior.name, .arr (.vec (c.col.set i c.new)))]) (r * c.ratio) (by
      unfold dkeys at hn ⊢
      simpa using hn) (mul_nonneg hr h3) (fun c hc => h c (List.mem_cons_of_mem _ hc)) t
    rw [ih]
    simp [mul_assoc]

/-- The parameters with the changes of the row `i`. -/
noncomputable def wksOf (s : PlainSpace) {n : ℕ} (v : Fin n → Fin s.size → ℝ) (i : Fin n) (w : Fin s.size → Draw) : List Wk :=
  List.ofFn fun j => ⟨s.prior j, List.ofFn fun r => v r j, v i j, walkTo s.step (v i) w j,
    s.dens j (walkTo s.step (v i) w j) / s.dens j (v i j), w j⟩

/-- A change of the values of a dimension. -/
theorem values_run (h : s.Ok) (h0 : y.1 ≠ 0) (hp : ∀ r j, 0 < s.dens j (y.2 r j)) (d : Draw) (w : Fin s.size → Draw)
    (t : List Draw) : (PSFunc.values s.info.name (List.ofFn s.prior)).run (s.stateOf y) (d :: (List.ofFn w ++ t)) =
      (.ok (s.stateOf (changeRow (fun r => walkTo s.step r w) y d.n),
        logOf (atRow (fun r => ∏ j, s.dens j (walkTo s.step r w j) / s.dens j (r j)) y d.n)), t) := by
  obtain ⟨n, v⟩ := y
  match n, v, h0, hp with
  | n + 1, v, _, hp =>
    unfold PSFunc.run
    refine (M.bind_of (M.randIdx_run (n := n + 1) (Nat.succ_ne_zero n) d _)).trans ?_
    have hpos : posAt (s.stateOf ⟨n + 1, v⟩) (d.n % (n + 1)) = .ok .none := by
      unfold posAt
      rw [h.noSites]
    have hrun := perturbPriors_run hpos (wksOf s v (Fin.ofNat (n + 1) d.n) w) [] 1 (by
        simp only [dkeys, List.map_nil, List.nil_append]
        unfold wksOf
        rw [List.map_ofFn]
        exact List.nodup_ofFn.2 h.distinct) zero_le_one (by
      intro c hc
      obtain ⟨j, rfl⟩ := List.mem_ofFn.1 hc
      refine ⟨h.get j, ?_, ?_, fun t => ?_⟩
      · simp only
        rw [List.getElem?_ofFn, dif_pos (Nat.mod_lt _ (Nat.succ_pos n))]
        rfl
      · exact div_nonneg (DensityOf.nonneg (h.dens j) _) (hp _ j).le
      · exact DensityOf.perturbed (h.dens j) (h.step j) (hp _ j) _ _) t
    have e1 : (wksOf s v (Fin.ofNat (n + 1) d.n) w).map Wk.prior = List.ofFn s.prior := by
      unfold wksOf
      rw [List.map_ofFn]
      rfl
    have e2 : (wksOf s v (Fin.ofNat (n + 1) d.n) w).map Wk.draw = List.ofFn w := by
      unfold wksOf
      rw [List.map_ofFn]
      rfl
    have e3 : ((wksOf s v (Fin.ofNat (n + 1) d.n) w).map Wk.ratio).prod =
        atRow (fun r => ∏ j, s.dens j (walkTo s.step r w j) / s.dens j (r j)) ⟨n + 1, v⟩ d.n := by
      unfold wksOf
      rw [List.map_ofFn, List.prod_ofFn]
      rfl
    have e4 : (wksOf s v (Fin.ofNat (n + 1) d.n) w).map (fun c => (c.prior.name, PVal.arr (.vec (c.col.set (d.n % (n + 1)) c.new)))) =
        (s.stateOf (changeRow (fun r => walkTo s.step r w) ⟨n + 1, v⟩ d.n)).vals := by
      unfold wksOf PlainSpace.stateOf PSState.vals changeRow
      rw [List.map_ofFn]
      congr 1
      funext j
      change ((s.prior j).name, PVal.arr (.vec ((List.ofFn fun r => v r j).set (Fin.ofNat (n + 1) d.n) _))) = _
      rw [set_ofFn]
      congr 4
      funext r
      simp only [Function.update_apply]
      split <;> rfl
    rw [e1, e2, e3, e4, logOf_one, one_mul, List.nil_append] at hrun
    refine (M.bind_of hrun).trans ?_
    have e5 : dupdate (s.stateOf ⟨n + 1, v⟩).vals (s.stateOf (changeRow (fun r => walkTo s.step r w) ⟨n + 1, v⟩ d.n)).vals =
        (s.stateOf (changeRow (fun r => walkTo s.step r w) ⟨n + 1, v⟩ d.n)).vals := by
      have := dupdate_all (d := (s.stateOf ⟨n + 1, v⟩).vals)
        (e := (s.stateOf (changeRow (fun r => walkTo s.step r w) ⟨n + 1, v⟩ d.n)).vals) (pre := []) (by
          rw [List.nil_append]
          exact h.keys) (by rw [stateOf_keys, stateOf_keys])
      simpa using this
    simp only [e5]
    rfl

end BB.Lemmas
