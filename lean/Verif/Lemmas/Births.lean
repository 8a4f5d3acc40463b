import Verif.Lemmas.Rows
import Verif.Lemmas.Save
import Verif.Props.C45_InsertDelete

/-!
# Runs of births and deaths in spaces all of whose parameters are priors
-/

namespace BB.Lemmas

open BB BB.Spec

/-- A parameter with its values, a new value, and the draw that leads to the new value. -/
structure Col where
  prior : Prior
  col : List ℝ
  new : ℝ
  draw : Draw

/-- The values before a birth. -/
def Col.old (c : Col) : String × PVal := (c.prior.name, .arr (.vec c.col))

/-- The values after a birth at the index `i`. -/
def Col.ins (i : ℕ) (c : Col) : String × PVal := (c.prior.name, .arr (.vec (listInsert c.col i c.new)))

/-- The values after a death at the index `i`. -/
def Col.del (i : ℕ) (c : Col) : String × PVal := (c.prior.name, .arr (.vec (c.col.eraseIdx i)))

theorem insert1d_ok {xs : List ℝ} {i : ℕ} (h : i ≤ xs.length) (y : ℝ) :
    Utils1d.insert1d 0 xs i y = .ok (listInsert xs i y) := by
  rw [Props.C45_insert, if_pos ⟨by omega, by omega⟩]
  rfl

theorem delete1d_ok {xs : List ℝ} {i : ℕ} (h : i < xs.length) : Utils1d.delete1d 0 xs i = .ok (xs.eraseIdx i) := by
  have hne : xs ≠ [] := by rintro rfl; simp at h
  rw [Props.C45_delete, if_neg hne, if_pos ⟨by omega, by omega⟩, Int.toNat_natCast, List.eraseIdx_eq_take_drop_succ]

theorem insertAt_num {xs : List ℝ} {i : ℕ} (h : i ≤ xs.length) (y : ℝ) :
    PVal.insertAt (some (.arr (.vec xs))) i (.num y) = .ok (.arr (.vec (listInsert xs i y))) := by
  unfold PVal.insertAt
  simp only [insert1d_ok h]
  rfl

theorem append_num {xs : List ℝ} {i : ℕ} (h : i = xs.length) (y : ℝ) :
    PVal.append (some (.arr (.vec xs))) (.num y) = .ok (.arr (.vec (listInsert xs i y))) := by
  subst h
  rw [listInsert_end]
  rfl

theorem delOp_num {k : Kind} {xs : List ℝ} {i : ℕ} (h : i < xs.length) :
    delOp k i (.arr (.vec xs)) = .ok (.arr (.vec (xs.eraseIdx i))) := by
  have h1 : PVal.deleteAt (.arr (.vec xs)) i = .ok (.arr (.vec (xs.eraseIdx i))) := by
    unfold PVal.deleteAt
    simp only [delete1d_ok h]
    rfl
  unfold delOp
  split
  · exact if_pos h
  · exact h1

theorem listInsert_length {α : Type} {l : List α} {i : ℕ} (h : i ≤ l.length) (x : α) :
    (listInsert l i x).length = l.length + 1 := by
  unfold listInsert
  simp
  omega

theorem checkVals_arrays {n : ℕ} : ∀ {vals : List (String × PVal)},
    (∀ kv ∈ vals, kv.2.len = n ∧ ∃ a, kv.2 = .arr a) → checkVals n vals = .ok ()
  | [], _ => rfl
  | (k, v) :: rest, h => by
    obtain ⟨h1, a, h2⟩ := h (k, v) (List.mem_cons_self ..)
    simp only at h1 h2
    subst h2
    rw [checkVals, if_neg (by simpa using h1)]
    exact checkVals_arrays fun kv hkv => h kv (List.mem_cons_of_mem _ hkv)

theorem mkPS_arrays {n : ℕ} {vals : List (String × PVal)} (h : ∀ kv ∈ vals, kv.2.len = n ∧ ∃ a, kv.2 = .arr a) :
    mkPS n vals = .ok (.mk n vals none) := by
  unfold mkPS
  rw [checkVals_arrays h]
  rfl

theorem len_vec (xs : List ℝ) : (PVal.arr (.vec xs)).len = xs.length := rfl

theorem len_pts (ps : List (ℝ × ℝ)) : (PVal.arr (.pts ps)).len = ps.length := rfl

/-! ### a parameter space -/

theorem birthValues_run (ps : ParamList) (i : ℕ) : ∀ (cs : List Col),
    (∀ c ∈ cs, i ≤ c.col.length ∧ ps.get? c.prior.name = some (.prior c.prior) ∧
      ∀ rest, c.prior.sample .none (c.draw :: rest) = (.ok c.new, rest)) → ∀ rest,
    birthValues ps i (cs.map Col.old) (cs.map Col.draw ++ rest) = (.ok (cs.map (Col.ins i)), rest)
  | [], _, rest => rfl
  | c :: cs, h, rest => by
    obtain ⟨h1, h2, h3⟩ := h c (List.mem_cons_self ..)
    have ih := birthValues_run ps i cs (fun c hc => h c (List.mem_cons_of_mem _ hc)) rest
    rw [List.map_cons, List.map_cons, List.cons_append]
    change birthValues ps i ((c.prior.name, .arr (.vec c.col)) :: _) _ = _
    rw [birthValues.eq_def]
    simp only [h2]
    refine (M.bind_of (a := .num c.new) (t1 := cs.map Col.draw ++ rest) ?_).trans ?_
    · refine (M.bind_of (h3 _)).trans ?_
      rfl
    · rw [insertAt_num h1]
      refine (M.bind_of rfl).trans ((M.bind_of ih).trans ?_)
      rfl

theorem ins_arrays {i n : ℕ} {cs : List Col} (h : ∀ c ∈ cs, c.col.length = n) (hi : i ≤ n) :
    ∀ kv ∈ cs.map (Col.ins i), kv.2.len = n + 1 ∧ ∃ a, kv.2 = .arr a := by
  intro kv hkv
  obtain ⟨c, hc, rfl⟩ := List.mem_map.1 hkv
  refine ⟨?_, _, rfl⟩
  change (listInsert c.col i c.new).length = n + 1
  rw [listInsert_length (by rw [h c hc]; exact hi), h c hc]

theorem del_arrays {i n : ℕ} {cs : List Col} (h : ∀ c ∈ cs, c.col.length = n) (hi : i < n) :
    ∀ kv ∈ cs.map (Col.del i), kv.2.len = n - 1 ∧ ∃ a, kv.2 = .arr a := by
  intro kv hkv
  obtain ⟨c, hc, rfl⟩ := List.mem_map.1 hkv
  refine ⟨?_, _, rfl⟩
  change (c.col.eraseIdx i).length = n - 1
  rw [List.length_eraseIdx_of_lt (by rw [h c hc]; exact hi), h c hc]

theorem plainBirth_run {info : Info} {ps : ParamList} {s : PSState} {cs : List Col} (hv : s.vals = cs.map Col.old)
    (hl : ∀ c ∈ cs, c.col.length = s.n) (hg : ∀ c ∈ cs, ps.get? c.prior.name = some (.prior c.prior))
    (hs : ∀ c ∈ cs, ∀ rest, c.prior.sample .none (c.draw :: rest) = (.ok c.new, rest)) (hn : s.n ≠ info.hi) (d : Draw)
    (rest : List Draw) : plainBirth info ps s (d :: (cs.map Col.draw ++ rest)) =
      (.ok (.mk (s.n + 1) (cs.map (Col.ins (d.n % (s.n + 1)))) none, .fin 0), rest) := by
  have hi : d.n % (s.n + 1) ≤ s.n := Nat.lt_succ_iff.1 (Nat.mod_lt _ (Nat.succ_pos _))
  unfold plainBirth
  rw [if_neg hn]
  refine (M.bind_of (M.randint_run (Nat.zero_le _) d _)).trans ?_
  rw [Nat.sub_zero, Nat.zero_add, hv]
  refine (M.bind_of (birthValues_run ps _ cs (fun c hc => ⟨by rw [hl c hc]; exact hi, hg c hc, hs c hc⟩) rest)).trans ?_
  rw [mkPS_arrays (ins_arrays hl hi)]
  rfl

theorem mapVals_run {f : PVal → Except PyErr PVal} {i : ℕ} : ∀ {cs : List Col},
    (∀ c ∈ cs, f (.arr (.vec c.col)) = .ok (.arr (.vec (c.col.eraseIdx i)))) →
    mapVals f (cs.map Col.old) = .ok (cs.map (Col.del i))
  | [], _ => rfl
  | c :: cs, h => by
    have ih := mapVals_run fun c hc => h c (List.mem_cons_of_mem _ hc)
    rw [List.map_cons]
    change mapVals f ((c.prior.name, .arr (.vec c.col)) :: _) = _
    rw [mapVals, h c (List.mem_cons_self ..), ih]
    rfl

theorem plainDeath_run {info : Info} {s : PSState} {cs : List Col} (hv : s.vals = cs.map Col.old)
    (hl : ∀ c ∈ cs, c.col.length = s.n) (hn : s.n ≠ info.lo) (h0 : s.n ≠ 0) (d : Draw) (rest : List Draw) :
    plainDeath info s (d :: rest) = (.ok (.mk (s.n - 1) (cs.map (Col.del (d.n % s.n))) none, .fin 0), rest) := by
  have hi : d.n % s.n < s.n := Nat.mod_lt _ (Nat.pos_of_ne_zero h0)
  unfold plainDeath
  rw [if_neg hn]
  refine (M.bind_of (M.randIdx_run h0 d _)).trans ?_
  have h1 : mapVals (fun v => v.deleteAt (d.n % s.n)) s.vals = .ok (cs.map (Col.del (d.n % s.n))) := by
    rw [hv]
    exact mapVals_run fun c hc => delOp_num (k := .plain) (by rw [hl c hc]; exact hi)
  rw [h1]
  refine (M.bind_of rfl).trans ?_
  rw [mkPS_arrays (del_arrays hl hi)]
  rfl

/-! ### discretizations -/

theorem newbornFromPrior_run (pos : Pos) : ∀ (cs : List Col),
    (∀ c ∈ cs, ∀ rest, c.prior.sample pos (c.draw :: rest) = (.ok c.new, rest)) → ∀ rest,
    newbornFromPrior (cs.map fun c => (c.prior.name, Param.prior c.prior)) pos (cs.map Col.draw ++ rest) =
      (.ok (cs.map fun c => (c.prior.name, NVal.num c.new)), rest)
  | [], _, rest => rfl
  | c :: cs, h, rest => by
    have ih := newbornFromPrior_run pos cs (fun c hc => h c (List.mem_cons_of_mem _ hc)) rest
    rw [List.map_cons, List.map_cons, List.cons_append, newbornFromPrior.eq_def]
    simp only
    refine (M.bind_of (a := .num c.new) (t1 := cs.map Col.draw ++ rest) ?_).trans ?_
    · refine (M.bind_of (h c (List.mem_cons_self ..) _)).trans ?_
      rfl
    · refine (M.bind_of ih).trans ?_
      rfl

theorem addNewborn_run {s : PSState} {add : Option PVal → NVal → Except PyErr PVal} {i : ℕ} : ∀ {cs : List Col}
    {acc : List (String × PVal)}, (dkeys acc ++ cs.map fun c => c.prior.name).Nodup →
    (∀ c ∈ cs, add (s.get c.prior.name) (.num c.new) = .ok (.arr (.vec (listInsert c.col i c.new)))) →
    addNewborn s add (cs.map fun c => (c.prior.name, NVal.num c.new)) acc = .ok (acc ++ cs.map (Col.ins i))
  | [], acc, _, _ => by simp [addNewborn]
  | c :: cs, acc, hn, h => by
    rw [List.map_cons] at hn
    rw [List.map_cons, addNewborn, h c (List.mem_cons_self ..)]
    have hk : c.prior.name ∉ dkeys acc := by
      intro hc
      have := (List.nodup_append.1 hn).2.2 _ hc _ (List.mem_cons_self ..)
      exact this rfl
    change addNewborn s add _ (dset acc c.prior.name _) = _
    rw [dset_new hk, addNewborn_run (cs := cs) ?_ fun c hc => h c (List.mem_cons_of_mem _ hc)]
    · simp [Col.ins]
    · rw [dkeys, List.map_append]
      simpa [dkeys] using hn

theorem get_col {s : PSState} {v0 : PVal} {cs : List Col} (hv : s.vals = ("discretization", v0) :: cs.map Col.old)
    (hnd : ("discretization" :: cs.map fun c => c.prior.name).Nodup) :
    s.get "discretization" = some v0 ∧ ∀ c ∈ cs, s.get c.prior.name = some (.arr (.vec c.col)) := by
  have hk : (dkeys s.vals).Nodup := by
    rw [hv, dkeys, List.map_cons, List.map_map]
    exact hnd
  unfold PSState.get
  refine ⟨dget_of_mem hk (by rw [hv]; exact List.mem_cons_self ..), fun c hc => dget_of_mem hk ?_⟩
  rw [hv]
  exact List.mem_cons_of_mem _ (List.mem_map.2 ⟨c, hc, rfl⟩)

variable {sp : Space} {s : PSState} {cs : List Col}

theorem newborn_run (hp : sp.info.fromPrior = true)
    (hps : sp.params.toList = cs.map fun c => (c.prior.name, Param.prior c.prior)) {pos : Pos}
    (hs : ∀ c ∈ cs, ∀ rest, c.prior.sample pos (c.draw :: rest) = (.ok c.new, rest)) (rest : List Draw) :
    sp.newborn pos s (cs.map Col.draw ++ rest) =
      (.ok (cs.map fun c => (c.prior.name, NVal.num c.new), .fin 0), rest) := by
  unfold Space.newborn
  rw [if_pos hp, hps]
  exact (M.bind_of (newbornFromPrior_run pos cs hs rest)).trans rfl

theorem vorBirth_line {v : Vor1} (hk : sp.info.kind = .vor1 v) (hp : sp.info.fromPrior = true)
    (hps : sp.params.toList = cs.map fun c => (c.prior.name, Param.prior c.prior))
    (hnd : ("discretization" :: cs.map fun c => c.prior.name).Nodup) {xs : List ℝ}
    (hv : s.vals = ("discretization", .arr (.vec xs)) :: cs.map Col.old) (hx : xs.length = s.n)
    (hl : ∀ c ∈ cs, c.col.length = s.n) (d : Draw)
    (hs : ∀ c ∈ cs, ∀ rest, c.prior.sample (.one (v.vmin + (v.vmax - v.vmin) * d.u)) (c.draw :: rest) = (.ok c.new, rest))
    : ∃ i, i ≤ s.n ∧ ∀ rest, vorBirth sp s (d :: (cs.map Col.draw ++ rest)) =
      (.ok (.mk (s.n + 1) (("discretization", .arr (.vec (listInsert xs i (v.vmin + (v.vmax - v.vmin) * d.u)))) ::
        cs.map (Col.ins i)) none, .fin 0), rest) := by
  set x := v.vmin + (v.vmax - v.vmin) * d.u with hxd
  set i := bisectLeft xs x 0 xs.length with hid
  have hi : i ≤ s.n := by rw [← hx]; exact bisectLeft_le _ _ _ _ (Nat.zero_le _)
  obtain ⟨g1, g2⟩ := get_col hv hnd
  refine ⟨i, hi, fun rest => ?_⟩
  unfold vorBirth
  rw [hk]
  simp only
  refine (M.bind_of (M.uniform_run _ _ d _)).trans ?_
  refine (M.bind_of (newborn_run (s := s) hp hps hs rest)).trans ?_
  simp only [g1]
  rw [← hxd, ← hid, insert1d_ok (by rw [hx]; exact hi)]
  refine (M.bind_of rfl).trans ?_
  rw [addNewborn_run (i := i) (by simpa [dkeys] using hnd) fun c hc => by
    rw [g2 c hc]
    exact insertAt_num (by rw [hl c hc]; exact hi) _]
  refine (M.bind_of rfl).trans ?_
  rw [List.singleton_append, mkPS_arrays]
  · rfl
  · intro kv hkv
    rcases List.mem_cons.1 hkv with rfl | hkv
    · refine ⟨?_, _, rfl⟩
      change (listInsert xs i x).length = s.n + 1
      rw [listInsert_length (by rw [hx]; exact hi), hx]
    · exact ins_arrays hl hi kv hkv

theorem vorBirth_plane {v : Vor2} (hk : sp.info.kind = .vor2 v) (hp : sp.info.fromPrior = true)
    (hps : sp.params.toList = cs.map fun c => (c.prior.name, Param.prior c.prior))
    (hnd : ("discretization" :: cs.map fun c => c.prior.name).Nodup) {ps : List (ℝ × ℝ)}
    (hv : s.vals = ("discretization", .arr (.pts ps)) :: cs.map Col.old) (hx : ps.length = s.n)
    (hl : ∀ c ∈ cs, c.col.length = s.n) (ds : List Draw) (q : ℝ × ℝ)
    (hq : ∀ rest, v.sampleSite (ds ++ rest) = (.ok q, rest))
    (hs : ∀ c ∈ cs, ∀ rest, c.prior.sample (.two q) (c.draw :: rest) = (.ok c.new, rest))
    (rest : List Draw) : vorBirth sp s (ds ++ (cs.map Col.draw ++ rest)) =
      (.ok (.mk (s.n + 1) (("discretization", .arr (.pts (listInsert ps s.n q))) ::
        cs.map (Col.ins s.n)) none, .fin 0), rest) := by
  obtain ⟨g1, g2⟩ := get_col hv hnd
  have e : listInsert ps s.n q = ps ++ [q] := by rw [← hx, listInsert_end]
  unfold vorBirth
  rw [hk]
  simp only
  refine (M.bind_of (hq _)).trans ?_
  refine (M.bind_of (newborn_run (s := s) hp hps hs rest)).trans ?_
  simp only [g1]
  rw [addNewborn_run (i := s.n) (by simpa [dkeys] using hnd) fun c hc => by
    rw [g2 c hc]
    exact append_num (hl c hc).symm _]
  refine (M.bind_of rfl).trans ?_
  rw [List.singleton_append, mkPS_arrays, e]
  · rfl
  · intro kv hkv
    rcases List.mem_cons.1 hkv with rfl | hkv
    · refine ⟨?_, _, rfl⟩
      change (ps ++ [q]).length = s.n + 1
      rw [List.length_append, hx]
      rfl
    · exact ins_arrays hl le_rfl kv hkv

theorem mapVals_cons {f : PVal → Except PyErr PVal} {k : String} {v v' : PVal} {rest rest' : List (String × PVal)}
    (h : f v = .ok v') (hr : mapVals f rest = .ok rest') : mapVals f ((k, v) :: rest) = .ok ((k, v') :: rest') := by
  rw [mapVals, h, hr]
  rfl

theorem vorDeath_run (hp : sp.info.fromPrior = true) {v0 v0' : PVal} {m : ℕ}
    (hv : s.vals = ("discretization", v0) :: cs.map Col.old) (hl : ∀ c ∈ cs, c.col.length = s.n) (h0 : s.n ≠ 0) (d : Draw)
    (hm : d.n % s.n = m) (hd : delOp sp.info.kind m v0 = .ok v0') (hlen : v0'.len = s.n - 1) (harr : ∃ a, v0' = .arr a)
    (rest : List Draw) : vorDeath sp s (d :: rest) =
      (.ok (.mk (s.n - 1) (("discretization", v0') :: cs.map (Col.del m)) none, .fin 0), rest) := by
  subst hm
  have hi : d.n % s.n < s.n := Nat.mod_lt _ (Nat.pos_of_ne_zero h0)
  unfold vorDeath
  refine (M.bind_of (M.randIdx_run h0 d _)).trans ?_
  have h1 : mapVals (delOp sp.info.kind (d.n % s.n)) s.vals =
      .ok (("discretization", v0') :: cs.map (Col.del (d.n % s.n))) := by
    rw [hv]
    exact mapVals_cons hd (mapVals_run fun c hc => delOp_num (k := sp.info.kind) (by rw [hl c hc]; exact hi))
  refine (M.bind_of ((congrArg (fun z => M.lift z rest) h1).trans rfl)).trans ?_
  rw [mkPS_arrays]
  · refine (M.bind_of rfl).trans ?_
    have h2 : ∀ new, sp.deathRatio s new (d.n % s.n) = .ok (.fin 0) := by
      intro new
      unfold Space.deathRatio
      rw [if_pos hp]
    rw [h2]
    rfl
  · intro kv hkv
    rcases List.mem_cons.1 hkv with rfl | hkv
    · exact ⟨hlen, harr⟩
    · exact del_arrays hl hi kv hkv

end BB.Lemmas
