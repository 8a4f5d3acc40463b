import Verif.Spec.Rows
import Verif.Lemmas.ConformProps

/-!
# Births, deaths and moves, row by row
-/

namespace BB.Lemmas

open BB BB.Spec

/-! ### insertion, deletion -/

theorem getElem?_listInsert {α : Type} {l : List α} {i : ℕ} (h : i ≤ l.length) (x : α) (j : ℕ) :
    (listInsert l i x)[j]? = if j < i then l[j]? else if j = i then some x else l[j - 1]? := by
  unfold listInsert
  split
  · next hj =>
    rw [List.getElem?_append_left (by rw [List.length_take]; omega), List.getElem?_take_of_lt hj]
  · next hj =>
    rw [List.getElem?_append_right (by rw [List.length_take]; omega), List.length_take, Nat.min_eq_left h]
    split
    · next hji => subst hji; simp
    · next hji =>
      obtain ⟨k, rfl⟩ : ∃ k, j = i + k + 1 := ⟨j - i - 1, by omega⟩
      rw [show i + k + 1 - i = k + 1 by omega, List.getElem?_cons_succ, List.getElem?_drop]
      congr 1

/-- The same names, and values related by `R`. -/
def Rel (R : PVal → PVal → Prop) : List (String × PVal) → List (String × PVal) → Prop :=
  List.Forall₂ fun a b => b.1 = a.1 ∧ R a.2 b.2

theorem length_rows (s : PSState) : (rows s).length = s.n := by simp [rows]

theorem getElem?_rows {s : PSState} {i : ℕ} : (rows s)[i]? = if i < s.n then some (row s i) else none := by
  unfold rows
  rw [List.getElem?_map]
  split
  · next h => rw [List.getElem?_range h]; rfl
  · next h => rw [List.getElem?_eq_none (by simpa using h)]; rfl

theorem row_rel {R : PVal → PVal → Prop} {s s' : PSState} (h : Rel R s.vals s'.vals) {j j' : ℕ}
    (hR : ∀ v v', R v v' → (entries v')[j]? = (entries v)[j']?) : row s' j = row s j' := by
  unfold row
  unfold Rel at h
  generalize s.vals = a at h
  generalize s'.vals = b at h
  induction h with
  | nil => rfl
  | cons h1 _ ih => simp only [List.map_cons, ih, h1.1, hR _ _ h1.2]

/-- One entry is inserted in every parameter. -/
def Ins (n i : ℕ) (v v' : PVal) : Prop :=
  (entries v).length = n ∧ ∃ e, entries v' = listInsert (entries v) i e

theorem rows_insert {n i : ℕ} {s s' : PSState} (hn : s.n = n) (hn' : s'.n = n + 1) (hi : i ≤ n)
    (h : Rel (Ins n i) s.vals s'.vals) : rows s' = (rows s).take i ++ row s' i :: (rows s).drop i := by
  refine List.ext_getElem? fun j => ?_
  change _ = (listInsert (rows s) i (row s' i))[j]?
  rw [getElem?_listInsert (by rw [length_rows]; omega), getElem?_rows, hn']
  have hget : ∀ v v', Ins n i v v' → ∀ j, (entries v')[j]? =
      if j < i then (entries v)[j]? else if j = i then (entries v')[i]? else (entries v)[j - 1]? := by
    rintro v v' ⟨h1, e, h2⟩ j
    rw [h2, getElem?_listInsert (by omega), getElem?_listInsert (by omega)]
    simp
  split
  · next hj =>
    split
    · next hji =>
      rw [getElem?_rows, if_pos (by omega)]
      rw [row_rel h fun v v' hv => (hget v v' hv j).trans (if_pos hji)]
    · next hji =>
      split
      · next hj2 => rw [hj2]
      · next hj2 =>
        rw [getElem?_rows, if_pos (by omega)]
        rw [row_rel h fun v v' hv => (hget v v' hv j).trans ((if_neg hji).trans (if_neg hj2))]
  · next hj =>
    rw [if_neg (by omega), if_neg (by omega), getElem?_rows, if_neg (by omega)]

/-- One entry is removed from every parameter. -/
def Del (i : ℕ) (v v' : PVal) : Prop := entries v' = (entries v).eraseIdx i

theorem rows_delete {n i : ℕ} {s s' : PSState} (hn : s.n = n + 1) (hn' : s'.n = n) (hi : i ≤ n)
    (h : Rel (Del i) s.vals s'.vals) : rows s' = (rows s).eraseIdx i := by
  refine List.ext_getElem? fun j => ?_
  rw [List.getElem?_eraseIdx, getElem?_rows, hn']
  have hget : ∀ v v', Del i v v' → ∀ j, (entries v')[j]? =
      if j < i then (entries v)[j]? else (entries v)[j + 1]? := by
    rintro v v' h1 j
    rw [h1, List.getElem?_eraseIdx]
  split
  · next hj =>
    split
    · next hji =>
      rw [getElem?_rows, if_pos (by omega)]
      rw [row_rel h fun v v' hv => (hget v v' hv j).trans (if_pos hji)]
    · next hji =>
      rw [getElem?_rows, if_pos (by omega)]
      rw [row_rel h fun v v' hv => (hget v v' hv j).trans (if_neg hji)]
  · next hj =>
    rw [if_neg (by omega), getElem?_rows, if_neg (by omega)]

/-! ### values -/

theorem entries_len {v : PVal} {n : ℕ} (h : HasLen v n) : (entries v).length = n := by
  unfold HasLen at h
  unfold entries
  split at h <;> simpa using h

/-- The entry for a newborn value. -/
def nvEntry : NVal → Entry
  | .num x => .num x
  | .ps s => .state s

theorem insertAt_entries {v v' : PVal} {i : ℕ} {x : NVal} (h : PVal.insertAt (some v) i x = .ok v') :
    entries v' = listInsert (entries v) i (nvEntry x) := by
  unfold PVal.insertAt at h
  split at h <;> try cases h
  · next xs y hv =>
    injection hv with hv
    subst hv
    obtain ⟨ys, h1, h2⟩ := bindE_ok.1 h
    rw [pureE_ok] at h2
    subst h2
    rw [(insert1d_eq h1).1]
    exact map_listInsert _ _ _ _
  · next l s hv =>
    injection hv with hv
    subst hv
    exact map_listInsert _ _ _ _

theorem listInsert_end {α : Type} (l : List α) (x : α) : listInsert l l.length x = l ++ [x] := by
  simp [listInsert]

theorem deleteAt_entries {v v' : PVal} {i : ℕ} (h : v.deleteAt i = .ok v') : Del i v v' := by
  unfold PVal.deleteAt at h
  unfold Del
  split at h <;> try cases h
  · next xs =>
    obtain ⟨ys, h1, h2⟩ := bindE_ok.1 h
    rw [pureE_ok] at h2
    subst h2
    rw [(delete1d_eq h1).1, listDelete_eraseIdx]
    simp only [entries, List.eraseIdx_map]
  · next l =>
    rw [listDelete_eraseIdx]
    simp only [entries, List.eraseIdx_map]

theorem npDelete_entries {v v' : PVal} {i : ℕ} (h : v.npDelete i = .ok v') : Del i v v' := by
  unfold PVal.npDelete at h
  unfold Del
  split at h
  · split at h
    · injection h with h; subst h; simp only [entries, List.eraseIdx_map]
    · cases h
  · split at h
    · injection h with h; subst h; simp only [entries, List.eraseIdx_map]
    · cases h
  · split at h
    · injection h with h; subst h; simp only [entries, List.eraseIdx_map]
    · cases h
  · injection h with h
    subst h
    rw [listDelete_eraseIdx]
    simp only [entries, List.eraseIdx_map]

/-- The deletion that `death` uses. -/
def delOp (k : Kind) (i : ℕ) (v : PVal) : Except PyErr PVal :=
  match k with
  | .vor2 _ => v.npDelete i
  | _ => v.deleteAt i

theorem delOp_entries {k : Kind} {v v' : PVal} {i : ℕ} (h : delOp k i v = .ok v') : Del i v v' := by
  unfold delOp at h
  split at h
  · exact npDelete_entries h
  · exact deleteAt_entries h

/-- The addition that `birth` uses. -/
def addOp (k : Kind) (i : ℕ) (v : Option PVal) (x : NVal) : Except PyErr PVal :=
  match k with
  | .vor2 _ => PVal.append v x
  | _ => PVal.insertAt v i x

/-- A new site. -/
def AddSite (k : Kind) (i : ℕ) (pos : Pos) (v v' : PVal) : Prop :=
  match k with
  | .plain => False
  | .vor1 d => ∃ xs x, v = .arr (.vec xs) ∧ v' = .arr (.vec (listInsert xs i x)) ∧ i ≤ xs.length ∧ pos = .one x ∧
      d.vmin ≤ x ∧ x ≤ d.vmax
  | .vor2 d => ∃ ps p, v = .arr (.pts ps) ∧ v' = .arr (.pts (ps ++ [p])) ∧ i = ps.length ∧ pos = .two p ∧ InDomain d p

/-- A birth in a discretization, before the kd-tree is built. -/
structure Born (sp : Space) (s new : PSState) (lpr : PyF) (i : ℕ) (pos : Pos) (nv : List (String × NVal)) : Prop where
  n : new.n = s.n + 1
  kd : new.kd = none
  ran : ∃ t t', sp.newborn pos s t = (.ok (nv, lpr), t')
  shape : Shape new
  vals : ∃ v0 v0' vals, s.get "discretization" = some v0 ∧ new.vals = ("discretization", v0') :: vals ∧
    AddSite sp.info.kind i pos v0 v0' ∧
    List.Forall₂ (fun kx kv => kv.1 = kx.1 ∧ addOp sp.info.kind i (s.get kx.1) kx.2 = .ok kv.2) nv vals

theorem addNewborn_form {old : PSState} {add : Option PVal → NVal → Except PyErr PVal} :
    ∀ {nv : List (String × NVal)} {acc out : List (String × PVal)},
    (dkeys acc ++ nv.map (·.1)).Nodup → addNewborn old add nv acc = .ok out →
    ∃ vals, out = acc ++ vals ∧
      List.Forall₂ (fun kx kv => kv.1 = kx.1 ∧ add (old.get kx.1) kx.2 = .ok kv.2) nv vals
  | [], acc, out, _, h => by
    rw [addNewborn] at h
    injection h with h
    exact ⟨[], by simp [h], .nil⟩
  | (name, x) :: nv, acc, out, hk, h => by
    rw [addNewborn] at h
    obtain ⟨v', h4, h5⟩ := bindE_ok.1 h
    have hk1 : name ∉ dkeys acc := fun hm => (List.nodup_append.1 hk).2.2 _ hm _ (by simp) rfl
    rw [dset_new hk1] at h5
    obtain ⟨vals, rfl, h9⟩ := addNewborn_form (by
        have : dkeys (acc ++ [(name, v')]) = dkeys acc ++ [name] := by simp [dkeys]
        rw [this, List.append_assoc]; exact hk) h5
    exact ⟨(name, v') :: vals, by simp, .cons ⟨rfl, h4⟩ h9⟩

theorem newbornFromPrior_names (pos : Pos) : ∀ (l : List (String × Param)),
    Post (newbornFromPrior l pos) (fun nv => nv.map (·.1) = l.map (·.1))
  | [] => by rw [newbornFromPrior]; exact Post.pure' rfl
  | (name, p) :: rest => by
    rw [newbornFromPrior.eq_def]
    simp only
    refine Post.bind_any fun v => (newbornFromPrior_names pos rest).bind' fun vs h => Post.pure' ?_
    simp [h]

theorem newbornFromNeighbour_names (old : PSState) (inear : ℕ) (pos : Pos) :
    ∀ (l : List (String × Param)) (lpr : PyF),
    Post (newbornFromNeighbour old inear pos l lpr) (fun r => r.1.map (·.1) = l.map (·.1))
  | [], lpr => by rw [newbornFromNeighbour]; exact Post.pure' rfl
  | (name, p) :: rest, lpr => by
    rw [newbornFromNeighbour.eq_def]
    simp only
    refine Post.bind_any fun v => (newbornFromNeighbour_names old inear pos rest _).bind' fun vs h => Post.pure' ?_
    simp [h]

theorem newborn_names (sp : Space) (pos : Pos) (old : PSState) :
    Post (sp.newborn pos old) (fun r => r.1.map (·.1) = sp.params.toList.map (·.1)) := by
  unfold Space.newborn
  refine Post.ite' (fun _ => ?_) fun _ => ?_
  · exact (newbornFromPrior_names pos _).bind' fun vs h => Post.pure' h
  · exact Post.bind_any fun i => newbornFromNeighbour_names old i pos _ _

theorem _root_.BB.Post.run {α : Type} (m : M α) : Post m (fun a => ∃ t t', m t = (.ok a, t')) :=
  fun t a t' h => ⟨t, t', h⟩

theorem bisectLeft_le (a : List ℝ) (x : ℝ) : ∀ (lo hi : ℕ), lo ≤ hi → bisectLeft a x lo hi ≤ hi := by
  intro lo hi
  induction lo, hi using bisectLeft.induct a x with
  | case1 lo hi h1 h2 ih => intro h; rw [bisectLeft, if_pos h1, if_pos h2]; exact ih (by omega)
  | case2 lo hi h1 h2 ih => intro h; rw [bisectLeft, if_pos h1, if_neg h2]; exact (ih (by omega)).trans (by omega)
  | case3 lo hi h1 => intro h; rw [bisectLeft, if_neg h1]; exact h

theorem vorBirth_form {sp : Space} (hok : SpaceOk sp) (s : PSState) :
    Post (vorBirth sp s) (fun r => ∃ i pos nv, Born sp s r.1 r.2 i pos nv) := by
  unfold vorBirth
  cases hk : sp.info.kind with
  | plain => exact Post.throw'
  | vor1 v =>
    simp only
    refine (Post.uniform' (hok.line v hk)).bind' fun x hx =>
      ((Post.run _).and (newborn_names sp (.one x) s)).bind' fun nv hnv => ?_
    obtain ⟨nv, lpr⟩ := nv
    simp only at hnv ⊢
    obtain ⟨hrun, hnames⟩ := hnv
    split
    · next xs hd =>
      refine (Post.lift' (P := fun ys => ys = listInsert xs (bisectLeft xs x 0 xs.length) x)
        fun ys hys => (insert1d_eq hys).1).bind' fun sites hsites => ?_
      refine (Post.lift' (P := fun vals => addNewborn s (fun v y => PVal.insertAt v (bisectLeft xs x 0 xs.length) y) nv
        [("discretization", .arr (.vec sites))] = .ok vals) fun _ h => h).bind' fun vals hvals => ?_
      refine (Post.lift' (P := fun new => mkPS (s.n + 1) vals = .ok new) fun _ h => h).bind' fun new hnew =>
        Post.pure' ⟨bisectLeft xs x 0 xs.length, .one x, nv, ?_⟩
      have hs := (mkPS_shape hnew).1
      obtain ⟨vals', h1, h2⟩ := addNewborn_form (by
        rw [hnames]
        exact List.nodup_cons.2 ⟨by simpa using hok.disc, hok.nodup⟩) hvals
      have h3 := (mkPS_ok.1 hnew).2
      subst h3
      exact ⟨rfl, rfl, hrun, hs, _, _, vals', hd, h1, by
        rw [hk]
        exact ⟨xs, x, rfl, by rw [hsites], bisectLeft_le _ _ _ _ (Nat.zero_le _), rfl, hx⟩, by rw [hk]; exact h2⟩
    · exact Post.throw'
  | vor2 v =>
    simp only
    refine (sampleSite2_post (hok.plane v hk)).bind' fun p hx =>
      ((Post.run _).and (newborn_names sp (.two p) s)).bind' fun nv hnv => ?_
    obtain ⟨nv, lpr⟩ := nv
    simp only at hnv ⊢
    obtain ⟨hrun, hnames⟩ := hnv
    split
    · next ps hd =>
      refine (Post.lift' (P := fun vals => addNewborn s PVal.append nv
        [("discretization", .arr (.pts (ps ++ [p])))] = .ok vals) fun _ h => h).bind' fun vals hvals => ?_
      refine (Post.lift' (P := fun new => mkPS (s.n + 1) vals = .ok new) fun _ h => h).bind' fun new hnew =>
        Post.pure' ⟨ps.length, .two p, nv, ?_⟩
      have hs := (mkPS_shape hnew).1
      obtain ⟨vals', h1, h2⟩ := addNewborn_form (by
        rw [hnames]
        exact List.nodup_cons.2 ⟨by simpa using hok.disc, hok.nodup⟩) hvals
      have h3 := (mkPS_ok.1 hnew).2
      subst h3
      exact ⟨rfl, rfl, hrun, hs, _, _, vals', hd, h1, by
        rw [hk]
        exact ⟨ps, p, rfl, rfl, rfl, rfl, hx⟩, by rw [hk]; exact h2⟩
    · exact Post.throw'

/-! ### births, parameter by parameter -/

/-- What a state has, in the order of the parameters. -/
theorem vals_disc {sp : Space} {s : PSState} (hok : SpaceOk sp) (ha : ArraysOk sp s)
    (hd : sp.info.kind.isDisc = true) : ∃ v0 rest, s.vals = ("discretization", v0) :: rest ∧
      rest.map (·.1) = sp.params.toList.map (·.1) ∧ s.get "discretization" = some v0 ∧
      ∀ kv ∈ rest, s.get kv.1 = some kv.2 := by
  have hk := ha.1
  have hk2 : s.vals.map (·.1) = "discretization" :: sp.params.toList.map (·.1) := by
    rw [hk]
    cases hk : sp.info.kind with
    | plain => rw [hk] at hd; cases hd
    | vor1 v => rfl
    | vor2 v => rfl
  have hnd : (dkeys s.vals).Nodup := by
    rw [dkeys, hk2]
    exact List.nodup_cons.2 ⟨hok.disc, hok.nodup⟩
  cases hv : s.vals with
  | nil => rw [hv] at hk2; cases hk2
  | cons kv rest =>
    obtain ⟨k, v0⟩ := kv
    rw [hv, List.map_cons] at hk2
    injection hk2 with h1 h2
    simp only at h1
    subst h1
    rw [hv] at hnd
    refine ⟨v0, rest, rfl, h2, ?_, fun kv hkv => ?_⟩
    · unfold PSState.get; rw [hv]; exact dget_of_mem hnd (List.mem_cons_self ..)
    · unfold PSState.get; rw [hv]; exact dget_of_mem hnd (List.mem_cons_of_mem _ hkv)

theorem vals_plain {sp : Space} {s : PSState} (hok : SpaceOk sp) (ha : ArraysOk sp s)
    (hd : sp.info.kind = .plain) : s.vals.map (·.1) = sp.params.toList.map (·.1) ∧
      ∀ kv ∈ s.vals, s.get kv.1 = some kv.2 := by
  have hk := ha.1
  rw [hd] at hk
  simp only [List.nil_append] at hk
  exact ⟨hk, fun kv hkv => dget_of_mem (by rw [dkeys, hk]; exact hok.nodup) hkv⟩

/-- Lists with the same names. -/
theorem forall₂_names {β γ : Type} {R : String × β → String × γ → Prop} :
    ∀ {l : List (String × β)} {l' : List (String × γ)}, l.map (·.1) = l'.map (·.1) →
    (∀ (i : ℕ) a b, l[i]? = some a → l'[i]? = some b → a.1 = b.1 → R a b) → List.Forall₂ R l l'
  | [], [], _, _ => .nil
  | [], b :: l', h, _ => by simp at h
  | a :: l, [], h, _ => by simp at h
  | a :: l, b :: l', h, hR => by
    rw [List.map_cons, List.map_cons] at h
    injection h with h1 h2
    exact .cons (hR 0 a b rfl rfl h1) (forall₂_names h2 fun i x y hx hy hxy =>
      hR (i + 1) x y (by simpa using hx) (by simpa using hy) hxy)

theorem append_entries {v v' : PVal} {x : NVal} {n : ℕ} (h : PVal.append (some v) x = .ok v') (hl : v.len = n)
    (hl' : v'.len = n + 1) : entries v' = listInsert (entries v) n (nvEntry x) := by
  have e : ∀ {β : Type} (l : List β) (f : β → Entry) (y : β), l.length = n →
      (l ++ [y]).map f = listInsert (l.map f) n (f y) := by
    intro β l f y hn
    subst hn
    rw [← listInsert_end, map_listInsert]
  unfold PVal.append at h
  split at h <;> try cases h
  · next xs y hv =>
    injection hv with hv
    subst hv
    exact e xs _ _ hl
  · next ps y hv =>
    injection hv with hv
    subst hv
    simp only [PVal.len, Arr.len, List.length_append, List.length_flatMap, List.length_cons, List.length_nil,
      List.map_const', List.sum_replicate, smul_eq_mul] at hl hl'
    have : ps = [] := List.eq_nil_of_length_eq_zero (by omega)
    subst this
    subst hl
    rfl
  · next l s hv =>
    injection hv with hv
    subst hv
    exact e l _ _ hl
  · next l s hv =>
    injection hv with hv
    subst hv
    exact e l _ _ hl

theorem Born.index {sp : Space} {s new : PSState} {lpr : PyF} {i : ℕ} {pos : Pos} {nv : List (String × NVal)}
    (ha : ArraysOk sp s) (h : Born sp s new lpr i pos nv) :
    i ≤ s.n ∧ ∀ v, sp.info.kind = .vor2 v → i = s.n := by
  obtain ⟨v0, v0', vals, h1, _, h3, _⟩ := h.vals
  have hl := ha.2.1 _ _ (dget_some_mem h1)
  unfold AddSite at h3
  split at h3
  · exact h3.elim
  · next hk =>
    obtain ⟨xs, x, rfl, _, h4, _⟩ := h3
    have hl' : xs.length = s.n := hl
    exact ⟨by omega, fun v hv => by rw [hk] at hv; cases hv⟩
  · obtain ⟨ps, p, rfl, _, h4, _⟩ := h3
    have hl' : ps.length = s.n := hl
    exact ⟨by omega, fun _ _ => by omega⟩

theorem len_of_hasLen {v : PVal} {n : ℕ} (h : HasLen v n) : v.len = n := by
  unfold HasLen at h
  split at h <;> exact h

/-- The birth in a discretization, all parameters. -/
theorem Born.rel {sp : Space} {s new : PSState} {lpr : PyF} {i : ℕ} {pos : Pos} {nv : List (String × NVal)}
    (hok : SpaceOk sp) (ha : ArraysOk sp s) (hd : sp.info.kind.isDisc = true) (h : Born sp s new lpr i pos nv)
    {R : PVal → PVal → Prop} (h0 : ∀ v v', s.get "discretization" = some v → AddSite sp.info.kind i pos v v' → R v v')
    (hR : ∀ k v x v', s.get k = some v → addOp sp.info.kind i (some v) x = .ok v' → v.len = s.n → v'.len = s.n + 1 →
      R v v') : Rel R s.vals new.vals := by
  obtain ⟨v0, v0', vals, h1, h2, h3, h4⟩ := h.vals
  obtain ⟨w0, rest, e1, e2, e3, e4⟩ := vals_disc hok ha hd
  rw [h1] at e3
  injection e3 with e3
  subst e3
  rw [e1, h2]
  obtain ⟨t, t', hr⟩ := h.ran
  have hn := newborn_names sp pos s t _ t' hr
  simp only at hn
  refine .cons ⟨rfl, h0 _ _ h1 h3⟩ ?_
  have hlen := h4.length_eq
  have hkeys : vals.map (·.1) = nv.map (·.1) := by
    clear h2 e1 hlen hn hr h
    induction h4 with
    | nil => rfl
    | cons a _ ih => simp [ih, a.1]
  refine forall₂_names (by rw [e2, ← hn, hkeys]) fun j a b ha' hb' hab => ⟨hab.symm, ?_⟩
  have hb2 := hb'
  have hjv : j < vals.length := by
    rw [List.getElem?_eq_some_iff] at hb'; exact hb'.1
  obtain ⟨hj1, rfl⟩ := List.getElem?_eq_some_iff.1 hb'
  have := (List.forall₂_iff_get.1 h4).2 j (by omega) hj1
  simp only [List.get_eq_getElem] at this
  rw [← this.1, ← hab, e4 a (List.mem_of_getElem? ha')] at this
  refine hR a.1 _ _ _ (e4 a (List.mem_of_getElem? ha')) this.2 ?_ ?_
  · exact len_of_hasLen (ha.2.1 a.1 a.2 (by rw [e1]; exact List.mem_cons_of_mem _ (List.mem_of_getElem? ha')))
  · have := (h.shape _ (by rw [h2]; exact List.mem_cons_of_mem _ (List.mem_of_getElem? hb2))).1
    rw [h.n] at this
    exact this

theorem addOp_ins {k : Kind} {i n : ℕ} {v v' : PVal} {x : NVal} (h : addOp k i (some v) x = .ok v') (hl : v.len = n)
    (hl' : v'.len = n + 1) (hi : ∀ w, k = .vor2 w → i = n) : Ins n i v v' := by
  refine ⟨entries_len (hasLen_of hl), nvEntry x, ?_⟩
  unfold addOp at h
  split at h
  · rw [hi _ rfl]; exact append_entries h hl hl'
  · exact insertAt_entries h

theorem addSite_ins {k : Kind} {i n : ℕ} {pos : Pos} {v v' : PVal} (h : AddSite k i pos v v') (hl : HasLen v n) :
    Ins n i v v' := by
  refine ⟨entries_len hl, ?_⟩
  unfold AddSite at h
  split at h
  · exact h.elim
  · obtain ⟨xs, x, rfl, rfl, _⟩ := h
    exact ⟨.num x, map_listInsert _ _ _ _⟩
  · obtain ⟨ps, p, rfl, rfl, rfl, _⟩ := h
    refine ⟨.pt p, ?_⟩
    rw [← listInsert_end]
    exact (map_listInsert _ _ _ _)


/-! ### births and deaths, row by row -/

theorem birthValues_form (ps : ParamList) (i : ℕ) : ∀ (vals : List (String × PVal)),
    Post (birthValues ps i vals) (Rel (fun v v' => ∃ x, PVal.insertAt (some v) i x = .ok v') vals)
  | [] => by rw [birthValues]; exact Post.pure' .nil
  | (k, v) :: rest => by
    rw [birthValues.eq_def]
    simp only
    refine Post.bind_any fun x => (Post.lift' (P := fun v' => PVal.insertAt (some v) i x = .ok v')
      fun _ h => h).bind' fun v' hv' => (birthValues_form ps i rest).bind' fun vs' h => Post.pure' ?_
    exact .cons ⟨rfl, x, hv'⟩ h

theorem Rel.mono {R R' : PVal → PVal → Prop} {a b : List (String × PVal)} (h : Rel R a b)
    (hR : ∀ kv ∈ a, ∀ kv' ∈ b, R kv.2 kv'.2 → R' kv.2 kv'.2) : Rel R' a b := by
  unfold Rel at *
  induction h with
  | nil => exact .nil
  | cons h1 _ ih =>
    exact .cons ⟨h1.1, hR _ (List.mem_cons_self ..) _ (List.mem_cons_self ..) h1.2⟩
      (ih fun kv h kv' h' => hR kv (List.mem_cons_of_mem _ h) kv' (List.mem_cons_of_mem _ h'))

/-- A birth in a parameter space that is not a discretization. -/
theorem plainBirth_form (info : Info) (ps : ParamList) (s : PSState) :
    Post (plainBirth info ps s) (fun r => (s.n = info.hi ∧ r = (s, .ninf)) ∨
      (s.n ≠ info.hi ∧ r.2 = .fin 0 ∧ ∃ i, i ≤ s.n ∧ r.1.n = s.n + 1 ∧ r.1.kd = none ∧ Shape r.1 ∧
        Rel (fun v v' => ∃ x, PVal.insertAt (some v) i x = .ok v') s.vals r.1.vals)) := by
  unfold plainBirth
  refine Post.ite' (fun h => Post.pure' (.inl ⟨h, rfl⟩)) fun h => ?_
  refine Post.randint'.bind' fun i hi => (birthValues_form ps i s.vals).bind' fun vals hvals => ?_
  refine (Post.lift' (P := fun new => mkPS (s.n + 1) vals = .ok new) fun _ h => h).bind' fun new hnew =>
    Post.pure' (.inr ⟨h, rfl, i, hi.2, ?_⟩)
  obtain ⟨h1, rfl⟩ := mkPS_shape hnew
  exact ⟨rfl, rfl, h1, hvals⟩

theorem withKd_n {k : Kind} {s s' : PSState} (h : k.withKd s = .ok s') : s'.n = s.n := by
  unfold Kind.withKd at h
  split at h
  · split at h
    · unfold addKd at h
      split at h
      · injection h with h; subst h; rfl
      · cases h
    · injection h with h; subst h; rfl
  · injection h with h; subst h; rfl

theorem birth_rows {sp : Space} (hok : SpaceOk sp) {s : PSState} (ha : ArraysOk sp s) :
    Post (sp.birth s) (fun r => (s.n = sp.info.hi ∧ r.2 = .ninf ∧ r.1.n = s.n ∧ r.1.vals = s.vals) ∨
      (s.n ≠ sp.info.hi ∧ ∃ i, i ≤ s.n ∧ r.1.n = s.n + 1 ∧ Rel (Ins s.n i) s.vals r.1.vals)) := by
  have hlen : ∀ kv ∈ s.vals, HasLen kv.2 s.n := fun kv hkv => ha.2.1 kv.1 kv.2 hkv
  unfold Space.birth
  refine Post.ite' (fun hd => ?_) fun hd => ?_
  · refine Post.bind' (Q := fun r => (s.n = sp.info.hi ∧ r = (s, .ninf)) ∨
      (s.n ≠ sp.info.hi ∧ ∃ i pos nv, Born sp s r.1 r.2 i pos nv)) ?_ fun r hr => ?_
    · exact Post.ite' (fun h => Post.pure' (.inl ⟨h, rfl⟩)) fun h => (vorBirth_form hok s).mono fun r hr => .inr ⟨h, hr⟩
    · obtain ⟨new, lpr⟩ := r
      simp only at hr ⊢
      refine (Post.lift' (P := fun new' => sp.info.kind.withKd new = .ok new') fun _ h => h).bind' fun new' hnew =>
        Post.pure' ?_
      simp only
      rw [withKd_vals hnew, withKd_n hnew]
      rcases hr with ⟨h1, h2⟩ | ⟨hne, i, pos, nv, h⟩
      · injection h2 with h2 h3
        subst h2
        exact .inl ⟨h1, h3, rfl, rfl⟩
      · refine .inr ⟨hne, i, (h.index ha).1, h.n, h.rel hok ha hd (fun v v' h1 h2 => ?_) fun k v x v' h1 h2 h3 h4 => ?_⟩
        · exact addSite_ins h2 (ha.2.1 _ _ (dget_some_mem h1))
        · exact addOp_ins h2 h3 h4 (h.index ha).2
  · refine (plainBirth_form sp.info sp.params s).mono fun r hr => ?_
    rcases hr with ⟨h1, h2⟩ | ⟨hne, h2, i, h3, h4, _, _, h5⟩
    · subst h2; exact .inl ⟨h1, rfl, rfl, rfl⟩
    · refine .inr ⟨hne, i, h3, h4, h5.mono fun kv hkv kv' hkv' ⟨x, hx⟩ => ⟨entries_len (hlen kv hkv), _, insertAt_entries hx⟩⟩

/-- A death. -/
theorem death_form (sp : Space) (s : PSState) :
    Post (sp.death s) (fun r => (s.n = sp.info.lo ∧ r.2 = .ninf ∧ r.1.n = s.n ∧ r.1.vals = s.vals) ∨
      (s.n ≠ sp.info.lo ∧ ∃ i, i < s.n ∧ r.1.n = s.n - 1 ∧
        Rel (fun v v' => delOp sp.info.kind i v = .ok v') s.vals r.1.vals)) := by
  unfold Space.death
  refine Post.ite' (fun hd => ?_) fun hd => ?_
  · refine Post.bind' (Q := fun r => (s.n = sp.info.lo ∧ r = (s, .ninf)) ∨
      (s.n ≠ sp.info.lo ∧ ∃ i, i < s.n ∧ r.1.n = s.n - 1 ∧
        Rel (fun v v' => delOp sp.info.kind i v = .ok v') s.vals r.1.vals)) ?_ fun r hr => ?_
    · refine Post.ite' (fun h => Post.pure' (.inl ⟨h, rfl⟩)) fun h => ?_
      unfold vorDeath
      refine Post.randIdx'.bind' fun i hi => (Post.lift' (P := fun vals => mapVals
        (fun v => match sp.info.kind with | .vor2 _ => v.npDelete i | _ => v.deleteAt i) s.vals = .ok vals)
        fun _ h => h).bind' fun vals hvals => ?_
      refine (Post.lift' (P := fun new => mkPS (s.n - 1) vals = .ok new) fun _ h => h).bind' fun new hnew =>
        Post.bind_any fun lpr => Post.pure' (.inr ⟨h, i, hi, ?_⟩)
      obtain ⟨_, rfl⟩ := mkPS_shape hnew
      exact ⟨rfl, mapVals_ok.1 hvals⟩
    · obtain ⟨new, lpr⟩ := r
      simp only at hr ⊢
      refine (Post.lift' (P := fun new' => sp.info.kind.withKd new = .ok new') fun _ h => h).bind' fun new' hnew =>
        Post.pure' ?_
      simp only
      rw [withKd_vals hnew, withKd_n hnew]
      rcases hr with ⟨h1, h2⟩ | h
      · injection h2 with h2 h3
        subst h2
        exact .inl ⟨h1, h3, rfl, rfl⟩
      · exact .inr h
  · unfold plainDeath
    refine Post.ite' (fun h => Post.pure' (.inl ⟨h, rfl, rfl, rfl⟩)) fun h => ?_
    refine Post.randIdx'.bind' fun i hi => (Post.lift' (P := fun vals => mapVals
        (fun v => v.deleteAt i) s.vals = .ok vals) fun _ h => h).bind' fun vals hvals => ?_
    refine (Post.lift' (P := fun new => mkPS (s.n - 1) vals = .ok new) fun _ h => h).bind' fun new hnew =>
        Post.pure' (.inr ⟨h, i, hi, ?_⟩)
    obtain ⟨_, rfl⟩ := mkPS_shape hnew
    have hk : sp.info.kind = .plain := by
      cases hk : sp.info.kind with
      | plain => rfl
      | vor1 v => rw [hk] at hd; exact absurd rfl hd
      | vor2 v => rw [hk] at hd; exact absurd rfl hd
    refine ⟨rfl, ?_⟩
    rw [hk]
    exact mapVals_ok.1 hvals

/-! ### moves -/

theorem add_num (o : LogP) (p : LogP) : o.num.add p.num = (total [o, p]).num := by
  cases o <;> cases p <;> simp [LogP.num, PyF.add, total]

theorem total_cons (o : LogP) (l : List LogP) : total (o :: l) = total [o, total l] := by
  cases o with
  | none => rfl
  | some x => cases h : total l <;> simp [total, h]

theorem total_assoc (o p q : LogP) : total [total [o, p], q] = total [o, total [p, q]] := by
  cases o <;> cases p <;> cases q <;> simp [total, add_assoc]

theorem total_zero (o : LogP) : total [o, some 0] = o := by cases o <;> simp [total]

theorem zero_total (o : LogP) : total [some 0, o] = o := by cases o <;> simp [total]

theorem sub_num (x : ℝ) (o : LogP) : o.num.sub (.fin x) = (change x o).num := by
  cases o <;> simp [LogP.num, PyF.sub, PyF.add, PyF.neg, change, sub_eq_add_neg]

theorem moveValues_form {old : PSState} {isite : ℕ} {oldSite newSite : Pos}
    {f : PVal → Except PyErr PVal} : ∀ {l : List (String × Param)} {acc : List (String × PVal)} {lpr : PyF}
    {out : List (String × PVal) × PyF}, (dkeys acc ++ l.map (·.1)).Nodup →
    moveValues old isite oldSite newSite f l acc lpr = .ok out →
    (∃ vals, out.1 = acc ++ vals ∧
      List.Forall₂ (fun kp kv => kv.1 = kp.1 ∧ ∃ v, old.get kp.1 = some v ∧ f v = .ok kv.2) l vals) ∧
    ∀ (a : String → ℝ) (b : String → LogP) (o : LogP), lpr = o.num →
      (∀ k p, (k, Param.prior p) ∈ l → p.hasPosition = true → ∃ x, numAt (old.get k) isite = .ok x ∧
      p.logPrior x oldSite = .ok (.fin (a k)) ∧ p.logPrior x newSite = .ok (b k).num) →
      out.2 = (total [o, total ((l.filter positional).map fun kp => change (a kp.1) (b kp.1))]).num
  | [], acc, lpr, out, _, h => by
    rw [moveValues] at h
    injection h with h
    subst h
    refine ⟨⟨[], by simp, .nil⟩, fun a b o ho _ => ?_⟩
    rw [List.filter_nil, List.map_nil, total, total_zero]
    exact ho
  | (name, p) :: l, acc, lpr, out, hk, h => by
    rw [moveValues.eq_def] at h
    simp only at h
    obtain ⟨lpr1, h1, h2⟩ := bindE_ok.1 h
    obtain ⟨v', h3, h4⟩ := bindE_ok.1 h2
    have hk1 : name ∉ dkeys acc := fun hm => (List.nodup_append.1 hk).2.2 _ hm _ (by simp) rfl
    rw [dset_new hk1] at h4
    obtain ⟨⟨vals, h6, h7⟩, h8⟩ := moveValues_form (by
        have : dkeys (acc ++ [(name, v')]) = dkeys acc ++ [name] := by simp [dkeys]
        rw [this, List.append_assoc]; exact hk) h4
    cases hget : old.get name with
    | none => rw [hget] at h3; cases h3
    | some v =>
      rw [hget] at h3
      simp only at h3
      refine ⟨⟨(name, v') :: vals, by rw [h6]; simp, .cons ⟨rfl, v, hget, h3⟩ h7⟩, fun a b o ho hab => ?_⟩
      have hrec := fun k p hkp => hab k p (List.mem_cons_of_mem _ hkp)
      cases p with
      | space sp =>
        simp only [pureE_ok] at h1
        subst h1
        exact h8 a b o ho hrec
      | prior q =>
        simp only at h1
        by_cases hpos : q.hasPosition = true
        · rw [if_pos hpos] at h1
          obtain ⟨x, e1, h1⟩ := bindE_ok.1 h1
          obtain ⟨a', e2, h1⟩ := bindE_ok.1 h1
          obtain ⟨b', e3, h1⟩ := bindE_ok.1 h1
          rw [pureE_ok] at h1
          subst h1
          obtain ⟨x', f1, f2, f3⟩ := hab name q (List.mem_cons_self ..) hpos
          rw [e1] at f1
          injection f1 with f1
          subst f1
          rw [e2] at f2
          rw [e3] at f3
          injection f2 with f2
          injection f3 with f3
          subst f2 f3
          rw [List.filter_cons_of_pos (by exact hpos), List.map_cons, total_cons (change (a name) (b name))]
          rw [h8 a b (total [o, change (a name) (b name)]) (by rw [ho, sub_num, add_num]) hrec, total_assoc]
        · rw [if_neg hpos, pureE_ok] at h1
          subst h1
          rw [List.filter_cons_of_neg (by simpa [positional] using hpos)]
          exact h8 a b o ho hrec

/-- The values of a parameter are rearranged. -/
def Arranged (is : List ℕ) (v v' : PVal) : Prop := gather (entries v) is = .ok (entries v')

theorem rows_gather {s s' : PSState} {is : List ℕ} (hn : s'.n = is.length) (h : Rel (Arranged is) s.vals s'.vals) :
    rows s' = is.map (row s) := by
  refine List.ext_getElem? fun j => ?_
  rw [getElem?_rows, List.getElem?_map]
  split
  · next hj =>
    have hj' : j < is.length := by omega
    rw [List.getElem?_eq_getElem hj', Option.map_some]
    congr 1
    refine row_rel h fun v v' hv => ?_
    have h2 := gather_ok.1 hv
    have hl := h2.length_eq
    have := (List.forall₂_iff_get.1 h2).2 j hj' (by omega)
    simp only [List.get_eq_getElem] at this
    rw [this, List.getElem?_eq_getElem (by omega)]
  · next hj => rw [List.getElem?_eq_none (by omega)]; rfl

theorem gather_entries {v v' : PVal} {is : List ℕ} (h : v.gather is = .ok v') : Arranged is v v' := by
  unfold PVal.gather at h
  unfold Arranged
  split at h
  all_goals
    obtain ⟨ys, h1, h2⟩ := bindE_ok.1 h
    rw [pureE_ok] at h2
    subst h2
    exact gather_map h1

theorem gather_range {α : Type} (xs : List α) : gather xs (List.range xs.length) = .ok xs := by
  rw [gather_ok, List.forall₂_iff_get]
  refine ⟨by simp, fun i h1 h2 => ?_⟩
  simp only [List.get_eq_getElem, List.getElem_range]
  exact List.getElem?_eq_getElem h2


/-- The state with another site. -/
theorem rows_set_site {s : PSState} {rest : List (String × PVal)} {v0 v1 : PVal} {isite : ℕ} {e : Entry}
    (hv : s.vals = ("discretization", v0) :: rest) (hrest : "discretization" ∉ rest.map (·.1))
    (he : entries v1 = (entries v0).set isite e) (hl : (entries v0).length = s.n) (kd : Option (List (ℝ × ℝ))) :
    rows (.mk s.n (("discretization", v1) :: rest) kd) = (rows s).set isite (withSite (row s isite) e) := by
  have hw : ∀ j : ℕ, (rest.map fun kv => (kv.1, (entries kv.2)[j]?)).map (fun kv : String × Option Entry =>
      if kv.1 = "discretization" then (kv.1, some e) else kv) = rest.map fun kv => (kv.1, (entries kv.2)[j]?) := by
    intro j
    rw [List.map_map]
    refine List.map_congr_left fun kv hkv => ?_
    have : kv.1 ≠ "discretization" := fun h => hrest (by rw [← h]; exact List.mem_map_of_mem (f := (·.1)) hkv)
    simp [this]
  refine List.ext_getElem? fun j => ?_
  rw [List.getElem?_set, getElem?_rows, getElem?_rows, length_rows]
  change (if j < s.n then some _ else none) = _
  by_cases hj : j < s.n
  · rw [if_pos hj, if_pos hj]
    by_cases hij : isite = j
    · subst hij
      rw [if_pos rfl, if_pos hj]
      congr 1
      unfold row withSite
      rw [hv]
      change ("discretization", (entries v1)[isite]?) :: rest.map _ = _
      rw [List.map_cons, List.map_cons, hw, he, List.getElem?_set]
      simp [hl, hj]
    · rw [if_neg hij]
      congr 1
      unfold row
      rw [hv]
      change ("discretization", (entries v1)[j]?) :: rest.map _ = _
      rw [List.map_cons, he, List.getElem?_set, if_neg hij]
  · rw [if_neg hj, if_neg hj]
    split <;> simp_all

theorem rel_of_moves {l : List (String × Param)} {rest vals : List (String × PVal)} {s : PSState}
    {f : PVal → Except PyErr PVal} {R : PVal → PVal → Prop}
    (hn : rest.map (·.1) = l.map (·.1)) (hg : ∀ kv ∈ rest, s.get kv.1 = some kv.2)
    (h : List.Forall₂ (fun kp kv => kv.1 = kp.1 ∧ ∃ v, s.get kp.1 = some v ∧ f v = .ok kv.2) l vals)
    (hR : ∀ kv ∈ rest, ∀ v', f kv.2 = .ok v' → R kv.2 v') : Rel R rest vals := by
  induction h generalizing rest with
  | nil =>
    have : rest = [] := by simpa using hn
    subst this
    exact .nil
  | @cons kp kv l vals h1 _ ih =>
    cases rest with
    | nil => simp at hn
    | cons kw rest =>
      rw [List.map_cons, List.map_cons] at hn
      injection hn with hn1 hn2
      obtain ⟨h2, v, h3, h4⟩ := h1
      have := hg kw (List.mem_cons_self ..)
      rw [hn1, h3] at this
      injection this with this
      subst this
      exact .cons ⟨h2.trans hn1.symm, hR _ (List.mem_cons_self ..) _ h4⟩
        (ih hn2 (fun kv hkv => hg kv (List.mem_cons_of_mem _ hkv)) fun kv hkv => hR kv (List.mem_cons_of_mem _ hkv))

theorem map_rows_perm {s : PSState} {is : List ℕ} (h : is.Perm (List.range s.n)) : (is.map (row s)).Perm (rows s) :=
  h.map _

/-- A move of a site. -/
theorem perturbSite_rows {sp : Space} (hok : SpaceOk sp) {s : PSState} (ha : ArraysOk sp s) (isite : ℕ) :
    Post (sp.perturbSite s isite) (fun r => isite < s.n ∧ r.1.n = s.n ∧ ∃ e, SiteIn sp.info.kind e ∧
      (rows r.1).Perm ((rows s).set isite (withSite (row s isite) e)) ∧
      ∀ (old : Pos) (a : String → ℝ) (b : String → LogP), posAt s isite = .ok old → (∀ k p, (k, Param.prior p) ∈ sp.params.toList → p.hasPosition = true →
        ∃ x, numAt (s.get k) isite = .ok x ∧ p.logPrior x old = .ok (.fin (a k)) ∧
          p.logPrior x e.pos = .ok (b k).num) →
        r.2 = (total ((sp.params.toList.filter positional).map fun kp => change (a kp.1) (b kp.1))).num) := by
  unfold Space.perturbSite
  suffices H : Post (vorMove sp s isite) (fun r => isite < s.n ∧ r.1.n = s.n ∧ ∃ e, SiteIn sp.info.kind e ∧
      (rows r.1).Perm ((rows s).set isite (withSite (row s isite) e)) ∧
      ∀ (old : Pos) (a : String → ℝ) (b : String → LogP), posAt s isite = .ok old → (∀ k p, (k, Param.prior p) ∈ sp.params.toList → p.hasPosition = true →
        ∃ x, numAt (s.get k) isite = .ok x ∧ p.logPrior x old = .ok (.fin (a k)) ∧
          p.logPrior x e.pos = .ok (b k).num) →
        r.2 = (total ((sp.params.toList.filter positional).map fun kp => change (a kp.1) (b kp.1))).num) by
    refine H.bind' fun r hr => ?_
    obtain ⟨new, lpr⟩ := r
    simp only at hr ⊢
    refine (Post.lift' (P := fun new' => sp.info.kind.withKd new = .ok new') fun _ h => h).bind' fun new' hnew =>
      Post.pure' ?_
    simp only
    have hrows : rows new' = rows new := by
      unfold rows row
      rw [withKd_n hnew, withKd_vals hnew]
    rw [withKd_n hnew, hrows]
    exact hr
  have hkey : (["discretization"] ++ sp.params.toList.map (·.1)).Nodup := by
    rw [List.singleton_append, List.nodup_cons]; exact ⟨hok.disc, hok.nodup⟩
  unfold vorMove
  cases hk : sp.info.kind with
  | plain => exact Post.throw'
  | vor1 v =>
    simp only
    obtain ⟨v0, rest, h1, h2, h3, h4⟩ := vals_disc hok ha (by rw [hk]; rfl)
    have hlen : ∀ kv ∈ s.vals, HasLen kv.2 s.n := fun kv hkv => ha.2.1 kv.1 kv.2 hkv
    rw [h3]
    split
    · next xs hxs =>
      injection hxs with hxs
      subst hxs
      have hl : xs.length = s.n := hlen ("discretization", .arr (.vec xs)) (by rw [h1]; simp)
      split
      · exact Post.throw'
      · next x hx =>
        have hi : isite < s.n := by rw [← hl]; exact (List.getElem?_eq_some_iff.1 hx).1
        refine (perturbSite1_post v x).bind' fun y hy => ?_
        refine (Post.lift' (P := fun sites => gather (xs.set isite y) (v.argsort.f (xs.set isite y)) = .ok sites)
          fun _ h => h).bind' fun sites hsites => (Post.lift' (P := fun out => moveValues s isite (.one x) (.one y)
          (fun w => w.gather (v.argsort.f (xs.set isite y))) sp.params.toList
          [("discretization", .arr (.vec sites))] (.fin 0) = .ok out) fun _ h => h).bind' fun out hout => ?_
        obtain ⟨vals, lpr⟩ := out
        simp only
        refine (Post.lift' (P := fun new => mkPS s.n vals = .ok new) fun _ h => h).bind' fun new hnew =>
          Post.pure' ?_
        obtain ⟨_, rfl⟩ := mkPS_shape hnew
        obtain ⟨⟨vals', e1, e2⟩, e3⟩ := moveValues_form (acc := [("discretization", .arr (.vec sites))]) hkey hout
        simp only [List.singleton_append] at e1
        subst e1
        have hperm := v.argsort.perm (xs.set isite y)
        rw [List.length_set, hl] at hperm
        refine ⟨hi, rfl, .num y, ⟨v, rfl, hy⟩, ?_, fun old a b hp hab => ?_⟩
        · have hs1 := rows_set_site (isite := isite) (e := .num y) (v1 := .arr (.vec (xs.set isite y))) h1
            (by rw [h2]; exact hok.disc) (by simp [entries]) (by simpa [entries] using hl) s.kd
          rw [← hs1]
          have hr : rows (.mk s.n (("discretization", .arr (.vec sites)) :: vals') none) =
              (v.argsort.f (xs.set isite y)).map
                (row (.mk s.n (("discretization", .arr (.vec (xs.set isite y))) :: rest) s.kd)) := by
            refine rows_gather (by rw [hperm.length_eq, List.length_range]; rfl) ?_
            refine .cons ⟨rfl, gather_map hsites⟩ ?_
            exact rel_of_moves h2 h4 e2 fun kv _ v' hv' => gather_entries hv'
          rw [hr]
          exact map_rows_perm hperm
        · have hold : old = .one x := by
            unfold posAt at hp
            rw [h3] at hp
            simp only [Arr.positions, List.getElem?_map, hx, Option.map_some] at hp
            injection hp with hp
            exact hp.symm
          subst hold
          rw [e3 a b (some 0) rfl hab, zero_total]
    · exact Post.throw'
  | vor2 v =>
    simp only
    obtain ⟨v0, rest, h1, h2, h3, h4⟩ := vals_disc hok ha (by rw [hk]; rfl)
    have hlen : ∀ kv ∈ s.vals, HasLen kv.2 s.n := fun kv hkv => ha.2.1 kv.1 kv.2 hkv
    rw [h3]
    split
    · next xs hxs =>
      injection hxs with hxs
      subst hxs
      have hl : xs.length = s.n := hlen ("discretization", .arr (.pts xs)) (by rw [h1]; simp)
      split
      · exact Post.throw'
      · next x hx =>
        have hi : isite < s.n := by rw [← hl]; exact (List.getElem?_eq_some_iff.1 hx).1
        refine (perturbSite2_post v x).bind' fun y hy => ?_
        refine (Post.lift' (P := fun out => moveValues s isite (.two x) (.two y)
          (fun w => .ok w) sp.params.toList
          [("discretization", .arr (.pts (xs.set isite y)))] (.fin 0) = .ok out) fun _ h => h).bind' fun out hout => ?_
        obtain ⟨vals, lpr⟩ := out
        simp only
        refine (Post.lift' (P := fun new => mkPS s.n vals = .ok new) fun _ h => h).bind' fun new hnew =>
          Post.pure' ?_
        obtain ⟨_, rfl⟩ := mkPS_shape hnew
        obtain ⟨⟨vals', e1, e2⟩, e3⟩ := moveValues_form
          (acc := [("discretization", .arr (.pts (xs.set isite y)))]) hkey hout
        simp only [List.singleton_append] at e1
        subst e1
        refine ⟨hi, rfl, .pt y, ⟨v, rfl, hy⟩, ?_, fun old a b hp hab => ?_⟩
        · have hs1 := rows_set_site (isite := isite) (e := .pt y) (v1 := .arr (.pts (xs.set isite y))) h1
            (by rw [h2]; exact hok.disc) (by simp [entries]) (by simpa [entries] using hl) s.kd
          rw [← hs1]
          have hr : rows (.mk s.n (("discretization", .arr (.pts (xs.set isite y))) :: vals') none) =
              rows (.mk s.n (("discretization", .arr (.pts (xs.set isite y))) :: rest) s.kd) := by
            unfold rows
            refine List.map_congr_left fun j hj => row_rel (R := fun v v' => v' = v) ?_ fun v v' h => by rw [h]
            refine .cons ⟨rfl, rfl⟩ ?_
            exact rel_of_moves (R := fun v v' => v' = v) h2 h4 e2 fun kv _ v' hv' => (Except.ok.inj hv').symm
          rw [hr]
        · have hold : old = .two x := by
            unfold posAt at hp
            rw [h3] at hp
            simp only [Arr.positions, List.getElem?_map, hx, Option.map_some] at hp
            injection hp with hp
            exact hp.symm
          subst hold
          rw [e3 a b (some 0) rfl hab, zero_total]
    · exact Post.throw'

end BB.Lemmas
