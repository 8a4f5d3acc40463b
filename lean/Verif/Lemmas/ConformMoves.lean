import Verif.Lemmas.ConformFill
import Mathlib.Data.List.GetD

/-!
# The invariant of parameter-space states: births, deaths, moves, perturbations of values
-/

namespace BB.Lemmas

open BB BB.Spec

/-! ### the newborn -/

/-- A value for the newborn dimension. -/
def PNew (vs : ValSpec) (pos : Pos) : Param → NVal → Prop
  | .prior p, v => ∃ x, v = .num x ∧ vs.V p pos x
  | .space sp, v => ∃ s, v = .ps s ∧ SConf vs sp s

def KNew (vs : ValSpec) (pos : Pos) (kp : String × Param) (kv : String × NVal) : Prop :=
  kv.1 = kp.1 ∧ PNew vs pos kp.2 kv.2

theorem newbornFromPrior_post {vs : ValSpec} {pos : Pos} : ∀ (l : List (String × Param)),
    (∀ kp ∈ l, PGood vs kp.2) → Post (newbornFromPrior l pos) (List.Forall₂ (KNew vs pos) l)
  | [], _ => by
    rw [newbornFromPrior]; exact Post.pure' .nil
  | (name, p) :: rest, h => by
    rw [newbornFromPrior.eq_def]
    simp only
    have hp := h _ (List.mem_cons_self ..)
    refine Post.bind' (Q := PNew vs pos p) ?_ fun v hv => ?_
    · cases p with
      | prior p =>
        rw [PGood] at hp
        exact (hp.sample pos).bind' fun x hx => Post.pure' ⟨x, rfl, hx⟩
      | space sp =>
        rw [PGood] at hp
        exact (sample_S sp hp).bind' fun x hx => Post.pure' ⟨x, rfl, hx⟩
    · exact (newbornFromPrior_post rest fun kp hk => h kp (List.mem_cons_of_mem _ hk)).bind' fun vs' h2 =>
        Post.pure' (.cons ⟨rfl, hv⟩ h2)

theorem newbornFromNeighbour_post {vs : ValSpec} {old : PSState} {inear : ℕ} {pos : Pos} :
    ∀ (l : List (String × Param)) (lpr : PyF), (∀ kp ∈ l, PGood vs kp.2) →
    Post (newbornFromNeighbour old inear pos l lpr) (fun r => r.2.Ok → lpr.Ok ∧
      List.Forall₂ (KNew vs pos) l r.1)
  | [], lpr, _ => by
    rw [newbornFromNeighbour]; exact Post.pure' fun h => ⟨h, .nil⟩
  | (name, p) :: rest, lpr, h => by
    rw [newbornFromNeighbour.eq_def]
    simp only
    have hp := h _ (List.mem_cons_self ..)
    refine Post.bind' (Q := fun v => v.2.Ok → lpr.Ok ∧ PNew vs pos p v.1) ?_ fun v hv => ?_
    · cases p with
      | prior p =>
        rw [PGood] at hp
        refine Post.bind_any fun nb => (hp.fromNb nb pos).bind' fun x hx => Post.pure' fun hok => ?_
        obtain ⟨h1, h2⟩ := Ok_add hok
        exact ⟨h1, x.1, rfl, hx h2⟩
      | space sp =>
        rw [PGood] at hp
        simp only
        refine Post.ite' (fun hd => ?_) fun hd => ?_
        · refine Post.bind_any fun oldi => (sampleDisc_post (SGood_iff.1 hp.1).1).bind' fun newi hn =>
            (nb_S sp hp.1 oldi newi).bind' fun r hr => Post.pure' fun hok => ?_
          obtain ⟨h1, h2⟩ := Ok_add hok
          exact ⟨h1, r.1, rfl, hr h2 hn⟩
        · exact Post.bind_any fun _ => Post.throw'
    · refine (newbornFromNeighbour_post rest v.2 fun kp hk => h kp (List.mem_cons_of_mem _ hk)).bind'
        fun vs' h2 => Post.pure' fun hok => ?_
      obtain ⟨h3, h4⟩ := h2 hok
      obtain ⟨h5, h6⟩ := hv h3
      exact ⟨h5, .cons ⟨rfl, h6⟩ h4⟩

theorem newborn_post {vs : ValSpec} {sp : Space} (h : SGood vs sp) (pos : Pos) (old : PSState) :
    Post (sp.newborn pos old) (fun r => r.2.Ok → List.Forall₂ (KNew vs pos) sp.params.toList r.1) := by
  unfold Space.newborn
  have hp := (SGood_iff.1 h).2
  refine Post.ite' (fun _ => ?_) fun _ => ?_
  · exact (newbornFromPrior_post _ hp).bind' fun vs' h2 => Post.pure' fun _ => h2
  · exact Post.bind_any fun i => (newbornFromNeighbour_post _ _ hp).mono fun r hr hok => (hr hok).2

/-! ### lists -/

theorem length_listInsert {α : Type} (l : List α) (i : ℕ) (x : α) :
    (listInsert l i x).length = l.length + 1 := by
  unfold listInsert
  simp only [List.length_append, List.length_take, List.length_cons, List.length_drop]
  omega

theorem length_listDelete {α : Type} {l : List α} {i : ℕ} (h : i < l.length) :
    (listDelete l i).length = l.length - 1 := by
  unfold listDelete
  simp only [List.length_append, List.length_take, List.length_drop]
  omega

theorem forall₂_insert {α β : Type} {R : α → β → Prop} {as : List α} {bs : List β}
    (h : List.Forall₂ R as bs) {a : α} {b : β} (hab : R a b) (i : ℕ) :
    List.Forall₂ R (listInsert as i a) (listInsert bs i b) :=
  List.rel_append (List.forall₂_take i h) (.cons hab (List.forall₂_drop i h))

theorem forall₂_delete {α β : Type} {R : α → β → Prop} {as : List α} {bs : List β}
    (h : List.Forall₂ R as bs) (i : ℕ) :
    List.Forall₂ R (listDelete as i) (listDelete bs i) :=
  List.rel_append (List.forall₂_take i h) (List.forall₂_drop (i + 1) h)

theorem mem_listInsert {α : Type} {l : List α} {i : ℕ} {x y : α} (h : y ∈ listInsert l i x) :
    y ∈ l ∨ y = x := by
  unfold listInsert at h
  rcases List.mem_append.1 h with h | h
  · exact Or.inl (List.mem_of_mem_take h)
  · rcases List.mem_cons.1 h with h | h
    · exact Or.inr h
    · exact Or.inl (List.mem_of_mem_drop h)

theorem mem_listDelete {α : Type} {l : List α} {i : ℕ} {y : α} (h : y ∈ listDelete l i) : y ∈ l := by
  unfold listDelete at h
  rcases List.mem_append.1 h with h | h
  · exact List.mem_of_mem_take h
  · exact List.mem_of_mem_drop h

theorem listDelete_eraseIdx {α : Type} (l : List α) (i : ℕ) : listDelete l i = l.eraseIdx i := by
  rw [List.eraseIdx_eq_take_drop_succ]; rfl

theorem listDelete_sublist {α : Type} (l : List α) (i : ℕ) : List.Sublist (listDelete l i) l := by
  rw [listDelete_eraseIdx]; exact List.eraseIdx_sublist ..

theorem map_listInsert {α β : Type} (f : α → β) (l : List α) (i : ℕ) (x : α) :
    (listInsert l i x).map f = listInsert (l.map f) i (f x) := by
  unfold listInsert; simp [List.map_take, List.map_drop]

theorem map_listDelete {α β : Type} (f : α → β) (l : List α) (i : ℕ) :
    (listDelete l i).map f = listDelete (l.map f) i := by
  unfold listDelete; simp [List.map_take, List.map_drop]

theorem listInsert_replicate {α : Type} (n i : ℕ) (x : α) (h : i ≤ n) :
    listInsert (List.replicate n x) i x = List.replicate (n + 1) x := by
  unfold listInsert
  rw [List.take_replicate, List.drop_replicate, ← List.replicate_succ, List.replicate_append_replicate]
  congr 1
  omega

theorem listDelete_replicate {α : Type} (n i : ℕ) (x : α) (h : i < n) :
    listDelete (List.replicate n x) i = List.replicate (n - 1) x := by
  unfold listDelete
  rw [List.take_replicate, List.drop_replicate, List.replicate_append_replicate]
  congr 1
  omega

theorem insert1d_eq {xs ys : List ℝ} {i : ℕ} {x : ℝ} (h : Utils1d.insert1d 0 xs i x = .ok ys) :
    ys = listInsert xs i x ∧ i ≤ xs.length := by
  rw [Props.C45_insert] at h
  split at h
  · rename_i hc
    injection h with h
    exact ⟨by rw [← h]; simp [listInsert], by omega⟩
  · cases h

theorem delete1d_eq {xs ys : List ℝ} {i : ℕ} (h : Utils1d.delete1d 0 xs i = .ok ys) :
    ys = listDelete xs i ∧ i < xs.length := by
  rw [Props.C45_delete] at h
  split at h
  · cases h
  · split at h
    · rename_i hc
      injection h with h
      exact ⟨by rw [← h]; simp [listDelete], by omega⟩
    · cases h

/-! ### births -/

theorem insertAt_conf {vs : ValSpec} {p : Param} {poss : List Pos} {v v' : PVal} {pos : Pos} {x : NVal}
    {i : ℕ} (hv : PConf vs p poss v) (hx : PNew vs pos p x) (hlen : v.len = poss.length)
    (h : PVal.insertAt (some v) i x = .ok v') : PConf vs p (listInsert poss i pos) v' := by
  cases p with
  | prior p =>
    rw [PConf] at *
    obtain ⟨a, rfl, h1, h2⟩ := hv
    obtain ⟨y, rfl, hy⟩ := hx
    cases a with
    | pts ps => cases h
    | vec xs =>
      obtain ⟨ys, hys, h3⟩ := bindE_ok.1 h
      rw [pureE_ok] at h3
      subst h3
      obtain ⟨rfl, _⟩ := insert1d_eq hys
      refine ⟨_, rfl, fun _ => ⟨_, rfl⟩, fun zs hz _ => ?_⟩
      injection hz with hz
      subst hz
      exact forall₂_insert (h2 xs rfl (by simpa [PVal.len, Arr.len] using hlen)) hy i
  | space sp =>
    rw [PConf] at *
    obtain ⟨l, hl, h1⟩ := hv
    obtain ⟨s, rfl, hs⟩ := hx
    rcases hl with rfl | ⟨hO, rfl⟩
    · injection h with h
      subst h
      refine ⟨_, Or.inl rfl, fun y hy => ?_⟩
      rcases mem_listInsert hy with hy | rfl
      · exact h1 y hy
      · exact hs
    · cases h

theorem append_conf {vs : ValSpec} {p : Param} {poss : List Pos} {v v' : PVal} {pos : Pos} {x : NVal}
    (hv : PConf vs p poss v) (hx : PNew vs pos p x) (hlen : v.len = poss.length)
    (h : PVal.append (some v) x = .ok v') : PConf vs p (poss ++ [pos]) v' := by
  cases p with
  | prior p =>
    rw [PConf] at *
    obtain ⟨a, rfl, h1, h2⟩ := hv
    obtain ⟨y, rfl, hy⟩ := hx
    cases a with
    | pts ps =>
      injection h with h
      subst h
      refine ⟨_, rfl, fun _ => ⟨_, rfl⟩, fun zs hz hl => ?_⟩
      injection hz with hz
      subst hz
      simp only [PVal.len, Arr.len] at hlen
      have h3 : ∀ qs : List (ℝ × ℝ), (qs.flatMap fun p => [p.1, p.2]).length = 2 * qs.length := by
        intro qs
        induction qs with
        | nil => rfl
        | cons a qs ih => rw [List.flatMap_cons, List.length_append, ih]; simp; omega
      simp only [List.length_append, h3, List.length_singleton] at hl
      have h4 : ps = [] := List.length_eq_zero_iff.1 (by omega)
      have h5 : poss = [] := List.length_eq_zero_iff.1 (by omega)
      subst h4 h5
      exact .cons hy .nil
    | vec xs =>
      injection h with h
      subst h
      refine ⟨_, rfl, fun _ => ⟨_, rfl⟩, fun zs hz _ => ?_⟩
      injection hz with hz
      subst hz
      exact List.rel_append (h2 xs rfl (by simpa [PVal.len, Arr.len] using hlen)) (.cons hy .nil)
  | space sp =>
    rw [PConf] at *
    obtain ⟨l, hl, h1⟩ := hv
    obtain ⟨s, rfl, hs⟩ := hx
    have h2 : ∀ y ∈ l ++ [s], SConf vs sp y := by
      intro y hy
      rcases List.mem_append.1 hy with hy | hy
      · exact h1 y hy
      · rw [List.mem_singleton] at hy; subst hy; exact hs
    rcases hl with rfl | ⟨hO, rfl⟩
    · injection h with h
      subst h
      exact ⟨_, Or.inl rfl, h2⟩
    · injection h with h
      subst h
      exact ⟨_, Or.inr ⟨hO, rfl⟩, h2⟩

/-- What is found under the names of the parameters. -/
theorem get_params {vs : ValSpec} {sp : Space} {s : PSState} (hg : SpaceOk sp) {hdr rest poss}
    (hv : s.vals = hdr ++ rest) (hh : Hdr sp.info.kind s.n s.kd hdr poss)
    (hr : List.Forall₂ (KConf vs poss) sp.params.toList rest) (hsh : Shape s)
    {kp : String × Param} (hk : kp ∈ sp.params.toList) :
    ∃ v, s.get kp.1 = some v ∧ PConf vs kp.2 poss v ∧ v.len = s.n ∧ v ≠ .states [] := by
  obtain ⟨j, hj, rfl⟩ := List.getElem_of_mem hk
  have hj2 : j < rest.length := by rw [← hr.length_eq]; exact hj
  have h1 := (List.forall₂_iff_get.1 hr).2 j hj hj2
  have hm : rest[j] ∈ s.vals := by rw [hv]; simp
  refine ⟨rest[j].2, ?_, h1.2, hsh _ hm⟩
  have hnd := keys_nodup hg hv hh hr
  apply dget_of_mem hnd
  have h2 : rest[j].1 = sp.params.toList[j].1 := h1.1
  rw [← h2]
  exact hm

theorem addNewborn_conf {vs : ValSpec} {old : PSState} {add : Option PVal → NVal → Except PyErr PVal}
    {poss poss' : List Pos} {pos : Pos}
    (hadd : ∀ p v x v', PConf vs p poss v → PNew vs pos p x → v.len = poss.length →
      add (some v) x = .ok v' → PConf vs p poss' v') :
    ∀ {l : List (String × Param)} {nv : List (String × NVal)} {acc out : List (String × PVal)},
    (∀ kp ∈ l, ∃ v, old.get kp.1 = some v ∧ PConf vs kp.2 poss v ∧ v.len = poss.length) →
    List.Forall₂ (KNew vs pos) l nv → (dkeys acc ++ l.map (·.1)).Nodup →
    addNewborn old add nv acc = .ok out →
    ∃ vals, out = acc ++ vals ∧ List.Forall₂ (KConf vs poss') l vals
  | [], nv, acc, out, _, hn, _, h => by
    rw [List.forall₂_nil_left_iff] at hn
    subst hn
    rw [addNewborn] at h
    injection h with h
    exact ⟨[], by simp [h], .nil⟩
  | (name, p) :: l, nv, acc, out, ho, hn, hk, h => by
    rw [List.forall₂_cons_left_iff] at hn
    obtain ⟨⟨name', x⟩, nv', ⟨h1, h2⟩, h3, rfl⟩ := hn
    simp only at h1 h2
    subst h1
    rw [addNewborn] at h
    obtain ⟨v', h4, h5⟩ := bindE_ok.1 h
    obtain ⟨v, h6, h7, h8⟩ := ho _ (List.mem_cons_self ..)
    simp only at h6 h7
    rw [h6] at h4
    have hk1 : name' ∉ dkeys acc := fun hm => (List.nodup_append.1 hk).2.2 _ hm _ (by simp) rfl
    rw [dset_new hk1] at h5
    obtain ⟨vals, rfl, h9⟩ := addNewborn_conf hadd (fun kp hkp => ho kp (List.mem_cons_of_mem _ hkp)) h3
      (by
        have : dkeys (acc ++ [(name', v')]) = dkeys acc ++ [name'] := by simp [dkeys]
        rw [this, List.append_assoc]; exact hk) h5
    exact ⟨(name', v') :: vals, by simp, .cons ⟨rfl, hadd _ _ _ _ h7 h2 h8 h4⟩ h9⟩

theorem bisectLeft_spec {xs : List ℝ} {x : ℝ} (hs : xs.Pairwise (· ≤ ·)) :
    ∀ (lo hi : ℕ), lo ≤ hi → hi ≤ xs.length → (∀ j, j < lo → xs.getD j 0 < x) →
      (∀ j, hi ≤ j → j < xs.length → x ≤ xs.getD j 0) →
      lo ≤ bisectLeft xs x lo hi ∧ bisectLeft xs x lo hi ≤ hi ∧
      (∀ j, j < bisectLeft xs x lo hi → xs.getD j 0 < x) ∧
      (∀ j, bisectLeft xs x lo hi ≤ j → j < xs.length → x ≤ xs.getD j 0) := by
  have mono : ∀ a b, a ≤ b → b < xs.length → xs.getD a 0 ≤ xs.getD b 0 := by
    intro a b hab hb
    rcases Nat.eq_or_lt_of_le hab with rfl | hlt
    · exact le_rfl
    · rw [List.getD_eq_getElem _ _ (by omega), List.getD_eq_getElem _ _ hb]
      exact List.pairwise_iff_getElem.1 hs a b (by omega) hb hlt
  intro lo hi
  induction hm : hi - lo using Nat.strong_induction_on generalizing lo hi with
  | _ m ih =>
    intro h1 h2 h3 h4
    rw [bisectLeft]
    split
    · rename_i hlt
      split
      · rename_i hc
        have := ih (hi - ((lo + hi) / 2 + 1)) (by omega) ((lo + hi) / 2 + 1) hi rfl (by omega) h2
          (fun j hj => lt_of_le_of_lt (mono j ((lo + hi) / 2) (by omega) (by omega)) hc) h4
        exact ⟨by omega, this.2⟩
      · rename_i hc
        have := ih ((lo + hi) / 2 - lo) (by omega) lo ((lo + hi) / 2) rfl (by omega) (by omega) h3
          (fun j hj hj2 => le_trans (not_lt.1 hc) (mono _ j hj hj2))
        exact ⟨this.1, by omega, this.2.2⟩
    · have : lo = hi := by omega
      subst this
      exact ⟨le_rfl, le_rfl, h3, h4⟩

theorem sorted_insert {xs : List ℝ} {x : ℝ} (hs : xs.Pairwise (· ≤ ·)) :
    (listInsert xs (bisectLeft xs x 0 xs.length) x).Pairwise (· ≤ ·) := by
  obtain ⟨_, h2, h3, h4⟩ := bisectLeft_spec (x := x) hs 0 xs.length (by omega) le_rfl
    (fun j hj => by omega) (fun j hj hj2 => by omega)
  unfold listInsert
  generalize bisectLeft xs x 0 xs.length = i at *
  rw [List.pairwise_append]
  refine ⟨hs.sublist (List.take_sublist ..), ?_, ?_⟩
  · rw [List.pairwise_cons]
    refine ⟨fun y hy => ?_, hs.sublist (List.drop_sublist ..)⟩
    obtain ⟨j, hj, rfl⟩ := List.getElem_of_mem hy
    rw [List.getElem_drop]
    have := h4 (i + j) (by omega) (by rw [List.length_drop] at hj; omega)
    rwa [List.getD_eq_getElem _ _ (by rw [List.length_drop] at hj; omega)] at this
  · intro y hy z hz
    have hyx : y ≤ x := by
      obtain ⟨j, hj, rfl⟩ := List.getElem_of_mem hy
      rw [List.length_take] at hj
      rw [List.getElem_take]
      have := h3 j (by omega)
      rw [List.getD_eq_getElem _ _ (by omega)] at this
      exact this.le
    rcases List.mem_cons.1 hz with rfl | hz
    · exact hyx
    · obtain ⟨j, hj, rfl⟩ := List.getElem_of_mem hz
      rw [List.getElem_drop]
      have := h4 (i + j) (by omega) (by rw [List.length_drop] at hj; omega)
      rw [List.getD_eq_getElem _ _ (by rw [List.length_drop] at hj; omega)] at this
      exact hyx.trans this

theorem vorBirth_conf {vs : ValSpec} {sp : Space} (hg : SGood vs sp) {s : PSState}
    (hs : SConf vs sp s) (hn : s.n ≠ sp.info.hi) :
    Post (vorBirth sp s) (fun r => r.2.Ok → SConf vs sp r.1) := by
  obtain ⟨h1, hsh, hdr, rest, poss, hv, hh, hr⟩ := SConf_iff.1 hs
  obtain ⟨hok, hps⟩ := SGood_iff.1 hg
  have hlen : poss.length = s.n := hh.length fun kv hkv => hsh kv (by rw [hv]; simp [hkv])
  have hget : ∀ kp ∈ sp.params.toList, ∃ v, s.get kp.1 = some v ∧ PConf vs kp.2 poss v ∧
      v.len = poss.length := by
    intro kp hkp
    obtain ⟨v, e1, e2, e3, _⟩ := get_params hok hv hh hr hsh hkp
    exact ⟨v, e1, e2, e3.trans hlen.symm⟩
  have hkeys : ∀ a, (dkeys [("discretization", PVal.arr a)] ++ sp.params.toList.map (·.1)).Nodup := by
    intro a
    simp only [dkeys, List.map_cons, List.map_nil, List.singleton_append, List.nodup_cons]
    exact ⟨hok.disc, hok.nodup⟩
  unfold vorBirth
  have hline := hok.line
  have hplane := hok.plane
  have hconf := fun s' => SConf_iff (vs := vs) (sp := sp) (s := s')
  have hnb := fun pos => newborn_post hg pos s
  cases hk : sp.info.kind with
  | plain => exact Post.throw'
  | vor1 v =>
    rw [hk] at hh
    obtain ⟨xs, rfl, hkd, rfl, hsort, hdom⟩ := hh
    have hd : s.get "discretization" = some (.arr (.vec xs)) := by
      unfold PSState.get; rw [hv]; simp [dget]
    simp only
    refine (Post.uniform' (hline v hk)).bind' fun x hx => (hnb (.one x)).bind' fun r hrn => ?_
    simp only [hd]
    refine (Post.lift' (P := fun ys => ys = listInsert xs (bisectLeft xs x 0 xs.length) x)
      fun ys hys => (insert1d_eq hys).1).bind' fun sites hsites => ?_
    subst hsites
    refine (Post.lift' (P := fun vals => r.2.Ok → ∃ vals', vals = [("discretization", PVal.arr (.vec
        (listInsert xs (bisectLeft xs x 0 xs.length) x)))] ++ vals' ∧
        List.Forall₂ (KConf vs ((listInsert xs (bisectLeft xs x 0 xs.length) x).map .one))
          sp.params.toList vals') fun vals hvals hok => ?_).bind' fun vals hvals => ?_
    · refine addNewborn_conf (poss := xs.map .one) (fun p v x' v' e1 e2 e3 e4 => ?_) hget (hrn hok) (hkeys _) hvals
      rw [map_listInsert]
      exact insertAt_conf e1 e2 e3 e4
    · refine (Post.lift' (P := fun new => Shape new ∧ new = .mk (s.n + 1) vals none)
        fun new hnew => mkPS_shape hnew).bind' fun new hnew => Post.pure' fun hok => ?_
      obtain ⟨hsh', rfl⟩ := hnew
      obtain ⟨vals', rfl, hf⟩ := hvals hok
      refine (hconf _).2 ⟨⟨show sp.info.lo ≤ s.n + 1 by omega,
      show s.n + 1 ≤ sp.info.hi by omega⟩, hsh', _, vals', _, rfl, ?_, hf⟩
      rw [hk]
      refine ⟨_, rfl, rfl, rfl, sorted_insert hsort, fun y hy => ?_⟩
      rcases mem_listInsert hy with hy | rfl
      · exact hdom y hy
      · exact hx
  | vor2 v =>
    rw [hk] at hh
    obtain ⟨a, rfl, rfl, hkd, hdom⟩ := hh
    have hd : s.get "discretization" = some (.arr a) := by
      unfold PSState.get; rw [hv]; simp [dget]
    simp only
    refine (sampleSite2_post (hplane v hk)).bind' fun x hx => (hnb (.two x)).bind' fun r hrn => ?_
    simp only [hd]
    cases a with
    | vec xs => exact Post.throw'
    | pts ps =>
      have hdom' : ∀ q ∈ ps, InDomain v q := by
        rcases hdom with hdom | ⟨ps', e, hdom⟩
        · cases hdom
        · injection e with e; subst e; exact hdom
      refine (Post.lift' (P := fun vals => r.2.Ok → ∃ vals', vals = [("discretization", PVal.arr (.pts
          (ps ++ [x])))] ++ vals' ∧
          List.Forall₂ (KConf vs (Arr.positions (.pts (ps ++ [x])))) sp.params.toList vals')
          fun vals hvals hok => ?_).bind' fun vals hvals => ?_
      · refine addNewborn_conf (poss := ps.map .two) (fun p v x' v' e1 e2 e3 e4 => ?_) hget (hrn hok) (hkeys _) hvals
        simp only [Arr.positions, List.map_append, List.map_cons, List.map_nil]
        exact append_conf e1 e2 e3 e4
      · refine (Post.lift' (P := fun new => Shape new ∧ new = .mk (s.n + 1) vals none)
          fun new hnew => mkPS_shape hnew).bind' fun new hnew => Post.pure' fun hok => ?_
        obtain ⟨hsh', rfl⟩ := hnew
        obtain ⟨vals', rfl, hf⟩ := hvals hok
        refine (hconf _).2 ⟨⟨show sp.info.lo ≤ s.n + 1 by omega,
      show s.n + 1 ≤ sp.info.hi by omega⟩, hsh', _, vals', _, rfl, ?_, hf⟩
        rw [hk]
        refine ⟨_, rfl, rfl, by simp [PSState.kd], Or.inr ⟨_, rfl, fun q hq => ?_⟩⟩
        rcases List.mem_append.1 hq with hq | hq
        · exact hdom' q hq
        · rw [List.mem_singleton] at hq; subst hq; exact hx

theorem get?_of_mem : ∀ {ps : ParamList}, (ps.toList.map (·.1)).Nodup → ∀ {kp : String × Param},
    kp ∈ ps.toList → ps.get? kp.1 = some kp.2
  | .nil, _, kp, h => by simp [ParamList.toList] at h
  | .cons name p rest, hnd, kp, h => by
    rw [ParamList.toList] at h hnd
    rw [List.map_cons, List.nodup_cons] at hnd
    rw [ParamList.get?]
    rcases List.mem_cons.1 h with rfl | hm
    · simp
    · rw [if_neg, get?_of_mem hnd.2 hm]
      intro he
      rw [he] at hnd
      exact hnd.1 (List.mem_map_of_mem (f := (·.1)) hm)

theorem birthValues_conf {vs : ValSpec} {ps : ParamList} {i : ℕ} {poss : List Pos} :
    ∀ {l : List (String × Param)} {vals : List (String × PVal)},
    (∀ kp ∈ l, ps.get? kp.1 = some kp.2) → (∀ kp ∈ l, PGood vs kp.2) →
    List.Forall₂ (KConf vs poss) l vals → (∀ kv ∈ vals, kv.2.len = poss.length) →
    Post (birthValues ps i vals) (List.Forall₂ (KConf vs (listInsert poss i .none)) l)
  | [], vals, _, _, hf, _ => by
    rw [List.forall₂_nil_left_iff] at hf
    subst hf
    rw [birthValues]
    exact Post.pure' .nil
  | (name, p) :: l, vals, hget, hg, hf, hlen => by
    rw [List.forall₂_cons_left_iff] at hf
    obtain ⟨⟨name', v⟩, vals', ⟨h1, h2⟩, h3, rfl⟩ := hf
    simp only at h1 h2
    subst h1
    rw [birthValues.eq_def]
    simp only
    have hp := hg _ (List.mem_cons_self ..)
    have hq := hget _ (List.mem_cons_self ..)
    simp only at hp hq
    rw [hq]
    refine Post.bind' (Q := PNew vs .none p) ?_ fun x hx => ?_
    · cases p with
      | prior p =>
        rw [PGood] at hp
        exact (hp.sample .none).bind' fun x hx => Post.pure' ⟨x, rfl, hx⟩
      | space sp =>
        rw [PGood] at hp
        exact (sample_S sp hp).bind' fun x hx => Post.pure' ⟨x, rfl, hx⟩
    · refine (Post.lift' (P := PConf vs p (listInsert poss i .none)) fun v' hv' => ?_).bind' fun v' hv' => ?_
      · exact insertAt_conf h2 hx (hlen _ (List.mem_cons_self ..)) hv'
      · refine (birthValues_conf (fun kp h => hget kp (List.mem_cons_of_mem _ h))
          (fun kp h => hg kp (List.mem_cons_of_mem _ h)) h3
          (fun kv h => hlen kv (List.mem_cons_of_mem _ h))).bind' fun vals2 h4 => Post.pure' ?_
        exact .cons ⟨rfl, hv'⟩ h4

theorem plainBirth_conf {vs : ValSpec} {sp : Space} (hg : SGood vs sp) {s : PSState}
    (hs : SConf vs sp s) (hk : sp.info.kind.isDisc = false) :
    Post (plainBirth sp.info sp.params s) (fun r => SConf vs sp r.1) := by
  obtain ⟨h1, hsh, hdr, rest, poss, hv, hh, hr⟩ := SConf_iff.1 hs
  obtain ⟨hok, hps⟩ := SGood_iff.1 hg
  have hconf := fun s' => SConf_iff (vs := vs) (sp := sp) (s := s')
  have hkind : sp.info.kind = .plain := by
    cases hkk : sp.info.kind with
    | plain => rfl
    | vor1 v => rw [hkk] at hk; cases hk
    | vor2 v => rw [hkk] at hk; cases hk
  unfold plainBirth
  refine Post.ite' (fun _ => Post.pure' hs) fun hne => ?_
  refine Post.randint'.bind' fun i hi => ?_
  rw [hkind] at hh
  obtain ⟨rfl, hkd, rfl⟩ := hh
  rw [List.nil_append] at hv
  have := birthValues_conf (i := i) (fun kp h => get?_of_mem hok.nodup h) hps hr
    (fun kv hkv => by rw [List.length_replicate]; exact (hsh kv (by rw [hv]; exact hkv)).1)
  rw [← hv] at this
  refine this.bind' fun vals hvals => ?_
  refine (Post.lift' (P := fun new => Shape new ∧ new = .mk (s.n + 1) vals none)
    fun new hnew => mkPS_shape hnew).bind' fun new hnew => Post.pure' ?_
  obtain ⟨hsh', rfl⟩ := hnew
  refine (hconf _).2 ⟨⟨show sp.info.lo ≤ s.n + 1 by omega,
      show s.n + 1 ≤ sp.info.hi by omega⟩, hsh', [], vals, _, rfl, ?_, hvals⟩
  rw [hkind]
  exact ⟨rfl, rfl, listInsert_replicate _ _ _ hi.2⟩

theorem birth_conf {vs : ValSpec} {sp : Space} (hg : SGood vs sp) {s : PSState} (hs : SConf vs sp s) :
    Post (sp.birth s) (fun r => r.2.Ok → SConf vs sp r.1 ∧ KdTop sp r.1) := by
  unfold Space.birth
  refine Post.ite' (fun hd => ?_) fun hd => ?_
  · refine Post.bind' (Q := fun r => r.2.Ok → SConf vs sp r.1) ?_ fun r hr => ?_
    · exact Post.ite' (fun _ => Post.pure' fun _ => hs) fun hne => vorBirth_conf hg hs hne
    · refine (Post.lift' (P := fun new => sp.info.kind.withKd r.1 = .ok new) fun new h => h).bind'
        fun new hnew => Post.pure' fun hok => ?_
      exact withKd_conf (hr hok) hnew
  · refine (plainBirth_conf hg hs (by simpa using hd)).mono fun r hr _ => ⟨hr, ?_⟩
    intro v hv
    rw [hv] at hd
    exact absurd rfl hd

/-! ### deaths -/

theorem mapVals_ok {f : PVal → Except PyErr PVal} : ∀ {vals out : List (String × PVal)},
    mapVals f vals = .ok out ↔
      List.Forall₂ (fun kv kv' => kv'.1 = kv.1 ∧ f kv.2 = .ok kv'.2) vals out
  | [], out => by
    rw [mapVals, List.forall₂_nil_left_iff, Except.ok.injEq]; exact eq_comm
  | (k, v) :: rest, out => by
    rw [mapVals, bindE_ok, List.forall₂_cons_left_iff]
    constructor
    · rintro ⟨v', h1, h2⟩
      obtain ⟨vs', h3, h4⟩ := bindE_ok.1 h2
      rw [pureE_ok] at h4
      subst h4
      exact ⟨(k, v'), vs', ⟨rfl, h1⟩, mapVals_ok.1 h3, rfl⟩
    · rintro ⟨⟨k', v'⟩, vs', ⟨h0, h1⟩, h2, rfl⟩
      simp only at h0 h1
      subst h0
      refine ⟨v', h1, bindE_ok.2 ⟨vs', mapVals_ok.2 h2, rfl⟩⟩

theorem delete_conf {vs : ValSpec} {p : Param} {poss : List Pos} {v v' : PVal} {i : ℕ}
    (hv : PConf vs p poss v) (hlen : v.len = poss.length)
    (h : v.deleteAt i = .ok v' ∨ v.npDelete i = .ok v') : PConf vs p (listDelete poss i) v' := by
  cases p with
  | prior p =>
    rw [PConf] at *
    obtain ⟨a, rfl, h1, h2⟩ := hv
    cases a with
    | pts ps =>
      have hR : ¬ vs.R p := fun hR => by obtain ⟨xs, h⟩ := h1 hR; cases h
      rcases h with h | h
      · cases h
      · unfold PVal.npDelete at h
        simp only at h
        split at h
        · injection h with h
          subst h
          exact ⟨_, rfl, fun h => absurd h hR, fun xs hx => by cases hx⟩
        · cases h
    | vec xs =>
      have hx : v' = .arr (.vec (listDelete xs i)) := by
        rcases h with h | h
        · obtain ⟨ys, hys, h3⟩ := bindE_ok.1 h
          rw [pureE_ok] at h3
          subst h3
          rw [(delete1d_eq hys).1]
        · unfold PVal.npDelete at h
          simp only at h
          split at h
          · injection h with h
            rw [← h, listDelete_eraseIdx]
          · cases h
      subst hx
      refine ⟨_, rfl, fun _ => ⟨_, rfl⟩, fun zs hz _ => ?_⟩
      injection hz with hz
      subst hz
      exact forall₂_delete (h2 xs rfl (by simpa [PVal.len, Arr.len] using hlen)) i
  | space sp =>
    rw [PConf] at *
    obtain ⟨l, hl, h1⟩ := hv
    rcases hl with rfl | ⟨hO, rfl⟩
    · have hx : v' = .states (listDelete l i) := by
        rcases h with h | h
        · injection h with h; exact h.symm
        · injection h with h; exact h.symm
      subst hx
      exact ⟨_, Or.inl rfl, fun y hy => h1 y (mem_listDelete hy)⟩
    · rcases h with h | h
      · cases h
      · unfold PVal.npDelete at h
        simp only at h
        split at h
        · injection h with h
          subst h
          rw [← listDelete_eraseIdx]
          exact ⟨_, Or.inr ⟨hO, rfl⟩, fun y hy => h1 y (mem_listDelete hy)⟩
        · cases h

theorem mapVals_conf {vs : ValSpec} {f : PVal → Except PyErr PVal} {poss : List Pos} {i : ℕ}
    (hf : ∀ v v', f v = .ok v' → v.deleteAt i = .ok v' ∨ v.npDelete i = .ok v')
    {l : List (String × Param)} {vals out : List (String × PVal)}
    (h : List.Forall₂ (KConf vs poss) l vals) (hlen : ∀ kv ∈ vals, kv.2.len = poss.length)
    (ho : List.Forall₂ (fun kv kv' => kv'.1 = kv.1 ∧ f kv.2 = .ok kv'.2) vals out) :
    List.Forall₂ (KConf vs (listDelete poss i)) l out := by
  induction h generalizing out with
  | nil =>
    rw [List.forall₂_nil_left_iff] at ho
    subst ho
    exact .nil
  | cons h1 _ ih =>
    rw [List.forall₂_cons_left_iff] at ho
    obtain ⟨kv', out', ⟨h2, h3⟩, h4, rfl⟩ := ho
    refine .cons ⟨h2.trans h1.1, ?_⟩ (ih (fun kv hkv => hlen kv (List.mem_cons_of_mem _ hkv)) h4)
    exact delete_conf h1.2 (hlen _ (List.mem_cons_self ..)) (hf _ _ h3)

theorem plainDeath_conf {vs : ValSpec} {sp : Space} (hg : SGood vs sp) {s : PSState}
    (hs : SConf vs sp s) (hk : sp.info.kind.isDisc = false) :
    Post (plainDeath sp.info s) (fun r => SConf vs sp r.1) := by
  obtain ⟨h1, hsh, hdr, rest, poss, hv, hh, hr⟩ := SConf_iff.1 hs
  obtain ⟨hok, hps⟩ := SGood_iff.1 hg
  have hconf := fun s' => SConf_iff (vs := vs) (sp := sp) (s := s')
  have hkind : sp.info.kind = .plain := by
    cases hkk : sp.info.kind with
    | plain => rfl
    | vor1 v => rw [hkk] at hk; cases hk
    | vor2 v => rw [hkk] at hk; cases hk
  unfold plainDeath
  refine Post.ite' (fun _ => Post.pure' hs) fun hne => ?_
  refine Post.randIdx'.bind' fun i hi => ?_
  rw [hkind] at hh
  obtain ⟨rfl, hkd, rfl⟩ := hh
  rw [List.nil_append] at hv
  refine (Post.lift' (P := List.Forall₂ (KConf vs (listDelete (List.replicate s.n .none) i))
    sp.params.toList) fun vals hvals => ?_).bind' fun vals hvals => ?_
  · rw [mapVals_ok, hv] at hvals
    refine mapVals_conf (fun v v' h => Or.inl h) hr (fun kv hkv => ?_) hvals
    rw [List.length_replicate]
    exact (hsh kv (by rw [hv]; exact hkv)).1
  refine (Post.lift' (P := fun new => Shape new ∧ new = .mk (s.n - 1) vals none)
    fun new hnew => mkPS_shape hnew).bind' fun new hnew => Post.pure' ?_
  obtain ⟨hsh', rfl⟩ := hnew
  refine (hconf _).2 ⟨⟨show sp.info.lo ≤ s.n - 1 by omega,
      show s.n - 1 ≤ sp.info.hi by omega⟩, hsh', [], vals, _, rfl, ?_, hvals⟩
  rw [hkind]
  exact ⟨rfl, rfl, listDelete_replicate _ _ _ hi⟩

/-- The values and the state that a death leaves. -/
theorem deleted_conf {vs : ValSpec} {sp : Space} (hg : SGood vs sp) {s : PSState}
    (hs : SConf vs sp s) (hk : sp.info.kind.isDisc = true) (hn : s.n ≠ sp.info.lo) {i : ℕ} (hi : i < s.n)
    {vals : List (String × PVal)} {new : PSState}
    (hvals : mapVals (fun v => match sp.info.kind with | .vor2 _ => v.npDelete i | _ => v.deleteAt i) s.vals = .ok vals)
    (hnew : mkPS (s.n - 1) vals = .ok new) : SConf vs sp new := by
  obtain ⟨h1, hsh, hdr, rest, poss, hv, hh, hr⟩ := SConf_iff.1 hs
  obtain ⟨hok, hps⟩ := SGood_iff.1 hg
  have hconf := fun s' => SConf_iff (vs := vs) (sp := sp) (s := s')
  have hlen : poss.length = s.n := hh.length fun kv hkv => hsh kv (by rw [hv]; simp [hkv])
  have main : ∃ hdr' rest', vals = hdr' ++ rest' ∧
      Hdr sp.info.kind (s.n - 1) none hdr' (listDelete poss i) ∧
      List.Forall₂ (KConf vs (listDelete poss i)) sp.params.toList rest' := by
    rw [mapVals_ok, hv] at hvals
    have hrest : ∀ kv ∈ rest, kv.2.len = poss.length := fun kv hkv => by
      rw [hlen]; exact (hsh kv (by rw [hv]; simp [hkv])).1
    cases hkk : sp.info.kind with
    | plain => rw [hkk] at hk; cases hk
    | vor1 v =>
      rw [hkk] at hh hvals
      obtain ⟨xs, rfl, hkd, rfl, hsort, hdom⟩ := hh
      rw [List.singleton_append, List.forall₂_cons_left_iff] at hvals
      obtain ⟨⟨k, v'⟩, rest', ⟨e0, e1⟩, e2, rfl⟩ := hvals
      simp only at e0 e1
      subst e0
      obtain ⟨ys, hys, e3⟩ := bindE_ok.1 e1
      rw [pureE_ok] at e3
      subst e3
      obtain ⟨rfl, _⟩ := delete1d_eq hys
      refine ⟨[_], rest', rfl, ⟨_, rfl, rfl, (map_listDelete _ _ _).symm,
        hsort.sublist (listDelete_sublist ..), fun x hx => hdom x (mem_listDelete hx)⟩, ?_⟩
      exact mapVals_conf (fun v v' h => Or.inl h) hr hrest e2
    | vor2 v =>
      rw [hkk] at hh hvals
      obtain ⟨a, rfl, rfl, hkd, hdom⟩ := hh
      rw [List.singleton_append, List.forall₂_cons_left_iff] at hvals
      obtain ⟨⟨k, v'⟩, rest', ⟨e0, e1⟩, e2, rfl⟩ := hvals
      simp only at e0 e1
      subst e0
      cases a with
      | vec xs =>
        exfalso
        rcases hdom with e | ⟨ps, e, _⟩
        · injection e with e
          subst e
          simp [Arr.positions] at hlen
          omega
        · cases e
      | pts ps =>
        have hdom' : ∀ q ∈ ps, InDomain v q := by
          rcases hdom with hdom | ⟨ps', e, hdom⟩
          · cases hdom
          · injection e with e; subst e; exact hdom
        have e3 : v' = .arr (.pts (listDelete ps i)) := by
          unfold PVal.npDelete at e1
          simp only at e1
          split at e1
          · injection e1 with e1; rw [← e1, listDelete_eraseIdx]
          · cases e1
        subst e3
        refine ⟨[_], rest', rfl, ⟨_, rfl, (map_listDelete _ _ _).symm, by simp,
          Or.inr ⟨_, rfl, fun q hq => hdom' q (mem_listDelete hq)⟩⟩, ?_⟩
        exact mapVals_conf (fun v v' h => Or.inr h) hr hrest e2
  obtain ⟨hdr', rest', rfl, hh', hr'⟩ := main
  obtain ⟨hsh', rfl⟩ := mkPS_shape hnew
  exact (hconf _).2 ⟨⟨show sp.info.lo ≤ s.n - 1 by omega,
    show s.n - 1 ≤ sp.info.hi by omega⟩, hsh', _, rest', _, rfl, hh', hr'⟩

theorem vorDeath_conf {vs : ValSpec} {sp : Space} (hg : SGood vs sp) {s : PSState}
    (hs : SConf vs sp s) (hk : sp.info.kind.isDisc = true) (hn : s.n ≠ sp.info.lo) :
    Post (vorDeath sp s) (fun r => SConf vs sp r.1) := by
  unfold vorDeath
  refine Post.randIdx'.bind' fun i hi => ?_
  refine (Post.lift' (P := fun vals => mapVals (fun v => match sp.info.kind with
    | .vor2 _ => v.npDelete i | _ => v.deleteAt i) s.vals = .ok vals) fun vals hvals => hvals).bind' fun vals hvals => ?_
  exact (Post.lift' (P := fun new => mkPS (s.n - 1) vals = .ok new) fun new hnew => hnew).bind' fun new hnew =>
    Post.bind_any fun lpr => Post.pure' (deleted_conf hg hs hk hn hi hvals hnew)

theorem death_conf {vs : ValSpec} {sp : Space} (hg : SGood vs sp) {s : PSState} (hs : SConf vs sp s) :
    Post (sp.death s) (fun r => r.2.Ok → SConf vs sp r.1 ∧ KdTop sp r.1) := by
  unfold Space.death
  refine Post.ite' (fun hd => ?_) fun hd => ?_
  · refine Post.bind' (Q := fun r => SConf vs sp r.1) ?_ fun r hr => ?_
    · exact Post.ite' (fun _ => Post.pure' hs) fun hne => vorDeath_conf hg hs hd hne
    · refine (Post.lift' (P := fun new => sp.info.kind.withKd r.1 = .ok new) fun new h => h).bind'
        fun new hnew => Post.pure' fun _ => ?_
      exact withKd_conf hr hnew
  · refine (plainDeath_conf hg hs (by simpa using hd)).mono fun r hr _ => ⟨hr, ?_⟩
    intro v hv
    rw [hv] at hd
    exact absurd rfl hd

end BB.Lemmas
