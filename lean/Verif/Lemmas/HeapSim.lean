import Verif.Lemmas.HeapRep
import Verif.Lemmas.Rand
import Verif.Lemmas.Chain

/-!
# Programs on the heap that do what programs on values do
-/

namespace BB.Lemmas

open BB BB.Spec BB.HM

/-- From the heap `h` the program `m` and the program `p` on values draw the same numbers, raise the same
exception or none; afterwards the heap satisfies `X` if there was an exception, and the heap and the results
satisfy `R` if there was none. -/
def Sim {α β : Type} (X : Heap → Prop) (R : Heap → α → β → Prop) (h : Heap) (m : HM α) (p : M β) : Prop :=
  ∀ t, match m h t, p t with
    | (.ok a, h', t'), (.ok b, t'') => t' = t'' ∧ R h' a b
    | (.error e, h', t'), (.error e', t'') => (e = e' ∧ t' = t'') ∧ X h'
    | _, _ => False

variable {α β γ δ : Type} {X X' : Heap → Prop} {R R' : Heap → α → β → Prop} {S : Heap → γ → δ → Prop}
  {h : Heap}

theorem Sim.pure {a : α} {b : β} (hr : R h a b) : Sim X R h (Pure.pure a : HM α) (Pure.pure b : M β) :=
  fun _ => ⟨rfl, hr⟩

theorem Sim.throw {e : PyErr} (hx : X h) : Sim X R h (Act.throw e : HM α) (M.throw e : M β) :=
  fun _ => ⟨⟨rfl, rfl⟩, hx⟩

theorem Sim.mono {m : HM α} {p : M β} (hs : Sim X R h m p) (hx : ∀ h', X h' → X' h')
    (hr : ∀ h' a b, R h' a b → R' h' a b) : Sim X' R' h m p := by
  intro t
  have := hs t
  rcases hm : m h t with ⟨r, h', t'⟩
  rcases hp : p t with ⟨r', t''⟩
  rw [hm, hp] at this
  cases r <;> cases r' <;> simp only at this ⊢
  · exact ⟨this.1, hx _ this.2⟩
  · exact ⟨this.1, hr _ _ _ this.2⟩

theorem Sim.bind {m : HM α} {p : M β} {f : α → HM γ} {g : β → M δ} (hs : Sim X R h m p)
    (hf : ∀ h' a b, R h' a b → Sim X S h' (f a) (g b)) : Sim X S h (m >>= f) (p >>= g) := by
  intro t
  have := hs t
  rw [Act.bind_run, M.bind_run]
  rcases hm : m h t with ⟨r, h', t'⟩
  rcases hp : p t with ⟨r', t''⟩
  rw [hm, hp] at this
  cases r <;> cases r' <;> simp only at this ⊢
  · exact this
  · obtain ⟨rfl, hr⟩ := this
    exact hf _ _ _ hr t'

/-- A program on the heap that starts with something that has no counterpart. -/
theorem Sim.of_eq {m m' : HM α} {p : M β} {h' : Heap} (he : m h = m' h') (hs : Sim X R h' m' p) :
    Sim X R h m p := by
  intro t
  have := hs t
  rw [← he] at this
  exact this

theorem Sim.of_eq_right {m : HM α} {p p' : M β} (he : p = p') (hs : Sim X R h m p') : Sim X R h m p :=
  he ▸ hs

theorem Sim.ofM (m : M α) (hx : X h) : Sim X (fun h' a b => h = h' ∧ a = b) h (Act.ofM m) m := by
  intro t
  simp only [Act.ofM]
  rcases m t with ⟨r, t'⟩
  cases r with
  | error e => exact ⟨⟨rfl, rfl⟩, hx⟩
  | ok a => exact ⟨rfl, rfl, rfl⟩

theorem Sim.lift (x : Except PyErr α) (hx : X h) :
    Sim X (fun h' a b => h = h' ∧ a = b) h (HM.lift x) (M.lift x) := by
  intro t
  simp only [HM.lift, M.lift]
  cases x with
  | error e => exact ⟨⟨rfl, rfl⟩, hx⟩
  | ok a => exact ⟨rfl, rfl, rfl⟩

theorem Sim.error {e : PyErr} (hx : X h) : Sim X R h (Act.throw e : HM α) (M.lift (.error e) : M β) :=
  fun _ => ⟨⟨rfl, rfl⟩, hx⟩

/-- The value is the one computed. -/
theorem Sim.lift_ok {m : HM α} {x : Except PyErr β} (hs : Sim X R h m (M.lift x)) :
    Sim X (fun h' a b => R h' a b ∧ x = .ok b) h m (M.lift x) := by
  intro t
  have := hs t
  generalize m h t = y at this ⊢
  obtain ⟨r, h', t'⟩ := y
  cases x with
  | error e => cases r <;> exact this
  | ok b => cases r with
    | error e => exact this
    | ok a => exact ⟨this.1, this.2, rfl⟩

/-- The program on the heap succeeds if the one on values does. -/
theorem Sim.ok {m : HM α} {p : M β} (hs : Sim X R h m p) {t t' : List Draw} {b : β} (hp : p t = (.ok b, t')) :
    ∃ a h', m h t = (.ok a, h', t') ∧ R h' a b := by
  have := hs t
  rw [hp] at this
  generalize m h t = x at this ⊢
  obtain ⟨r, h', u⟩ := x
  cases r with
  | error e => exact absurd this not_false
  | ok a =>
    obtain ⟨rfl, hr⟩ := this
    exact ⟨a, h', rfl, hr⟩

/-- And vice versa. -/
theorem Sim.ok' {m : HM α} {p : M β} (hs : Sim X R h m p) {t t' : List Draw} {a : α} {h' : Heap}
    (hm : m h t = (.ok a, h', t')) : ∃ b, p t = (.ok b, t') ∧ R h' a b := by
  have := hs t
  rw [hm] at this
  generalize p t = x at this ⊢
  obtain ⟨r, u⟩ := x
  cases r with
  | error e => exact absurd this not_false
  | ok b =>
    obtain ⟨rfl, hr⟩ := this
    exact ⟨b, rfl, hr⟩

/-- The same exceptions. -/
theorem Sim.err {m : HM α} {p : M β} (hs : Sim X R h m p) {t t' : List Draw} {e : PyErr} :
    p t = (.error e, t') ↔ ∃ h', m h t = (.error e, h', t') := by
  have := hs t
  generalize p t = x at this ⊢
  generalize m h t = y at this ⊢
  obtain ⟨r, u⟩ := x
  obtain ⟨r', h', u'⟩ := y
  cases r <;> cases r' <;> simp only at this
  · obtain ⟨⟨rfl, rfl⟩, _⟩ := this
    constructor
    · intro h; cases h; exact ⟨h', rfl⟩
    · rintro ⟨h', h⟩; cases h; rfl
  · constructor
    · intro h; cases h
    · rintro ⟨h', h⟩; cases h

/-! ### the primitive operations -/

theorem read_bind {o : Obj} {a : Addr} (ha : h[a]? = some o) (f : Obj → HM α) :
    (read a >>= f) h = f o h := by
  funext t
  rw [Act.bind_run]
  simp only [HM.read, ha]

theorem alloc_bind (o : Obj) (f : Addr → HM α) : (alloc o >>= f) h = f h.length (h ++ [o]) := rfl

theorem write_bind (a : Addr) (o : Obj) (f : Unit → HM α) : (write a o >>= f) h = f () (h.set a o) := rfl

theorem pure_bind' {a : α} (f : α → HM γ) : ((Pure.pure a : HM α) >>= f) h = f a h := rfl

theorem bind_assoc' (m : HM α) (f : α → HM β) (g : β → HM γ) :
    ((m >>= f) >>= g) = (m >>= fun a => f a >>= g) := by
  funext h t
  rw [Act.bind_run, Act.bind_run, Act.bind_run]
  rcases m h t with ⟨r, c, t'⟩
  cases r <;> rfl

theorem bind_pure' (m : HM α) : (m >>= fun a => Pure.pure a) = m := by
  funext h t
  rw [Act.bind_run]
  rcases m h t with ⟨r, c, t'⟩
  cases r <;> rfl

theorem throw_bind (e : PyErr) (f : α → HM γ) : ((Act.throw e : HM α) >>= f) = Act.throw e := rfl

theorem readPS_bind {a : Addr} {n vs attrs kd} (ha : h[a]? = some (.ps n vs attrs kd))
    (f : ℕ × List (String × Addr) × List (String × Addr) × Option (List (ℝ × ℝ)) → HM α) :
    (readPS a >>= f) h = f (n, vs, attrs, kd) h := by
  rw [readPS, bind_assoc', read_bind ha]; rfl

theorem getH_bind {a : Addr} {n vs attrs kd} (ha : h[a]? = some (.ps n vs attrs kd)) (k : String)
    (f : Option Addr → HM α) : (getH a k >>= f) h = f (dget vs k) h := by
  rw [getH, bind_assoc', readPS_bind ha]; rfl

theorem readState_bind {a : Addr} {vs attrs temp cache extra}
    (ha : h[a]? = some (.state vs attrs temp cache extra))
    (f : List (String × TRef) × List (String × TRef) × ℝ × List (String × CVal) × List (String × ℝ) →
      HM α) : (readState a >>= f) h = f (vs, attrs, temp, cache, extra) h := by
  rw [readState, bind_assoc', read_bind ha]; rfl

theorem get_snoc (o : Obj) : (h ++ [o])[h.length]? = some o := by simp

theorem prefix_snoc (o : Obj) : h <+: h ++ [o] := List.prefix_append _ _

/-- What is read from a represented state. -/
theorem repPS_get {s : PSState} {a : Addr} (hr : RepPS h s a) (k : String) :
    ∃ v, OptRep h (s.get k) v ∧ ∀ {γ : Type} (f : Option Addr → HM γ), (getH a k >>= f) h = f v h := by
  obtain ⟨n, vals, kd⟩ := s
  rw [RepPS] at hr
  obtain ⟨vs, attrs, kd, ho, hv⟩ := hr
  exact ⟨dget vs k, repVals_get k hv, fun f => getH_bind ho k f⟩

theorem numAtH_sim {v : Option PVal} {b : Option Addr} (hr : OptRep h v b) (i : ℕ) (hx : X h) :
    Sim X (fun h' x y => h = h' ∧ x = y) h (numAtH b i) (M.lift (numAt v i)) := by
  cases v with
  | none =>
    cases b with
    | none => exact Sim.error hx
    | some b => exact absurd hr not_false
  | some v =>
    cases b with
    | none => exact absurd hr not_false
    | some b =>
      change RepVal h v b at hr
      cases v with
      | arr x =>
        rw [RepVal] at hr
        rw [numAtH]
        refine Sim.of_eq (read_bind hr _) ?_
        exact Sim.lift _ hx
      | states l =>
        rw [RepVal] at hr
        obtain ⟨as, ho, _⟩ := hr
        rw [numAtH]
        refine Sim.of_eq (read_bind ho _) ?_
        exact Sim.error hx
      | objs l =>
        rw [RepVal] at hr
        obtain ⟨as, ho, _⟩ := hr
        rw [numAtH]
        refine Sim.of_eq (read_bind ho _) ?_
        exact Sim.error hx

theorem nearestH_sim (k : Kind) {v : Option PVal} {b : Option Addr} (hr : OptRep h v b) (q : Pos) (hx : X h) :
    Sim X (fun h' x y => h = h' ∧ x = y) h (nearestH k b q) (M.lift (nearest k v q)) := by
  have hbad : ∀ l : PVal, (∀ x, l ≠ .arr x) → nearest k (some l) q = .error .typeError := by
    intro l hl
    cases l with
    | arr x => exact absurd rfl (hl x)
    | states l => cases k <;> cases q <;> rfl
    | objs l => cases k <;> cases q <;> rfl
  cases v with
  | none =>
    cases b with
    | none =>
      have : nearest k none q = .error .typeError := by cases k <;> cases q <;> rfl
      rw [this]; exact Sim.error hx
    | some b => exact absurd hr not_false
  | some v =>
    cases b with
    | none => exact absurd hr not_false
    | some b =>
      change RepVal h v b at hr
      cases v with
      | arr x =>
        rw [RepVal] at hr
        rw [nearestH]
        refine Sim.of_eq (read_bind hr _) ?_
        exact Sim.lift _ hx
      | states l =>
        rw [RepVal] at hr
        obtain ⟨as, ho, _⟩ := hr
        rw [nearestH, hbad _ (by intro x h; cases h)]
        refine Sim.of_eq (read_bind ho _) ?_
        exact Sim.error hx
      | objs l =>
        rw [RepVal] at hr
        obtain ⟨as, ho, _⟩ := hr
        rw [nearestH, hbad _ (by intro x h; cases h)]
        refine Sim.of_eq (read_bind ho _) ?_
        exact Sim.error hx

theorem stateAtH_sim {v : Option PVal} {b : Option Addr} (hr : OptRep h v b) (i : ℕ) (hx : X h) :
    Sim X (fun h' a s => h = h' ∧ RepPS h s a) h (stateAtH b i) (M.lift (stateAt v i)) := by
  have key : ∀ (l : List PSState) (as : List Addr), RepList h l as →
      Sim X (fun h' a s => h = h' ∧ RepPS h s a) h
        (match as[i]? with | some a => Pure.pure a | none => Act.throw .indexError)
        (M.lift (match l[i]? with | some x => .ok x | none => .error .indexError)) := by
    intro l as hl
    rcases repList_get hl i with ⟨h1, h2⟩ | ⟨s, a, h1, h2, hs⟩
    · rw [h1, h2]; exact Sim.error hx
    · rw [h1, h2]; exact Sim.pure (b := s) ⟨rfl, hs⟩
  cases v with
  | none =>
    cases b with
    | none => exact Sim.error hx
    | some b => exact absurd hr not_false
  | some v =>
    cases b with
    | none => exact absurd hr not_false
    | some b =>
      change RepVal h v b at hr
      cases v with
      | arr x =>
        rw [RepVal] at hr
        rw [stateAtH]
        refine Sim.of_eq (read_bind hr _) ?_
        exact Sim.error hx
      | states l =>
        rw [RepVal] at hr
        obtain ⟨as, ho, hl⟩ := hr
        rw [stateAtH]
        refine Sim.of_eq (read_bind ho _) ?_
        exact key l as hl
      | objs l =>
        rw [RepVal] at hr
        obtain ⟨as, ho, hl⟩ := hr
        rw [stateAtH]
        refine Sim.of_eq (read_bind ho _) ?_
        exact key l as hl

theorem sitesH_sim {s : PSState} {a : Addr} (hr : RepPS h s a) (hx : X h) :
    Sim X (fun h' x y => h = h' ∧ x = y) h (sitesH a) (M.lift s.sites) := by
  obtain ⟨b, hb, hg⟩ := repPS_get hr "discretization"
  rw [sitesH]
  refine Sim.of_eq (hg _) ?_
  rw [PSState.sites]
  cases hv : s.get "discretization" with
  | none =>
    rw [hv] at hb
    cases b with
    | none => exact Sim.error hx
    | some b => exact absurd hb not_false
  | some v =>
    rw [hv] at hb
    cases b with
    | none => exact absurd hb not_false
    | some b =>
      change RepVal h v b at hb
      cases v with
      | arr x =>
        rw [RepVal] at hb
        refine Sim.of_eq (read_bind hb _) ?_
        exact Sim.pure (b := x.positions) ⟨rfl, rfl⟩
      | states l =>
        rw [RepVal] at hb
        obtain ⟨as, ho, hl⟩ := hb
        refine Sim.of_eq (read_bind ho _) ?_
        exact Sim.error hx
      | objs l =>
        rw [RepVal] at hb
        obtain ⟨as, ho, hl⟩ := hb
        refine Sim.of_eq (read_bind ho _) ?_
        exact Sim.error hx

theorem posAtH_sim {s : PSState} {a : Addr} (hr : RepPS h s a) (i : ℕ) (hx : X h) :
    Sim X (fun h' x y => h = h' ∧ x = y) h (posAtH a i) (M.lift (posAt s i)) := by
  obtain ⟨b, hb, hg⟩ := repPS_get hr "discretization"
  rw [posAtH]
  refine Sim.of_eq (hg _) ?_
  rw [posAt]
  cases hv : s.get "discretization" with
  | none =>
    rw [hv] at hb
    cases b with
    | none => exact Sim.pure (b := Pos.none) ⟨rfl, rfl⟩
    | some b => exact absurd hb not_false
  | some v =>
    rw [hv] at hb
    cases b with
    | none => exact absurd hb not_false
    | some b =>
      change RepVal h v b at hb
      cases v with
      | arr x =>
        rw [RepVal] at hb
        refine Sim.of_eq (read_bind hb _) ?_
        simp only
        cases x.positions[i]? with
        | none => exact Sim.error hx
        | some p => exact Sim.pure (b := p) ⟨rfl, rfl⟩
      | states l =>
        rw [RepVal] at hb
        obtain ⟨as, ho, hl⟩ := hb
        refine Sim.of_eq (read_bind ho _) ?_
        exact Sim.error hx
      | objs l =>
        rw [RepVal] at hb
        obtain ⟨as, ho, hl⟩ := hb
        refine Sim.of_eq (read_bind ho _) ?_
        exact Sim.error hx

/-! ### constructors -/

theorem checkH_sim (n : ℕ) {v : PVal} {b : Addr} (hr : RepVal h v b) (hx : X h) :
    Sim X (fun h' _ _ => h = h') h (checkH (some n) b)
      (M.lift (if v.len ≠ n then .error .valueError else checkVal v)) := by
  rw [checkH]
  cases v with
  | arr x =>
    rw [RepVal] at hr
    refine Sim.of_eq (read_bind hr _) ?_
    by_cases hn : x.len = n
    · simp [PVal.len, hn, checkVal]; exact Sim.pure (b := ()) rfl
    · have : n ≠ x.len := fun h => hn h.symm
      simp [PVal.len, hn, this]; exact Sim.error hx
  | states l =>
    rw [RepVal] at hr
    obtain ⟨as, ho, hl⟩ := hr
    refine Sim.of_eq (read_bind ho _) ?_
    have hlen := repList_length hl
    by_cases hn : l.length = n
    · have : as.length = n := hlen.trans hn
      cases l with
      | nil =>
        rw [RepList] at hl; subst hl
        simp [PVal.len, checkVal] at hn ⊢
        simp [hn]; exact Sim.error hx
      | cons s l =>
        cases as with
        | nil => simp at hlen
        | cons a as =>
          have h1 : (List.length (a :: as)) = n := this
          simp only [List.length_cons] at h1 hn
          simp [PVal.len, checkVal, h1, hn]; exact Sim.pure (b := ()) rfl
    · have : n ≠ as.length := fun h => hn (hlen.symm.trans h.symm)
      simp [PVal.len, hn, this]; exact Sim.error hx
  | objs l =>
    rw [RepVal] at hr
    obtain ⟨as, ho, hl⟩ := hr
    refine Sim.of_eq (read_bind ho _) ?_
    have hlen := repList_length hl
    by_cases hn : l.length = n
    · have : as.length = n := hlen.trans hn
      simp [PVal.len, hn, this, checkVal]; exact Sim.pure (b := ()) rfl
    · have : n ≠ as.length := fun h => hn (hlen.symm.trans h.symm)
      simp [PVal.len, hn, this]; exact Sim.error hx

theorem checkH_none_sim {v : PVal} {b : Addr} (hr : RepVal h v b) (hx : X h) :
    Sim X (fun h' _ _ => h = h') h (checkH none b) (M.lift (checkVal v)) := by
  rw [checkH]
  cases v with
  | arr x =>
    rw [RepVal] at hr
    refine Sim.of_eq (read_bind hr _) ?_
    simp [checkVal]; exact Sim.pure (b := ()) rfl
  | states l =>
    rw [RepVal] at hr
    obtain ⟨as, ho, hl⟩ := hr
    refine Sim.of_eq (read_bind ho _) ?_
    have hlen := repList_length hl
    cases l with
    | nil =>
      rw [RepList] at hl; subst hl
      simp [checkVal]; exact Sim.error hx
    | cons s l =>
      cases as with
      | nil => simp at hlen
      | cons a as => simp [checkVal]; exact Sim.pure (b := ()) rfl
  | objs l =>
    rw [RepVal] at hr
    obtain ⟨as, ho, hl⟩ := hr
    refine Sim.of_eq (read_bind ho _) ?_
    simp [checkVal]; exact Sim.pure (b := ()) rfl

theorem lift_bind_eq {α β : Type} (x : Except PyErr α) (f : α → Except PyErr β) :
    M.lift (x >>= f) = M.lift x >>= fun a => M.lift (f a) := by
  cases x <;> rfl

theorem checksH_sim (n : ℕ) (hx : X h) : ∀ {vals : List (String × PVal)} {vs : List (String × Addr)},
    RepVals h vals vs → Sim X (fun h' _ _ => h = h') h (checksH n vs) (M.lift (checkVals n vals))
  | [], vs, hr => by
    rw [RepVals] at hr; subst hr
    exact Sim.pure (b := ()) rfl
  | (k, v) :: rest, vs, hr => by
    rw [RepVals] at hr
    obtain ⟨b, vs', rfl, hv, hr⟩ := hr
    rw [checksH, checkVals]
    have he : (if v.len ≠ n then Except.error PyErr.valueError else (do checkVal v; checkVals n rest)) =
        ((if v.len ≠ n then Except.error PyErr.valueError else checkVal v) >>= fun _ =>
          checkVals n rest) := by
      split <;> rfl
    rw [he, lift_bind_eq]
    refine Sim.bind (checkH_sim n hv hx) ?_
    rintro h' - - rfl
    exact checksH_sim n hx hr

theorem mkPSH_sim (n : ℕ) {vals : List (String × PVal)} {vs : List (String × Addr)}
    (hr : RepVals h vals vs) (hx : X h) :
    Sim X (fun h' a s => h <+: h' ∧ a = h.length ∧ RepPS h' s a ∧ s = .mk n vals none ∧
      h' = h ++ [.ps n vs (attrsOf vs) none]) h (mkPSH n vs) (M.lift (mkPS n vals)) := by
  rw [mkPSH, mkPS, lift_bind_eq]
  refine Sim.bind (checksH_sim n hx hr) ?_
  rintro h' - - rfl
  intro t
  refine ⟨rfl, prefix_snoc _, rfl, ?_, rfl, rfl⟩
  rw [RepPS]
  exact ⟨vs, _, none, get_snoc _, repVals_keep (keep_prefix (prefix_snoc _)) hr⟩

end BB.Lemmas
