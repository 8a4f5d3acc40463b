import Verif.Lemmas.HeapSim

/-!
# Copies
-/

namespace BB.Lemmas

open BB BB.Spec BB.HM

/-- The addresses of the objects made since the heap was `h`. -/
def Since (h h' : Heap) : Set Addr := {x | h.length ≤ x ∧ x < h'.length}

/-- The addresses in use when the heap is `h`. -/
def Old (h : Heap) : Set Addr := {x | x < h.length}

/-- The heap has grown by objects whose attributes agree with their dictionaries, and which refer to objects
from `lo` on. -/
structure Grow (lo : ℕ) (h h' : Heap) : Prop where
  pre : h <+: h'
  attrs : ∀ (x : Addr) n vs attrs kd, h.length ≤ x → h'[x]? = some (.ps n vs attrs kd) → attrs = attrsOf vs
  low : ∀ (x : Addr) o, h.length ≤ x → h'[x]? = some o → ∀ b ∈ refs o, lo ≤ b
  high : ∀ (x : Addr) o, h.length ≤ x → h'[x]? = some o → ∀ b ∈ refs o, b < h'.length

theorem Grow.refl (lo : ℕ) (h : Heap) : Grow lo h h where
  pre := List.prefix_rfl
  attrs x n vs attrs kd hx ho := absurd (List.getElem?_eq_some_iff.1 ho).1 (by omega)
  low x o hx ho := absurd (List.getElem?_eq_some_iff.1 ho).1 (by omega)
  high x o hx ho := absurd (List.getElem?_eq_some_iff.1 ho).1 (by omega)

theorem Grow.trans {lo : ℕ} {h₁ h₂ h₃ : Heap} (g : Grow lo h₁ h₂) (g' : Grow lo h₂ h₃) : Grow lo h₁ h₃ := by
  have hl := g.pre.length_le
  have hl' := g'.pre.length_le
  have key : ∀ (x : Addr) o, h₁.length ≤ x → h₃[x]? = some o →
      (h₂.length ≤ x) ∨ h₂[x]? = some o := by
    intro x o hx ho
    by_cases hx2 : h₂.length ≤ x
    · exact .inl hx2
    · right
      have hlt : x < h₂.length := Nat.lt_of_not_le hx2
      have h2 : h₂[x]? = some h₂[x] := List.getElem?_eq_getElem hlt
      have := prefix_get g'.pre h2
      rw [this] at ho; cases ho; exact h2
  refine ⟨g.pre.trans g'.pre, ?_, ?_, ?_⟩
  · intro x n vs attrs kd hx ho
    rcases key x _ hx ho with h2 | h2
    · exact g'.attrs x n vs attrs kd h2 ho
    · exact g.attrs x n vs attrs kd hx h2
  · intro x o hx ho
    rcases key x _ hx ho with h2 | h2
    · exact g'.low x o h2 ho
    · exact g.low x o hx h2
  · intro x o hx ho b hb
    rcases key x _ hx ho with h2 | h2
    · exact g'.high x o h2 ho b hb
    · exact lt_of_lt_of_le (g.high x o hx h2 b hb) hl'

theorem Grow.snoc {lo : ℕ} {h : Heap} {o : Obj} (ha : ∀ n vs attrs kd, o = .ps n vs attrs kd → attrs = attrsOf vs)
    (hl : ∀ b ∈ refs o, lo ≤ b) (hh : ∀ b ∈ refs o, b < h.length + 1) : Grow lo h (h ++ [o]) := by
  have key : ∀ (x : Addr) o', h.length ≤ x → (h ++ [o])[x]? = some o' → o' = o := by
    intro x o' hx ho
    have hlt := (List.getElem?_eq_some_iff.1 ho).1
    have : x = h.length := by
      rw [List.length_append, List.length_singleton] at hlt
      exact le_antisymm (Nat.le_of_lt_succ hlt) hx
    subst this
    rw [get_snoc] at ho; cases ho; rfl
  refine ⟨prefix_snoc _, ?_, ?_, ?_⟩
  · intro x n vs attrs kd hx ho
    exact ha _ _ _ _ (key x _ hx ho).symm
  · intro x o' hx ho
    rw [key x _ hx ho]; exact hl
  · intro x o' hx ho
    rw [key x _ hx ho]; simpa using hh

theorem Grow.mono {lo lo' : ℕ} {h h' : Heap} (g : Grow lo h h') (hl : lo' ≤ lo) : Grow lo' h h' :=
  ⟨g.pre, g.attrs, fun x o hx ho b hb => hl.trans (g.low x o hx ho b hb), g.high⟩

theorem since_mono {h₁ h₂ h₃ h₄ : Heap} (ha : h₁.length ≤ h₂.length) (hb : h₃.length ≤ h₄.length) :
    Since h₂ h₃ ⊆ Since h₁ h₄ := fun _ hx => ⟨ha.trans hx.1, lt_of_lt_of_le hx.2 hb⟩

theorem since_disjoint {h₁ h₂ h₃ : Heap} : Disjoint (Since h₁ h₂) (Since h₂ h₃) := by
  rw [Set.disjoint_left]
  intro x hx hx'
  exact absurd hx.2 (not_lt.2 hx'.1)

theorem lt_of_get {h : Heap} {a : Addr} {o : Obj} (ho : h[a]? = some o) : a < h.length :=
  (List.getElem?_eq_some_iff.1 ho).1

mutual
theorem repPS_lt {h : Heap} : ∀ {s : PSState} {a : Addr}, RepPS h s a → a < h.length
  | .mk n vals _, a, hr => by
    rw [RepPS] at hr
    obtain ⟨vs, attrs, kd, ho, hv⟩ := hr
    exact lt_of_get ho
end

theorem repList_lt {h : Heap} : ∀ {l : List PSState} {as : List Addr}, RepList h l as →
    ∀ b ∈ as, b < h.length
  | [], as, hr, b, hb => by rw [RepList] at hr; subst hr; simp at hb
  | s :: l, as, hr, b, hb => by
    rw [RepList] at hr
    obtain ⟨a, as', rfl, hs, hl⟩ := hr
    rcases List.mem_cons.1 hb with rfl | hb
    · exact repPS_lt hs
    · exact repList_lt hl b hb

theorem repVal_lt {h : Heap} {v : PVal} {b : Addr} (hr : RepVal h v b) : b < h.length := by
  cases v with
  | arr x => rw [RepVal] at hr; exact lt_of_get hr
  | states l => rw [RepVal] at hr; obtain ⟨as, ho, _⟩ := hr; exact lt_of_get ho
  | objs l => rw [RepVal] at hr; obtain ⟨as, ho, _⟩ := hr; exact lt_of_get ho

theorem repVals_lt {h : Heap} : ∀ {vals : List (String × PVal)} {vs : List (String × Addr)},
    RepVals h vals vs → ∀ kb ∈ vs, kb.2 < h.length
  | [], vs, hr, kb, hb => by rw [RepVals] at hr; subst hr; simp at hb
  | (k, v) :: rest, vs, hr, kb, hb => by
    rw [RepVals] at hr
    obtain ⟨b, vs', rfl, hv, hr⟩ := hr
    rcases List.mem_cons.1 hb with rfl | hb
    · exact repVal_lt hv
    · exact repVals_lt hr kb hb

theorem mem_dset_snd {α : Type} {k : String} {v : α} : ∀ {d : List (String × α)} {x : String × α},
    x ∈ dset d k v → x.2 = v ∨ x ∈ d
  | [], x, hx => by simp [dset] at hx; left; rw [hx]
  | (k', v') :: rest, x, hx => by
    rw [dset] at hx
    split at hx
    · rcases List.mem_cons.1 hx with rfl | hx
      · left; rfl
      · right; exact List.mem_cons_of_mem _ hx
    · rcases List.mem_cons.1 hx with rfl | hx
      · right; exact List.mem_cons_self
      · rcases mem_dset_snd hx with h | h
        · left; exact h
        · right; exact List.mem_cons_of_mem _ h

theorem mem_dupdate_snd {α : Type} : ∀ {e d : List (String × α)} {x : String × α}, x ∈ dupdate d e →
    (∃ y ∈ e, x.2 = y.2) ∨ x ∈ d
  | [], d, x, hx => .inr hx
  | (k, v) :: rest, d, x, hx => by
    have hx : x ∈ dupdate (dset d k v) rest := hx
    rcases mem_dupdate_snd hx with ⟨y, hy, he⟩ | hx
    · exact .inl ⟨y, List.mem_cons_of_mem _ hy, he⟩
    · rcases mem_dset_snd hx with h | h
      · exact .inl ⟨(k, v), List.mem_cons_self, h⟩
      · exact .inr h

/-- The attributes set by the constructor are among the values. -/
theorem mem_attrsOf {α : Type} {vs : List (String × α)} {x : String × α} (hx : x ∈ attrsOf vs) :
    ∃ y ∈ vs, x.2 = y.2 := by
  rcases mem_dupdate_snd hx with h | h
  · exact h
  · simp at h

theorem refs_ps_attrsOf {n : ℕ} {vs : List (String × Addr)} {kd} {b : Addr}
    (hb : b ∈ refs (.ps n vs (attrsOf vs) kd)) : ∃ kb ∈ vs, kb.2 = b := by
  rw [refs, List.mem_append] at hb
  rcases hb with hb | hb
  · obtain ⟨kb, h1, h2⟩ := List.mem_map.1 hb; exact ⟨kb, h1, h2⟩
  · obtain ⟨kb, h1, h2⟩ := List.mem_map.1 hb
    obtain ⟨y, h3, h4⟩ := mem_attrsOf h1
    exact ⟨y, h3, by rw [← h4, h2]⟩

theorem checkVals_valid {n : ℕ} : ∀ {vals : List (String × PVal)}, ValidVals n vals →
    checkVals n vals = .ok ()
  | [], _ => rfl
  | (k, v) :: rest, hv => by
    rw [ValidVals] at hv
    obtain ⟨⟨hl, hv⟩, hr⟩ := hv
    rw [checkVals, if_neg (by simp [hl])]
    have : checkVal v = .ok () := by
      cases v with
      | arr x => rfl
      | objs l => rfl
      | states l =>
        rw [ValidVal] at hv
        cases l with
        | nil => exact absurd rfl hv.1
        | cons s l => rfl
    rw [this]
    exact checkVals_valid hr

theorem checksH_run {h : Heap} {n : ℕ} {vals : List (String × PVal)} {vs : List (String × Addr)}
    (hr : RepVals h vals vs) (hv : ValidVals n vals) (t : List Draw) : checksH n vs h t = (.ok (), h, t) := by
  have := checksH_sim (X := fun _ => True) n trivial hr t
  rw [checkVals_valid hv] at this
  simp only [M.lift] at this
  rcases hc : checksH n vs h t with ⟨r, h', t'⟩
  rw [hc] at this
  cases r with
  | error e => exact absurd this not_false
  | ok u => obtain ⟨rfl, rfl⟩ := this; rfl

theorem bind_of {α γ : Type} {m : HM α} {f : α → HM γ} {h h' : Heap} {t t' : List Draw} {a : α}
    (hm : m h t = (.ok a, h', t')) : (m >>= f) h t = f a h' t' := by
  rw [Act.bind_run, hm]

theorem keep_length {h h' : Heap} (hk : Keep Set.univ h h') : h.length ≤ h'.length := by
  by_contra hc
  have hlt : h'.length < h.length := Nat.lt_of_not_le hc
  obtain ⟨o', ho', _⟩ := hk h'.length (Set.mem_univ _) _ (List.getElem?_eq_getElem hlt)
  exact absurd (lt_of_get ho') (lt_irrefl _)

mutual
/-- A copy of a parameter-space state: it can be made, everything in it is new (except the members of arrays
of states), it has the same value, and the cached tree. -/
theorem copyPS_run (lo : ℕ) (h₀ : Heap) : ∀ (s : PSState) (a : Addr) (fuel : ℕ) (h : Heap) (t : List Draw),
    Keep Set.univ h₀ h → RepPS h₀ s a → ValidPS s → depthPS s ≤ fuel → (lo = 0 ∨ NoObjsPS s) → lo ≤ h.length →
    ∃ b h', copyPS fuel a h t = (.ok b, h', t) ∧ Grow lo h h' ∧ h.length ≤ b ∧
      OwnPS (Old h₀) h' s b (Since h h') ∧
      ∀ n vs attrs kd, h[a]? = some (.ps n vs attrs kd) →
        ∃ vs', h'[b]? = some (.ps n vs' (attrsOf vs') kd)
  | .mk n vals kd₀, a, fuel, h, t, hp, hr, hv, hd, hlo, hle => by
    rw [RepPS] at hr
    obtain ⟨vs, attrs, kd₁, ho, hr⟩ := hr
    obtain ⟨kd, hah⟩ := hp.ps (Set.mem_univ _) ho
    rw [ValidPS] at hv
    rw [depthPS] at hd
    cases fuel with
    | zero => omega
    | succ fuel =>
      have hlo' : lo = 0 ∨ NoObjsVals vals := by simpa only [NoObjsPS] using hlo
      obtain ⟨vs', h₁, hc, g₁, own⟩ := copyVals_run lo h₀ n vals vs fuel h t hp hr hv (by omega) hlo' hle
      have hrep : RepVals h₁ vals vs' := ownVals_rep own
      have hlt := repVals_lt hrep
      refine ⟨h₁.length, h₁ ++ [.ps n vs' (attrsOf vs') kd], ?_, ?_, ?_, ?_, ?_⟩
      · rw [copyPS, readPS_bind hah]
        show (copyVals (copyPS fuel) vs >>= _) h t = _
        rw [bind_of hc]
        rw [mkPSH, bind_assoc', bind_of (checksH_run hrep hv t), alloc_bind, write_bind]
        show ((Except.ok h₁.length : Except PyErr Addr), _, t) = _
        congr 2
        rw [List.set_append_right _ _ (le_refl _)]
        simp
      · refine g₁.trans (Grow.snoc ?_ ?_ ?_)
        · intro n' vs'' attrs' kd' he; cases he; rfl
        · intro b hb
          obtain ⟨kb, h1, rfl⟩ := refs_ps_attrsOf hb
          rcases hlo with rfl | _
          · exact Nat.zero_le _
          · exact hle.trans (ownVals_since own kb h1).1
        · intro b hb
          obtain ⟨kb, h1, rfl⟩ := refs_ps_attrsOf hb
          exact (hlt kb h1).trans (Nat.lt_succ_self _)
      · exact g₁.pre.length_le
      · rw [OwnPS]
        have hold : Keep (Old h₀) h₁ (h₁ ++ [.ps n vs' (attrsOf vs') kd]) := keep_prefix (prefix_snoc _)
        refine ⟨vs', attrsOf vs', kd, Since h h₁, get_snoc _,
          ownVals_keep hold (keep_prefix (prefix_snoc _)) own, ?_, ?_, ?_⟩
        · intro hx; exact absurd hx.2 (lt_irrefl _)
        · exact ⟨g₁.pre.length_le, by simp⟩
        · exact since_mono (le_refl _) (by simp)
      · intro n' vs'' attrs' kd' ho'
        rw [hah] at ho'; cases ho'
        exact ⟨vs', get_snoc _⟩
theorem copyVals_run (lo : ℕ) (h₀ : Heap) : ∀ (n : ℕ) (vals : List (String × PVal)) (vs : List (String × Addr))
    (fuel : ℕ) (h : Heap) (t : List Draw), Keep Set.univ h₀ h → RepVals h₀ vals vs → ValidVals n vals →
    depthVals vals ≤ fuel → (lo = 0 ∨ NoObjsVals vals) → lo ≤ h.length →
    ∃ vs' h', copyVals (copyPS fuel) vs h t = (.ok vs', h', t) ∧ Grow lo h h' ∧
      OwnVals (Old h₀) h' vals vs' (Since h h')
  | n, [], vs, fuel, h, t, hp, hr, hv, hd, hlo, hle => by
    rw [RepVals] at hr; subst hr
    exact ⟨[], h, rfl, Grow.refl _ _, by rw [OwnVals]⟩
  | n, (k, v) :: rest, vs, fuel, h, t, hp, hr, hv, hd, hlo, hle => by
    rw [RepVals] at hr
    obtain ⟨b, vs₁, rfl, hb, hr⟩ := hr
    rw [ValidVals] at hv
    rw [depthVals] at hd
    have hlo1 : lo = 0 ∨ NoObjsVal v := by
      rcases hlo with h | h
      · exact .inl h
      · rw [NoObjsVals] at h; exact .inr h.1
    have hlo2 : lo = 0 ∨ NoObjsVals rest := by
      rcases hlo with h | h
      · exact .inl h
      · rw [NoObjsVals] at h; exact .inr h.2
    obtain ⟨c, h₁, hc, g₁, own₁⟩ := copyVal_run lo h₀ v b fuel h t hp hb hv.1.2 (by omega) hlo1 hle
    obtain ⟨vs', h₂, hc₂, g₂, own₂⟩ := copyVals_run lo h₀ n rest vs₁ fuel h₁ t (hp.trans (keep_prefix g₁.pre)) hr hv.2
      (by omega) hlo2 (hle.trans g₁.pre.length_le)
    refine ⟨(k, c) :: vs', h₂, ?_, g₁.trans g₂, ?_⟩
    · rw [copyVals, bind_of hc, bind_of hc₂]; rfl
    · rw [OwnVals]
      exact ⟨c, vs', Since h h₁, Since h₁ h₂, rfl,
        ownVal_keep (keep_prefix g₂.pre) (keep_prefix g₂.pre) own₁, own₂, since_disjoint,
        since_mono (le_refl _) g₂.pre.length_le, since_mono g₁.pre.length_le (le_refl _)⟩
theorem copyVal_run (lo : ℕ) (h₀ : Heap) : ∀ (v : PVal) (b : Addr) (fuel : ℕ) (h : Heap) (t : List Draw),
    Keep Set.univ h₀ h → RepVal h₀ v b → ValidVal v → depthVal v ≤ fuel → (lo = 0 ∨ NoObjsVal v) → lo ≤ h.length →
    ∃ c h', copyVal (copyPS fuel) b h t = (.ok c, h', t) ∧ Grow lo h h' ∧
      OwnVal (Old h₀) h' v c (Since h h')
  | .arr x, b, fuel, h, t, hp, hr, hv, hd, hlo, hle => by
    rw [RepVal] at hr
    refine ⟨h.length, h ++ [.arr x], ?_, ?_, ?_⟩
    · rw [copyVal, read_bind (hp.arr (Set.mem_univ _) hr)]; rfl
    · exact Grow.snoc (by intro _ _ _ _ h; cases h) (by simp [refs]) (by simp [refs])
    · rw [OwnVal]; exact ⟨get_snoc _, ⟨le_refl _, by simp⟩⟩
  | .objs l, b, fuel, h, t, hp, hr, hv, hd, hlo, hle => by
    rw [RepVal] at hr
    obtain ⟨as, ho, hl⟩ := hr
    refine ⟨h.length, h ++ [.objs as], ?_, ?_, ?_⟩
    · rw [copyVal, read_bind (hp.objs (Set.mem_univ _) ho)]; rfl
    · refine Grow.snoc (by intro _ _ _ _ h; cases h) ?_ ?_
      · intro b hb
        rcases hlo with rfl | h
        · exact Nat.zero_le _
        · rw [NoObjsVal] at h; exact absurd h not_false
      · intro b hb
        exact (lt_of_lt_of_le (repList_lt hl b hb) (keep_length hp)).trans (Nat.lt_succ_self _)
    · rw [OwnVal]
      refine ⟨as, ∅, get_snoc _, .inr ?_, by simp, ⟨le_refl _, by simp⟩, by simp⟩
      exact stable_keep ((hp.mono (Set.subset_univ _)).trans (keep_prefix (prefix_snoc _))) (stable_of_rep hl)
  | .states l, b, fuel, h, t, hp, hr, hv, hd, hlo, hle => by
    rw [RepVal] at hr
    obtain ⟨as, ho, hl⟩ := hr
    rw [ValidVal] at hv
    rw [depthVal] at hd
    have hlo' : lo = 0 ∨ NoObjsList l := by simpa only [NoObjsVal] using hlo
    obtain ⟨as', h₁, hc, g₁, own⟩ := copyList_run lo h₀ l as fuel h t hp hl hv.2 hd hlo' hle
    have hrep := ownList_rep own
    refine ⟨h₁.length, h₁ ++ [.list as'], ?_, ?_, ?_⟩
    · rw [copyVal, read_bind (hp.list (Set.mem_univ _) ho)]
      show (forEach (copyPS fuel) as >>= _) h t = _
      rw [bind_of hc]; rfl
    · refine g₁.trans (Grow.snoc (by intro _ _ _ _ h; cases h) ?_ ?_)
      · intro b hb
        rcases hlo with rfl | _
        · exact Nat.zero_le _
        · exact hle.trans (ownList_since own b hb).1
      · intro b hb
        exact (repList_lt hrep b hb).trans (Nat.lt_succ_self _)
    · rw [OwnVal]
      refine ⟨as', Since h h₁, get_snoc _, ownList_keep (keep_prefix (prefix_snoc _))
        (keep_prefix (prefix_snoc _)) own, ?_, ?_, ?_⟩
      · intro hx; exact absurd hx.2 (lt_irrefl _)
      · exact ⟨g₁.pre.length_le, by simp⟩
      · exact since_mono (le_refl _) (by simp)
theorem copyList_run (lo : ℕ) (h₀ : Heap) : ∀ (l : List PSState) (as : List Addr) (fuel : ℕ) (h : Heap)
    (t : List Draw), Keep Set.univ h₀ h → RepList h₀ l as → ValidList l → depthList l ≤ fuel →
    (lo = 0 ∨ NoObjsList l) → lo ≤ h.length →
    ∃ as' h', forEach (copyPS fuel) as h t = (.ok as', h', t) ∧ Grow lo h h' ∧
      OwnList (Old h₀) h' l as' (Since h h')
  | [], as, fuel, h, t, hp, hr, hv, hd, hlo, hle => by
    rw [RepList] at hr; subst hr
    exact ⟨[], h, rfl, Grow.refl _ _, by rw [OwnList]⟩
  | s :: l, as, fuel, h, t, hp, hr, hv, hd, hlo, hle => by
    rw [RepList] at hr
    obtain ⟨a, as₁, rfl, hs, hl⟩ := hr
    rw [ValidList] at hv
    rw [depthList] at hd
    have hlo1 : lo = 0 ∨ NoObjsPS s := by
      rcases hlo with h | h
      · exact .inl h
      · rw [NoObjsList] at h; exact .inr h.1
    have hlo2 : lo = 0 ∨ NoObjsList l := by
      rcases hlo with h | h
      · exact .inl h
      · rw [NoObjsList] at h; exact .inr h.2
    obtain ⟨c, h₁, hc, g₁, _, own₁, _⟩ := copyPS_run lo h₀ s a fuel h t hp hs hv.1 (by omega) hlo1 hle
    obtain ⟨vs', h₂, hc₂, g₂, own₂⟩ := copyList_run lo h₀ l as₁ fuel h₁ t (hp.trans (keep_prefix g₁.pre)) hl hv.2
      (by omega) hlo2 (hle.trans g₁.pre.length_le)
    refine ⟨c :: vs', h₂, ?_, g₁.trans g₂, ?_⟩
    · rw [forEach, bind_of hc, bind_of hc₂]; rfl
    · rw [OwnList]
      exact ⟨c, vs', Since h h₁, Since h₁ h₂, rfl,
        ownPS_keep (keep_prefix g₂.pre) (keep_prefix g₂.pre) own₁, own₂, since_disjoint,
        since_mono (le_refl _) g₂.pre.length_le, since_mono g₁.pre.length_le (le_refl _)⟩
end

end BB.Lemmas
