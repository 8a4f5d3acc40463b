import Verif.Spec.Setup
import Verif.Lemmas.Dict
import Mathlib.Data.List.Count
import Mathlib.Data.List.GetD

/-!
# Pairs of births and deaths
-/

namespace BB.Lemmas

open BB BB.Spec

/-- The indices of the elements with the property, counted from `i`. -/
def idxOf (P : PClass → Bool) : List PClass → ℕ → List ℕ
  | [], _ => []
  | c :: cs, i => if P c then i :: idxOf P cs (i + 1) else idxOf P cs (i + 1)

theorem mem_idxOf {P : PClass → Bool} {k : ℕ} : ∀ {cs : List PClass} {i : ℕ},
    k ∈ idxOf P cs i ↔ i ≤ k ∧ ∃ c, cs[k - i]? = some c ∧ P c = true
  | [], i => by simp [idxOf]
  | c :: cs, i => by
    have ih := mem_idxOf (P := P) (k := k) (cs := cs) (i := i + 1)
    rw [idxOf]
    rcases Nat.lt_trichotomy k i with h | h | h
    · have h1 : ¬ i + 1 ≤ k := by omega
      have h2 : ¬ i ≤ k := by omega
      split <;> simp [ih, h1, h2]
      omega
    · subst h
      have h1 : ¬ k + 1 ≤ k := by omega
      split
      · next hp => simp [hp]
      · next hp => simp [ih, hp, h1]
    · have h1 : k - i = (k - (i + 1)) + 1 := by omega
      have h2 : i + 1 ≤ k := by omega
      have h3 : i ≤ k := by omega
      have h4 : k ≠ i := by omega
      rw [h1, List.getElem?_cons_succ]
      split
      · simp [ih, h2, h3, h4]
      · simp [ih, h2, h3]

theorem length_idxOf {P : PClass → Bool} : ∀ {cs : List PClass} {i : ℕ},
    (idxOf P cs i).length = cs.countP P
  | [], i => by simp [idxOf]
  | c :: cs, i => by
    rw [idxOf, List.countP_cons]
    split <;> simp [length_idxOf]

theorem filter_idxOf {P Q : PClass → Bool} {q : ℕ → Bool} : ∀ {cs : List PClass} {i : ℕ},
    (∀ k c, cs[k]? = some c → q (k + i) = Q c) →
    (idxOf P cs i).filter q = idxOf (fun c => P c && Q c) cs i
  | [], i, _ => by simp [idxOf]
  | c :: cs, i, h => by
    have h0 := h 0 c rfl
    rw [Nat.zero_add] at h0
    have ih := filter_idxOf (P := P) (Q := Q) (q := q) (cs := cs) (i := i + 1) (fun k c hc => by
      rw [← h (k + 1) c (by simpa using hc)]
      congr 1
      omega)
    rw [idxOf, idxOf]
    cases hP : P c <;> cases hQ : Q c <;> simp [List.filter_cons, h0, hQ, ih]

/-- A birth or a death of the space. -/
def ofSpace (n : String) (c : PClass) : Bool := c = .birth n || c = .death n

theorem dget_pairs {n : String} : ∀ {cs : List PClass} {i : ℕ} {d : List (String × List ℕ)},
    dget (birthDeathPairs cs i d) n =
      if idxOf (ofSpace n) cs i = [] then dget d n else some ((dget d n).getD [] ++ idxOf (ofSpace n) cs i)
  | [], i, d => by simp [birthDeathPairs, idxOf]
  | c :: cs, i, d => by
    have step : ∀ m, (c = .birth m ∨ c = .death m) →
        dget (birthDeathPairs cs (i + 1) (dset d m ((dget d m).getD [] ++ [i]))) n =
        if idxOf (ofSpace n) (c :: cs) i = [] then dget d n
          else some ((dget d n).getD [] ++ idxOf (ofSpace n) (c :: cs) i) := by
      intro m hc
      rw [dget_pairs, idxOf]
      by_cases hm : m = n
      · subst hm
        have ho : ofSpace m c = true := by rcases hc with rfl | rfl <;> simp [ofSpace]
        rw [dget_dset_same, if_pos ho]
        simp only [reduceCtorEq, if_false, Option.getD_some]
        split
        · next h => rw [h]
        · simp
      · have ho : ofSpace n c = false := by
          rcases hc with rfl | rfl <;> simp [ofSpace, hm]
        rw [dget_dset_ne _ _ _ _ (Ne.symm hm), ho]
        simp
    match c with
    | .birth m => rw [birthDeathPairs]; exact step m (.inl rfl)
    | .death m => rw [birthDeathPairs]; exact step m (.inr rfl)
    | .other =>
      rw [birthDeathPairs, dget_pairs, idxOf]
      simp [ofSpace]

theorem nodup_pairs : ∀ {cs : List PClass} {i : ℕ} {d : List (String × List ℕ)},
    (dkeys d).Nodup → (dkeys (birthDeathPairs cs i d)).Nodup
  | [], i, d, h => by rw [birthDeathPairs]; exact h
  | .other :: cs, i, d, h => by rw [birthDeathPairs]; exact nodup_pairs h
  | .birth _ :: cs, i, d, h => by rw [birthDeathPairs]; exact nodup_pairs (nodup_dset _ _ _ h)
  | .death _ :: cs, i, d, h => by rw [birthDeathPairs]; exact nodup_pairs (nodup_dset _ _ _ h)

/-- The entries of the dictionary: for each space with a birth or a death the indices of these. -/
theorem mem_pairs {cs : List PClass} {n : String} {is : List ℕ} :
    (n, is) ∈ birthDeathPairs cs 0 [] ↔ is = idxOf (ofSpace n) cs 0 ∧ is ≠ [] := by
  have hnd : (dkeys (birthDeathPairs cs 0 [])).Nodup := nodup_pairs (by simp [dkeys])
  have hg := dget_pairs (n := n) (cs := cs) (i := 0) (d := [])
  constructor
  · intro h
    rw [dget_of_mem hnd h] at hg
    split at hg
    · simp [dget] at hg
    · next hne =>
      simp only [dget, Option.getD_none, List.nil_append, Option.some.injEq] at hg
      exact ⟨hg, hg ▸ hne⟩
  · rintro ⟨rfl, hne⟩
    rw [if_neg hne] at hg
    exact dget_some_mem (by simpa [dget] using hg)

theorem filter_births {cs : List PClass} {n : String} :
    (idxOf (ofSpace n) cs 0).filter (isBirth cs) = idxOf (fun c => c = .birth n) cs 0 := by
  rw [filter_idxOf (Q := fun c => match c with | .birth _ => true | _ => false)]
  · congr 1
    funext c
    cases c <;> simp [ofSpace]
  · intro k c hc
    rw [Nat.add_zero, isBirth, hc]
    cases c <;> rfl

theorem filter_deaths {cs : List PClass} {n : String} :
    (idxOf (ofSpace n) cs 0).filter (isDeath cs) = idxOf (fun c => c = .death n) cs 0 := by
  rw [filter_idxOf (Q := fun c => match c with | .death _ => true | _ => false)]
  · congr 1
    funext c
    cases c <;> simp [ofSpace]
  · intro k c hc
    rw [Nat.add_zero, isDeath, hc]
    cases c <;> rfl

theorem count_eq_idx {cs : List PClass} {c : PClass} :
    cs.count c = (idxOf (fun c' => c' = c) cs 0).length := by
  rw [length_idxOf, List.count]
  congr 1

/-! ### the weights -/

/-- The entry has one birth and one death. -/
def OnePair (cs : List PClass) (e : String × List ℕ) : Prop :=
  (∃ b, e.2.filter (isBirth cs) = [b]) ∧ ∃ d, e.2.filter (isDeath cs) = [d]

theorem equalize_none {cs : List PClass} : ∀ {l : List (String × List ℕ)} {ws : List ℝ},
    (equalizePairs cs l ws).1 = none ↔ ∀ e ∈ l, OnePair cs e
  | [], ws => by simp [equalizePairs]
  | (n, is) :: l, ws => by
    rw [equalizePairs]
    rw [List.forall_mem_cons]
    split
    · next b d hb hd =>
      have : OnePair cs (n, is) := ⟨⟨b, hb⟩, ⟨d, hd⟩⟩
      simp only [this, true_and]
      split <;> exact equalize_none
    · next hno =>
      simp only [reduceCtorEq, false_iff, not_and]
      rintro ⟨⟨b, hb⟩, ⟨d, hd⟩⟩
      exact absurd hd (hno b d hb)

theorem equalize_error {cs : List PClass} {e : PyErr} : ∀ {l : List (String × List ℕ)} {ws : List ℝ},
    (equalizePairs cs l ws).1 = some e → e = .valueError
  | [], ws, h => by simp [equalizePairs] at h
  | (n, is) :: l, ws, h => by
    rw [equalizePairs] at h
    split at h
    · split at h <;> exact equalize_error h
    · injection h with h
      exact h.symm

theorem equalize_length {cs : List PClass} : ∀ {l : List (String × List ℕ)} {ws : List ℝ},
    (equalizePairs cs l ws).2.length = ws.length
  | [], ws => rfl
  | (n, is) :: l, ws => by
    rw [equalizePairs]
    split
    · split
      · rw [equalize_length, List.length_set]
      · exact equalize_length
    · rfl

/-- Only weights of deaths of the entries change. -/
theorem equalize_other {cs : List PClass} {k : ℕ} : ∀ {l : List (String × List ℕ)} {ws : List ℝ},
    (∀ e ∈ l, k ∈ e.2 → isDeath cs k = false) → (equalizePairs cs l ws).2[k]? = ws[k]?
  | [], ws, _ => rfl
  | (n, is) :: l, ws, h => by
    have hrest : ∀ e ∈ l, k ∈ e.2 → isDeath cs k = false := fun e he => h e (List.mem_cons_of_mem _ he)
    rw [equalizePairs]
    split
    · next b d hb hd =>
      split
      · rw [equalize_other hrest]
        refine List.getElem?_set_ne ?_
        rintro rfl
        have hm : d ∈ is.filter (isDeath cs) := by rw [hd]; simp
        rw [List.mem_filter] at hm
        rw [h _ (List.mem_cons_self ..) hm.1] at hm
        simp at hm
      · exact equalize_other hrest
    · rfl

/-- The weight of the death of an entry becomes that of the birth. -/
theorem equalize_pair {cs : List PClass} {n : String} {is : List ℕ} {b d : ℕ}
    (hb : is.filter (isBirth cs) = [b]) (hd : is.filter (isDeath cs) = [d]) :
    ∀ {l : List (String × List ℕ)} {ws : List ℝ}, (n, is) ∈ l →
    (∀ e ∈ l, ∀ k ∈ e.2, isDeath cs k = true → cs[k]? = some (.death e.1)) → (dkeys l).Nodup →
    cs.length = ws.length → (equalizePairs cs l ws).1 = none → (equalizePairs cs l ws).2[d]? = ws[b]?
  | [], ws, hm, _, _, _, _ => by cases hm
  | (m, js) :: l, ws, hm, hk, hnd, hlen, hok => by
    have hdm : d ∈ is.filter (isDeath cs) := by rw [hd]; simp
    have hbm : b ∈ is.filter (isBirth cs) := by rw [hb]; simp
    rw [List.mem_filter] at hdm hbm
    have hcd := hk _ hm d hdm.1 hdm.2
    have hbd : isDeath cs b = false := by
      have := hbm.2
      unfold isBirth at this
      unfold isDeath
      split at this
      · next h => rw [h]
      · cases this
    have hdl : d < ws.length := by
      rw [← hlen]
      exact (List.getElem?_eq_some_iff.1 hcd).1
    have hbl : b < ws.length := by
      rw [← hlen]
      have := hbm.2
      unfold isBirth at this
      split at this
      · next h => exact (List.getElem?_eq_some_iff.1 h).1
      · cases this
    have hnd' : m ∉ dkeys l ∧ (dkeys l).Nodup := by simpa [dkeys] using hnd
    have hk' : ∀ e ∈ l, ∀ k ∈ e.2, isDeath cs k = true → cs[k]? = some (.death e.1) :=
      fun e he => hk e (List.mem_cons_of_mem _ he)
    rcases List.mem_cons.1 hm with h | hm'
    · injection h with h1 h2
      subst h1 h2
      have hother : ∀ ws' : List ℝ, (equalizePairs cs l ws').2[d]? = ws'[d]? := by
        intro ws'
        refine equalize_other fun e he hd' => ?_
        by_contra hc
        rw [Bool.not_eq_false] at hc
        have := hk' e he d hd' hc
        rw [hcd] at this
        injection this with this
        injection this with this
        change n = e.1 at this
        apply hnd'.1
        rw [this]
        exact List.mem_map_of_mem he
      rw [equalizePairs]
      simp only [hb, hd]
      split
      · rw [hother, List.getElem?_set_self hdl, List.getD_eq_getElem _ _ hbl, List.getElem?_eq_getElem hbl]
      · next heq =>
        rw [hother]
        have heq := not_not.1 heq
        rw [List.getD_eq_getElem _ _ hbl, List.getD_eq_getElem _ _ hdl] at heq
        rw [List.getElem?_eq_getElem hdl, List.getElem?_eq_getElem hbl, heq]
    · rw [equalizePairs] at hok ⊢
      split
      · next b' d' hb' hd' =>
        simp only [hb', hd'] at hok
        have hne : b ≠ d' := by
          rintro rfl
          have : b ∈ js.filter (isDeath cs) := by rw [hd']; simp
          rw [List.mem_filter, hbd] at this
          simp at this
        split
        · next hc =>
          rw [if_pos hc] at hok
          rw [equalize_pair hb hd hm' hk' hnd'.2 (by simpa using hlen) hok]
          exact List.getElem?_set_ne hne.symm
        · next hc =>
          rw [if_neg hc] at hok
          exact equalize_pair hb hd hm' hk' hnd'.2 hlen hok
      · next hno =>
        split at hok
        · next b' d' hb' hd' => exact absurd hd' (hno b' d' hb')
        · cases hok

/-! ### the functions -/

theorem preprocess_cases {F V : Type} (cls : ℕ → PClass) (f : UF F V) :
    (Describes f → ∃ p, preprocess f = .ok p ∧ p.cls cls = classOf cls f ∧
      (p.isNone = true ↔ f = .none)) ∧
    (¬ Describes f → preprocess f = .error .typeError ∨ preprocess f = .error .indexError) := by
  match f with
  | .none => simp [preprocess, Describes, Pre.cls, classOf, Pre.isNone]
  | .instance_ l => simp [preprocess, Describes, Pre.cls, classOf, Pre.isNone]
  | .callable g => simp [preprocess, Describes, Pre.cls, classOf, Pre.isNone]
  | .other => simp [preprocess, Describes, Pre.cls, classOf, Pre.isNone]
  | .seq [] => simp [preprocess, Describes]
  | .seq [x] => simp [preprocess, Describes, Pre.cls, classOf, Pre.isNone]
  | .seq (x :: .callable _ :: rest) => simp [preprocess, Describes]
  | .seq (x :: .other :: rest) => simp [preprocess, Describes]
  | .seq (x :: .dict _ :: rest) => simp [preprocess, Describes, Pre.cls, classOf, Pre.isNone]
  | .seq (x :: .seq _ :: []) => simp [preprocess, Describes, Pre.cls, classOf, Pre.isNone]
  | .seq (x :: .seq _ :: .dict _ :: rest) => simp [preprocess, Describes, Pre.cls, classOf, Pre.isNone]
  | .seq (x :: .seq _ :: .seq _ :: rest) => simp [preprocess, Describes, Pre.cls, classOf, Pre.isNone]
  | .seq (x :: .seq _ :: .callable _ :: rest) => simp [preprocess, Describes, Pre.cls, classOf, Pre.isNone]
  | .seq (x :: .seq _ :: .other :: rest) => simp [preprocess, Describes, Pre.cls, classOf, Pre.isNone]

/-- The functions after preprocessing. -/
theorem preprocessAll_cases {F V : Type} (cls : ℕ → PClass) : ∀ (fs : List (UF F V)),
    ((∀ f ∈ fs, Describes f) → ∃ ps, preprocessAll fs = .ok ps ∧
      List.Forall₂ (fun f p => preprocess f = .ok p) fs ps ∧
      ps.map (Pre.cls cls) = fs.map (classOf cls) ∧
      (ps.any Pre.isNone = true ↔ UF.none ∈ fs)) ∧
    ((∃ f ∈ fs, ¬ Describes f) → preprocessAll fs = .error .typeError ∨ preprocessAll fs = .error .indexError)
  | [] => by simp [preprocessAll]
  | f :: fs => by
    obtain ⟨h1, h2⟩ := preprocess_cases cls f
    obtain ⟨h3, h4⟩ := preprocessAll_cases cls fs
    constructor
    · intro h
      obtain ⟨p, e1, e2, e3⟩ := h1 (h f (List.mem_cons_self ..))
      obtain ⟨ps, e4, e5, e6, e7⟩ := h3 fun g hg => h g (List.mem_cons_of_mem _ hg)
      refine ⟨p :: ps, ?_, .cons e1 e5, by simp [e2, e6], ?_⟩
      · rw [preprocessAll, e1, e4]; rfl
      · rw [List.any_cons, Bool.or_eq_true, e3, e7, List.mem_cons, eq_comm]
    · rintro ⟨g, hg, hn⟩
      rw [preprocessAll]
      by_cases hf : Describes f
      · obtain ⟨p, e1, _⟩ := h1 hf
        have hg' : g ∈ fs := by
          rcases List.mem_cons.1 hg with rfl | h
          · exact absurd hf hn
          · exact h
        rcases h4 ⟨g, hg', hn⟩ with e | e
        · left; rw [e1, e]; rfl
        · right; rw [e1, e]; rfl
      · rcases h2 hf with e | e
        · left; rw [e]; rfl
        · right; rw [e]; rfl

/-! ### the chains -/

theorem setChains_ok {F V : Type} {fs : List (Pre F V)} {w : ℕ}
    (h : fs.any Pre.isNone = false) : ∀ (cs : List (ChainPerts F V)),
    setChains fs w cs = (none, cs.map fun _ => { funcs := fs, types := fs, weights := w })
  | [] => rfl
  | c :: cs => by
    rw [setChains, ChainPerts.set, if_neg (by rw [h]; simp)]
    simp only
    rw [setChains_ok h cs]
    rfl

theorem setChains_error {F V : Type} {fs : List (Pre F V)} {w : ℕ}
    (h : fs.any Pre.isNone = true) (c : ChainPerts F V)
    (cs : List (ChainPerts F V)) : (setChains fs w (c :: cs)).1 = some .attributeError := by
  rw [setChains, ChainPerts.set, if_pos h]

/-! ### pairs -/

theorem onePairs_iff {cs : List PClass} : (∀ e ∈ birthDeathPairs cs 0 [], OnePair cs e) ↔ Paired cs := by
  have key : ∀ n, idxOf (ofSpace n) cs 0 ≠ [] ↔ PClass.birth n ∈ cs ∨ PClass.death n ∈ cs := by
    intro n
    rw [← List.length_pos_iff_ne_nil, length_idxOf, List.countP_pos_iff]
    simp only [ofSpace, Bool.or_eq_true, decide_eq_true_eq]
    constructor
    · rintro ⟨c, hc, rfl | rfl⟩
      · exact .inl hc
      · exact .inr hc
    · rintro (h | h)
      · exact ⟨_, h, .inl rfl⟩
      · exact ⟨_, h, .inr rfl⟩
  constructor
  · intro h n hn
    obtain ⟨⟨b, hb⟩, ⟨d, hd⟩⟩ := h (n, idxOf (ofSpace n) cs 0) (mem_pairs.2 ⟨rfl, (key n).2 hn⟩)
    rw [filter_births] at hb
    rw [filter_deaths] at hd
    exact ⟨by rw [count_eq_idx, hb]; rfl, by rw [count_eq_idx, hd]; rfl⟩
  · rintro h ⟨n, is⟩ he
    obtain ⟨rfl, hne⟩ := mem_pairs.1 he
    obtain ⟨h1, h2⟩ := h n ((key n).1 hne)
    rw [count_eq_idx, List.length_eq_one_iff] at h1 h2
    refine ⟨?_, ?_⟩
    · rw [filter_births]; exact h1
    · rw [filter_deaths]; exact h2

/-- The lists of weights once the given ones are there. -/
def baseMem {F V : Type} (fresh : ℕ) (m : Mem) (fs : List (UF F V)) : Option ℕ → Mem
  | none => m.write fresh (List.replicate fs.length 1)
  | some _ => m

theorem baseMem_other {F V : Type} {fresh : ℕ} {m : Mem} {fs : List (UF F V)} {w : Option ℕ} {b : ℕ}
    (h : b ≠ w.getD fresh) : baseMem fresh m fs w b = m b := by
  cases w with
  | none => exact if_neg h
  | some a => rfl

/-- The outcome, in terms of the functions after preprocessing. -/
theorem set_eq {F V : Type} (cls : ℕ → PClass) (fresh : ℕ) (inv : InvPerts F V) (m : Mem) (fs : List (UF F V))
    (w : Option ℕ) {ps : List (Pre F V)} (h : preprocessAll fs = .ok ps) (hl : ps.length = fs.length) :
    setPerturbationFuncs cls fresh inv m fs w =
      if fs.length ≠ (givenWeights m fs w).length then (some .assertionError, inv, baseMem fresh m fs w)
      else
        match (equalizePairs (ps.map (Pre.cls cls)) (birthDeathPairs (ps.map (Pre.cls cls)) 0 [])
          (givenWeights m fs w)).1 with
        | some e => (some e, inv, (baseMem fresh m fs w).write (w.getD fresh)
            (equalizePairs (ps.map (Pre.cls cls)) (birthDeathPairs (ps.map (Pre.cls cls)) 0 [])
              (givenWeights m fs w)).2)
        | none =>
          match inv.chains with
          | none => (none, { funcs := ps, weights := w.getD fresh, chains := none },
              (baseMem fresh m fs w).write (w.getD fresh)
                (equalizePairs (ps.map (Pre.cls cls)) (birthDeathPairs (ps.map (Pre.cls cls)) 0 [])
                  (givenWeights m fs w)).2)
          | some chains => ((setChains ps (w.getD fresh) chains).1,
              { funcs := ps, weights := w.getD fresh, chains := some (setChains ps (w.getD fresh) chains).2 },
              (baseMem fresh m fs w).write (w.getD fresh)
                (equalizePairs (ps.map (Pre.cls cls)) (birthDeathPairs (ps.map (Pre.cls cls)) 0 [])
                  (givenWeights m fs w)).2) := by
  unfold setPerturbationFuncs
  rw [h]
  cases w with
  | none =>
    have hw : (m.write fresh (List.replicate fs.length 1)) fresh = List.replicate fs.length 1 := by
      simp [Mem.write]
    simp only [givenWeights, baseMem, Option.getD_none, hl, hw, List.length_replicate, ne_eq, not_true_eq_false,
      if_false]
    cases hr : equalizePairs (ps.map (Pre.cls cls)) (birthDeathPairs (ps.map (Pre.cls cls)) 0 [])
      (List.replicate fs.length 1) with
    | mk e ws => cases e <;> cases inv.chains <;> rfl
  | some a =>
    by_cases h : fs.length ≠ (m a).length
    · refine Eq.trans ?_ (if_pos h).symm
      simp only [hl]
      exact if_pos h
    · refine Eq.trans ?_ (if_neg h).symm
      simp only [hl]
      refine (if_neg h).trans ?_
      change _ = match (equalizePairs (ps.map (Pre.cls cls)) (birthDeathPairs (ps.map (Pre.cls cls)) 0 []) (m a)).1 with
        | some e => _
        | none => _
      simp only [givenWeights, baseMem, Option.getD_some]
      cases hr : equalizePairs (ps.map (Pre.cls cls)) (birthDeathPairs (ps.map (Pre.cls cls)) 0 []) (m a) with
      | mk e ws => cases e <;> cases inv.chains <;> rfl

end BB.Lemmas
