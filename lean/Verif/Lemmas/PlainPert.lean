import Verif.Lemmas.PlainRun
import Verif.Lemmas.PlainKernel
import Verif.Lemmas.ProgressEval

/-!
# Plain parameter spaces: what a perturbation of a state computes
-/

namespace BB.Lemmas

open BB Spec MeasureTheory

/-! ### positive densities -/

theorem DensityOf.sampled_pos {pr : Prior} {f : ℝ → ℝ} (h : DensityOf pr f) (d : Draw) : 0 < f (sampleOf pr d) := by
  have hs := h
  unfold DensityOf at h
  match hd : pr.dist with
  | .uniform vmin vmax =>
    rw [hd] at h
    obtain ⟨a, b, h1, h2, hab, rfl⟩ := h
    have hv : pr.sample .none [d] = (.ok (a + (b - a) * d.u), []) := by
      unfold Prior.sample
      rw [hd]
      simp only [h1, h2]
      exact (M.bind_of rfl).trans ((M.bind_of rfl).trans (M.uniform_run _ _ _ _))
    have he : sampleOf pr d = a + (b - a) * d.u := by
      unfold sampleOf
      rw [hv]
    have hu := d.hu
    rw [he]
    unfold uniformPDF
    rw [if_pos]
    · have : 0 < b - a := by linarith
      positivity
    · constructor <;> nlinarith
  | .gaussian mean std =>
    rw [hd] at h
    obtain ⟨m, s, -, -, hs, rfl⟩ := h
    exact ProbabilityTheory.gaussianPDFReal_pos _ _ _ (Real.toNNReal_pos.2 (by positivity)).ne'
  | .laplace mean scale =>
    rw [hd] at h
    obtain ⟨m, s, -, -, hs, rfl⟩ := h
    unfold laplacePDF
    positivity
  | .custom _ _ _ => rw [hd] at h; exact h.elim

/-! ### the draws used -/

theorem draws_split : ∀ {k : ℕ} {t : List Draw}, k ≤ t.length → t = List.ofFn (V.draws k t).1 ++ (V.draws k t).2
  | 0, t, _ => by
    rw [V.draws]
    simp [V.ret]
  | k + 1, [], h => by simp at h
  | k + 1, d :: t, h => by
    have ih := draws_split (k := k) (t := t) (by simpa using h)
    have e : V.draws (k + 1) (d :: t) = (Fin.cons d (V.draws k t).1, (V.draws k t).2) := rfl
    rw [e]
    simp only [List.ofFn_succ, Fin.cons_zero, Fin.cons_succ, List.cons_append]
    rw [← ih]

/-! ### the functions of a space -/

section

variable {s : PlainSpace} {y : Tuple (Fin s.size → ℝ)}

/-- The number of dimensions is in the bounds, and the prior densities of all values are positive. -/
def PossibleIn (s : PlainSpace) (y : Tuple (Fin s.size → ℝ)) : Prop :=
  (s.info.lo ≤ y.1 ∧ y.1 ≤ s.info.hi) ∧ ∀ r j, 0 < s.dens j (y.2 r j)

theorem possible_addRow (h : PossibleIn s y) (hn : y.1 ≠ s.info.hi) {k : ℕ} {z : Fin s.size → ℝ} (hz : ∀ j, 0 < s.dens j (z j)) :
    PossibleIn s (addRow s.info.hi y k z) := by
  obtain ⟨n, v⟩ := y
  obtain ⟨⟨h1, h2⟩, h3⟩ := h
  simp only at h1 h2 h3 hn
  unfold addRow
  rw [if_neg hn]
  refine ⟨⟨?_, ?_⟩, ?_⟩
  · change _ ≤ n + 1
    omega
  · change n + 1 ≤ _
    omega
  · intro r j
    simp only at r ⊢
    refine Fin.succAboveCases (Fin.ofNat (n + 1) k) ?_ (fun r => ?_) r
    · rw [Fin.insertNth_apply_same]
      exact hz j
    · rw [Fin.insertNth_apply_succAbove]
      exact h3 r j

theorem possible_removeRow (h : PossibleIn s y) (hn : y.1 ≠ s.info.lo) {k : ℕ} :
    PossibleIn s (removeRow s.info.lo s.info.hi y k) := by
  obtain ⟨n, v⟩ := y
  obtain ⟨⟨h1, h2⟩, h3⟩ := h
  simp only at h1 h2 h3 hn
  unfold removeRow
  rw [if_neg (by rintro (e | e) <;> simp only at e <;> omega)]
  match n, v, h1, h2, h3 with
  | 0, v, h1, h2, h3 => omega
  | n + 1, v, h1, h2, h3 =>
    refine ⟨⟨?_, ?_⟩, ?_⟩
    · change _ ≤ n
      omega
    · change n ≤ _
      omega
    · intro r j
      exact h3 _ j

theorem possible_changeRow (h : PossibleIn s y) {k : ℕ} {f : (Fin s.size → ℝ) → Fin s.size → ℝ}
    (hf : atRow (fun r => ∏ j, s.dens j (f r j) / s.dens j (r j)) y k ≠ 0) (hd : ∀ j x, 0 ≤ s.dens j x) (h0 : y.1 ≠ 0) :
    PossibleIn s (changeRow f y k) := by
  obtain ⟨n, v⟩ := y
  obtain ⟨⟨h1, h2⟩, h3⟩ := h
  match n, v, h1, h2, h3, h0 with
  | n + 1, v, h1, h2, h3, _ =>
    unfold changeRow
    refine ⟨⟨h1, h2⟩, ?_⟩
    intro r j
    simp only at r ⊢
    by_cases hr : r = Fin.ofNat (n + 1) k
    · subst hr
      rw [Function.update_self]
      have h4 : ∏ j, s.dens j (f (v (Fin.ofNat (n + 1) k)) j) / s.dens j (v (Fin.ofNat (n + 1) k) j) ≠ 0 := hf
      rw [Finset.prod_ne_zero_iff] at h4
      have h5 := h4 j (Finset.mem_univ _)
      refine lt_of_le_of_ne (hd _ _) ?_
      intro e
      rw [← e, zero_div] at h5
      exact h5 rfl
    · rw [Function.update_of_ne hr]
      exact h3 r j

theorem ownFuncs_plain (h : s.Ok) : s.space.ownFuncs =
    (if s.info.transD then [(PSFunc.birth s.space, (1 : ℝ)), (PSFunc.death s.space, 1)] else []) ++
    [(PSFunc.values s.info.name (List.ofFn s.prior), 3)] := by
  unfold Space.ownFuncs
  have e1 : s.space.params.priors = List.ofFn s.prior := paramDict_priors _
  have e2 : s.space.info.kind.isDisc = false := by
    unfold PlainSpace.space Space.info
    rw [h.plain]
    rfl
  rw [e1, e2, if_neg Bool.false_ne_true, List.append_nil]
  have : List.ofFn s.prior ≠ [] := by
    intro e
    have := congrArg List.length e
    rw [List.length_ofFn] at this
    exact h.size.ne' this
  match hl : List.ofFn s.prior with
  | [] => exact absurd hl this
  | q :: qs => rfl

theorem ownWeights_plain (h : s.Ok) : s.space.ownPert.weights = ownW s := by
  unfold Space.ownPert ownW
  simp only
  rw [ownFuncs_plain h]
  split <;> simp

theorem ownFuncs_length (h : s.Ok) : s.space.ownPert.funcs.length = (ownW s).length := by
  rw [← ownWeights_plain h]
  unfold Space.ownPert
  simp

end

section

variable {m : ℕ} {sps : Fin m → PlainSpace} {K : ℕ}

open Classical in
/-- The acceptance test for the proposal `x'` with the ratio `r` of probabilities. -/
noncomputable def acceptV (ℓ : Values sps → ℝ) (x x' : Values sps) (r : ℝ) : V (Values sps) :=
  V.andThen V.draw fun a => V.ret (if a.u < r * Real.exp (ℓ x' - ℓ x) then x' else x)

theorem acceptV_zero (ℓ : Values sps → ℝ) (x x' : Values sps) (t : List Draw) :
    acceptV ℓ x x' 0 t = (V.andThen V.draw fun _ => V.ret x) t := by
  have h : ¬ (V.draw t).1.u < 0 * Real.exp (ℓ x' - ℓ x) := by
    rw [zero_mul]
    exact not_lt.2 (V.draw t).1.hu.1
  have e : (if (V.draw t).1.u < 0 * Real.exp (ℓ x' - ℓ x) then x' else x) = x := if_neg h
  change ((if (V.draw t).1.u < 0 * Real.exp (ℓ x' - ℓ x) then x' else x), (V.draw t).2) = (x, (V.draw t).2)
  rw [e]

/-- The function chosen: it returns a state of the space and a ratio of probabilities, and what remains to be done in the
simulation is the acceptance test. -/
theorem func_run (h : ∀ i, (sps i).Ok) {x : Values sps} (i : Fin m) (hx : PossibleIn (sps i) (x i)) {j : ℕ}
    (hj : j < (ownW (sps i)).length) {t : List Draw} (ht : (sps i).size + 1 ≤ t.length) :
    ∃ f y r t', (sps i).space.ownPert.funcs[j]? = some f ∧
      f.run ((sps i).stateOf (x i)) t = (.ok ((sps i).stateOf y, logOf r), t') ∧ 0 ≤ r ∧ (r ≠ 0 → PossibleIn (sps i) y) ∧
      (∃ k ≤ (sps i).size + 1, t' = t.drop k) ∧ ∀ ℓ, moveV sps K ℓ i j x t = acceptV ℓ x (Function.update x i y) r t' := by
  have hi := h i
  have hlo := hi.lo
  have h0 : (x i).1 ≠ 0 := by have := hx.1.1; omega
  obtain ⟨d, t, rfl⟩ : ∃ d t', t = d :: t' := by
    cases t with
    | nil => simp at ht
    | cons d t => exact ⟨d, t, rfl⟩
  have ht' : (sps i).size ≤ t.length := by simpa using ht
  have hsplit := draws_split ht'
  have hshort : ∃ k ≤ (sps i).size + 1, (V.draws (sps i).size t).2 = (d :: t).drop k := by
    obtain ⟨k, hk, e⟩ := V.Short.draws (sps i).size t
    exact ⟨k + 1, by omega, e⟩
  have hwalk : ∃ y r t', (PSFunc.values (sps i).info.name (List.ofFn (sps i).prior)).run ((sps i).stateOf (x i)) (d :: t) =
      (.ok ((sps i).stateOf y, logOf r), t') ∧ 0 ≤ r ∧ (r ≠ 0 → PossibleIn (sps i) y) ∧
      (∃ k ≤ (sps i).size + 1, t' = (d :: t).drop k) ∧ ∀ ℓ, walkedV sps K ℓ i x (d :: t) = acceptV ℓ x (Function.update x i y) r t' := by
    refine ⟨changeRow (fun r => walkTo (sps i).step r (V.draws (sps i).size t).1) (x i) d.n,
      atRow (fun r => ∏ j, (sps i).dens j (walkTo (sps i).step r (V.draws (sps i).size t).1 j) / (sps i).dens j (r j)) (x i) d.n,
      (V.draws (sps i).size t).2, ?_, ?_, ?_, hshort, fun ℓ => rfl⟩
    · rw [← values_run hi h0 hx.2 d, ← hsplit]
    · unfold atRow
      split
      · exact zero_le_one
      · exact Finset.prod_nonneg fun j _ => div_nonneg (DensityOf.nonneg (hi.dens j) _) (DensityOf.nonneg (hi.dens j) _)
    · intro hr
      exact possible_changeRow hx hr (fun j => DensityOf.nonneg (hi.dens j)) h0
  have hval : ∀ (ht : (sps i).info.transD = false ∨ j = 2), (sps i).space.ownPert.funcs[j]? =
      some (PSFunc.values (sps i).info.name (List.ofFn (sps i).prior)) := by
    intro ht
    unfold Space.ownPert
    simp only
    rw [ownFuncs_plain hi]
    rcases Bool.eq_false_or_eq_true (sps i).info.transD with hb | hb
    · rcases ht with ht | rfl
      · rw [hb] at ht; cases ht
      · rw [if_pos hb]; rfl
    · rw [hb, if_neg Bool.false_ne_true]
      unfold ownW at hj
      rw [hb, if_neg Bool.false_ne_true] at hj
      have : j = 0 := by simpa using hj
      subst this
      rfl
  rcases Bool.eq_false_or_eq_true (sps i).info.transD with hb | hb
  · have hj3 : j < 3 := by
      unfold ownW at hj
      rw [if_pos hb] at hj
      simpa using hj
    obtain rfl | rfl | rfl : j = 0 ∨ j = 1 ∨ j = 2 := by omega
    · have hf : (sps i).space.ownPert.funcs[0]? = some (PSFunc.birth (sps i).space) := by
        unfold Space.ownPert
        simp only
        rw [ownFuncs_plain hi, if_pos hb]
        rfl
      have hm : ∀ ℓ, moveV sps K ℓ i 0 x = bornV sps K ℓ i x := by
        intro ℓ
        unfold moveV
        rw [if_pos ⟨hb, rfl⟩]
      by_cases hn : (x i).1 = (sps i).info.hi
      · refine ⟨_, x i, 0, d :: t, hf, ?_, le_rfl, fun h => absurd rfl h, ⟨0, Nat.zero_le _, rfl⟩, fun ℓ => ?_⟩
        · have : logOf 0 = PyF.ninf := by
            unfold logOf
            rw [if_neg (lt_irrefl _)]
          rw [this]
          exact birth_full hi hn _
        · rw [hm, acceptV_zero]
          unfold bornV
          rw [if_pos hn]
      · refine ⟨_, addRow (sps i).info.hi (x i) d.n (samplesOf (sps i).prior (V.draws (sps i).size t).1), 1,
          (V.draws (sps i).size t).2, hf, ?_, zero_le_one, fun _ => ?_, hshort, fun ℓ => ?_⟩
        · rw [logOf_one]
          rw [← birth_run hi hn d, ← hsplit]
          rfl
        · exact possible_addRow hx hn fun j => DensityOf.sampled_pos (hi.dens j) _
        · rw [hm]
          unfold bornV
          rw [if_neg hn]
          have e : (bornK sps K i).ratio x (d, (V.draws (sps i).size t).1) = 1 := if_neg hn
          rw [← e]
          rfl
    · have hf : (sps i).space.ownPert.funcs[1]? = some (PSFunc.death (sps i).space) := by
        unfold Space.ownPert
        simp only
        rw [ownFuncs_plain hi, if_pos hb]
        rfl
      have hm : ∀ ℓ, moveV sps K ℓ i 1 x = diedV sps K ℓ i x := by
        intro ℓ
        unfold moveV
        rw [if_neg (by simp), if_pos ⟨hb, rfl⟩]
      by_cases hn : (x i).1 = (sps i).info.lo
      · refine ⟨_, x i, 0, d :: t, hf, ?_, le_rfl, fun h => absurd rfl h, ⟨0, Nat.zero_le _, rfl⟩, fun ℓ => ?_⟩
        · have : logOf 0 = PyF.ninf := by
            unfold logOf
            rw [if_neg (lt_irrefl _)]
          rw [this]
          exact death_empty hi hn _
        · rw [hm, acceptV_zero]
          unfold diedV
          rw [if_pos hn]
      · refine ⟨_, removeRow (sps i).info.lo (sps i).info.hi (x i) d.n, 1, t, hf, ?_, zero_le_one, fun _ => ?_, ⟨1, by omega, rfl⟩, fun ℓ => ?_⟩
        · rw [logOf_one]
          exact death_run hi hn h0 hx.1.2 d t
        · exact possible_removeRow hx hn
        · rw [hm]
          unfold diedV
          rw [if_neg hn]
          have e : (diedK sps K i).ratio x d = 1 := if_neg hn
          rw [← e]
          rfl
    · obtain ⟨y, r, t', h1, h2, h3, hs, h4⟩ := hwalk
      refine ⟨_, y, r, t', hval (Or.inr rfl), h1, h2, h3, hs, fun ℓ => ?_⟩
      rw [← h4]
      unfold moveV
      rw [if_neg (by simp), if_neg (by simp)]
  · obtain ⟨y, r, t', h1, h2, h3, hs, h4⟩ := hwalk
    refine ⟨_, y, r, t', hval (Or.inl hb), h1, h2, h3, hs, fun ℓ => ?_⟩
    rw [← h4]
    unfold moveV
    rw [hb, if_neg (by simp), if_neg (by simp)]

/-! ### the state -/

theorem dset_ofFn {α : Type} : ∀ {m : ℕ} {nm : Fin m → String} (_ : Function.Injective nm) (v : Fin m → α) (i : Fin m) (a : α),
    dset (List.ofFn fun j => (nm j, v j)) (nm i) a = List.ofFn fun j => (nm j, Function.update v i a j)
  | 0, _, _, _, i, _ => i.elim0
  | m + 1, nm, hn, v, i, a => by
    rw [List.ofFn_succ, List.ofFn_succ]
    refine Fin.cases ?_ (fun i => ?_) i
    · rw [dset, if_pos rfl, Function.update_self]
      congr 2
    · have h1 : nm 0 ≠ nm i.succ := fun e => absurd (hn e) (Fin.succ_ne_zero i).symm
      rw [dset, if_neg h1, Function.update_of_ne (Fin.succ_ne_zero i).symm]
      congr 1
      have h2 : Function.Injective fun j : Fin m => nm j.succ := fun a b e => Fin.succ_injective _ (hn e)
      rw [dset_ofFn h2 (fun j => v j.succ) i a]
      congr 1
      funext j
      by_cases hj : j = i
      · subst hj
        rw [Function.update_self, Function.update_self]
      · rw [Function.update_of_ne hj, Function.update_of_ne fun e => hj (Fin.succ_injective _ e)]

/-- All values are arrays. -/
def Flat (s : PSState) : Prop := ∀ kv ∈ s.vals, ∃ a, kv.2 = .arr a

theorem countVals_flat {name : String} : ∀ {l : List (String × PVal)}, (∀ kv ∈ l, ∃ a, kv.2 = .arr a) →
    countVals name l = .ok (0, [])
  | [], _ => rfl
  | (k, v) :: l, h => by
    obtain ⟨a, e⟩ := h (k, v) (List.mem_cons_self ..)
    simp only at e
    subst e
    rw [countVals]
    exact countVals_flat fun kv hkv => h kv (List.mem_cons_of_mem _ hkv)

theorem countQueue_flat {name : String} : ∀ {q : List PSState} {n : ℕ}, (∀ s ∈ q, Flat s) → countQueue name q n = .ok n
  | [], n, _ => by rw [countQueue]
  | s :: q, n, h => by
    have hs := countVals_flat (name := name) (h s (List.mem_cons_self ..))
    rw [countQueue]
    split
    · rename_i e; rw [hs] at e; cases e
    · rename_i a b e
      rw [hs] at e
      injection e with e
      injection e with e1 e2
      subst e1 e2
      rw [List.append_nil, Nat.add_zero]
      exact countQueue_flat fun s hs => h s (List.mem_cons_of_mem _ hs)

/-- All values of the `State` are states of parameter spaces without nested ones. -/
def AllFlat (p : Params) : Prop := ∀ kv ∈ p, ∃ s, kv.2 = .ps s ∧ Flat s

theorem countTop_flat {name : String} : ∀ {p : Params}, AllFlat p → (dkeys p).Nodup →
    (∀ s ∈ (countTop name p).2, Flat s) ∧ (countTop name p).1 = if name ∈ dkeys p then 1 else 0
  | [], _, _ => ⟨fun s hs => absurd hs List.not_mem_nil, rfl⟩
  | (k, v) :: p, h, hn => by
    obtain ⟨s, e, hs⟩ := h (k, v) (List.mem_cons_self ..)
    simp only at e
    subst e
    have hn' : k ∉ dkeys p ∧ (dkeys p).Nodup := List.nodup_cons.1 hn
    obtain ⟨h1, h2⟩ := countTop_flat (name := name) (p := p) (fun kv hkv => h kv (List.mem_cons_of_mem _ hkv)) hn'.2
    rw [countTop]
    simp only
    have hmem : name ∈ dkeys ((k, TopVal.ps s) :: p) ↔ name = k ∨ name ∈ dkeys p := List.mem_cons
    by_cases hk : k = name
    · rw [if_pos hk, if_pos (hmem.2 (Or.inl hk.symm))]
      refine ⟨h1, ?_⟩
      rw [h2, if_neg (hk ▸ hn'.1)]
    · rw [if_neg hk]
      refine ⟨fun s' hs' => ?_, ?_⟩
      · rcases List.mem_cons.1 hs' with e | hs'
        · rw [e]; exact hs
        · exact h1 s' hs'
      · simp only
        rw [h2]
        have : name ∈ dkeys ((k, TopVal.ps s) :: p) ↔ name ∈ dkeys p := hmem.trans ⟨fun h => h.resolve_left (Ne.symm hk), Or.inr⟩
        simp only [this]

theorem countInstances_flat {name : String} {p : Params} (h : AllFlat p) (hn : (dkeys p).Nodup) (hm : name ∈ dkeys p) :
    countInstances name p = .ok 1 := by
  obtain ⟨h1, h2⟩ := countTop_flat (name := name) h hn
  unfold countInstances
  rw [countQueue_flat h1, h2, if_pos hm]

theorem pertTop_other {g : PSPert} {target : ℕ} : ∀ {p : Params} {l : PertLocals} (t : List Draw), AllFlat p →
    g.name ∉ dkeys p → ∃ q, g.pertTop target p l t = (.ok (l, q), t)
  | [], l, t, _, _ => ⟨[], rfl⟩
  | (k, v) :: p, l, t, h, hk => by
    obtain ⟨s, e, -⟩ := h (k, v) (List.mem_cons_self ..)
    simp only at e
    subst e
    have hk1 : k ≠ g.name := fun e => hk (by rw [← e]; exact List.mem_cons_self ..)
    obtain ⟨q, hq⟩ := pertTop_other (target := target) (p := p) (l := l) t (fun kv hkv => h kv (List.mem_cons_of_mem _ hkv))
      (fun hm => hk (List.mem_cons_of_mem _ hm))
    rw [PSPert.pertTop, if_neg hk1]
    exact ⟨_, M.bind_of hq⟩

/-- The variables after the state has been replaced. -/
noncomputable def visited (g : PSPert) (l : PertLocals) (new : PSState) (r : PyF) (nm : String) : PertLocals :=
  { params := l.params.modifyAt (fun _ => new) g.name [], i := l.i + 1, lpr := l.lpr.add r,
    stats := dset l.stats nm ((dget l.stats nm).getD 0 + 1) }

theorem pertTop_one {g : PSPert} {s new : PSState} {r : PyF} {nm : String} {t t' : List Draw}
    (hg : g.perturbPS s t = (.ok (new, r, nm), t')) : ∀ {p : Params} {l : PertLocals}, AllFlat p → (dkeys p).Nodup →
    (g.name, TopVal.ps s) ∈ p → ∃ q, g.pertTop l.i p l t =
      (.ok (visited g l new r nm, q), t')
  | [], l, _, _, hm => by cases hm
  | (k, v) :: p, l, h, hn, hm => by
    obtain ⟨s', e, -⟩ := h (k, v) (List.mem_cons_self ..)
    simp only at e
    subst e
    have hn' : k ∉ dkeys p ∧ (dkeys p).Nodup := List.nodup_cons.1 hn
    have h' : AllFlat p := fun kv hkv => h kv (List.mem_cons_of_mem _ hkv)
    rw [PSPert.pertTop]
    rcases List.mem_cons.1 hm with e | hm
    · injection e with e1 e2
      injection e2 with e2
      subst e2
      rw [if_pos e1.symm]
      have hv : g.visit l.i k [] s l t = (.ok (visited g l new r nm), t') := by
        unfold PSPert.visit
        rw [if_pos rfl, ← e1]
        exact M.bind_of hg
      obtain ⟨q, hq⟩ := pertTop_other (g := g) (target := l.i) (p := p) (l := (visited g l new r nm)) t' h' (e1 ▸ hn'.1)
      exact ⟨q, (M.bind_of hv).trans hq⟩
    · have hk1 : k ≠ g.name := by
        intro e
        refine hn'.1 ?_
        rw [e]
        exact List.mem_map.2 ⟨(g.name, TopVal.ps s), hm, rfl⟩
      obtain ⟨q, hq⟩ := pertTop_one hg (p := p) (l := l) h' hn'.2 hm
      rw [if_neg hk1]
      exact ⟨_, M.bind_of hq⟩

theorem pertQueue_done {g : PSPert} {target fuel : ℕ} {q : List QItem} {l : PertLocals} (h : target < l.i) (hf : fuel ≠ 0)
    (t : List Draw) : g.pertQueue target fuel q l t = (.ok l, t) := by
  cases q with
  | nil => rw [PSPert.pertQueue]; rfl
  | cons x q =>
    obtain ⟨f, rfl⟩ := Nat.exists_eq_succ_of_ne_zero hf
    rw [PSPert.pertQueue, if_neg (not_le.2 h)]
    rfl

theorem paramsOf_keys (x : Values sps) : dkeys (paramsOf sps x) = List.ofFn fun i => (sps i).info.name := by
  unfold paramsOf dkeys
  rw [List.map_ofFn]
  rfl

theorem paramsOf_nodup (hd : Function.Injective fun i => (sps i).info.name) (x : Values sps) : (dkeys (paramsOf sps x)).Nodup := by
  rw [paramsOf_keys]
  exact List.nodup_ofFn.2 hd

theorem paramsOf_mem (x : Values sps) (i : Fin m) : ((sps i).info.name, TopVal.ps ((sps i).stateOf (x i))) ∈ paramsOf sps x :=
  List.mem_ofFn.2 ⟨i, rfl⟩

theorem paramsOf_flat (x : Values sps) : AllFlat (paramsOf sps x) := by
  intro kv hkv
  obtain ⟨i, rfl⟩ := List.mem_ofFn.1 hkv
  refine ⟨_, rfl, fun kv hkv => ?_⟩
  obtain ⟨j, rfl⟩ := List.mem_ofFn.1 hkv
  exact ⟨_, rfl⟩

theorem paramsOf_set (hd : Function.Injective fun i => (sps i).info.name) (x : Values sps) (i : Fin m)
    (y : Tuple (Fin (sps i).size → ℝ)) :
    (paramsOf sps x).modifyAt (fun _ => (sps i).stateOf y) (sps i).info.name [] = paramsOf sps (Function.update x i y) := by
  unfold Params.modifyAt
  rw [dget_of_mem (paramsOf_nodup hd x) (paramsOf_mem x i)]
  simp only
  rw [PSState.modifyAt]
  unfold paramsOf
  rw [dset_ofFn hd (fun i => TopVal.ps ((sps i).stateOf (x i))) i]
  congr 1
  funext j
  by_cases hj : j = i
  · subst hj
    rw [Function.update_self, Function.update_self]
  · rw [Function.update_of_ne hj, Function.update_of_ne hj]

theorem nodes_pos {k : String} {s : PSState} : ∀ {p : Params}, (k, TopVal.ps s) ∈ p → nodesParams p ≠ 0
  | [], h => by cases h
  | (k', .ps s') :: p, h => by
    rw [nodesParams]
    cases s'
    rw [PSState.nodes]
    omega
  | (k', .noise d) :: p, h => by
    rw [nodesParams]
    rcases List.mem_cons.1 h with e | h
    · cases e
    · exact nodes_pos h

/-- A perturbation of the space `i`. -/
theorem perturb_run (h : ∀ i, (sps i).Ok) (hd : Function.Injective fun i => (sps i).info.name) {x : Values sps} (i : Fin m)
    (hx : PossibleIn (sps i) (x i)) {s : State} (hs : s.params = paramsOf sps x) {t : List Draw}
    (ht : (sps i).size + 3 ≤ t.length) :
    ∃ new y r t' st, (sps i).space.ownPert.perturb s t = (.ok (new, logOf r), t') ∧
      new.params = paramsOf sps (Function.update x i y) ∧ new.extra = [] ∧ new.cache = [("perturb_stats", .stats st)] ∧
      0 ≤ r ∧ (r ≠ 0 → PossibleIn (sps i) y) ∧ (∃ k ≤ (sps i).size + 3, t' = t.drop k) ∧
      ∀ ℓ, spaceV sps K ℓ i x t = acceptV ℓ x (Function.update x i y) r t' := by
  obtain ⟨d0, d1, t, rfl⟩ : ∃ d0 d1 t', t = d0 :: d1 :: t' := by
    match t, ht with
    | d0 :: d1 :: t, _ => exact ⟨d0, d1, t, rfl⟩
    | [d0], ht => simp at ht
  have ht' : (sps i).size + 1 ≤ t.length := by
    simp only [List.length_cons] at ht
    omega
  have hlen := pick_lt (ownW_nonneg (sps i)) (ownW_sum (sps i)) d1
  obtain ⟨f, y, r, t', hf, hrun, hr, hpos, ⟨k, hk, hdrop⟩, hV⟩ := func_run (K := K) h i hx hlen ht'
  have hps : (sps i).space.ownPert.perturbPS ((sps i).stateOf (x i)) (d1 :: t) = (.ok ((sps i).stateOf y, logOf r, f.name), t') := by
    unfold PSPert.perturbPS
    rw [ownFuncs_length (h i), ownWeights_plain (h i)]
    refine (M.bind_of (choices_pick (ownW_nonneg (sps i)) (ownW_sum (sps i)) d1 t)).trans ?_
    simp only [hf]
    exact M.bind_of hrun
  obtain ⟨q, hq⟩ := pertTop_one hps (p := s.params) (l := { params := s.params, i := 0, lpr := .fin 0, stats := [] })
    (hs ▸ paramsOf_flat x) (hs ▸ paramsOf_nodup hd x) (hs ▸ paramsOf_mem x i)
  have hc : countInstances (sps i).space.ownPert.name s.params = .ok 1 :=
    countInstances_flat (hs ▸ paramsOf_flat x) (hs ▸ paramsOf_nodup hd x) (by
      rw [hs]
      exact List.mem_map.2 ⟨_, paramsOf_mem x i, rfl⟩)
  have hmod : s.params.modifyAt (fun _ => (sps i).stateOf y) (sps i).space.ownPert.name [] = paramsOf sps (Function.update x i y) := by
    rw [hs]
    exact paramsOf_set hd x i y
  have h0 : d0.n % 1 = 0 := Nat.mod_one _
  have hz : PyF.add (.fin 0) (logOf r) = logOf r := by
    unfold logOf
    split
    · change PyF.fin (0 + _) = _
      rw [zero_add]
    · rfl
  refine ⟨?new, y, r, t', ?st, ?run, ?_, ?_, ?_, hr, hpos, ⟨k + 2, by omega, hdrop⟩, fun ℓ => hV ℓ⟩
  case run =>
    unfold PSPert.perturb
    rw [hc]
    refine (M.bind_of rfl).trans ((M.bind_of (M.randIdx_run (n := 1) one_ne_zero d0 _)).trans ?_)
    rw [h0]
    refine (M.bind_of hq).trans ?_
    simp only
    refine (M.bind_of (pertQueue_done (target := 0) (Nat.succ_pos 0) (nodes_pos (hs ▸ paramsOf_mem x i)) t')).trans ?_
    unfold visited
    simp only
    rw [hz]
    exact rfl
  rotate_left
  · exact hmod
  · rfl
  · exact rfl

end

end BB.Lemmas
