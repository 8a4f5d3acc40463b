import Verif.Lemmas.TransD
import Mathlib.MeasureTheory.Constructions.BorelSpace.Order
import Mathlib.MeasureTheory.Constructions.BorelSpace.Real

/-!
# Births whose law depends on the rows there are, and deaths
-/

namespace BB.Lemmas

open BB.Spec MeasureTheory

section Perm

variable {R : Type}

/-- Two families with the same rows are related by a permutation. -/
theorem exists_perm : ∀ {n : ℕ} (f g : Fin n → R), (List.ofFn f).Perm (List.ofFn g) →
    ∃ σ : Equiv.Perm (Fin n), ∀ i, f i = g (σ i)
  | 0, _, _, _ => ⟨Equiv.refl _, fun i => i.elim0⟩
  | n + 1, f, g, h => by
    have h0 : f 0 ∈ List.ofFn g := h.subset (List.mem_ofFn.2 ⟨0, rfl⟩)
    obtain ⟨i, hi⟩ := List.mem_ofFn.1 h0
    have h1 := (ofFn_succAbove f 0).symm.trans (h.trans (ofFn_succAbove g i))
    rw [← hi] at h1
    obtain ⟨σ, hσ⟩ := exists_perm (fun j => f ((0 : Fin (n + 1)).succAbove j)) (fun j => g (i.succAbove j)) h1.cons_inv
    let τ : Fin (n + 1) → Fin (n + 1) := Fin.cons i fun j => i.succAbove (σ j)
    have hτ : Function.Injective τ := by
      intro a b
      refine Fin.cases ?_ (fun a => ?_) a <;> refine Fin.cases ?_ (fun b => ?_) b
      · exact fun _ => rfl
      · intro hc
        exact absurd hc.symm (Fin.succAbove_ne i (σ b))
      · intro hc
        exact absurd hc (Fin.succAbove_ne i (σ a))
      · intro hc
        have : i.succAbove (σ a) = i.succAbove (σ b) := hc
        rw [σ.injective (Fin.succAbove_right_injective this)]
    refine ⟨Equiv.ofBijective τ (Finite.injective_iff_bijective.1 hτ), fun a => ?_⟩
    refine Fin.cases ?_ (fun a => ?_) a
    · exact hi.symm
    · have := hσ a
      rw [Fin.zero_succAbove] at this
      exact this

theorem sameRows_perm {n : ℕ} {f g : Fin n → R} (h : SameRows (tup n f) (tup n g)) :
    ∃ σ : Equiv.Perm (Fin n), ∀ i, f i = g (σ i) := exists_perm f g h

theorem perm_meas [MeasurableSpace R] [MeasurableEq R] {Y : Type} [MeasurableSpace Y] {n m : ℕ} {f : Y → Fin n → R}
    {g : Y → Fin m → R} (hf : Measurable f) (hg : Measurable g) :
    MeasurableSet {y | (List.ofFn (f y)).Perm (List.ofFn (g y))} := by
  by_cases h : n = m
  · subst h
    have : {y | (List.ofFn (f y)).Perm (List.ofFn (g y))} = ⋃ σ : Equiv.Perm (Fin n), ⋂ i, {y | f y i = g y (σ i)} := by
      ext y
      simp only [Set.mem_iUnion, Set.mem_iInter, Set.mem_ofPred_eq]
      constructor
      · exact fun hp => exists_perm _ _ hp
      · rintro ⟨σ, hσ⟩
        have : f y = g y ∘ σ := funext hσ
        rw [this]
        exact Equiv.Perm.ofFn_comp_perm σ (g y)
    rw [this]
    refine MeasurableSet.iUnion fun σ => MeasurableSet.iInter fun i => ?_
    exact measurableSet_eq_fun ((measurable_pi_apply i).comp hf) ((measurable_pi_apply (σ i)).comp hg)
  · have : {y | (List.ofFn (f y)).Perm (List.ofFn (g y))} = ∅ := by
      ext y
      simp only [Set.mem_ofPred_eq, Set.mem_empty_iff_false, iff_false]
      intro hc
      have := hc.length_eq
      rw [List.length_ofFn, List.length_ofFn] at this
      exact h this
    rw [this]
    exact MeasurableSet.empty

end Perm

section Density

variable {R : Type}

open Classical in
/-- The density of the row that `y` has in addition to those of `x` (0 if there is no such row). -/
noncomputable def gain (q : Tuple R → R → ℝ) (x y : Tuple R) : ℝ :=
  ⨆ i : Fin y.1, if (List.ofFn y.2).Perm (y.2 i :: List.ofFn x.2) then q x (y.2 i) else 0

theorem gain_eq {q : Tuple R → R → ℝ} (hq : ∀ x r, 0 ≤ q x r) {x y : Tuple R} {r : R}
    (h : (List.ofFn y.2).Perm (r :: List.ofFn x.2)) : gain q x y = q x r := by
  classical
  have key : ∀ i : Fin y.1, (List.ofFn y.2).Perm (y.2 i :: List.ofFn x.2) → y.2 i = r := by
    intro i hi
    have h2 := hi.symm.trans h
    have h3 : (y.2 i ::ₘ (↑(List.ofFn x.2) : Multiset R)) = r ::ₘ ↑(List.ofFn x.2) := by
      rw [Multiset.cons_coe, Multiset.cons_coe, Multiset.coe_eq_coe]
      exact h2
    exact (Multiset.cons_inj_left _).1 h3
  obtain ⟨i, hi⟩ := List.mem_ofFn.1 (h.symm.subset (List.mem_cons_self ..))
  have : Nonempty (Fin y.1) := ⟨i⟩
  unfold gain
  refine le_antisymm (ciSup_le fun j => ?_) ?_
  · split
    · next hj => rw [key j hj]
    · exact hq x r
  · refine le_ciSup_of_le (Set.finite_range _).bddAbove i ?_
    have hi' : y.2 i = r := hi
    rw [hi', if_pos h]

theorem gain_none {q : Tuple R → R → ℝ} {x y : Tuple R} (h : ∀ r, ¬ (List.ofFn y.2).Perm (r :: List.ofFn x.2)) :
    gain q x y = 0 := by
  classical
  unfold gain
  have : ∀ i : Fin y.1, (if (List.ofFn y.2).Perm (y.2 i :: List.ofFn x.2) then q x (y.2 i) else 0) = 0 :=
    fun i => if_neg (h _)
  simp only [this]
  exact Real.iSup_const_zero

theorem gain_dim {q : Tuple R → R → ℝ} {x y : Tuple R} (h : y.1 ≠ x.1 + 1) : gain q x y = 0 := by
  refine gain_none fun r hc => h ?_
  have := hc.length_eq
  rw [List.length_ofFn, List.length_cons, List.length_ofFn] at this
  exact this

theorem gain_nonneg {q : Tuple R → R → ℝ} (hq : ∀ x r, 0 ≤ q x r) (x y : Tuple R) : 0 ≤ gain q x y := by
  by_cases h : ∃ r, (List.ofFn y.2).Perm (r :: List.ofFn x.2)
  · obtain ⟨r, hr⟩ := h
    rw [gain_eq hq hr]
    exact hq x r
  · rw [gain_none fun r hr => h ⟨r, hr⟩]

theorem gain_same {q : Tuple R → R → ℝ} (hq : ∀ x r, 0 ≤ q x r) (hs : ∀ x x', SameRows x x' → q x = q x')
    {x x' y y' : Tuple R} (hx : SameRows x x') (hy : SameRows y y') : gain q x y = gain q x' y' := by
  by_cases h : ∃ r, (List.ofFn y.2).Perm (r :: List.ofFn x.2)
  · obtain ⟨r, hr⟩ := h
    rw [gain_eq hq hr, gain_eq hq (hy.symm.trans (hr.trans (hx.cons r))), hs x x' hx]
  · rw [gain_none fun r hr => h ⟨r, hr⟩, gain_none fun r hr => h ⟨r, hy.trans (hr.trans (hx.symm.cons r))⟩]

/-- The product of the densities of the rows. -/
noncomputable def rowsDens (p : R → ℝ) (x : Tuple R) : ℝ := ((List.ofFn x.2).map p).prod

theorem rowsDens_eq (p : R → ℝ) (n : ℕ) (v : Fin n → R) : rowsDens p (tup n v) = ∏ i, p (v i) := by
  unfold rowsDens
  rw [List.map_ofFn, List.prod_ofFn]
  rfl

theorem rowsDens_same {p : R → ℝ} {x y : Tuple R} (h : SameRows x y) : rowsDens p x = rowsDens p y :=
  (h.map p).prod_eq

theorem rowsDens_cons {p : R → ℝ} {x y : Tuple R} {r : R} (h : (List.ofFn y.2).Perm (r :: List.ofFn x.2)) :
    rowsDens p y = p r * rowsDens p x := by
  unfold rowsDens
  rw [(h.map p).prod_eq, List.map_cons, List.prod_cons]

theorem rowsDens_nonneg {p : R → ℝ} (hp : ∀ r, 0 ≤ p r) (x : Tuple R) : 0 ≤ rowsDens p x :=
  List.prod_nonneg fun a ha => by
    obtain ⟨r, -, rfl⟩ := List.mem_map.1 ha
    exact hp r

variable [MeasurableSpace R]

theorem rowsDens_meas {p : R → ℝ} (hp : Measurable p) : Measurable (rowsDens p) := by
  refine measurable_tuple fun n => ?_
  simp only [rowsDens_eq]
  exact Finset.measurable_prod _ fun i _ => hp.comp (measurable_pi_apply i)

theorem measurable_tuples {Y : Type} [MeasurableSpace Y] {f : Tuple R × Tuple R → Y}
    (h : ∀ n m, Measurable fun z : (Fin n → R) × (Fin m → R) => f (tup n z.1, tup m z.2)) : Measurable f := by
  refine measurable_tuple_prod fun n => ?_
  have h1 : Measurable fun z : Tuple R × (Fin n → R) => f (tup n z.2, z.1) := by
    refine measurable_tuple_prod fun m => ?_
    exact (h n m).comp measurable_swap
  exact h1.comp measurable_swap

theorem gain_meas [MeasurableEq R] {q : Tuple R → R → ℝ} (hq : Measurable fun z : Tuple R × R => q z.1 z.2) :
    Measurable fun z : Tuple R × Tuple R => gain q z.1 z.2 := by
  classical
  refine measurable_tuples fun n m => ?_
  have key : ∀ i : Fin m, Measurable fun z : (Fin n → R) × (Fin m → R) =>
      if (List.ofFn z.2).Perm (z.2 i :: List.ofFn z.1) then q (tup n z.1) (z.2 i) else 0 := by
    intro i
    refine Measurable.ite ?_ ?_ measurable_const
    · have h1 : Measurable fun z : (Fin n → R) × (Fin m → R) => (Fin.cons (z.2 i) z.1 : Fin (n + 1) → R) := by
        refine measurable_pi_iff.2 fun j => ?_
        refine Fin.cases ?_ (fun j => ?_) j
        · exact (measurable_pi_apply i).comp measurable_snd
        · exact (measurable_pi_apply j).comp measurable_fst
      have h2 := perm_meas (Y := (Fin n → R) × (Fin m → R)) measurable_snd h1
      simp only [List.ofFn_cons] at h2
      exact h2
    · exact hq.comp (((measurable_mk n).comp measurable_fst).prodMk ((measurable_pi_apply i).comp measurable_snd))
  exact Measurable.iSup key

end Density

section Pi

variable {R : Type} [MeasurableSpace R]

/-- Independent rows with a density. -/
theorem lintegral_pi_density (lam : Measure R) [SigmaFinite lam] {p : R → ENNReal} (hp : Measurable p)
    [SigmaFinite (lam.withDensity p)] : ∀ (n : ℕ) {G : (Fin n → R) → ENNReal}, Measurable G →
    ∫⁻ v, G v ∂(Measure.pi fun _ : Fin n => lam.withDensity p) = ∫⁻ v, (∏ i, p (v i)) * G v ∂(Measure.pi fun _ : Fin n => lam)
  | 0, G, _ => by simp [lintegral_unique, Measure.pi_of_empty]
  | n + 1, G, hG => by
    have hpr : ∀ n : ℕ, Measurable fun v : Fin n → R => ∏ i, p (v i) := fun n =>
      Finset.measurable_prod _ fun i _ => hp.comp (measurable_pi_apply i)
    have hm : Measurable fun z : R × (Fin n → R) => G (insertAt 0 z.1 z.2) := hG.comp (insertAt_meas 0)
    have hm' : Measurable fun z : R × (Fin n → R) => (∏ i, p (insertAt 0 z.1 z.2 i)) * G (insertAt 0 z.1 z.2) :=
      ((hpr (n + 1)).mul hG).comp (insertAt_meas 0)
    rw [lintegral_succ _ 0, lintegral_succ _ 0, lintegral_prod _ hm.aemeasurable, lintegral_prod _ hm'.aemeasurable]
    have h1 : ∀ r, ∫⁻ v, G (insertAt 0 r v) ∂(Measure.pi fun _ : Fin n => lam.withDensity p) =
        ∫⁻ v, (∏ i, p (v i)) * G (insertAt 0 r v) ∂(Measure.pi fun _ : Fin n => lam) :=
      fun r => lintegral_pi_density lam hp n (hm.comp (measurable_const.prodMk measurable_id))
    have h2 : Measurable fun z : R × (Fin n → R) => (∏ i, p (z.2 i)) * G (insertAt 0 z.1 z.2) :=
      ((hpr n).comp measurable_snd).mul hm
    rw [lintegral_congr h1, lintegral_withDensity_eq_lintegral_mul _ hp (Measurable.lintegral_prod_right' h2)]
    refine lintegral_congr fun r => ?_
    have h3 : Measurable fun v : Fin n → R => (∏ i, p (v i)) * G (insertAt 0 r v) :=
      h2.comp (measurable_const.prodMk measurable_id)
    refine (lintegral_const_mul (p r) h3).symm.trans ?_
    refine lintegral_congr fun v => ?_
    rw [Fin.prod_univ_succ, ← mul_assoc]
    simp [insertAt]

theorem lintegral_transPrior_density (lam : Measure R) [SigmaFinite lam] {p : R → ℝ} (hp : Measurable p) (hp0 : ∀ r, 0 ≤ p r)
    [SigmaFinite (lam.withDensity fun r => ENNReal.ofReal (p r))] (lo hi : ℕ) {G : Tuple R → ENNReal} (hG : Measurable G) :
    ∫⁻ x, G x ∂transPrior (lam.withDensity fun r => ENNReal.ofReal (p r)) lo hi =
      ∫⁻ x, ENNReal.ofReal (rowsDens p x) * G x ∂transPrior lam lo hi := by
  have hm : Measurable fun x => ENNReal.ofReal (rowsDens p x) * G x := (rowsDens_meas hp).ennreal_ofReal.mul hG
  rw [lintegral_transPrior _ lo hi hG, lintegral_transPrior _ lo hi hm]
  refine Finset.sum_congr rfl fun n _ => ?_
  have hGn : Measurable fun v : Fin n → R => G (tup n v) := hG.comp (measurable_mk n)
  refine (lintegral_pi_density lam hp.ennreal_ofReal n hGn).trans ?_
  refine lintegral_congr fun v => ?_
  rw [rowsDens_eq, ENNReal.ofReal_prod_of_nonneg fun i _ => hp0 _]

end Pi

section Scheme

variable {R : Type} [MeasurableSpace R] {Ω : Type} [MeasurableSpace Ω]

open Classical in
/-- Births (the first proposal) and deaths (the second one).  The row of a birth in the model `x` is `new x ω`, where `ω` has
the law `μ`; with respect to the measure `lam`, its density is `q x`, and that of the rows of the prior is `p`. -/
noncomputable def birthDeathFrom (lam : Measure R) (p : R → ℝ) (q : Tuple R → R → ℝ) (μ : Measure Ω)
    (new : Tuple R → Ω → R) (lo hi : ℕ) : Scheme (Tuple R) (ℕ × Ω) 2 where
  prior := transPrior (lam.withDensity fun r => ENNReal.ofReal (p r)) lo hi
  draws := (uniformNat hi.factorial).prod μ
  move := fun i x θ => if i = 0 then addRow hi x θ.1 (new x θ.2) else removeRow lo hi x θ.1
  rev := fun i => if i = 0 then 1 else 0
  common := fun _ => pairs lam lo hi
  dens := fun i z =>
    if i = 0 then rowsDens p z.1 * if z.1.1 = hi ∧ z.2.1 = z.1.1 then 1 else gain q z.1 z.2
    else rowsDens p z.1 * if z.1.1 = z.2.1 + 1 ∨ (z.1.1 = lo ∧ z.2.1 = z.1.1) then 1 else 0

variable (lam : Measure R) (p : R → ℝ) (q : Tuple R → R → ℝ) (μ : Measure Ω) (new : Tuple R → Ω → R) (lo hi : ℕ)

theorem from_move0 (x : Tuple R) (θ : ℕ × Ω) :
    (birthDeathFrom lam p q μ new lo hi).move 0 x θ = addRow hi x θ.1 (new x θ.2) := by
  unfold birthDeathFrom
  simp only [if_true]

theorem from_move1 (x : Tuple R) (θ : ℕ × Ω) :
    (birthDeathFrom lam p q μ new lo hi).move 1 x θ = removeRow lo hi x θ.1 := by
  unfold birthDeathFrom
  have : ¬ (1 : Fin 2) = 0 := by decide
  simp only [this, if_false]

open Classical in
theorem from_dens0 (x y : Tuple R) : (birthDeathFrom lam p q μ new lo hi).dens 0 (x, y) =
    rowsDens p x * if x.1 = hi ∧ y.1 = x.1 then 1 else gain q x y := by
  unfold birthDeathFrom
  simp only [if_true]

open Classical in
theorem from_dens1 (x y : Tuple R) : (birthDeathFrom lam p q μ new lo hi).dens 1 (x, y) =
    rowsDens p x * if x.1 = y.1 + 1 ∨ (x.1 = lo ∧ y.1 = x.1) then 1 else 0 := by
  unfold birthDeathFrom
  have : ¬ (1 : Fin 2) = 0 := by decide
  simp only [this, if_false]

variable {lam p q μ new lo hi}

theorem from_dens_meas [MeasurableEq R] (hp : Measurable p) (hq : Measurable fun z : Tuple R × R => q z.1 z.2) (i : Fin 2) :
    Measurable ((birthDeathFrom lam p q μ new lo hi).dens i) := by
  classical
  have h1 : Measurable fun z : Tuple R × Tuple R => (z.1.1, z.2.1) :=
    (dim_meas.comp measurable_fst).prodMk (dim_meas.comp measurable_snd)
  have h2 : Measurable fun z : Tuple R × Tuple R => rowsDens p z.1 := (rowsDens_meas hp).comp measurable_fst
  by_cases h0 : i = 0
  · subst h0
    have h3 : MeasurableSet {z : Tuple R × Tuple R | z.1.1 = hi ∧ z.2.1 = z.1.1} :=
      h1 (MeasurableSet.of_discrete (s := {d : ℕ × ℕ | d.1 = hi ∧ d.2 = d.1}))
    have h4 : Measurable fun z : Tuple R × Tuple R => rowsDens p z.1 * if z.1.1 = hi ∧ z.2.1 = z.1.1 then 1 else gain q z.1 z.2 :=
      h2.mul (Measurable.ite h3 measurable_const (gain_meas hq))
    exact (congrArg Measurable (funext fun z : Tuple R × Tuple R => from_dens0 lam p q μ new lo hi z.1 z.2)).mpr h4
  · obtain rfl : i = 1 := by omega
    have h3 : MeasurableSet {z : Tuple R × Tuple R | z.1.1 = z.2.1 + 1 ∨ (z.1.1 = lo ∧ z.2.1 = z.1.1)} :=
      h1 (MeasurableSet.of_discrete (s := {d : ℕ × ℕ | d.1 = d.2 + 1 ∨ (d.1 = lo ∧ d.2 = d.1)}))
    have h4 : Measurable fun z : Tuple R × Tuple R =>
        rowsDens p z.1 * if z.1.1 = z.2.1 + 1 ∨ (z.1.1 = lo ∧ z.2.1 = z.1.1) then 1 else 0 :=
      h2.mul (Measurable.ite h3 measurable_const measurable_const)
    exact (congrArg Measurable (funext fun z : Tuple R × Tuple R => from_dens1 lam p q μ new lo hi z.1 z.2)).mpr h4

theorem from_move_meas (hnew : Measurable fun z : Tuple R × Ω => new z.1 z.2) (i : Fin 2) :
    Measurable fun z : Tuple R × (ℕ × Ω) => (birthDeathFrom lam p q μ new lo hi).move i z.1 z.2 := by
  by_cases h : i = 0
  · subst h
    simp only [from_move0]
    have h2 : Measurable fun z : Tuple R × (ℕ × Ω) => (z.1, (z.2.1, new z.1 z.2.2)) :=
      measurable_fst.prodMk (measurable_snd.fst.prodMk (hnew.comp (measurable_fst.prodMk measurable_snd.snd)))
    exact (addRow_meas hi).comp h2
  · obtain rfl : i = 1 := by omega
    simp only [from_move1]
    exact (removeRow_meas lo hi).comp (measurable_fst.prodMk measurable_snd.fst)

theorem from_birth_joint [MeasurableEq R] [SigmaFinite lam] [IsProbabilityMeasure μ] (hp : Measurable p) (hp0 : ∀ r, 0 ≤ p r)
    [SigmaFinite (lam.withDensity fun r => ENNReal.ofReal (p r))] (hq : Measurable fun z : Tuple R × R => q z.1 z.2)
    (hq0 : ∀ x r, 0 ≤ q x r) (hnew : Measurable fun z : Tuple R × Ω => new z.1 z.2)
    (hlaw : ∀ x, μ.map (new x) = lam.withDensity fun r => ENNReal.ofReal (q x r)) (hlh : lo < hi)
    {F : Tuple R × Tuple R → ENNReal} (hF : Measurable F) :
    ∫⁻ x, ∫⁻ k, ∫⁻ ω, F (x, addRow hi x k (new x ω)) ∂μ ∂uniformNat hi.factorial
        ∂transPrior (lam.withDensity fun r => ENNReal.ofReal (p r)) lo hi =
      ∫⁻ z, ENNReal.ofReal ((birthDeathFrom lam p q μ new lo hi).dens 0 z) * F z ∂pairs lam lo hi := by
  classical
  have := uniformNat_prob (Nat.factorial_ne_zero hi)
  have hg : Measurable fun z => ENNReal.ofReal ((birthDeathFrom lam p q μ new lo hi).dens 0 z) :=
    (from_dens_meas hp hq 0).ennreal_ofReal
  have hgF : Measurable fun z => ENNReal.ofReal ((birthDeathFrom lam p q μ new lo hi).dens 0 z) * F z := hg.mul hF
  have hm1 : Measurable fun z : (Tuple R × ℕ) × Ω => F (z.1.1, addRow hi z.1.1 z.1.2 (new z.1.1 z.2)) :=
    hF.comp (measurable_fst.fst.prodMk ((addRow_meas hi).comp (measurable_fst.fst.prodMk
      (measurable_fst.snd.prodMk (hnew.comp (measurable_fst.fst.prodMk measurable_snd))))))
  have hm2 : Measurable fun z : Tuple R × ℕ => ∫⁻ ω, F (z.1, addRow hi z.1 z.2 (new z.1 ω)) ∂μ :=
    Measurable.lintegral_prod_right' hm1
  have hm3 : Measurable fun x : Tuple R => ∫⁻ k, ∫⁻ ω, F (x, addRow hi x k (new x ω)) ∂μ ∂uniformNat hi.factorial :=
    Measurable.lintegral_prod_right' hm2
  have hm4 : Measurable fun x : Tuple R => ENNReal.ofReal (rowsDens p x) *
      ∫⁻ k, ∫⁻ ω, F (x, addRow hi x k (new x ω)) ∂μ ∂uniformNat hi.factorial := (rowsDens_meas hp).ennreal_ofReal.mul hm3
  rw [lintegral_transPrior_density lam hp hp0 lo hi hm3, lintegral_transPrior lam lo hi hm4,
    Finset.sum_Ico_succ_top hlh.le, lintegral_pairs lam lo hi hgF, Finset.sum_add_distrib]
  have e2 : ∀ n, ∫⁻ z, (fun z => ENNReal.ofReal ((birthDeathFrom lam p q μ new lo hi).dens 0 z) * F z) z.swap ∂birthPair lam n = 0 := by
    intro n
    have h := lintegral_deaths lam n hF hg (c := 0) fun v w => by
      rw [from_dens0, if_neg (by rintro ⟨-, h⟩; exact absurd h (by simp)), gain_dim (by simp; try omega), mul_zero, ENNReal.ofReal_zero]
    rw [zero_mul] at h
    exact h
  have e3 : ∫⁻ z, ENNReal.ofReal ((birthDeathFrom lam p q μ new lo hi).dens 0 z) * F z ∂diagonal lam lo = 0 := by
    have h := lintegral_stays lam lo hF hg (c := 0) fun v => by
      rw [from_dens0, if_neg (by rintro ⟨h, -⟩; exact absurd h hlh.ne), gain_dim (by simp), mul_zero, ENNReal.ofReal_zero]
    rw [zero_mul] at h
    exact h
  simp only [e2, e3, Finset.sum_const_zero, add_zero, zero_add]
  congr 1
  · refine Finset.sum_congr rfl fun n hn => ?_
    have hn' := Finset.mem_Ico.1 hn
    have hne : n ≠ hi := by omega
    rw [← birth_flow lam (Nat.factorial_ne_zero hi) (Nat.dvd_factorial (by omega) (by omega)) hne hgF]
    refine lintegral_congr fun v => ?_
    rw [← lintegral_const_mul' _ _ ENNReal.ofReal_ne_top]
    refine lintegral_congr fun k => ?_
    have hk : Measurable fun y => F (tup n v, addRow hi (tup n v) k y) :=
      hF.comp (measurable_const.prodMk ((addRow_meas hi).comp (measurable_const.prodMk
        (measurable_const.prodMk measurable_id))))
    have hqx : Measurable fun y => ENNReal.ofReal (q (tup n v) y) :=
      (hq.comp (measurable_const.prodMk measurable_id)).ennreal_ofReal
    have hnx : Measurable (new (tup n v)) := hnew.comp (measurable_const.prodMk measurable_id)
    have h1 : ∫⁻ ω, F (tup n v, addRow hi (tup n v) k (new (tup n v) ω)) ∂μ =
        ∫⁻ y, ENNReal.ofReal (q (tup n v) y) * F (tup n v, addRow hi (tup n v) k y) ∂lam := by
      have h2 := lintegral_map (μ := μ) hk hnx
      rw [hlaw, lintegral_withDensity_eq_lintegral_mul _ hqx hk] at h2
      exact h2.symm
    rw [h1, ← lintegral_const_mul' _ _ ENNReal.ofReal_ne_top]
    refine lintegral_congr fun y => ?_
    have h3 : gain q (tup n v) (addRow hi (tup n v) k y) = q (tup n v) y := by
      refine gain_eq hq0 ?_
      unfold addRow
      rw [if_neg hne]
      exact ofFn_insertAt _ _ _
    rw [from_dens0, if_neg (by rintro ⟨h, -⟩; exact hne h), h3, ENNReal.ofReal_mul (rowsDens_nonneg hp0 _), mul_assoc]
  · rw [lintegral_diagonal lam hi hgF]
    refine lintegral_congr fun v => ?_
    have h1 : ∀ k y, addRow hi (tup hi v) k y = tup hi v := fun k y => if_pos rfl
    simp only [h1, lintegral_const, measure_univ, mul_one]
    rw [from_dens0, if_pos ⟨rfl, rfl⟩, mul_one]

theorem from_death_joint [MeasurableEq R] [SigmaFinite lam] (hp : Measurable p) (hp0 : ∀ r, 0 ≤ p r)
    [SigmaFinite (lam.withDensity fun r => ENNReal.ofReal (p r))] (hq : Measurable fun z : Tuple R × R => q z.1 z.2)
    (hlh : lo < hi) {F : Tuple R × Tuple R → ENNReal} (hF : Measurable F) :
    ∫⁻ x, ∫⁻ k, F (x, removeRow lo hi x k) ∂uniformNat hi.factorial
        ∂transPrior (lam.withDensity fun r => ENNReal.ofReal (p r)) lo hi =
      ∫⁻ z, ENNReal.ofReal ((birthDeathFrom lam p q μ new lo hi).dens 1 z) * F z ∂pairs lam lo hi := by
  classical
  have := uniformNat_prob (Nat.factorial_ne_zero hi)
  have hg : Measurable fun z => ENNReal.ofReal ((birthDeathFrom lam p q μ new lo hi).dens 1 z) :=
    (from_dens_meas hp hq 1).ennreal_ofReal
  have hgF : Measurable fun z => ENNReal.ofReal ((birthDeathFrom lam p q μ new lo hi).dens 1 z) * F z := hg.mul hF
  have hpF : Measurable fun z : Tuple R × Tuple R => ENNReal.ofReal (rowsDens p z.1) * F z :=
    ((rowsDens_meas hp).comp measurable_fst).ennreal_ofReal.mul hF
  have hm1 : Measurable fun z : Tuple R × ℕ => F (z.1, removeRow lo hi z.1 z.2) :=
    hF.comp (measurable_fst.prodMk (removeRow_meas lo hi))
  have hm2 : Measurable fun x : Tuple R => ∫⁻ k, F (x, removeRow lo hi x k) ∂uniformNat hi.factorial :=
    Measurable.lintegral_prod_right' hm1
  rw [lintegral_transPrior_density lam hp hp0 lo hi hm2]
  have h1 : ∀ x, ENNReal.ofReal (rowsDens p x) * ∫⁻ k, F (x, removeRow lo hi x k) ∂uniformNat hi.factorial =
      ∫⁻ k, ENNReal.ofReal (rowsDens p x) * F (x, removeRow lo hi x k) ∂uniformNat hi.factorial :=
    fun x => (lintegral_const_mul' _ _ ENNReal.ofReal_ne_top).symm
  rw [lintegral_congr h1, death_joint lam hlh hpF, lintegral_pairs lam lo hi hgF, Finset.sum_add_distrib]
  have e1 : ∀ n, ∫⁻ z, ENNReal.ofReal ((birthDeathFrom lam p q μ new lo hi).dens 1 z) * F z ∂birthPair lam n = 0 := by
    intro n
    have h := lintegral_births lam n hF hg (c := 0) fun v w => by
      rw [from_dens1, if_neg (by simp; omega), mul_zero, ENNReal.ofReal_zero]
    rw [zero_mul] at h
    exact h
  have e4 : ∫⁻ z, ENNReal.ofReal ((birthDeathFrom lam p q μ new lo hi).dens 1 z) * F z ∂diagonal lam hi = 0 := by
    have h := lintegral_stays lam hi hF hg (c := 0) fun v => by
      rw [from_dens1, if_neg (by simp; omega), mul_zero, ENNReal.ofReal_zero]
    rw [zero_mul] at h
    exact h
  simp only [e1, e4, Finset.sum_const_zero, add_zero, zero_add]
  congr 1
  · refine Finset.sum_congr rfl fun n _ => ?_
    have k1 := lintegral_birthPair (F := fun z => (fun z : Tuple R × Tuple R => ENNReal.ofReal (rowsDens p z.1) * F z) z.swap) lam n
      (hpF.comp measurable_swap)
    have k2 := lintegral_birthPair (F := fun z => (fun z => ENNReal.ofReal ((birthDeathFrom lam p q μ new lo hi).dens 1 z) * F z) z.swap)
      lam n (hgF.comp measurable_swap)
    rw [k1, k2]
    congr 1
    refine Finset.sum_congr rfl fun i _ => lintegral_congr fun z => ?_
    simp only [Prod.swap_prod_mk]
    rw [from_dens1, if_pos (.inl rfl), mul_one]
  · rw [lintegral_diagonal lam lo hpF, lintegral_diagonal lam lo hgF]
    refine lintegral_congr fun v => ?_
    rw [from_dens1, if_pos (.inr ⟨rfl, rfl⟩), mul_one]

theorem transPrior_sfinite (ρ : Measure R) [SigmaFinite ρ] (lo hi : ℕ) : SFinite (transPrior ρ lo hi) := by
  unfold transPrior
  refine Finset.sum_induction _ (fun m => SFinite m) (fun a b ha hb => ?_) inferInstance fun n _ => ?_
  · exact inferInstance
  · have : SFinite (Measure.pi fun _ : Fin n => ρ) := inferInstance
    exact inferInstance

theorem birthDeathFrom_ok [MeasurableEq R] [SigmaFinite lam] [IsProbabilityMeasure μ] (hp : Measurable p)
    (hp0 : ∀ r, 0 ≤ p r) [SigmaFinite (lam.withDensity fun r => ENNReal.ofReal (p r))]
    (hq : Measurable fun z : Tuple R × R => q z.1 z.2) (hq0 : ∀ x r, 0 ≤ q x r)
    (hnew : Measurable fun z : Tuple R × Ω => new z.1 z.2)
    (hlaw : ∀ x, μ.map (new x) = lam.withDensity fun r => ENNReal.ofReal (q x r)) (hlh : lo < hi) {w : Fin 2 → ℝ}
    (hw : w 0 = w 1) : (birthDeathFrom lam p q μ new lo hi).Ok w where
  sfinite := transPrior_sfinite _ lo hi
  prob := by
    have := uniformNat_prob (Nat.factorial_ne_zero hi)
    unfold birthDeathFrom
    infer_instance
  meas := from_move_meas hnew
  rev_rev := by
    intro i
    unfold birthDeathFrom
    fin_cases i <;> rfl
  rev_weight := by
    intro i
    unfold birthDeathFrom
    fin_cases i
    · exact hw.symm
    · exact hw
  symm := fun _ => pairs_symm lam lo hi
  dens_meas := from_dens_meas hp hq
  dens_nonneg := by
    classical
    intro i z
    by_cases h : i = 0
    · subst h
      refine (from_dens0 lam p q μ new lo hi z.1 z.2).symm ▸ mul_nonneg (rowsDens_nonneg hp0 _) ?_
      split
      · exact zero_le_one
      · exact gain_nonneg hq0 _ _
    · obtain rfl : i = 1 := by omega
      refine (from_dens1 lam p q μ new lo hi z.1 z.2).symm ▸ mul_nonneg (rowsDens_nonneg hp0 _) ?_
      split <;> norm_num
  joint := by
    have := uniformNat_prob (Nat.factorial_ne_zero hi)
    intro i
    have hsf : SFinite (transPrior (lam.withDensity fun r => ENNReal.ofReal (p r)) lo hi) :=
      transPrior_sfinite _ lo hi
    have hg := (from_dens_meas (lam := lam) (μ := μ) (new := new) (lo := lo) (hi := hi) hp hq i).ennreal_ofReal
    have hm : Measurable fun z : Tuple R × (ℕ × Ω) => (z.1, (birthDeathFrom lam p q μ new lo hi).move i z.1 z.2) :=
      measurable_fst.prodMk (from_move_meas hnew i)
    refine Measure.ext_of_lintegral _ fun F hF => ?_
    rw [lintegral_withDensity_eq_lintegral_mul _ hg hF, lintegral_map hF hm]
    change ∫⁻ z, F (z.1, (birthDeathFrom lam p q μ new lo hi).move i z.1 z.2)
      ∂((transPrior (lam.withDensity fun r => ENNReal.ofReal (p r)) lo hi).prod ((uniformNat hi.factorial).prod μ)) =
      ∫⁻ z, ENNReal.ofReal ((birthDeathFrom lam p q μ new lo hi).dens i z) * F z ∂pairs lam lo hi
    have hFm : Measurable fun z : Tuple R × (ℕ × Ω) => F (z.1, (birthDeathFrom lam p q μ new lo hi).move i z.1 z.2) := hF.comp hm
    rw [lintegral_prod _ hFm.aemeasurable]
    have h1 : ∀ x, ∫⁻ θ, F (x, (birthDeathFrom lam p q μ new lo hi).move i x θ) ∂((uniformNat hi.factorial).prod μ) =
        ∫⁻ k, ∫⁻ ω, F (x, (birthDeathFrom lam p q μ new lo hi).move i x (k, ω)) ∂μ ∂uniformNat hi.factorial := by
      intro x
      have hx : Measurable fun θ : ℕ × Ω => F (x, (birthDeathFrom lam p q μ new lo hi).move i x θ) :=
        hFm.comp (measurable_const.prodMk measurable_id)
      rw [lintegral_prod _ hx.aemeasurable]
    simp only [h1]
    by_cases h : i = 0
    · subst h
      simp only [from_move0]
      exact from_birth_joint hp hp0 hq hq0 hnew hlaw hlh hF
    · obtain rfl : i = 1 := by omega
      simp only [from_move1, lintegral_const, measure_univ, mul_one]
      exact from_death_joint hp hp0 hq hlh hF

theorem birthDeathFrom_lumps [IsProbabilityMeasure μ] (hq0 : ∀ x r, 0 ≤ q x r)
    (hqs : ∀ x x', SameRows x x' → q x = q x') (hns : ∀ x x', SameRows x x' → new x = new x') :
    (birthDeathFrom lam p q μ new lo hi).Lumps SameRows where
  dens := by
    classical
    intro i x x' y y' hx hy
    by_cases h : i = 0
    · subst h
      rw [from_dens0, from_dens0, rowsDens_same hx, gain_same hq0 hqs hx hy, SameRows.dim hx, SameRows.dim hy]
    · obtain rfl : i = 1 := by omega
      rw [from_dens1, from_dens1, rowsDens_same hx, SameRows.dim hx, SameRows.dim hy]
  law := by
    intro i x x' hx G hG hGr
    by_cases h : i = 0
    · subst h
      refine lintegral_congr fun θ => hGr _ _ ?_
      rw [from_move0, from_move0, hns x x' hx]
      exact addRow_sameRows hx _ _ _
    · obtain rfl : i = 1 := by omega
      have := uniformNat_prob (Nat.factorial_ne_zero hi)
      have h1 : ∀ x : Tuple R, ∫⁻ θ, G ((birthDeathFrom lam p q μ new lo hi).move 1 x θ)
          ∂(birthDeathFrom lam p q μ new lo hi).draws = ∫⁻ k, G (removeRow lo hi x k) ∂uniformNat hi.factorial := by
        intro x
        have hm : Measurable fun z : ℕ × Ω => G (removeRow lo hi x z.1) :=
          hG.comp ((removeRow_meas lo hi).comp (measurable_const.prodMk measurable_fst))
        simp only [from_move1]
        change ∫⁻ z : ℕ × Ω, G (removeRow lo hi x z.1) ∂(uniformNat hi.factorial).prod μ = _
        rw [lintegral_prod (fun z : ℕ × Ω => G (removeRow lo hi x z.1)) hm.aemeasurable]
        refine lintegral_congr fun k => ?_
        change ∫⁻ _, G (removeRow lo hi x k) ∂μ = _
        rw [lintegral_const, measure_univ, mul_one]
      rw [h1, h1]
      exact removeRow_mean hx hGr

end Scheme

end BB.Lemmas
