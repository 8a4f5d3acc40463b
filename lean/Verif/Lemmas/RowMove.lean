import Verif.Spec.RowMove
import Verif.Lemmas.TransD
import Verif.Lemmas.NoiseLaw

/-!
# Moves of a single row are in balance
-/

namespace BB.Lemmas

open BB.Spec MeasureTheory

section

variable {R Θ : Type} [MeasurableSpace R] [MeasurableSpace Θ] {ν : Measure R} {F : R → ℝ} {μ : Measure Θ} {m : R → Θ → R}
  {lo hi : ℕ}

omit [MeasurableSpace R] [MeasurableSpace Θ] in
theorem moveRow_dim (m : R → Θ → R) (hi : ℕ) (x : Tuple R) (k : ℕ) (θ : Θ) : (moveRow m hi x k θ).1 = x.1 := by
  unfold moveRow
  split <;> rfl

theorem moveRow_meas (hm : Measurable fun z : R × Θ => m z.1 z.2) (hi : ℕ) :
    Measurable fun z : Tuple R × (ℕ × Θ) => moveRow m hi z.1 z.2.1 z.2.2 := by
  refine measurable_tuple_prod fun n => ?_
  unfold moveRow
  by_cases h : hi < n
  · have h1 : Measurable fun z : (Fin n → R) × (ℕ × Θ) => tup n z.1 := (measurable_mk n).comp measurable_fst
    refine (congrArg Measurable (funext fun z => ?_)).mp h1
    exact (if_pos h).symm
  · simp only [h, if_false]
    have h1 : Measurable fun z : ℕ × ((Fin n → R) × Θ) => fun i : Fin n =>
        if i.val = z.1 % n then m (z.2.1 i) z.2.2 else z.2.1 i := by
      refine measurable_from_prod_countable_right fun k => measurable_pi_lambda _ fun i => ?_
      change Measurable fun z : (Fin n → R) × Θ => if i.val = k % n then m (z.1 i) z.2 else z.1 i
      by_cases hi : i.val = k % n
      · simp only [hi, if_true]
        have h3 : Measurable fun z : (Fin n → R) × Θ => (z.1 i, z.2) :=
          ((measurable_pi_apply i).comp measurable_fst).prodMk measurable_snd
        exact hm.comp h3
      · simp only [hi, if_false]
        exact (measurable_pi_apply i).comp measurable_fst
    have h2 : Measurable fun z : (Fin n → R) × (ℕ × Θ) => (z.2.1, (z.1, z.2.2)) := by fun_prop
    exact (measurable_mk n).comp (h1.comp h2)

omit [MeasurableSpace R] [MeasurableSpace Θ] in
/-- The model as a whole moves with the row. -/
theorem moveRow_apply (m : R → Θ → R) {hi n : ℕ} (hn : n + 1 ≤ hi) (k : ℕ) (v : Fin (n + 1) → R) (θ : Θ) :
    moveRow m hi (tup (n + 1) v) k θ =
      tup (n + 1) (Function.update v (Fin.ofNat (n + 1) k) (m (v (Fin.ofNat (n + 1) k)) θ)) := by
  unfold moveRow
  rw [if_neg (show ¬ hi < n + 1 by omega)]
  refine congrArg (tup (n + 1)) (funext fun i => ?_)
  by_cases h : i = Fin.ofNat (n + 1) k
  · subst h
    rw [if_pos (by rfl), Function.update_self]
  · rw [if_neg (show ¬ i.val = k % (n + 1) from fun hc => h (Fin.ext hc)), Function.update_of_ne h]

/-- Integrals over the moves of one of `n + 1` rows. -/
theorem lintegral_moveRow [SigmaFinite ν] [SFinite μ] (hm : Measurable fun z : R × Θ => m z.1 z.2) {n : ℕ} (hn : n + 1 ≤ hi)
    {G : Tuple R × Tuple R → ENNReal} (hG : Measurable G) :
    ∫⁻ v, ∫⁻ k, ∫⁻ θ, G (tup (n + 1) v, moveRow m hi (tup (n + 1) v) k θ) ∂μ ∂uniformNat hi.factorial
      ∂(Measure.pi fun _ : Fin (n + 1) => ν) =
    ((n + 1 : ℕ) : ENNReal)⁻¹ * ∑ i : Fin (n + 1), ∫⁻ v, ∫⁻ z, G (tup (n + 1) (insertAt i z.1 v), tup (n + 1) (insertAt i z.2 v))
      ∂(ν.prod μ).map (fun z => (z.1, m z.1 z.2)) ∂(Measure.pi fun _ : Fin n => ν) := by
  have hp : Measurable fun z : R × Θ => (z.1, m z.1 z.2) := measurable_fst.prodMk hm
  have h1 : ∀ v, ∫⁻ k, ∫⁻ θ, G (tup (n + 1) v, moveRow m hi (tup (n + 1) v) k θ) ∂μ ∂uniformNat hi.factorial =
      ((n + 1 : ℕ) : ENNReal)⁻¹ * ∑ i : Fin (n + 1), ∫⁻ θ, G (tup (n + 1) v, tup (n + 1) (Function.update v i (m (v i) θ))) ∂μ := by
    intro v
    rw [← uniform_fin (Nat.factorial_ne_zero hi) (Nat.dvd_factorial (Nat.succ_pos n) hn)]
    refine lintegral_congr fun k => lintegral_congr fun θ => ?_
    rw [moveRow_apply m hn]
  have hup : ∀ i : Fin (n + 1), Measurable fun z : (Fin (n + 1) → R) × Θ =>
      G (tup (n + 1) z.1, tup (n + 1) (Function.update z.1 i (m (z.1 i) z.2))) := by
    intro i
    refine hG.comp (((measurable_mk _).comp measurable_fst).prodMk ((measurable_mk _).comp ?_))
    have h3 : Measurable fun z : (Fin (n + 1) → R) × Θ => (z.1 i, z.2) :=
      ((measurable_pi_apply i).comp measurable_fst).prodMk measurable_snd
    have hmi : Measurable fun z : (Fin (n + 1) → R) × Θ => m (z.1 i) z.2 := hm.comp h3
    refine measurable_pi_lambda _ fun j => ?_
    by_cases h : j = i
    · subst h
      simp only [Function.update_self]
      exact hmi
    · simp only [Function.update_of_ne h]
      exact (measurable_pi_apply j).comp measurable_fst
  rw [lintegral_congr h1, lintegral_const_mul' _ _ (by simp),
    lintegral_finsetSum _ fun i _ => Measurable.lintegral_prod_right' (hup i)]
  congr 1
  refine Finset.sum_congr rfl fun i _ => ?_
  rw [lintegral_succ ν i]
  have hins : Measurable fun q : (R × (Fin n → R)) × Θ =>
      G (tup (n + 1) (insertAt i q.1.1 q.1.2), tup (n + 1) (insertAt i (m q.1.1 q.2) q.1.2)) := by
    refine hG.comp (((measurable_mk _).comp ((insertAt_meas i).comp measurable_fst)).prodMk ((measurable_mk _).comp
      ((insertAt_meas i).comp (Measurable.prodMk ?_ measurable_fst.snd))))
    exact hm.comp (measurable_fst.fst.prodMk measurable_snd)
  have h2 : ∀ z : R × (Fin n → R), ∫⁻ θ, G (tup (n + 1) (insertAt i z.1 z.2),
      tup (n + 1) (Function.update (insertAt i z.1 z.2) i (m (insertAt i z.1 z.2 i) θ))) ∂μ =
      ∫⁻ θ, G (tup (n + 1) (insertAt i z.1 z.2), tup (n + 1) (insertAt i (m z.1 θ) z.2)) ∂μ := by
    intro z
    refine lintegral_congr fun θ => ?_
    unfold insertAt
    rw [Fin.insertNth_apply_same, Fin.update_insertNth]
  rw [lintegral_congr h2, lintegral_prod_symm' _ (Measurable.lintegral_prod_right' hins)]
  refine lintegral_congr fun v => ?_
  have hv : Measurable fun z : R × R => G (tup (n + 1) (insertAt i z.1 v), tup (n + 1) (insertAt i z.2 v)) :=
    hG.comp (((measurable_mk _).comp ((insertAt_meas i).comp (measurable_fst.prodMk measurable_const))).prodMk
      ((measurable_mk _).comp ((insertAt_meas i).comp (measurable_snd.prodMk measurable_const))))
  rw [lintegral_map hv hp]
  have hvp : Measurable fun z : R × Θ => G (tup (n + 1) (insertAt i z.1 v), tup (n + 1) (insertAt i (m z.1 z.2) v)) := hv.comp hp
  exact (lintegral_prod _ hvp.aemeasurable).symm

theorem rowMove_common [SigmaFinite ν] [IsProbabilityMeasure μ] (hm : Measurable fun z : R × Θ => m z.1 z.2)
    {G : Tuple R × Tuple R → ENNReal} (hG : Measurable G) :
    ∫⁻ z, G z ∂(rowMove ν F μ m lo hi).common 0 = ∑ n ∈ Finset.Ico lo (hi + 1),
      ∫⁻ v, ∫⁻ k, ∫⁻ θ, G (tup n v, moveRow m hi (tup n v) k θ) ∂μ ∂uniformNat hi.factorial ∂(Measure.pi fun _ : Fin n => ν) := by
  have := uniformNat_prob (Nat.factorial_ne_zero hi)
  have h1 : Measurable fun z : Tuple R × (ℕ × Θ) => (z.1, moveRow m hi z.1 z.2.1 z.2.2) :=
    measurable_fst.prodMk (moveRow_meas hm hi)
  change ∫⁻ z, G z ∂((transPrior ν lo hi).prod ((uniformNat hi.factorial).prod μ)).map _ = _
  have h2 : Measurable fun z : Tuple R × (ℕ × Θ) => G (z.1, moveRow m hi z.1 z.2.1 z.2.2) := hG.comp h1
  rw [lintegral_map hG h1, lintegral_prod _ h2.aemeasurable,
    lintegral_transPrior ν lo hi (Measurable.lintegral_prod_right' h2)]
  refine Finset.sum_congr rfl fun n _ => lintegral_congr fun v => ?_
  have h3 : Measurable fun z : ℕ × Θ => G (tup n v, moveRow m hi (tup n v) z.1 z.2) :=
    h2.comp (measurable_const.prodMk measurable_id)
  rw [lintegral_prod _ h3.aemeasurable]

/-- If the moves of a row are in balance, so are those of the model. -/
theorem rowMove_symm [SigmaFinite ν] [IsProbabilityMeasure μ] (hm : Measurable fun z : R × Θ => m z.1 z.2)
    (hrev : ((ν.prod μ).map fun z => (z.1, m z.1 z.2)).map Prod.swap = (ν.prod μ).map fun z => (z.1, m z.1 z.2)) :
    ((rowMove ν F μ m lo hi).common 0).map Prod.swap = (rowMove ν F μ m lo hi).common 0 := by
  have := uniformNat_prob (Nat.factorial_ne_zero hi)
  refine Measure.ext_of_lintegral _ fun G hG => ?_
  have hGs : Measurable fun z : Tuple R × Tuple R => G z.swap := hG.comp measurable_swap
  rw [lintegral_map hG measurable_swap, rowMove_common hm hG, rowMove_common hm hGs]
  refine Finset.sum_congr rfl fun n hn => ?_
  rw [Finset.mem_Ico] at hn
  cases n with
  | zero =>
    have h0 : ∀ (v : Fin 0 → R) k θ, moveRow m hi (tup 0 v) k θ = tup 0 v := by
      intro v k θ
      unfold moveRow
      rw [if_neg (show ¬ hi < 0 by omega)]
      exact congrArg (tup 0) (funext fun i => i.elim0)
    simp only [h0, Prod.swap_prod_mk]
  | succ n =>
    rw [lintegral_moveRow hm (by omega) hG, lintegral_moveRow hm (by omega) hGs]
    congr 1
    refine Finset.sum_congr rfl fun i _ => lintegral_congr fun v => ?_
    have hv : Measurable fun z : R × R => G (tup (n + 1) (insertAt i z.1 v), tup (n + 1) (insertAt i z.2 v)) :=
      hG.comp (((measurable_mk _).comp ((insertAt_meas i).comp (measurable_fst.prodMk measurable_const))).prodMk
        ((measurable_mk _).comp ((insertAt_meas i).comp (measurable_snd.prodMk measurable_const))))
    conv_rhs => rw [← hrev]
    rw [lintegral_map hv measurable_swap]
    rfl

theorem prodF_meas (hF : Measurable F) : Measurable fun x : Tuple R => ∏ i, F (x.2 i) := by
  refine measurable_tuple fun n => ?_
  change Measurable fun v : Fin n → R => ∏ i, F (v i)
  fun_prop

/-- The prior of the rows with a density. -/
theorem transPrior_density [SigmaFinite ν] [Nonempty R] (hF : Measurable F) (h0 : ∀ r, 0 ≤ F r) :
    transPrior (ν.withDensity fun r => ENNReal.ofReal (F r)) lo hi =
      (transPrior ν lo hi).withDensity fun x => ENNReal.ofReal (∏ i, F (x.2 i)) := by
  refine Measure.ext_of_lintegral _ fun G hG => ?_
  have hd : Measurable fun x : Tuple R => ENNReal.ofReal (∏ i, F (x.2 i)) := (prodF_meas hF).ennreal_ofReal
  rw [lintegral_withDensity_eq_lintegral_mul _ hd hG, lintegral_transPrior _ _ _ hG, lintegral_transPrior _ _ _ (hd.mul hG)]
  refine Finset.sum_congr rfl fun n _ => ?_
  have e := pi_density (fun _ : Fin n => ν) (fun _ => hF.ennreal_ofReal)
  have h1 : Measurable fun v : Fin n → R => ∏ i, ENNReal.ofReal (F (v i)) := by fun_prop
  have h2 : Measurable fun v : Fin n → R => G (tup n v) := hG.comp (measurable_mk n)
  rw [e, lintegral_withDensity_eq_lintegral_mul _ h1 h2]
  refine lintegral_congr fun v => ?_
  simp only [Pi.mul_apply]
  rw [ENNReal.ofReal_prod_of_nonneg fun i _ => h0 _]

theorem transPrior_sfinite (ρ : Measure R) [SigmaFinite ρ] (lo hi : ℕ) : SFinite (transPrior ρ lo hi) := by
  unfold transPrior
  induction Finset.Ico lo (hi + 1) using Finset.induction with
  | empty =>
    rw [Finset.sum_empty]
    infer_instance
  | insert n s hn ih =>
    rw [Finset.sum_insert hn]
    infer_instance

theorem rowMove_ok [SigmaFinite ν] [Nonempty R] [IsProbabilityMeasure μ] (hm : Measurable fun z : R × Θ => m z.1 z.2)
    (hF : Measurable F) (h0 : ∀ r, 0 ≤ F r)
    (hrev : ((ν.prod μ).map fun z => (z.1, m z.1 z.2)).map Prod.swap = (ν.prod μ).map fun z => (z.1, m z.1 z.2))
    (w : Fin 1 → ℝ) : (rowMove ν F μ m lo hi).Ok w where
  sfinite := transPrior_sfinite _ _ _
  prob := by
    have := uniformNat_prob (Nat.factorial_ne_zero hi)
    change IsProbabilityMeasure ((uniformNat hi.factorial).prod μ)
    infer_instance
  meas := fun _ => moveRow_meas hm hi
  rev_rev := fun _ => rfl
  rev_weight := fun _ => rfl
  symm := fun i => by
    rw [Subsingleton.elim i 0]
    exact rowMove_symm hm hrev
  dens_meas := fun _ => (prodF_meas hF).comp measurable_fst
  dens_nonneg := fun _ z => by
    change 0 ≤ ∏ i, F (z.1.2 i)
    exact Finset.prod_nonneg fun _ _ => h0 _
  joint := by
    intro i
    have := uniformNat_prob (Nat.factorial_ne_zero hi)
    have := transPrior_sfinite ν lo hi
    have h1 : Measurable fun z : Tuple R × (ℕ × Θ) => (z.1, moveRow m hi z.1 z.2.1 z.2.2) :=
      measurable_fst.prodMk (moveRow_meas hm hi)
    have hd : Measurable fun x : Tuple R => ENNReal.ofReal (∏ i, F (x.2 i)) := (prodF_meas hF).ennreal_ofReal
    change ((transPrior (ν.withDensity fun r => ENNReal.ofReal (F r)) lo hi).prod ((uniformNat hi.factorial).prod μ)).map
      (fun z => (z.1, moveRow m hi z.1 z.2.1 z.2.2)) = (((transPrior ν lo hi).prod ((uniformNat hi.factorial).prod μ)).map
      (fun z => (z.1, moveRow m hi z.1 z.2.1 z.2.2))).withDensity fun z => ENNReal.ofReal (∏ i, F (z.1.2 i))
    rw [transPrior_density hF h0]
    refine Measure.ext_of_lintegral _ fun G hG => ?_
    have hd1 : Measurable fun z : Tuple R × Tuple R => ENNReal.ofReal (∏ i, F (z.1.2 i)) := hd.comp measurable_fst
    have h2 : Measurable fun z : Tuple R × (ℕ × Θ) => G (z.1, moveRow m hi z.1 z.2.1 z.2.2) := hG.comp h1
    have h3 : Measurable fun z : Tuple R × (ℕ × Θ) =>
      ENNReal.ofReal (∏ i, F (z.1.2 i)) * G (z.1, moveRow m hi z.1 z.2.1 z.2.2) := (hd.comp measurable_fst).mul h2
    rw [lintegral_map hG h1, lintegral_withDensity_eq_lintegral_mul _ hd1 hG, lintegral_map (hd1.mul hG) h1,
      lintegral_prod _ h2.aemeasurable, lintegral_withDensity_eq_lintegral_mul _ hd (Measurable.lintegral_prod_right' h2)]
    refine Eq.trans ?_ (lintegral_prod _ h3.aemeasurable).symm
    refine lintegral_congr fun x => ?_
    simp only [Pi.mul_apply]
    exact (lintegral_const_mul' _ _ ENNReal.ofReal_ne_top).symm

/-! ### the order of the rows -/

omit [MeasurableSpace R] in
theorem ofFn_update [DecidableEq R] {n : ℕ} (v : Fin (n + 1) → R) (i : Fin (n + 1)) (y : R) :
    (List.ofFn (Function.update v i y)).Perm (y :: (List.ofFn v).erase (v i)) := by
  have e : Function.update v i y = insertAt i y (Fin.removeNth i v) := (Fin.insertNth_removeNth i y v).symm
  rw [e]
  exact (ofFn_insertAt _ _ _).trans ((ofFn_removeNth i v).cons y)

omit [MeasurableSpace R] in
theorem prodF_sameRows (F : R → ℝ) {x y : Tuple R} (h : SameRows x y) : ∏ i, F (x.2 i) = ∏ i, F (y.2 i) := by
  have e : ∀ x : Tuple R, ∏ i, F (x.2 i) = ((List.ofFn x.2).map F).prod := by
    intro x
    rw [List.map_ofFn, List.prod_ofFn]
    rfl
  rw [e, e]
  exact (h.map F).prod_eq

omit [MeasurableSpace R] [MeasurableSpace Θ] in
open Classical in
/-- The mean over the rows does not depend on their order. -/
theorem moveRow_mean (m : R → Θ → R) {hi : ℕ} {x x' : Tuple R} (h : SameRows x x') (θ : Θ) {G : Tuple R → ENNReal}
    (hG : ∀ y y', SameRows y y' → G y = G y') :
    ∫⁻ k, G (moveRow m hi x k θ) ∂uniformNat hi.factorial = ∫⁻ k, G (moveRow m hi x' k θ) ∂uniformNat hi.factorial := by
  obtain ⟨n, v⟩ := x
  obtain ⟨n', v'⟩ := x'
  obtain rfl : n = n' := SameRows.dim h
  by_cases hn : hi < n
  · have h1 : ∀ (w : Fin n → R) k, moveRow m hi (tup n w) k θ = tup n w := fun w k => if_pos hn
    refine lintegral_congr fun k => ?_
    rw [h1, h1]
    exact hG _ _ h
  cases n with
  | zero =>
    refine lintegral_congr fun k => hG _ _ ?_
    have e : ∀ (w : Fin 0 → R), List.ofFn w = [] := fun w => rfl
    unfold SameRows moveRow
    rw [if_neg hn, if_neg hn]
    exact List.Perm.refl _
  | succ n =>
    have hK := Nat.factorial_ne_zero hi
    have hd' : (n + 1) ∣ hi.factorial := Nat.dvd_factorial (by omega) (by omega)
    have h1 : ∀ w : Fin (n + 1) → R, ∫⁻ k, G (moveRow m hi (tup (n + 1) w) k θ) ∂uniformNat hi.factorial =
        ((n + 1 : ℕ) : ENNReal)⁻¹ * ∑ i : Fin (n + 1), G (tup (n + 1) (Function.update w i (m (w i) θ))) := by
      intro w
      rw [← uniform_fin hK hd']
      refine lintegral_congr fun k => ?_
      rw [moveRow_apply m (by omega)]
    rw [h1, h1]
    congr 1
    have h2 : ∀ (w : Fin (n + 1) → R) (i : Fin (n + 1)), G (tup (n + 1) (Function.update w i (m (w i) θ))) =
        G ⟨_, (m (w i) θ :: (List.ofFn w).erase (w i)).get⟩ := by
      intro w i
      refine hG _ _ ?_
      unfold SameRows
      rw [List.ofFn_get]
      exact ofFn_update w i _
    have h3 : ∀ w : Fin (n + 1) → R, ∑ i : Fin (n + 1), G (tup (n + 1) (Function.update w i (m (w i) θ))) =
        ((List.ofFn w).map fun a => G ⟨_, (m a θ :: (List.ofFn w).erase a).get⟩).sum := by
      intro w
      simp only [h2]
      rw [List.map_ofFn, List.sum_ofFn]
      rfl
    rw [h3, h3]
    have h4 : ∀ a, G ⟨_, (m a θ :: (List.ofFn v).erase a).get⟩ = G ⟨_, (m a θ :: (List.ofFn v').erase a).get⟩ := by
      intro a
      refine hG _ _ ?_
      unfold SameRows
      rw [List.ofFn_get, List.ofFn_get]
      exact (List.Perm.erase a h).cons _
    simp only [h4]
    exact (List.Perm.map _ h).sum_eq

theorem rowMove_lumps [IsProbabilityMeasure μ] (hm : Measurable fun z : R × Θ => m z.1 z.2) :
    (rowMove ν F μ m lo hi).Lumps SameRows where
  dens := fun _ _ _ _ _ hx _ => prodF_sameRows F hx
  law := by
    intro i x x' hx G hG hGr
    have := uniformNat_prob (Nat.factorial_ne_zero hi)
    change ∫⁻ θ : ℕ × Θ, G (moveRow m hi x θ.1 θ.2) ∂(uniformNat hi.factorial).prod μ =
      ∫⁻ θ : ℕ × Θ, G (moveRow m hi x' θ.1 θ.2) ∂(uniformNat hi.factorial).prod μ
    have hmx : ∀ x, Measurable fun z : ℕ × Θ => G (moveRow m hi x z.1 z.2) := fun x =>
      hG.comp ((moveRow_meas hm hi).comp (measurable_const.prodMk measurable_id))
    rw [lintegral_prod_symm _ (hmx x).aemeasurable, lintegral_prod_symm _ (hmx x').aemeasurable]
    exact lintegral_congr fun θ => moveRow_mean m hx θ hGr

end

end BB.Lemmas
