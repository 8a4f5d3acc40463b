import Verif.Lemmas.PlainSample
import Verif.Lemmas.Simulate

/-!
# An iteration for the values of plain parameter spaces: what it does on average
-/

namespace BB.Lemmas

open BB Spec MeasureTheory

variable {m : ℕ} (sps : Fin m → PlainSpace) (K : ℕ)

/-! ### the proposals -/

/-- A birth in the space `i`. -/
noncomputable def bornK (i : Fin m) : Kern (Values sps) (Draw × (Fin (sps i).size → Draw)) :=
  (birthKern K (tapeLaw K (sps i).size) (samplesOf (sps i).prior) (sps i).info.hi).lift i

/-- A death in the space `i`. -/
noncomputable def diedK (i : Fin m) : Kern (Values sps) Draw :=
  (deathKern (Fin (sps i).size → ℝ) K (sps i).info.lo (sps i).info.hi).lift i

/-- A change of the values of a dimension of the space `i`. -/
noncomputable def walkedK (i : Fin m) : Kern (Values sps) (Draw × (Fin (sps i).size → Draw)) :=
  (rowKern K (walkKern K (sps i).step (sps i).dens)).lift i

variable {sps K}

theorem tapeLaw_prob (hK : K ≠ 0) (k : ℕ) : IsProbabilityMeasure (tapeLaw K k) := by
  have := drawLaw_prob hK
  unfold tapeLaw
  infer_instance

theorem transPrior_finite {R : Type} [MeasurableSpace R] {ρ : Measure R} [IsProbabilityMeasure ρ] (lo hi : ℕ) :
    IsFiniteMeasure (transPrior ρ lo hi) := by
  unfold transPrior
  have : ∀ n, IsFiniteMeasure ((Measure.pi fun _ : Fin n => ρ).map (tup n)) := fun n => inferInstance
  infer_instance

theorem bornK_ok (hK : K ≠ 0) (h : ∀ i, (sps i).Ok) (i : Fin m) : (bornK sps K i).Ok := by
  have := tapeLaw_prob hK (sps i).size
  exact (birthKern_ok hK (samplesOf_meas (h i).dens) _).lift

theorem diedK_ok (hK : K ≠ 0) (i : Fin m) : (diedK sps K i).Ok := (deathKern_ok hK _ _).lift

theorem walkedK_ok (hK : K ≠ 0) (h : ∀ i, (sps i).Ok) (i : Fin m) : (walkedK sps K i).Ok :=
  (rowKern_ok hK (walkKern_ok hK _ fun j => DensityOf.meas ((h i).dens j))).lift

theorem born_balanced (hK : K ≠ 0) (hd : Multiple sps K) (h : ∀ i, (sps i).Ok) (i : Fin m) :
    Balanced (priorOf sps) (bornK sps K i) (diedK sps K i) := by
  have hp := tapeLaw_prob hK (sps i).size
  have hv : ∀ i, IsProbabilityMeasure (valuesLaw (sps i).dens) := fun i => valuesLaw_prob (h i).dens
  have hf : ∀ i, IsFiniteMeasure (transPrior (valuesLaw (sps i).dens) (sps i).info.lo (sps i).info.hi) :=
    fun i => transPrior_finite _ _
  have hb := birth_balanced hK (samplesOf_meas (h i).dens) (samplesOf_law hK (h i).dens) (h i).hi (hd i)
  exact Balanced.lift (π := fun i => transPrior (valuesLaw (sps i).dens) (sps i).info.lo (sps i).info.hi) hb
    (birthKern_ok hK (samplesOf_meas (h i).dens) _) (deathKern_ok hK _ _)

theorem walked_balanced (hK : K ≠ 0) (hd : Multiple sps K) (h : ∀ i, (sps i).Ok) (i : Fin m) :
    Balanced (priorOf sps) (walkedK sps K i) (walkedK sps K i) := by
  have hv : ∀ i, IsProbabilityMeasure (valuesLaw (sps i).dens) := fun i => valuesLaw_prob (h i).dens
  have hf : ∀ i, IsFiniteMeasure (transPrior (valuesLaw (sps i).dens) (sps i).info.lo (sps i).info.hi) :=
    fun i => transPrior_finite _ _
  have hm : ∀ j, Measurable ((sps i).dens j) := fun j => DensityOf.meas ((h i).dens j)
  have hw := walk_balanced hK (sps i).step hm fun j x => DensityOf.nonneg ((h i).dens j) x
  have hok := walkKern_ok hK (sps i).step hm
  have hb := row_balanced hK hok hw (lo := (sps i).info.lo) (hd i)
  exact Balanced.lift (π := fun i => transPrior (valuesLaw (sps i).dens) (sps i).info.lo (sps i).info.hi) hb
    (rowKern_ok hK hok) (rowKern_ok hK hok)

/-! ### the iteration -/

/-- The weights of the perturbations of a space: birth, death, change of values. -/
def ownW (s : PlainSpace) : List ℝ := if s.info.transD then [1, 1, 3] else [3]

/-- The weights of the spaces. -/
noncomputable def outerW (sps : Fin m → PlainSpace) : List ℝ := List.ofFn fun i => (ownW (sps i)).sum

theorem ownW_nonneg (s : PlainSpace) : ∀ w ∈ ownW s, 0 ≤ w := by
  unfold ownW
  split <;> simp

theorem ownW_sum (s : PlainSpace) : 0 < (ownW s).sum := by
  unfold ownW
  split <;> norm_num

theorem outerW_nonneg (sps : Fin m → PlainSpace) : ∀ w ∈ outerW sps, 0 ≤ w := by
  intro w hw
  unfold outerW at hw
  rw [List.mem_ofFn] at hw
  obtain ⟨i, rfl⟩ := hw
  exact (ownW_sum _).le

theorem outerW_length (sps : Fin m → PlainSpace) : (outerW sps).length = m := by
  unfold outerW
  simp

theorem outerW_sum (hm : 0 < m) (sps : Fin m → PlainSpace) : 0 < (outerW sps).sum := by
  unfold outerW
  rw [List.sum_ofFn]
  exact Finset.sum_pos (fun i _ => ownW_sum _) ⟨⟨0, hm⟩, Finset.mem_univ _⟩

/-- The mean over a random choice with weights. -/
noncomputable def mixOf (ws : List ℝ) (F : ℕ → ENNReal) : ENNReal :=
  ∑ j : Fin ws.length, ENNReal.ofReal (ws[j] / ws.sum) * F j

variable (sps K) (ℓ : Values sps → ℝ)

/-- A birth; at the upper bound nothing is drawn and nothing is accepted. -/
noncomputable def bornV (i : Fin m) (x : Values sps) : V (Values sps) :=
  if (x i).1 = (sps i).info.hi then V.andThen V.draw fun _ => V.ret x
  else V.andThen V.draw fun d => V.andThen (V.draws (sps i).size) fun w => accept (bornK sps K i) ℓ x (d, w)

/-- A death; at the lower bound nothing is drawn and nothing is accepted. -/
noncomputable def diedV (i : Fin m) (x : Values sps) : V (Values sps) :=
  if (x i).1 = (sps i).info.lo then V.andThen V.draw fun _ => V.ret x
  else V.andThen V.draw fun d => accept (diedK sps K i) ℓ x d

/-- A change of values. -/
noncomputable def walkedV (i : Fin m) (x : Values sps) : V (Values sps) :=
  V.andThen V.draw fun d => V.andThen (V.draws (sps i).size) fun w => accept (walkedK sps K i) ℓ x (d, w)

/-- The perturbation `j` of the space. -/
noncomputable def moveV (i : Fin m) (j : ℕ) (x : Values sps) : V (Values sps) :=
  if (sps i).info.transD = true ∧ j = 0 then bornV sps K ℓ i x
  else if (sps i).info.transD = true ∧ j = 1 then diedV sps K ℓ i x
  else walkedV sps K ℓ i x

/-- A perturbation of the space: a draw for the choice of the only state, one for the choice of the perturbation. -/
noncomputable def spaceV (i : Fin m) (x : Values sps) : V (Values sps) :=
  V.andThen V.draw fun _ => V.andThen V.draw fun d => moveV sps K ℓ i (pick (ownW (sps i)) d) x

/-- The space chosen. -/
noncomputable def pickSpace (hm : 0 < m) (d : Draw) : Fin m := ⟨pick (outerW sps) d % m, Nat.mod_lt _ hm⟩

/-- An iteration. -/
noncomputable def iterV (hm : 0 < m) (x : Values sps) : V (Values sps) :=
  V.andThen V.draw fun d => spaceV sps K ℓ (pickSpace sps hm d) x

/-- Several iterations. -/
noncomputable def itersV (hm : 0 < m) : ℕ → Values sps → V (Values sps)
  | 0, x => V.ret x
  | n + 1, x => V.andThen (iterV sps K ℓ hm x) (itersV hm n)

/-- The means after these programs. -/
noncomputable def moveP (i : Fin m) (j : ℕ) (G : Values sps → ENNReal) (x : Values sps) : ENNReal :=
  if (sps i).info.transD = true ∧ j = 0 then (bornK sps K i).step ℓ G x
  else if (sps i).info.transD = true ∧ j = 1 then (diedK sps K i).step ℓ G x
  else (walkedK sps K i).step ℓ G x

noncomputable def spaceP (i : Fin m) (G : Values sps → ENNReal) (x : Values sps) : ENNReal :=
  mixOf (ownW (sps i)) fun j => moveP sps K ℓ i j G x

noncomputable def iterP (G : Values sps → ENNReal) (x : Values sps) : ENNReal :=
  ∑ i : Fin m, ENNReal.ofReal ((ownW (sps i)).sum / (outerW sps).sum) * spaceP sps K ℓ i G x

noncomputable def itersP : ℕ → (Values sps → ENNReal) → Values sps → ENNReal
  | 0, G => G
  | n + 1, G => iterP sps K ℓ (itersP n G)

variable {sps K ℓ}

/-! ### invariance -/

theorem moveP_meas (hK : K ≠ 0) (h : ∀ i, (sps i).Ok) (hℓ : Measurable ℓ) (i : Fin m) (j : ℕ) {G : Values sps → ENNReal}
    (hG : Measurable G) : Measurable (moveP sps K ℓ i j G) := by
  unfold moveP
  split
  · exact (bornK_ok hK h i).step_meas hℓ hG
  · split
    · exact (diedK_ok hK i).step_meas hℓ hG
    · exact (walkedK_ok hK h i).step_meas hℓ hG

theorem moveP_one (hK : K ≠ 0) (h : ∀ i, (sps i).Ok) (i : Fin m) (j : ℕ) (x : Values sps) :
    moveP sps K ℓ i j (fun _ => 1) x = 1 := by
  unfold moveP
  split
  · exact (bornK_ok hK h i).step_one ℓ x
  · split
    · exact (diedK_ok hK i).step_one ℓ x
    · exact (walkedK_ok hK h i).step_one ℓ x

theorem spaceP_meas (hK : K ≠ 0) (h : ∀ i, (sps i).Ok) (hℓ : Measurable ℓ) (i : Fin m) {G : Values sps → ENNReal}
    (hG : Measurable G) : Measurable (spaceP sps K ℓ i G) := by
  unfold spaceP mixOf
  exact Finset.measurable_sum _ fun j _ => measurable_const.mul (moveP_meas hK h hℓ i j hG)

theorem iterP_meas (hK : K ≠ 0) (h : ∀ i, (sps i).Ok) (hℓ : Measurable ℓ) {G : Values sps → ENNReal}
    (hG : Measurable G) : Measurable (iterP sps K ℓ G) := by
  unfold iterP
  exact Finset.measurable_sum _ fun i _ => measurable_const.mul (spaceP_meas hK h hℓ i hG)

theorem itersP_meas (hK : K ≠ 0) (h : ∀ i, (sps i).Ok) (hℓ : Measurable ℓ) {G : Values sps → ENNReal}
    (hG : Measurable G) : ∀ n, Measurable (itersP sps K ℓ n G)
  | 0 => hG
  | n + 1 => iterP_meas hK h hℓ (itersP_meas hK h hℓ hG n)

theorem shares_sum {n : ℕ} (w : Fin n → ℝ) (hw : ∀ i, 0 ≤ w i) (hs : 0 < ∑ i, w i) :
    ∑ i, ENNReal.ofReal (w i / ∑ i, w i) = 1 := by
  rw [← ENNReal.ofReal_sum_of_nonneg fun i _ => div_nonneg (hw i) hs.le, ← Finset.sum_div, div_self hs.ne',
    ENNReal.ofReal_one]

theorem spaceP_one (hK : K ≠ 0) (h : ∀ i, (sps i).Ok) (i : Fin m) (x : Values sps) :
    spaceP sps K ℓ i (fun _ => 1) x = 1 := by
  unfold spaceP mixOf
  simp only [moveP_one hK h, mul_one]
  have hs : (ownW (sps i)).sum = ∑ j : Fin (ownW (sps i)).length, (ownW (sps i))[j] := by
    rw [← List.sum_ofFn]
    congr 1
    exact List.ofFn_getElem.symm
  have h0 := ownW_sum (sps i)
  rw [hs] at h0 ⊢
  exact shares_sum (fun j : Fin (ownW (sps i)).length => (ownW (sps i))[j])
    (fun j => ownW_nonneg _ _ (List.getElem_mem _)) h0

theorem iterP_one (hm : 0 < m) (hK : K ≠ 0) (h : ∀ i, (sps i).Ok) (x : Values sps) : iterP sps K ℓ (fun _ => 1) x = 1 := by
  unfold iterP
  simp only [spaceP_one hK h, mul_one]
  have hs : (outerW sps).sum = ∑ i, (ownW (sps i)).sum := by
    unfold outerW
    exact List.sum_ofFn
  have h0 := outerW_sum hm sps
  rw [hs] at h0 ⊢
  exact shares_sum _ (fun i => (ownW_sum _).le) h0

theorem spaceP_symm (hK : K ≠ 0) (hd : Multiple sps K) (h : ∀ i, (sps i).Ok) (hℓ : Measurable ℓ) (i : Fin m) :
    Symm (priorOf sps) ℓ (spaceP sps K ℓ i) := by
  have h1 := (born_balanced hK hd h i).symm_pair (bornK_ok hK h i) (diedK_ok hK i) hℓ
  have h2 := (walked_balanced hK hd h i).symm_self (walkedK_ok hK h i) hℓ
  have m1 : ∀ G, Measurable G → Measurable fun x => (bornK sps K i).step ℓ G x + (diedK sps K i).step ℓ G x :=
    fun G hG => ((bornK_ok hK h i).step_meas hℓ hG).add ((diedK_ok hK i).step_meas hℓ hG)
  have m2 : ∀ G, Measurable G → Measurable ((walkedK sps K i).step ℓ G) := fun G hG => (walkedK_ok hK h i).step_meas hℓ hG
  by_cases ht : (sps i).info.transD = true
  · have e : spaceP sps K ℓ i = fun G x => ENNReal.ofReal (1 / 5) * ((bornK sps K i).step ℓ G x + (diedK sps K i).step ℓ G x) +
        ENNReal.ofReal (3 / 5) * (walkedK sps K i).step ℓ G x := by
      funext G x
      have hw : ownW (sps i) = [1, 1, 3] := by unfold ownW; rw [if_pos ht]
      unfold spaceP moveP
      rw [hw]
      have h5 : ([1, 1, 3] : List ℝ).sum = 5 := by norm_num
      unfold mixOf
      rw [h5]
      change ∑ j : Fin 3, _ = _
      rw [Fin.sum_univ_three]
      simp [ht, mul_add]
    rw [e]
    exact Symm.add hℓ (Symm.const_mul hℓ h1 m1 _) (Symm.const_mul hℓ h2 m2 _) fun G hG => measurable_const.mul (m1 G hG)
  · have e : spaceP sps K ℓ i = (walkedK sps K i).step ℓ := by
      funext G x
      have hw : ownW (sps i) = [3] := by unfold ownW; rw [if_neg ht]
      unfold spaceP moveP
      rw [hw]
      unfold mixOf
      change ∑ j : Fin 1, _ = _
      rw [Fin.sum_univ_one]
      simp [ht]
    rw [e]
    exact h2

theorem iterP_symm (hK : K ≠ 0) (hd : Multiple sps K) (h : ∀ i, (sps i).Ok) (hℓ : Measurable ℓ) :
    Symm (priorOf sps) ℓ (iterP sps K ℓ) := by
  unfold iterP
  exact Symm.sum _ hℓ (fun i => Symm.const_mul hℓ (spaceP_symm hK hd h hℓ i) (fun G hG => spaceP_meas hK h hℓ i hG) _)
    fun i G hG => measurable_const.mul (spaceP_meas hK h hℓ i hG)

theorem itersP_invariant (hm : 0 < m) (hK : K ≠ 0) (hd : Multiple sps K) (h : ∀ i, (sps i).Ok) (hℓ : Measurable ℓ)
    {G : Values sps → ENNReal} (hG : Measurable G) : ∀ n,
    ∫⁻ x, ENNReal.ofReal (Real.exp (ℓ x)) * itersP sps K ℓ n G x ∂priorOf sps =
      ∫⁻ x, ENNReal.ofReal (Real.exp (ℓ x)) * G x ∂priorOf sps
  | 0 => rfl
  | n + 1 => by
    rw [← itersP_invariant hm hK hd h hℓ hG n]
    exact (iterP_symm hK hd h hℓ).invariant (fun x => iterP_one hm hK h x) (itersP_meas hK h hℓ hG n)

end BB.Lemmas
