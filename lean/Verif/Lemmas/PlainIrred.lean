import Verif.Lemmas.Refresh
import Verif.Lemmas.PlainPost
import Verif.Lemmas.Ergodic

/-!
# Plain parameter spaces: functions that do not notice the iterations are constant
-/

namespace BB.Lemmas

open BB Spec MeasureTheory ProbabilityTheory

variable {m : ℕ} {sps : Fin m → PlainSpace} {K : ℕ} {ℓ : Values sps → ℝ}

/-! ### sequences of moves -/

/-- A new row (`true`), or new values for the row `k`. -/
def actT {R : Type} (hi : ℕ) (a : Bool × ℕ) (t : Tuple R) (z : R) : Tuple R := if a.1 then newRow hi t z else setRow a.2 t z

/-- The same in the space `i`. -/
def act (sps : Fin m → PlainSpace) (i : Fin m) (a : Bool × ℕ) (x : Values sps) (z : Fin (sps i).size → ℝ) : Values sps :=
  Function.update x i (actT (sps i).info.hi a (x i) z)

/-- `P` holds after almost all such moves. -/
def Alle (sps : Fin m → PlainSpace) : List (Fin m × (Bool × ℕ)) → (Values sps → Prop) → Values sps → Prop
  | [], P, x => P x
  | a :: l, P, x => ∀ᵐ z ∂valuesLaw (sps a.1).dens, Alle sps l P (act sps a.1 a.2 x z)

/-- The moves lead to the same model, whatever the values. -/
def MeetT {R : Type} (hi : ℕ) : List (Bool × ℕ) → Tuple R → Tuple R → Prop
  | [], t, t' => t = t'
  | a :: l, t, t' => ∀ z, MeetT hi l (actT hi a t z) (actT hi a t' z)

/-- The same for all spaces. -/
def Meet (sps : Fin m → PlainSpace) : List (Fin m × (Bool × ℕ)) → Values sps → Values sps → Prop
  | [], x, x' => x = x'
  | a :: l, x, x' => ∀ z, Meet sps l (act sps a.1 a.2 x z) (act sps a.1 a.2 x' z)

theorem meetT_self {R : Type} (hi : ℕ) : ∀ (l : List (Bool × ℕ)) (t : Tuple R), MeetT hi l t t
  | [], _ => rfl
  | _ :: l, _ => fun _ => meetT_self hi l _

theorem meetT_sets {R : Type} (hi : ℕ) : ∀ (l : List ℕ) (v v' : Fin hi → R), (∀ j, v j = v' j ∨ j.1 ∈ l) →
    MeetT hi (l.map fun k => (false, k)) (tup hi v) (tup hi v')
  | [], v, v', h => by
    have : v = v' := funext fun j => (h j).resolve_right (by simp)
    rw [this]
    rfl
  | k :: l, v, v', h => by
    cases hi with
    | zero =>
      have : v = v' := funext fun j => j.elim0
      rw [this]
      exact meetT_self 0 _ _
    | succ n =>
      intro z
      refine meetT_sets (n + 1) l _ _ fun j => ?_
      by_cases hj : j = Fin.ofNat (n + 1) k
      · left
        rw [hj, Function.update_self, Function.update_self]
      · rw [Function.update_of_ne hj, Function.update_of_ne hj]
        rcases h j with h1 | h1
        · exact Or.inl h1
        · rcases List.mem_cons.1 h1 with h2 | h2
          · exfalso
            refine hj (Fin.ext ?_)
            rw [Fin.val_ofNat, ← h2, Nat.mod_eq_of_lt j.2]
          · exact Or.inr h2

theorem newRow_dim {R : Type} {hi : ℕ} (t : Tuple R) (z : R) : (newRow hi t z).1 = if t.1 = hi then t.1 else t.1 + 1 := by
  unfold newRow addRow
  split <;> rfl

theorem meetT_births {R : Type} {hi : ℕ} {s : List (Bool × ℕ)} (h : ∀ v v' : Fin hi → R, MeetT hi s (tup hi v) (tup hi v')) :
    ∀ (r : ℕ) (t t' : Tuple R), t.1 ≤ hi → t'.1 ≤ hi → hi ≤ t.1 + r → hi ≤ t'.1 + r →
      MeetT hi (List.replicate r (true, 0) ++ s) t t'
  | 0, ⟨n, v⟩, ⟨n', v'⟩, h1, h2, h3, h4 => by
    have e1 : n = hi := le_antisymm h1 h3
    have e2 : n' = hi := le_antisymm h2 h4
    subst e1
    subst e2
    exact h v v'
  | r + 1, t, t', h1, h2, h3, h4 => by
    intro z
    refine meetT_births h r (newRow hi t z) (newRow hi t' z) ?_ ?_ ?_ ?_ <;> rw [newRow_dim] <;> split <;> omega

/-- Births up to the upper bound, then new values for all rows. -/
def renew (hi : ℕ) : List (Bool × ℕ) := List.replicate hi (true, 0) ++ (List.range hi).map fun k => (false, k)

theorem meetT_renew {R : Type} {hi : ℕ} {t t' : Tuple R} (h1 : t.1 ≤ hi) (h2 : t'.1 ≤ hi) : MeetT hi (renew hi) t t' :=
  meetT_births (fun v v' => meetT_sets hi _ v v' fun j => Or.inr (List.mem_range.2 j.2)) hi t t' h1 h2 (by omega) (by omega)

theorem meet_space {i : Fin m} {l : List (Fin m × (Bool × ℕ))} : ∀ (s : List (Bool × ℕ)) (x x' : Values sps),
    MeetT (sps i).info.hi s (x i) (x' i) → (∀ t, Meet sps l (Function.update x i t) (Function.update x' i t)) →
    Meet sps (s.map (fun a => (i, a)) ++ l) x x'
  | [], x, x', h, hl => by
    have e : x i = x' i := h
    have := hl (x i)
    rw [Function.update_eq_self, e, Function.update_eq_self] at this
    exact this
  | a :: s, x, x', h, hl => by
    intro z
    refine meet_space s _ _ ?_ fun t => ?_
    · have := h z
      unfold act
      rwa [Function.update_self, Function.update_self]
    · have := hl t
      unfold act
      rwa [Function.update_idem, Function.update_idem]

theorem meet_all : ∀ (L : List (Fin m)) (x x' : Values sps), (∀ i, i ∉ L → x i = x' i) →
    (∀ i, MeetT (sps i).info.hi (renew (sps i).info.hi) (x i) (x' i)) →
    Meet sps (L.flatMap fun i => (renew (sps i).info.hi).map fun a => (i, a)) x x'
  | [], x, x', h, _ => funext fun i => h i (by simp)
  | i :: L, x, x', h, ht => by
    rw [List.flatMap_cons]
    refine meet_space _ x x' (ht i) fun t => meet_all L _ _ (fun i' hi' => ?_) fun i' => ?_
    · by_cases e : i' = i
      · subst e
        rw [Function.update_self, Function.update_self]
      · rw [Function.update_of_ne e, Function.update_of_ne e]
        exact h i' (by simp [e, hi'])
    · by_cases e : i' = i
      · subst e
        rw [Function.update_self, Function.update_self]
        exact meetT_self _ _ _
      · rw [Function.update_of_ne e, Function.update_of_ne e]
        exact ht i'

theorem alle_meet (h : ∀ i, (sps i).Ok) {P P' : Values sps → Prop} : ∀ (l : List (Fin m × (Bool × ℕ))) {x x' : Values sps},
    Alle sps l P x → Alle sps l P' x' → Meet sps l x x' → ∃ y, P y ∧ P' y
  | [], x, x', h1, h2, h3 => by
    have e : x = x' := h3
    exact ⟨x, h1, e ▸ h2⟩
  | a :: l, x, x', h1, h2, h3 => by
    have := valuesLaw_prob (h a.1).dens
    obtain ⟨z, hz1, hz2⟩ := (Filter.Eventually.and h1 h2).exists
    exact alle_meet h l hz1 hz2 (h3 z)

theorem act_dom (h : ∀ i, (sps i).Ok) (i : Fin m) (a : Bool × ℕ) :
    Dom (priorOf sps) (valuesLaw (sps i).dens) (act sps i a) := by
  have hv : ∀ i, IsProbabilityMeasure (valuesLaw (sps i).dens) := fun i => valuesLaw_prob (h i).dens
  have hf : ∀ i, IsFiniteMeasure (transPrior (valuesLaw (sps i).dens) (sps i).info.lo (sps i).info.hi) :=
    fun i => transPrior_finite _ _
  obtain ⟨b, k⟩ := a
  cases b with
  | true =>
    exact Dom.lift (ν := fun i => transPrior (valuesLaw (sps i).dens) (sps i).info.lo (sps i).info.hi)
      (newRow_dom (valuesLaw (sps i).dens) (h i).hi)
  | false =>
    exact Dom.lift (ν := fun i => transPrior (valuesLaw (sps i).dens) (sps i).info.lo (sps i).info.hi)
      (setRow_pres (valuesLaw (sps i).dens) _ _ k).dom

theorem set_pres (h : ∀ i, (sps i).Ok) (i : Fin m) (k : ℕ) :
    Pres (priorOf sps) (valuesLaw (sps i).dens) (act sps i (false, k)) := by
  have hv : ∀ i, IsProbabilityMeasure (valuesLaw (sps i).dens) := fun i => valuesLaw_prob (h i).dens
  have hf : ∀ i, IsFiniteMeasure (transPrior (valuesLaw (sps i).dens) (sps i).info.lo (sps i).info.hi) :=
    fun i => transPrior_finite _ _
  exact Pres.lift (ν := fun i => transPrior (valuesLaw (sps i).dens) (sps i).info.lo (sps i).info.hi)
      (setRow_pres (valuesLaw (sps i).dens) _ _ k)

theorem alle_inv (h : ∀ i, (sps i).Ok) {g : Values sps → ℝ} : ∀ l : List (Fin m × (Bool × ℕ)),
    (∀ a ∈ l, ∀ᵐ x ∂priorOf sps, ∀ᵐ z ∂valuesLaw (sps a.1).dens, g (act sps a.1 a.2 x z) = g x) →
    ∀ᵐ x ∂priorOf sps, Alle sps l (fun y => g y = g x) x
  | [], _ => Filter.Eventually.of_forall fun _ => rfl
  | a :: l, hg => by
    have := valuesLaw_prob (h a.1).dens
    filter_upwards [(act_dom h a.1 a.2).ae (alle_inv h l fun a ha => hg a (List.mem_cons_of_mem _ ha)),
      hg a List.mem_cons_self] with x h1 h2
    change ∀ᵐ z ∂valuesLaw (sps a.1).dens, _
    filter_upwards [h1, h2] with z h3 h4
    rwa [h4] at h3

theorem prior_ne_zero (h : ∀ i, (sps i).Ok) : priorOf sps ≠ 0 := by
  have hv : ∀ i, IsProbabilityMeasure (valuesLaw (sps i).dens) := fun i => valuesLaw_prob (h i).dens
  have hf : ∀ i, IsFiniteMeasure (transPrior (valuesLaw (sps i).dens) (sps i).info.lo (sps i).info.hi) :=
    fun i => transPrior_finite _ _
  intro h0
  have h1 : priorOf sps Set.univ = 0 := by rw [h0]; rfl
  unfold priorOf at h1
  rw [Measure.pi_univ, Finset.prod_eq_zero_iff] at h1
  obtain ⟨i, -, h2⟩ := h1
  have h3 := lintegral_transPrior (valuesLaw (sps i).dens) (sps i).info.lo (sps i).info.hi (F := fun _ => 1) measurable_const
  simp only [lintegral_one, measure_univ, Finset.sum_const, Nat.card_Ico, nsmul_eq_mul, mul_one] at h3
  rw [h2] at h3
  have h4 := (h i).hi
  have h5 : (sps i).info.hi + 1 - (sps i).info.lo ≠ 0 := by omega
  exact h5 (by exact_mod_cast h3.symm)

/-- A function that does not notice births and new values of rows is constant. -/
theorem inv_const (h : ∀ i, (sps i).Ok) {g : Values sps → ℝ}
    (hg : ∀ i (a : Bool × ℕ), a.2 < (sps i).info.hi → ∀ᵐ x ∂priorOf sps, ∀ᵐ z ∂valuesLaw (sps i).dens, g (act sps i a x z) = g x) :
    ∃ c, ∀ᵐ x ∂priorOf sps, g x = c := by
  have h1 : ∀ᵐ x ∂priorOf sps, Alle sps ((List.finRange m).flatMap fun i => (renew (sps i).info.hi).map fun a => (i, a))
      (fun y => g y = g x) x := by
    refine alle_inv h _ fun a ha => ?_
    obtain ⟨i, -, ha⟩ := List.mem_flatMap.1 ha
    obtain ⟨b, hb, rfl⟩ := List.mem_map.1 ha
    refine hg i b ?_
    have hi : 0 < (sps i).info.hi := lt_of_lt_of_le (h i).lo (h i).hi
    rcases List.mem_append.1 hb with hb | hb
    · rw [List.mem_replicate] at hb
      rw [hb.2]
      exact hi
    · obtain ⟨k, hk, rfl⟩ := List.mem_map.1 hb
      exact List.mem_range.1 hk
  have h2 := h1.and (prior_possible h)
  have : (ae (priorOf sps)).NeBot := ae_neBot.2 (prior_ne_zero h)
  obtain ⟨x₀, hx₀, hp₀⟩ := h2.exists
  refine ⟨g x₀, ?_⟩
  filter_upwards [h2] with x hx
  obtain ⟨y, hy1, hy2⟩ := alle_meet h _ hx.1 hx₀ (meet_all _ x x₀ (fun i hi => absurd (List.mem_finRange i) hi)
    fun i => meetT_renew (hx.2 i).1.2 (hp₀ i).1.2)
  exact hy1.symm.trans hy2

/-! ### what an iteration can do -/

theorem step_null {X Θ : Type} [MeasurableSpace X] [MeasurableSpace Θ] {p : Kern X Θ} (hp : p.Ok) {ℓ : X → ℝ} (hℓ : Measurable ℓ)
    {G : X → ENNReal} (hG : Measurable G) {x : X} (h0 : p.step ℓ G x = 0) :
    ∀ᵐ θ ∂p.draws, 0 < p.ratio x θ → G (p.move x θ) = 0 := by
  have h1 : Measurable fun θ => rate ℓ x (p.move x θ) (p.ratio x θ) := (hp.rate_meas hℓ).comp measurable_prodMk_left
  have h2 : Measurable fun θ => G (p.move x θ) := (hG.comp hp.move).comp measurable_prodMk_left
  unfold Kern.step at h0
  have h5 : Measurable fun θ => rate ℓ x (p.move x θ) (p.ratio x θ) * G (p.move x θ) +
      (1 - rate ℓ x (p.move x θ) (p.ratio x θ)) * G x := (h1.mul h2).add ((measurable_const.sub h1).mul measurable_const)
  rw [lintegral_eq_zero_iff h5] at h0
  filter_upwards [h0] with θ hθ hr
  have h3 : rate ℓ x (p.move x θ) (p.ratio x θ) * G (p.move x θ) = 0 := (add_eq_zero.1 hθ).1
  rcases mul_eq_zero.1 h3 with h4 | h4
  · unfold rate at h4
    rw [ENNReal.ofReal_eq_zero] at h4
    have : 0 < min 1 (p.ratio x θ * Real.exp (ℓ (p.move x θ) - ℓ x)) := lt_min one_pos (mul_pos hr (Real.exp_pos _))
    linarith
  · exact h4

theorem iterP_null (hm : 0 < m) {G : Values sps → ENNReal} {x : Values sps} (h0 : iterP sps K ℓ G x = 0) (i : Fin m) :
    (walkedK sps K i).step ℓ G x = 0 ∧ ((sps i).info.transD = true → (bornK sps K i).step ℓ G x = 0) := by
  unfold iterP at h0
  rw [Finset.sum_eq_zero_iff] at h0
  have h1 : spaceP sps K ℓ i G x = 0 := by
    refine (mul_eq_zero.1 (h0 i (Finset.mem_univ _))).resolve_left fun hc => ?_
    rw [ENNReal.ofReal_eq_zero] at hc
    have := div_pos (ownW_sum (sps i)) (outerW_sum hm sps)
    linarith
  unfold spaceP at h1
  by_cases ht : (sps i).info.transD = true
  · have hw : ownW (sps i) = [1, 1, 3] := by unfold ownW; rw [if_pos ht]
    rw [hw] at h1
    unfold mixOf at h1
    rw [Finset.sum_eq_zero_iff] at h1
    have e0 := h1 (⟨0, by simp⟩ : Fin 3) (Finset.mem_univ _)
    have e2 := h1 (⟨2, by simp⟩ : Fin 3) (Finset.mem_univ _)
    have h5 : ([1, 1, 3] : List ℝ).sum = 5 := by norm_num
    rw [h5] at e0 e2
    simp only [moveP, ht, Fin.getElem_fin, List.getElem_cons_zero, List.getElem_cons_succ, mul_eq_zero] at e0 e2
    constructor
    · intros
      refine Or.resolve_left (a := ENNReal.ofReal (3 / 5) = 0) ?_ ?_
      · simpa using e2
      · rw [ENNReal.ofReal_eq_zero]
        norm_num
    · intro _
      refine Or.resolve_left (a := ENNReal.ofReal (1 / 5) = 0) ?_ ?_
      · simpa using e0
      · rw [ENNReal.ofReal_eq_zero]
        norm_num
  · have hw : ownW (sps i) = [3] := by unfold ownW; rw [if_neg ht]
    rw [hw] at h1
    unfold mixOf at h1
    rw [Finset.sum_eq_zero_iff] at h1
    have e0 := h1 (⟨0, by simp⟩ : Fin 1) (Finset.mem_univ _)
    refine ⟨?_, fun hc => absurd hc ht⟩
    simpa [moveP, ht] using e0

/-- What is almost surely true of the index drawn is true of all indices. -/
theorem draw_index {K : ℕ} {P : ℕ → Prop} (h : ∀ᵐ d ∂drawLaw K, P d.n) {k : ℕ} (hk : k < K) : P k := by
  have h1 : ∀ᵐ n ∂uniformNat K, P n := by
    rw [← drawLaw_n (K := K)]
    exact (ae_map_iff draw_n_meas.aemeasurable trivial).2 h
  rw [ae_iff] at h1
  by_contra hc
  unfold uniformNat at h1
  rw [Measure.smul_apply, Measure.finsetSum_apply, smul_eq_mul, mul_eq_zero] at h1
  rcases h1 with h1 | h1
  · simp at h1
  · rw [Finset.sum_eq_zero_iff] at h1
    have := h1 k (Finset.mem_range.2 hk)
    rw [Measure.dirac_apply, Set.indicator_of_mem (show k ∈ {n | ¬ P n} from hc)] at this
    simp at this

theorem pi_ac : ∀ {k : ℕ} {μ ν : Fin k → Measure ℝ} [∀ j, SigmaFinite (μ j)] [∀ j, SigmaFinite (ν j)],
    (∀ j, μ j ≪ ν j) → Measure.pi μ ≪ Measure.pi ν
  | 0, μ, ν, _, _, _ => by
    rw [Measure.pi_of_empty μ, Measure.pi_of_empty ν]
  | k + 1, μ, ν, _, _, h => by
    rw [← (measurePreserving_piFinSuccAbove μ 0).symm.map_eq, ← (measurePreserving_piFinSuccAbove ν 0).symm.map_eq]
    refine Measure.AbsolutelyContinuous.map (Measure.AbsolutelyContinuous.prod (h 0) (pi_ac fun j => h _)) ?_
    exact (MeasurableEquiv.measurable _)

/-- A random walk with steps that are not 0 gets everywhere. -/
theorem walk_everywhere {K : ℕ} (hK : K ≠ 0) {k : ℕ} {s : Fin k → ℝ} (hs : ∀ j, s j ≠ 0) (y : Fin k → ℝ) {P : (Fin k → ℝ) → Prop}
    (hP : MeasurableSet {z | P z}) (h : ∀ᵐ w ∂tapeLaw K k, P (walkTo s y w)) : ∀ᵐ z : Fin k → ℝ, P z := by
  have hp := drawLaw_prob hK
  obtain ⟨v, hv⟩ : ∃ v : Fin k → NNReal, ∀ j, v j = NNReal.mk (s j ^ 2) (sq_nonneg _) := ⟨_, fun j => rfl⟩
  have hm : ∀ j, Measurable fun d : Draw => y j + d.z * s j := fun j =>
    (draw_z_meas.mul_const (s j)).const_add (y j)
  have hw : Measurable (walkTo s y) := (walkTo_meas s).comp measurable_prodMk_left
  have e : (tapeLaw K k).map (walkTo s y) = Measure.pi fun j => gaussianReal (y j) (v j) := by
    unfold tapeLaw
    have h1 := Measure.pi_map_pi (μ := fun _ : Fin k => drawLaw K) (f := fun j (d : Draw) => y j + d.z * s j)
      fun j => (hm j).aemeasurable
    refine Eq.trans h1 ?_
    congr 1
    funext j
    have h2 : (fun d : Draw => y j + d.z * s j) = (fun u : ℝ => y j + u) ∘ (fun u : ℝ => u * s j) ∘ Draw.z := rfl
    rw [h2, ← Measure.map_map (by fun_prop) (show Measurable ((fun u : ℝ => u * s j) ∘ Draw.z) from draw_z_meas.mul_const (s j)), ← Measure.map_map (by fun_prop) draw_z_meas, drawLaw_z hK,
      gaussianReal_map_mul_const, gaussianReal_map_const_add]
    rw [hv, mul_zero, zero_add, mul_one]
  have h1 : ∀ᵐ z ∂(Measure.pi fun j => gaussianReal (y j) (v j)), P z := by
    rw [← e]
    exact (ae_map_iff hw.aemeasurable hP).2 h
  have h2 : (volume : Measure (Fin k → ℝ)) ≪ Measure.pi fun j => gaussianReal (y j) (v j) :=
    pi_ac fun j => gaussianReal_absolutelyContinuous' _ (by
      intro hc
      rw [hv] at hc
      have : s j ^ 2 = 0 := congrArg NNReal.toReal hc
      exact hs j (pow_eq_zero_iff (two_ne_zero) |>.1 this))
  exact h2.ae_le h1

/-! ### irreducibility -/

/-- If a function takes, after an iteration, a value determined by the model before, then so it does when a row gets new
values. -/
theorem noticed_set (hm : 0 < m) (hK : K ≠ 0) (hd : Multiple sps K) (h : ∀ i, (sps i).Ok) (hℓ : Measurable ℓ)
    (hs : ∀ i j, (sps i).step j ≠ 0) {G : Values sps → ENNReal} (hG : Measurable G) {x : Values sps} (hx : Possible sps x)
    (h0 : iterP sps K ℓ G x = 0) (i : Fin m) {k : ℕ} (hk : k < (sps i).info.hi) :
    ∀ᵐ z ∂valuesLaw (sps i).dens, G (act sps i (false, k) x z) = 0 := by
  have hp := drawLaw_prob hK
  have htp := tapeLaw_prob hK (sps i).size
  have hkK : k < K := lt_of_lt_of_le hk (Nat.le_of_dvd (Nat.pos_of_ne_zero hK) (hd i _ (by omega) le_rfl))
  have hmd : ∀ j, Measurable ((sps i).dens j) := fun j => DensityOf.meas ((h i).dens j)
  have h1 : ∀ᵐ θ ∂(drawLaw K).prod (tapeLaw K (sps i).size), 0 < (walkedK sps K i).ratio x θ → G ((walkedK sps K i).move x θ) = 0 :=
    step_null (walkedK_ok hK h i) hℓ hG (iterP_null hm h0 i).1
  have h2 := draw_index (Measure.ae_ae_of_ae_prod h1) (P := fun n => ∀ᵐ w ∂tapeLaw K (sps i).size,
    0 < atRow (fun y => (walkKern K (sps i).step (sps i).dens).ratio y w) (x i) n →
      G (Function.update x i (changeRow (fun y => walkTo (sps i).step y w) (x i) n)) = 0) hkK
  have hact : Measurable fun z => act sps i (false, k) x z := (set_pres h i k).meas.comp measurable_prodMk_left
  have hpos := (hx i).2
  have hlo := (hx i).1.1
  obtain ⟨t, ht⟩ : ∃ t, t = x i := ⟨_, rfl⟩
  unfold act actT at hact ⊢
  rw [← ht] at h2 hpos hlo hact ⊢
  obtain ⟨n, v⟩ := t
  cases n with
  | zero =>
    have := (h i).lo
    simp only at hlo
    omega
  | succ n =>
    have h3 : ∀ᵐ w ∂tapeLaw K (sps i).size, (fun z => (∀ j, 0 < (sps i).dens j (z j)) →
        G (Function.update x i (setRow k (tup (n + 1) v) z)) = 0) (walkTo (sps i).step (v (Fin.ofNat (n + 1) k)) w) := by
      filter_upwards [h2] with w hw hd
      refine hw ?_
      change 0 < ∏ j, (sps i).dens j (walkTo (sps i).step (v (Fin.ofNat (n + 1) k)) w j) / (sps i).dens j (v (Fin.ofNat (n + 1) k) j)
      exact Finset.prod_pos fun j _ => div_pos (hd j) (hpos _ j)
    have hmeas : MeasurableSet {z : Fin (sps i).size → ℝ | (∀ j, 0 < (sps i).dens j (z j)) →
        G (Function.update x i (setRow k (tup (n + 1) v) z)) = 0} := by
      have m1 : MeasurableSet {z : Fin (sps i).size → ℝ | ∀ j, 0 < (sps i).dens j (z j)} := by
        rw [Set.ofPred_forall]
        exact MeasurableSet.iInter fun j => measurableSet_lt measurable_const ((hmd j).comp (measurable_pi_apply j))
      have m2 : MeasurableSet {z : Fin (sps i).size → ℝ | G (Function.update x i (setRow k (tup (n + 1) v) z)) = 0} :=
        (hG.comp hact) (measurableSet_singleton 0)
      have e : {z : Fin (sps i).size → ℝ | (∀ j, 0 < (sps i).dens j (z j)) →
          G (Function.update x i (setRow k (tup (n + 1) v) z)) = 0} =
          {z | ∀ j, 0 < (sps i).dens j (z j)}ᶜ ∪ {z | G (Function.update x i (setRow k (tup (n + 1) v) z)) = 0} := by
        ext z
        exact imp_iff_not_or
      rw [e]
      exact m1.compl.union m2
    have h4 := walk_everywhere hK (hs i) _ hmeas h3
    have h5 : ∀ᵐ z ∂valuesLaw (sps i).dens, (∀ j, 0 < (sps i).dens j (z j)) →
        G (Function.update x i (setRow k (tup (n + 1) v) z)) = 0 := by
      unfold valuesLaw
      exact (withDensity_absolutelyContinuous _ _).ae_le h4
    filter_upwards [h5, valuesLaw_pos hmd] with z hz1 hz2
    exact hz1 hz2

/-- The same when a row is added. -/
theorem noticed_new (hm : 0 < m) (hK : K ≠ 0) (h : ∀ i, (sps i).Ok) (hℓ : Measurable ℓ) {G : Values sps → ENNReal}
    (hG : Measurable G) {x : Values sps} (h0 : iterP sps K ℓ G x = 0) (i : Fin m)
    (ht : (sps i).info.transD = true) (hn : (x i).1 ≠ (sps i).info.hi) :
    ∀ᵐ z ∂valuesLaw (sps i).dens, G (act sps i (true, 0) x z) = 0 := by
  have hp := drawLaw_prob hK
  have htp := tapeLaw_prob hK (sps i).size
  have h1 : ∀ᵐ θ ∂(drawLaw K).prod (tapeLaw K (sps i).size), 0 < (bornK sps K i).ratio x θ → G ((bornK sps K i).move x θ) = 0 :=
    step_null (bornK_ok hK h i) hℓ hG ((iterP_null hm h0 i).2 ht)
  have h2 := draw_index (Measure.ae_ae_of_ae_prod h1) (P := fun n => ∀ᵐ w ∂tapeLaw K (sps i).size,
    0 < (birthKern K (tapeLaw K (sps i).size) (samplesOf (sps i).prior) (sps i).info.hi).ratio (x i) (noDraw, w) →
      G (Function.update x i (addRow (sps i).info.hi (x i) n (samplesOf (sps i).prior w))) = 0) (Nat.pos_of_ne_zero hK)
  have hact : Measurable fun z => act sps i (true, 0) x z := (act_dom h i (true, 0)).meas.comp measurable_prodMk_left
  rw [← samplesOf_law hK (h i).dens]
  refine (ae_map_iff (samplesOf_meas (h i).dens).aemeasurable ((hG.comp hact) (measurableSet_singleton 0))).2 ?_
  filter_upwards [h2] with w hw
  refine hw ?_
  change 0 < if (x i).1 = (sps i).info.hi then (0 : ℝ) else 1
  rw [if_neg hn]
  exact one_pos

/-- A function that takes, after an iteration, a value determined by the model before, is constant. -/
theorem iter_const (hm : 0 < m) (hK : K ≠ 0) (hd : Multiple sps K) (h : ∀ i, (sps i).Ok) (hℓ : Measurable ℓ)
    (hs : ∀ i j, (sps i).step j ≠ 0) (hfix : ∀ i, (sps i).info.transD = false → (sps i).info.lo = (sps i).info.hi)
    {g f : Values sps → ℝ} (hg : Measurable g) (hf : Measurable f)
    (hi : ∀ᵐ x ∂priorOf sps, iterP sps K ℓ ({y | g y ≠ f x}.indicator 1) x = 0) : ∃ c, ∀ᵐ x ∂priorOf sps, g x = c := by
  have hv : ∀ i, IsProbabilityMeasure (valuesLaw (sps i).dens) := fun i => valuesLaw_prob (h i).dens
  have hset : ∀ c : ℝ, MeasurableSet {y | g y ≠ c} := fun c => (hg (measurableSet_singleton c)).compl
  have hGm : ∀ c : ℝ, Measurable ({y | g y ≠ c}.indicator (1 : Values sps → ENNReal)) := fun c => measurable_one.indicator (hset c)
  have hG0 : ∀ (c : ℝ) (y : Values sps), {y | g y ≠ c}.indicator (1 : Values sps → ENNReal) y = 0 → g y = c := by
    intro c y hy
    by_contra hc
    rw [Set.indicator_of_mem (show y ∈ {y | g y ≠ c} from hc)] at hy
    exact one_ne_zero hy
  have hset' : ∀ i k, k < (sps i).info.hi → ∀ᵐ x ∂priorOf sps, ∀ᵐ z ∂valuesLaw (sps i).dens, g (act sps i (false, k) x z) = f x := by
    intro i k hk
    filter_upwards [hi, prior_possible h] with x hx hp
    filter_upwards [noticed_set hm hK hd h hℓ hs (hGm (f x)) hp hx i hk] with z hz
    exact hG0 _ _ hz
  -- the value before is that of the function
  have hgf : ∀ᵐ x ∂priorOf sps, g x = f x := by
    let i : Fin m := ⟨0, hm⟩
    have hk : 0 < (sps i).info.hi := lt_of_lt_of_le (h i).lo (h i).hi
    have hms : MeasurableSet {x : Values sps | g x = f x} := measurableSet_eq_fun hg hf
    refine (set_pres h i 0).ae_of hms ?_
    filter_upwards [hset' i 0 hk, (act_dom h i (false, 0)).ae (hset' i 0 hk)] with x _ hx2
    have hidem : ∀ y z, act sps i (false, 0) (act sps i (false, 0) x y) z = act sps i (false, 0) x z := by
      intro y z
      unfold act actT
      rw [Function.update_idem, Function.update_self]
      congr 1
      obtain ⟨n, v⟩ := x i
      cases n with
      | zero => rfl
      | succ n =>
        simp [setRow, changeRow, Function.update_idem]
    simp only [hidem] at hx2
    obtain ⟨y₀, hy₀⟩ := hx2.exists
    filter_upwards [hx2, hy₀] with y hy1 hy2
    obtain ⟨z, hz1, hz2⟩ := (hy1.and hy₀).exists
    exact hy2.trans (hz2.symm.trans hz1)
  refine inv_const h fun i a ha => ?_
  obtain ⟨b, k⟩ := a
  cases b with
  | false =>
    filter_upwards [hset' i k ha, hgf] with x hx1 hx2
    rwa [hx2]
  | true =>
    by_cases ht : (sps i).info.transD = true
    · filter_upwards [hi, hgf] with x hx1 hx2
      by_cases hn : (x i).1 = (sps i).info.hi
      · refine Filter.Eventually.of_forall fun z => ?_
        have : act sps i (true, k) x z = x := by
          unfold act actT newRow addRow
          rw [if_pos rfl, if_pos hn, Function.update_eq_self]
        rw [this]
      · filter_upwards [noticed_new hm hK h hℓ (hGm (f x)) hx1 i ht hn] with z hz
        exact (hG0 _ _ hz).trans hx2.symm
    · filter_upwards [prior_possible h] with x hx
      refine Filter.Eventually.of_forall fun z => ?_
      have e := hfix i (by simpa using ht)
      have hn : (x i).1 = (sps i).info.hi := le_antisymm (hx i).1.2 (e ▸ (hx i).1.1)
      have : act sps i (true, k) x z = x := by
        unfold act actT newRow addRow
        rw [if_pos rfl, if_pos hn, Function.update_eq_self]
      rw [this]

end BB.Lemmas
