import Verif.Lemmas.NearScheme
import Verif.Lemmas.RowLaw

/-!
# The values of the row with the nearest site, and sites in general position
-/

namespace BB.Lemmas

open BB.Spec MeasureTheory ProbabilityTheory

variable {P : Type} {k : ℕ}

open Classical in
/-- The values of the row whose site is strictly nearer to `s` than all other sites (0 if there is none). -/
noncomputable def center (d : P → P → ℝ) (x : Tuple (P × (Fin k → ℝ))) (s : P) (j : Fin k) : ℝ :=
  ∑ i, if ∀ i', i' ≠ i → d (x.2 i).1 s < d (x.2 i').1 s then (x.2 i).2 j else 0

theorem center_same {d : P → P → ℝ} {x x' : Tuple (P × (Fin k → ℝ))} (h : SameRows x x') (s : P) (j : Fin k) :
    center d x s j = center d x' s j := by
  classical
  obtain ⟨n, f⟩ := x
  obtain ⟨m, g⟩ := x'
  obtain rfl : n = m := SameRows.dim h
  obtain ⟨σ, hσ⟩ := sameRows_perm h
  unfold center
  simp only [hσ]
  refine Fintype.sum_equiv σ _ _ fun i => ?_
  have : (∀ i', i' ≠ i → d (g (σ i)).1 s < d (g (σ i')).1 s) ↔ ∀ i', i' ≠ σ i → d (g (σ i)).1 s < d (g i').1 s := by
    constructor
    · intro h i' hi'
      have := h (σ.symm i') (by rintro rfl; exact hi' (σ.apply_symm_apply i').symm)
      rwa [σ.apply_symm_apply] at this
    · exact fun h i' hi' => h _ fun hc => hi' (σ.injective hc)
  simp only [this]

theorem center_eq {d : P → P → ℝ} {x : Tuple (P × (Fin k → ℝ))} {s : P} {i : Fin x.1}
    (h : ∀ i', i' ≠ i → d (x.2 i).1 s < d (x.2 i').1 s) (j : Fin k) : center d x s j = (x.2 i).2 j := by
  classical
  unfold center
  rw [Finset.sum_eq_single i, if_pos h]
  · intro b _ hb
    rw [if_neg]
    intro hc
    exact absurd (hc i hb.symm) (not_lt.2 (h b hb).le)
  · exact fun hi => absurd (Finset.mem_univ i) hi

theorem center_meas [MeasurableSpace P] {d : P → P → ℝ} (hd : Measurable fun z : P × P => d z.1 z.2) (j : Fin k) :
    Measurable fun z : Tuple (P × (Fin k → ℝ)) × P => center d z.1 z.2 j := by
  classical
  refine measurable_tuple_prod fun n => ?_
  unfold center
  have hrow : ∀ i : Fin n, Measurable fun z : (Fin n → P × (Fin k → ℝ)) × P => z.1 i := fun i =>
    (measurable_pi_apply i).comp measurable_fst
  have hdi : ∀ i : Fin n, Measurable fun z : (Fin n → P × (Fin k → ℝ)) × P => d (z.1 i).1 z.2 := fun i =>
    hd.comp ((measurable_fst.comp (hrow i)).prodMk measurable_snd)
  have key : ∀ i : Fin n, Measurable fun z : (Fin n → P × (Fin k → ℝ)) × P =>
      if ∀ i', i' ≠ i → d (z.1 i).1 z.2 < d (z.1 i').1 z.2 then (z.1 i).2 j else 0 := by
    intro i
    refine Measurable.ite ?_ ((measurable_pi_apply j).comp (measurable_snd.comp (hrow i))) measurable_const
    have : {z : (Fin n → P × (Fin k → ℝ)) × P | ∀ i', i' ≠ i → d (z.1 i).1 z.2 < d (z.1 i').1 z.2} =
        ⋂ i' : Fin n, ⋂ _ : i' ≠ i, {z | d (z.1 i).1 z.2 < d (z.1 i').1 z.2} := by
      ext z
      simp only [Set.mem_iInter, Set.mem_ofPred_eq]
    exact (congrArg MeasurableSet this).mpr
      (.iInter fun i' => .iInter fun _ => measurableSet_lt (hdi i) (hdi i'))
  have h := Finset.measurable_sum (Finset.univ : Finset (Fin n)) fun i _ => key i
  refine (congrArg Measurable (funext fun z => ?_)).mp h
  refine Finset.sum_congr rfl fun i _ => ?_
  congr

/-- The density of the values of a newborn row with respect to those of its nearest neighbour. -/
noncomputable def nearDens (d : P → P → ℝ) (std : Fin k → P → ℝ) (x : Tuple (P × (Fin k → ℝ))) (r : P × (Fin k → ℝ)) : ℝ :=
  ∏ j, normalPDF (center d x r.1 j) (std j r.1) (r.2 j)

/-- The newborn row. -/
noncomputable def nearRow {Ω : Type} (d : P → P → ℝ) (std : Fin k → P → ℝ) (site : Ω → P) (x : Tuple (P × (Fin k → ℝ)))
    (ω : Ω × (Fin k → ℝ)) : P × (Fin k → ℝ) :=
  (site ω.1, fun j => center d x (site ω.1) j + ω.2 j * std j (site ω.1))

/-- The prior density of a row. -/
noncomputable def priorDens (dens : Fin k → P → ℝ → ℝ) (r : P × (Fin k → ℝ)) : ℝ := ∏ j, max (dens j r.1 (r.2 j)) 0

theorem normalPDF_nonneg' (m s x : ℝ) : 0 ≤ normalPDF m s x := gaussianPDFReal_nonneg _ _ _

theorem nearDens_nonneg (d : P → P → ℝ) (std : Fin k → P → ℝ) (x : Tuple (P × (Fin k → ℝ))) (r : P × (Fin k → ℝ)) :
    0 ≤ nearDens d std x r := Finset.prod_nonneg fun _ _ => normalPDF_nonneg' _ _ _

theorem priorDens_nonneg (dens : Fin k → P → ℝ → ℝ) (r : P × (Fin k → ℝ)) : 0 ≤ priorDens dens r :=
  Finset.prod_nonneg fun _ _ => le_max_right _ _

theorem priorDens_meas [MeasurableSpace P] {dens : Fin k → P → ℝ → ℝ} (hm : ∀ j, Measurable fun z : P × ℝ => dens j z.1 z.2) :
    Measurable (priorDens dens) := by
  unfold priorDens
  refine Finset.measurable_prod _ fun j _ => Measurable.max ?_ measurable_const
  exact (hm j).comp (measurable_fst.prodMk ((measurable_pi_apply j).comp measurable_snd))

theorem normalPDF_meas : Measurable fun z : ℝ × ℝ × ℝ => normalPDF z.1 z.2.1 z.2.2 := by
  unfold normalPDF gaussianPDFReal
  have : Measurable fun z : ℝ × ℝ × ℝ => ((Real.toNNReal (z.2.1 ^ 2) : NNReal) : ℝ) :=
    measurable_coe_nnreal_real.comp (measurable_real_toNNReal.comp (by fun_prop))
  fun_prop

theorem nearDens_meas [MeasurableSpace P] {d : P → P → ℝ} (hd : Measurable fun z : P × P => d z.1 z.2)
    {std : Fin k → P → ℝ} (hs : ∀ j, Measurable (std j)) :
    Measurable fun z : Tuple (P × (Fin k → ℝ)) × (P × (Fin k → ℝ)) => nearDens d std z.1 z.2 := by
  unfold nearDens
  refine Finset.measurable_prod _ fun j _ => ?_
  have h1 : Measurable fun z : Tuple (P × (Fin k → ℝ)) × (P × (Fin k → ℝ)) => center d z.1 z.2.1 j :=
    (center_meas hd j).comp (measurable_fst.prodMk measurable_snd.fst)
  have h2 : Measurable fun z : Tuple (P × (Fin k → ℝ)) × (P × (Fin k → ℝ)) => std j z.2.1 :=
    (hs j).comp measurable_snd.fst
  have h3 : Measurable fun z : Tuple (P × (Fin k → ℝ)) × (P × (Fin k → ℝ)) => z.2.2 j :=
    (measurable_pi_apply j).comp measurable_snd.snd
  exact normalPDF_meas.comp (h1.prodMk (h2.prodMk h3))

theorem nearRow_meas [MeasurableSpace P] {Ω : Type} [MeasurableSpace Ω] {d : P → P → ℝ}
    (hd : Measurable fun z : P × P => d z.1 z.2) {std : Fin k → P → ℝ} (hs : ∀ j, Measurable (std j)) {site : Ω → P}
    (hsite : Measurable site) :
    Measurable fun z : Tuple (P × (Fin k → ℝ)) × (Ω × (Fin k → ℝ)) => nearRow d std site z.1 z.2 := by
  unfold nearRow
  have h0 : Measurable fun z : Tuple (P × (Fin k → ℝ)) × (Ω × (Fin k → ℝ)) => site z.2.1 := hsite.comp measurable_snd.fst
  refine h0.prodMk (measurable_pi_lambda _ fun j => ?_)
  have h1 : Measurable fun z : Tuple (P × (Fin k → ℝ)) × (Ω × (Fin k → ℝ)) => center d z.1 (site z.2.1) j :=
    (center_meas hd j).comp (measurable_fst.prodMk h0)
  have h3 : Measurable fun z : Tuple (P × (Fin k → ℝ)) × (Ω × (Fin k → ℝ)) => z.2.2 j :=
    (measurable_pi_apply j).comp measurable_snd.snd
  exact h1.add (h3.mul ((hs j).comp h0))

/-- The law of a newborn row. -/
theorem nearRow_law [MeasurableSpace P] {Ω : Type} [MeasurableSpace Ω] {d : P → P → ℝ}
    (hd : Measurable fun z : P × P => d z.1 z.2) {std : Fin k → P → ℝ} (hs : ∀ j, Measurable (std j)) {site : Ω → P}
    (hsite : Measurable site) {μ : Measure Ω} [IsProbabilityMeasure μ] {σ : Measure P} [IsProbabilityMeasure σ]
    (hσ : μ.map site = σ) {dom : Set P} (hdom : ∀ᵐ x ∂σ, x ∈ dom) (hpos : ∀ j, ∀ s ∈ dom, 0 < std j s)
    (x : Tuple (P × (Fin k → ℝ))) :
    (μ.prod (Measure.pi fun _ : Fin k => gaussianReal 0 1)).map (nearRow d std site x) =
      (σ.prod volume).withDensity fun r => ENNReal.ofReal (nearDens d std x r) := by
  have hc : ∀ j, Measurable fun s => center d x s j := fun j =>
    (center_meas hd j).comp (measurable_const.prodMk measurable_id)
  have h := row_law (σ := σ) (dens := fun j s v => normalPDF (center d x s j) (std j s) v) (fun j => by
      have h1 : Measurable fun z : P × ℝ => (center d x z.1 j, (std j z.1, z.2)) :=
        ((hc j).comp measurable_fst).prodMk (((hs j).comp measurable_fst).prodMk measurable_snd)
      exact normalPDF_meas.comp h1)
    (μ := μ) hsite hσ hdom (value := fun j s z => center d x s j + z * std j s) (fun j => by
      have h1 : Measurable fun z : P × ℝ => center d x z.1 j := (hc j).comp measurable_fst
      have h2 : Measurable fun z : P × ℝ => std j z.1 := (hs j).comp measurable_fst
      exact h1.add (measurable_snd.mul h2))
    (dev := fun _ => gaussianReal 0 1) (fun j s hsd => map_normalLaw _ (hpos j s hsd))
  refine Eq.trans h ?_
  unfold rowLaw
  congr 1
  funext r
  exact (ENNReal.ofReal_prod_of_nonneg fun _ _ => normalPDF_nonneg' _ _ _).symm

theorem rowLaw_eq [MeasurableSpace P] (σ : Measure P) (dens : Fin k → P → ℝ → ℝ) :
    rowLaw σ dens = (σ.prod volume).withDensity fun r => ENNReal.ofReal (priorDens dens r) := by
  unfold rowLaw
  congr 1
  funext r
  unfold priorDens
  rw [ENNReal.ofReal_prod_of_nonneg fun _ _ => le_max_right _ _]
  refine Finset.prod_congr rfl fun j _ => ?_
  rcases le_total (dens j r.1 (r.2 j)) 0 with h | h
  · rw [max_eq_right h, ENNReal.ofReal_of_nonpos h, ENNReal.ofReal_zero]
  · rw [max_eq_left h]

/-! ### general position -/

/-- All sites are different, and no site is as far from a second one as from a third one. -/
def Generic (d : P → P → ℝ) (l : List P) : Prop :=
  l.Nodup ∧ ∀ a ∈ l, ∀ b ∈ l, ∀ c ∈ l, a ≠ b → a ≠ c → b ≠ c → d b a ≠ d c a

theorem Generic.perm {d : P → P → ℝ} {l l' : List P} (h : Generic d l) (hp : l'.Perm l) : Generic d l' :=
  ⟨hp.nodup_iff.2 h.1, fun a ha b hb c hc => h.2 a (hp.subset ha) b (hp.subset hb) c (hp.subset hc)⟩

theorem Generic.tail {d : P → P → ℝ} {s : P} {l : List P} (h : Generic d (s :: l)) : Generic d l :=
  ⟨(List.nodup_cons.1 h.1).2, fun a ha b hb c hc => h.2 a (List.mem_cons_of_mem _ ha) b (List.mem_cons_of_mem _ hb) c
    (List.mem_cons_of_mem _ hc)⟩

/-- One of the sites of `l` is strictly nearest to a further site. -/
theorem Generic.nearest {d : P → P → ℝ} {s : P} {l : List P} (h : Generic d (s :: l)) (hl : l ≠ []) :
    ∃ i : Fin l.length, ∀ i', i' ≠ i → d (l.get i) s < d (l.get i') s := by
  have hne : Nonempty (Fin l.length) := ⟨⟨0, List.length_pos_iff.2 hl⟩⟩
  obtain ⟨i, hi⟩ := Finite.exists_min fun i : Fin l.length => d (l.get i) s
  refine ⟨i, fun i' hi' => lt_of_le_of_ne (hi i') ?_⟩
  obtain ⟨h1, h2⟩ := List.nodup_cons.1 h.1
  refine h.2 s (List.mem_cons_self ..) _ (List.mem_cons_of_mem _ (List.get_mem l i)) _
    (List.mem_cons_of_mem _ (List.get_mem l i')) ?_ ?_ ?_
  · exact fun hc => h1 (hc ▸ List.get_mem l i)
  · exact fun hc => h1 (hc ▸ List.get_mem l i')
  · exact fun hc => hi' ((List.nodup_iff_injective_get.1 h2 hc).symm)

/-- A set of sites is in general position with a further one, almost surely. -/
structure NullSites [MeasurableSpace P] (d : P → P → ℝ) (σ : Measure P) : Prop where
  symm : ∀ a b, d a b = d b a
  point : ∀ a, σ {a} = 0
  sphere : ∀ a r, σ {s | d s a = r} = 0
  bisector : ∀ b c, b ≠ c → σ {s | d b s = d c s} = 0

theorem generic_cons [MeasurableSpace P] {d : P → P → ℝ} {σ : Measure P} (h : NullSites d σ) {l : List P}
    (hl : Generic d l) : ∀ᵐ s ∂σ, Generic d (s :: l) := by
  classical
  have h1 : ∀ᵐ s ∂σ, ∀ a ∈ l.toFinset, s ≠ a := by
    rw [Finset.eventually_all l.toFinset]
    exact fun a _ => (ae_iff.2 (by simpa using h.point a))
  have h2 : ∀ᵐ s ∂σ, ∀ a ∈ l.toFinset, ∀ c ∈ l.toFinset, d s a ≠ d c a := by
    rw [Finset.eventually_all l.toFinset]
    intro a _
    rw [Finset.eventually_all l.toFinset]
    exact fun c _ => ae_iff.2 (by simpa using h.sphere a (d c a))
  have h3 : ∀ᵐ s ∂σ, ∀ b ∈ l.toFinset, ∀ c ∈ l.toFinset, b ≠ c → d b s ≠ d c s := by
    rw [Finset.eventually_all l.toFinset]
    intro b _
    rw [Finset.eventually_all l.toFinset]
    intro c _
    by_cases hbc : b = c
    · exact .of_forall fun s hc => absurd hbc hc
    · exact (ae_iff.2 (by simpa using h.bisector b c hbc) : ∀ᵐ s ∂σ, d b s ≠ d c s).mono fun s hs _ => hs
  filter_upwards [h1, h2, h3] with s e1 e2 e3
  have e1' : ∀ a ∈ l, s ≠ a := fun a ha => e1 a (List.mem_toFinset.2 ha)
  refine ⟨List.nodup_cons.2 ⟨fun hc => e1' s hc rfl, hl.1⟩, ?_⟩
  intro a ha b hb c hc hab hac hbc
  rw [List.mem_cons] at ha hb hc
  rcases ha with rfl | ha <;> rcases hb with rfl | hb <;> rcases hc with rfl | hc
  · exact absurd rfl hab
  · exact absurd rfl hab
  · exact absurd rfl hac
  · exact e3 b (List.mem_toFinset.2 hb) c (List.mem_toFinset.2 hc) hbc
  · exact absurd rfl hbc
  · exact e2 a (List.mem_toFinset.2 ha) c (List.mem_toFinset.2 hc)
  · exact (e2 a (List.mem_toFinset.2 ha) b (List.mem_toFinset.2 hb)).symm
  · exact hl.2 a ha b hb c hc hab hac hbc

theorem generic_meas [MeasurableSpace P] [MeasurableEq P] {d : P → P → ℝ} (hd : Measurable fun z : P × P => d z.1 z.2)
    (n : ℕ) : MeasurableSet {v : Fin n → P | Generic d (List.ofFn v)} := by
  have : {v : Fin n → P | Generic d (List.ofFn v)} =
      (⋂ i : Fin n, ⋂ j : Fin n, ⋂ _ : i ≠ j, {v : Fin n → P | v i = v j}ᶜ) ∩
      ⋂ i : Fin n, ⋂ j : Fin n, ⋂ l : Fin n, {v : Fin n → P | v i = v j} ∪ {v | v i = v l} ∪ {v | v j = v l} ∪
        {v | d (v j) (v i) = d (v l) (v i)}ᶜ := by
    ext v
    simp only [Set.mem_inter_iff, Set.mem_iInter, Set.mem_union, Set.mem_compl_iff, Set.mem_ofPred_eq, Generic,
      List.nodup_ofFn, List.forall_mem_ofFn_iff]
    refine and_congr ⟨fun h i j hij hc => hij (h hc), fun h i j hc => by_contra fun hij => h i j hij hc⟩ ?_
    refine forall_congr' fun i => forall_congr' fun j => forall_congr' fun l => ?_
    constructor
    · intro h
      by_contra hc
      push Not at hc
      exact h hc.1.1.1 hc.1.1.2 hc.1.2 hc.2
    · rintro (((h | h) | h) | h) h1 h2 h3
      · exact absurd h h1
      · exact absurd h h2
      · exact absurd h h3
      · exact h
  rw [this]
  have he : ∀ i j : Fin n, MeasurableSet {v : Fin n → P | v i = v j} := fun i j =>
    measurableSet_eq_fun (measurable_pi_apply i) (measurable_pi_apply j)
  refine .inter (.iInter fun i => .iInter fun j => .iInter fun _ => (he i j).compl)
    (.iInter fun i => .iInter fun j => .iInter fun l => ((((he i j).union (he i l)).union (he j l)).union ?_))
  have hdij : ∀ i j : Fin n, Measurable fun v : Fin n → P => d (v j) (v i) := fun i j =>
    hd.comp ((measurable_pi_apply (X := fun _ => P) j).prodMk (measurable_pi_apply i))
  exact (measurableSet_eq_fun (hdij i j) (hdij i l)).compl

/-- A property of lists of rows that holds after almost all births holds for almost all models. -/
theorem ae_rows {R : Type} [MeasurableSpace R] (ρ : Measure R) [SigmaFinite ρ] {G : List R → Prop} (h0 : G [])
    (hm : ∀ n, MeasurableSet {v : Fin n → R | G (List.ofFn v)}) (hs : ∀ l, G l → ∀ᵐ r ∂ρ, G (r :: l)) (lo hi : ℕ) :
    ∀ᵐ x ∂transPrior ρ lo hi, G (List.ofFn x.2) := by
  have key : ∀ n, ∀ᵐ v ∂(Measure.pi fun _ : Fin n => ρ), G (List.ofFn v) := by
    intro n
    induction n with
    | zero => exact .of_forall fun v => by rw [List.ofFn_zero]; exact h0
    | succ n ih =>
      have hp := (measurePreserving_piFinSuccAbove (fun _ : Fin (n + 1) => ρ) 0)
      have hm' : MeasurableSet {z : R × (Fin n → R) | G (z.1 :: List.ofFn z.2)} := by
        have := (MeasurableEquiv.piFinSuccAbove (fun _ : Fin (n + 1) => R) 0).symm.measurable (hm (n + 1))
        refine (congrArg MeasurableSet (Set.ext fun z => ?_)).mp this
        change G (List.ofFn (Fin.insertNth (α := fun _ => R) 0 z.1 z.2)) ↔ G (z.1 :: List.ofFn z.2)
        rw [Fin.insertNth_zero, List.ofFn_succ]
        simp
      have h2 : ∀ᵐ z ∂((Measure.pi fun _ : Fin n => ρ).prod ρ), z.swap ∈ {z : R × (Fin n → R) | G (z.1 :: List.ofFn z.2)} := by
        refine (Measure.ae_prod_mem_iff_ae_ae_mem (measurable_swap hm')).2 (ih.mono fun v hv => hs _ hv)
      have h3 : ∀ᵐ z ∂(ρ.prod (Measure.pi fun _ : Fin n => ρ)), G (z.1 :: List.ofFn z.2) := by
        rw [← Measure.prod_swap] 
        exact (ae_map_iff measurable_swap.aemeasurable hm').2 h2
      have h4 := hp.quasiMeasurePreserving.ae h3
      refine h4.mono fun v hv => ?_
      rw [List.ofFn_succ]
      exact hv
  rw [ae_iff]
  have hms : MeasurableSet {x : Tuple R | ¬ G (List.ofFn x.2)} := measurableSet_tuple.2 fun n => (hm n).compl
  unfold transPrior
  rw [Measure.finsetSum_apply]
  refine Finset.sum_eq_zero fun n _ => ?_
  rw [Measure.map_apply (measurable_mk n) hms]
  exact ae_iff.1 (key n)

end BB.Lemmas
