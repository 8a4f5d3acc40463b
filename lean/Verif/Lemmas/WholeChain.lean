import Verif.Lemmas.Realize
import Verif.Lemmas.ProgressChain

/-!
# The perturbations of an inversion and its blocks
-/

namespace BB.Lemmas

open BB Spec Props MeasureTheory ProbabilityTheory

/-! ### the blocks of modelled spaces -/

section spaces

variable {sp : Space} {b : Block}

theorem explored_only (h : Explored sp b) : ∃ (k : ℕ) (prs : Fin k → Prior), OnlyPriors sp prs ∧ 0 < k := by
  cases h with
  | known h =>
    cases h with
    | @plain k _ prs _ _ _ hp _ _ => exact ⟨k, prs, hp.only, hp.some⟩
    | @fixed k _ prs _ _ _ hp _ => exact ⟨k, prs, hp.only, hp.some⟩
    | @line k _ prs _ _ _ hp _ => exact ⟨k, prs, hp.only, hp.some⟩
    | @plane k _ prs _ _ _ hp _ => exact ⟨k, prs, hp.only, hp.some⟩
  | @lineBirths k _ prs _ _ _ hp => exact ⟨k, prs, hp.only, hp.some⟩
  | @lineNear k _ prs _ _ _ _ hp => exact ⟨k, prs, hp.only, hp.some⟩
  | @planeBirths k _ prs _ _ _ hp => exact ⟨k, prs, hp.only, hp.some⟩
  | @planeNear k _ prs _ _ _ _ hp => exact ⟨k, prs, hp.only, hp.some⟩

theorem explored_keys (h : Explored sp b) : b.keys = [sp.info.name] := by
  cases h with
  | known h => cases h <;> rfl
  | _ => rfl

theorem explored_perts (h : Explored sp b) : sp.perts = [(sp.ownPert, sp.ownPert.weights.sum)] := by
  obtain ⟨k, prs, h1, -⟩ := explored_only h
  exact perts_only h1

theorem explored_weight (h : Explored sp b) : 0 < sp.ownPert.weights.sum := by
  obtain ⟨k, prs, h1, h2⟩ := explored_only h
  have hne : sp.ownFuncs ≠ [] := by
    rw [own_funcs h1 h2]
    simp
  change 0 < (sp.ownFuncs.map (·.2)).sum
  refine List.sum_pos _ (fun v hv => ?_) (by simpa using hne)
  obtain ⟨fw, hfw, rfl⟩ := List.mem_map.1 hv
  exact ownFuncs_pos fw hfw

end spaces

/-! ### the perturbations of the inversion -/

section whole

variable {p : Problem} {B : ℕ → Block} {logLik : Whole p B → ℝ}

theorem perts_whole : ∀ {ps : Spaces} {B : ℕ → Block},
    (∀ i nm sp, ps[i]? = some (nm, sp) → nm = sp.info.name ∧ Explored sp (B i)) →
    ps.perts = ps.map fun kv => (kv.2.ownPert, kv.2.ownPert.weights.sum)
  | [], _, _ => rfl
  | (nm, sp) :: ps, B, h => by
    have h0 := explored_perts (h 0 nm sp rfl).2
    have ih := perts_whole (ps := ps) (B := fun i => B (i + 1)) fun i nm' sp' hi => h (i + 1) nm' sp' hi
    unfold Spaces.perts at ih ⊢
    rw [List.flatMap_cons, ih, h0]
    rfl

theorem inversion_mono {K L : Space → Block → Prop} (hK : ∀ sp b, K sp b → L sp b) (h : InversionOf p B K logLik) :
    InversionOf p B L logLik where
  exist := h.exist
  spaces := fun i nm sp hi => ⟨(h.spaces i nm sp hi).1, hK _ _ (h.spaces i nm sp hi).2⟩
  noise := h.noise
  distinct := h.distinct
  targets := h.targets
  bounds := h.bounds
  likelihood := h.likelihood
  meas := h.meas
  lumps := h.lumps

theorem any_of_whole (h : WholeProblem p B logLik) : AnyProblem p B logLik := inversion_mono (fun _ _ h => .known h) h

theorem whole_perturbs (h : AnyProblem p B logLik) : p.cfg.perturbs =
    (p.spaces.map fun kv => (kv.2.ownPert.displayName, kv.2.ownPert.perturb)) ++ p.noisePerturbs := by
  change p.perturbs = _
  unfold Problem.perturbs
  rw [perts_whole h.spaces, List.map_map]
  rfl

/-- All weights are positive. -/
theorem whole_positive (h : AnyProblem p B logLik) : ∀ w ∈ p.cfg.weights, 0 < w := by
  intro w hw
  change w ∈ p.weights at hw
  unfold Problem.weights at hw
  rw [perts_whole h.spaces] at hw
  rcases List.mem_append.1 hw with hw | hw
  · rw [List.map_map] at hw
    obtain ⟨⟨nm, sp⟩, hkv, rfl⟩ := List.mem_map.1 hw
    obtain ⟨i, hi, e⟩ := List.mem_iff_getElem.1 hkv
    exact explored_weight (h.spaces i nm sp (by rw [List.getElem?_eq_getElem hi, e])).2
  · split at hw
    · cases hw
    · rw [List.mem_singleton.1 hw]
      exact one_pos

theorem whole_weights (h : AnyProblem p B logLik) : 0 < p.cfg.weights.sum := by
  refine List.sum_pos _ (whole_positive h) fun hc => ?_
  change p.weights = [] at hc
  unfold Problem.weights at hc
  rw [perts_whole h.spaces, List.append_eq_nil_iff] at hc
  obtain ⟨h1, h2⟩ := hc
  rcases h.exist with he | he
  · exact he (by simpa using h1)
  · split at h2
    · exact he (by simpa using ‹p.hier.isEmpty = true›)
    · cases h2

theorem chance_ne (h : AnyProblem p B logLik) (i : Fin p.cfg.perturbs.length) : chance p.cfg i ≠ 0 := by
  have hlen : p.cfg.perturbs.length = p.cfg.weights.length := perturbs_length p
  unfold chance
  rw [Ne, ENNReal.ofReal_eq_zero, not_le, sum_weight _ hlen]
  refine div_pos ?_ (whole_weights h)
  unfold weight
  rw [List.getD_eq_getElem _ _ (hlen ▸ i.is_lt)]
  exact whole_positive h _ (List.getElem_mem _)

/-- What perturbation `i` is. -/
theorem inversion_cases {K : Space → Block → Prop} (hK : ∀ sp b, K sp b → Explored sp b) (h : InversionOf p B K logLik) (i : Fin p.cfg.perturbs.length) :
    (∃ sp, p.spaces[i.val]? = some (sp.info.name, sp) ∧ K sp (B i) ∧ p.cfg.perturbs[i].2 = sp.ownPert.perturb) ∨
    (i.val = p.spaces.length ∧ p.hier ≠ [] ∧ B i = noiseBlock p.hier ∧ p.cfg.perturbs[i].2 = noisePerturb p.hier) := by
  have e := whole_perturbs (p := p) (B := B) (logLik := logLik) (inversion_mono hK h)
  have hi := i.is_lt
  have hg : p.cfg.perturbs[i.val]? = some p.cfg.perturbs[i] := List.getElem?_eq_getElem _
  obtain ⟨g, hgd⟩ : ∃ g, p.cfg.perturbs[i] = g := ⟨_, rfl⟩
  rw [hgd] at hg ⊢
  obtain ⟨m, hm⟩ : ∃ m, i.val = m := ⟨_, rfl⟩
  rw [hm] at hg ⊢
  rcases lt_or_ge m p.spaces.length with hlt | hge
  · left
    obtain ⟨⟨nm, sp⟩, hkv⟩ : ∃ kv, p.spaces[m] = kv := ⟨_, rfl⟩
    have hq : p.spaces[m]? = some (nm, sp) := by rw [List.getElem?_eq_getElem hlt, hkv]
    obtain ⟨hn, hmod⟩ := h.spaces _ _ _ hq
    subst hn
    refine ⟨sp, hq, hmod, ?_⟩
    rw [e, List.getElem?_append_left (by simpa using hlt), List.getElem?_map, hq] at hg
    exact (congrArg Prod.snd (Option.some.inj hg)).symm
  · right
    rw [e, List.getElem?_append_right (by simpa using hge), List.length_map] at hg
    unfold Problem.noisePerturbs at hg
    by_cases hh : p.hier.isEmpty
    · rw [if_pos hh] at hg
      simp at hg
    · rw [if_neg hh] at hg
      have h0 : m - p.spaces.length = 0 := by
        by_contra hne
        rw [List.getElem?_eq_none (by simp; omega)] at hg
        cases hg
      have hi' : m = p.spaces.length := by omega
      have hne : p.hier ≠ [] := fun hc => hh (by rw [hc]; rfl)
      refine ⟨hi', hne, ?_, ?_⟩
      · rw [hi']
        exact h.noise hne
      · rw [h0] at hg
        exact (congrArg Prod.snd (Option.some.inj hg)).symm

theorem whole_cases (h : AnyProblem p B logLik) (i : Fin p.cfg.perturbs.length) :
    (∃ sp, p.spaces[i.val]? = some (sp.info.name, sp) ∧ Explored sp (B i) ∧ p.cfg.perturbs[i].2 = sp.ownPert.perturb) ∨
    (i.val = p.spaces.length ∧ p.hier ≠ [] ∧ B i = noiseBlock p.hier ∧ p.cfg.perturbs[i].2 = noisePerturb p.hier) :=
  inversion_cases (fun _ _ h => h) h i

theorem whole_realized (h : AnyProblem p B logLik) (i : Fin p.cfg.perturbs.length) :
    Nonempty (Realization p.tf p.cfg.perturbs[i].2 (B i)) := by
  rcases whole_cases h i with ⟨sp, -, hm, e⟩ | ⟨-, -, hb, e⟩
  · rw [e]
    exact explored_realized p.tf hm
  · rw [e, hb]
    exact ⟨(noise_realized p.tf (hier_nodup h.targets) h.bounds).choose⟩

/-- Without births and deaths of cells, the perturbation of each block is in balance with one distribution. -/
theorem whole_balanced (h : WholeProblem p B logLik) (i : Fin p.cfg.perturbs.length) :
    ∃ R : Realization p.tf p.cfg.perturbs[i].2 (B i), R.L.moves.prior = (B i).sampled := by
  rcases inversion_cases (fun _ _ h => .known h) h i with ⟨sp, -, hm, e⟩ | ⟨-, -, hb, e⟩
  · rw [e]
    exact space_realized p.tf hm
  · rw [e, hb]
    obtain ⟨R, hR, -⟩ := noise_realized p.tf (hier_nodup h.targets) h.bounds
    exact ⟨R, hR⟩

/-- Sites or unknown noise: the perturbation of a block is not in balance with the prior. -/
theorem whole_stirred (h : AnyProblem p B logLik) (hd : (∃ kv ∈ p.spaces, kv.2.info.kind.isDisc = true) ∨ p.hier ≠ []) :
    ∃ (i : Fin p.cfg.perturbs.length) (R : Realization p.tf p.cfg.perturbs[i].2 (B i)),
      Stirs (B i).prior (B i).staying R.L.moves R.L.w := by
  have hl : p.cfg.perturbs.length = p.spaces.length + p.noisePerturbs.length := by
    rw [whole_perturbs h, List.length_append, List.length_map]
  rcases hd with ⟨⟨nm, sp⟩, hm, hk⟩ | hne
  · obtain ⟨n, hn, e⟩ := List.mem_iff_getElem.1 hm
    refine ⟨⟨n, by omega⟩, ?_⟩
    rcases whole_cases h ⟨n, by omega⟩ with ⟨sp', hq, hx, e'⟩ | ⟨h1, -⟩
    · rw [List.getElem?_eq_getElem hn, e] at hq
      obtain rfl : sp = sp' := congrArg Prod.snd (Option.some.inj hq)
      rw [e']
      exact space_stirred p.tf hx hk
    · exact absurd h1 hn.ne
  · have h1 : p.noisePerturbs.length = 1 := by
      unfold Problem.noisePerturbs
      rw [if_neg (by simpa using hne)]
      rfl
    refine ⟨⟨p.spaces.length, by omega⟩, ?_⟩
    rcases whole_cases h ⟨p.spaces.length, by omega⟩ with ⟨sp', hq, -⟩ | ⟨-, -, hb, e⟩
    · rw [List.getElem?_eq_none le_rfl] at hq
      cases hq
    · rw [e, hb]
      obtain ⟨R, -, hR⟩ := noise_realized p.tf (hier_nodup h.targets) h.bounds
      exact ⟨R, hR hne⟩

/-- The entries of different blocks are different. -/
theorem whole_disjoint (h : AnyProblem p B logLik) {i j : Fin p.cfg.perturbs.length} (hij : i ≠ j) {k : String}
    (hi : k ∈ (B i).keys) : k ∉ (B j).keys := by
  intro hj
  have hnd := h.distinct
  have hsp : ∀ {i : ℕ} {sp : Space}, p.spaces[i]? = some (sp.info.name, sp) → (p.spaces.map (·.1))[i]? = some sp.info.name := by
    intro i sp hq
    rw [List.getElem?_map, hq]
    rfl
  obtain ⟨hn1, -, hn2⟩ := List.nodup_append.1 hnd
  have hmix : ∀ {i : ℕ} {sp : Space}, p.spaces[i]? = some (sp.info.name, sp) → k ∈ [sp.info.name] →
      k ∈ (noiseBlock p.hier).keys → False := by
    intro i sp hq h1 h2
    rw [List.mem_singleton] at h1
    subst h1
    exact hn2 _ (List.mem_of_getElem? (hsp hq)) _ h2 rfl
  rcases whole_cases h i with ⟨sp, hq, hm, -⟩ | ⟨h1, -, hb, -⟩ <;> rcases whole_cases h j with ⟨sp', hq', hm', -⟩ | ⟨h1', -, hb', -⟩
  · rw [explored_keys hm, List.mem_singleton] at hi
    rw [explored_keys hm', List.mem_singleton] at hj
    have e1 := hsp hq
    have e2 := hsp hq'
    rw [← hi] at e1
    rw [← hj] at e2
    obtain ⟨l1, g1⟩ := List.getElem?_eq_some_iff.1 e1
    obtain ⟨l2, g2⟩ := List.getElem?_eq_some_iff.1 e2
    exact hij (Fin.ext ((List.Nodup.getElem_inj_iff hn1).1 (g1.trans g2.symm)))
  · rw [explored_keys hm] at hi
    rw [hb'] at hj
    exact hmix hq hi hj
  · rw [explored_keys hm'] at hj
    rw [hb] at hi
    exact hmix hq' hj hi
  · exact hij (Fin.ext (h1.trans h1'.symm))

/-- Every entry belongs to a block. -/
theorem whole_keys (h : AnyProblem p B logLik) {k : String} (hk : k ∈ p.spaces.map (·.1) ++ p.hier.map (·.name)) :
    ∃ i : Fin p.cfg.perturbs.length, k ∈ (B i).keys := by
  have e := whole_perturbs h
  rcases List.mem_append.1 hk with hk | hk
  · obtain ⟨i, hi, rfl⟩ := List.mem_iff_getElem.1 hk
    rw [List.length_map] at hi
    obtain ⟨⟨nm, sp⟩, hkv⟩ : ∃ kv, p.spaces[i] = kv := ⟨_, rfl⟩
    have hq : p.spaces[i]? = some (nm, sp) := by rw [List.getElem?_eq_getElem hi, hkv]
    obtain ⟨rfl, hm⟩ := h.spaces _ _ _ hq
    refine ⟨⟨i, ?_⟩, ?_⟩
    · rw [e, List.length_append, List.length_map]
      omega
    · rw [explored_keys hm, List.getElem_map, hkv]
      exact List.mem_singleton_self _
  · have hne : p.hier ≠ [] := by
      intro hc
      rw [hc] at hk
      cases hk
    have hh : p.hier.isEmpty = false := by
      cases hh : p.hier with
      | nil => exact absurd hh hne
      | cons a l => rfl
    refine ⟨⟨p.spaces.length, ?_⟩, ?_⟩
    · rw [e, List.length_append, List.length_map]
      unfold Problem.noisePerturbs
      simp [hh]
    · change k ∈ (B p.spaces.length).keys
      rw [h.noise hne]
      exact hk

/-- States of parameter spaces are not nested. -/
theorem whole_loose (h : AnyProblem p B logLik) {q : Params} (hq : HoldsAll p B q) : Loose q := by
  intro k st hm
  have hn : (dkeys q).Nodup := by
    rw [hq.1]
    exact h.distinct
  have hk : k ∈ dkeys q := List.mem_map.2 ⟨_, hm, rfl⟩
  rw [hq.1] at hk
  obtain ⟨i, hi⟩ := whole_keys h hk
  exact (whole_realized h i).some.flat q (hq.2 i) k hi st (dget_of_mem hn hm)

/-- A perturbation of a block changes only this block. -/
theorem whole_update (h : AnyProblem p B logLik) {i : Fin p.cfg.perturbs.length} {q q' : Params} (hq : HoldsAll p B q)
    (hk : dkeys q' = dkeys q) (hd : ∀ k, k ∉ (B i).keys → dget q' k = dget q k) (hi : (B i).holds q') :
    HoldsAll p B q' ∧ wholeOf p B q' = Function.update (wholeOf p B q) i ((B i).val q') := by
  have ho : ∀ j, j ≠ i → ((B j).holds q → (B j).holds q') ∧ (B j).val q' = (B j).val q := fun j hj =>
    (whole_realized h j).some.only q q' fun k hkj => hd k (whole_disjoint h hj hkj)
  refine ⟨⟨hk.trans hq.1, fun j => ?_⟩, funext fun j => ?_⟩
  · by_cases hj : j = i
    · subst hj
      exact hi
    · exact (ho j hj).1 (hq.2 j)
  · by_cases hj : j = i
    · subst hj
      rw [Function.update_self]
      rfl
    · rw [Function.update_of_ne hj]
      exact (ho j hj).2

theorem llr_whole (h : AnyProblem p B logLik) {T : ℝ} (hT : T ≠ 0) {a b : State} (ha : HoldsAll p B a.params)
    (hb : HoldsAll p B b.params) (hpa : PossibleWhole (wholeOf p B a.params)) (hpb : PossibleWhole (wholeOf p B b.params))
    (hca : Coherent p.tf a) (hcb : Coherent p.tf b) :
    (p.cfg.llr a b T).1 = .ok (.fin ((logLik (wholeOf p B b.params) - logLik (wholeOf p B a.params)) / T)) := by
  have hl := h.likelihood
  unfold HasWholeLogLik at hl
  have hnd := tf_nodup h.targets
  change (logLikelihoodRatio p.kind p.tf a b T).1 = _
  match hk : p.kind with
  | .targets =>
    rw [hk] at hl
    obtain ⟨e1, l1⟩ := hl _ ha hpa
    obtain ⟨e2, l2⟩ := hl _ hb hpb
    rw [Props.C27_gaussian_ratio p.tf a b T hT hnd hca hcb e1 e2, ← l1, ← l2]
  | .loglike f =>
    rw [hk] at hl
    simp only [logLikelihoodRatio, ratioFromLoglike, hl _ ha hpa, hl _ hb hpb]
    change pyDiv (PyF.sub _ _) T = _
    rw [pyDiv_ok hT]
    change Except.ok (PyF.fin ((logLik _ + -logLik _) / T)) = _
    rw [← sub_eq_add_neg]
  | .ratio f =>
    rw [hk] at hl
    simp only [logLikelihoodRatio, hl _ _ ha hpa hb hpb]
    change pyDiv _ T = _
    rw [pyDiv_ok hT]
    simp [PyF.divFin]

/-! ### the distribution -/

/-- The prior of a block and the probability that nothing has to be drawn anew. -/
structure Regular (b : Block) : Prop where
  finite : IsFiniteMeasure b.prior
  nonzero : b.prior ≠ 0
  meas : Measurable b.staying
  pos : ∀ x, 0 < b.staying x
  tilt : IsFiniteMeasure b.sampled
  same : ∀ x y, b.same x y → b.staying x = b.staying y

theorem rows_regular {P Θ : Type} [MeasurableSpace P] [MeasurableSpace Θ] {k : ℕ} {sp : Space} {prs : Fin k → Prior}
    {col : List P → List (String × PVal)} {dom : Set P} {apart ok : List P → Prop} {σs : Measure P} {dens : Fin k → P → ℝ → ℝ}
    {stay : P → ℝ} {draws : Measure Θ} {e : PSFunc → PSState → Θ → List Draw} (hr : IsProbabilityMeasure (rowLaw σs dens))
    (hlh : sp.info.lo ≤ sp.info.hi) (h0 : ∀ x, 0 < stay x) (h1 : ∀ x, stay x ≤ 1) (hm : Measurable stay) :
    Regular (rowsBlock sp prs col dom apart ok σs dens stay draws e) := by
  have hfin : IsFiniteMeasure (transPrior (rowLaw σs dens) sp.info.lo sp.info.hi) := transPrior_finite _ _
  refine ⟨hfin, ?_, prodF_meas (F := fun r : P × (Fin k → ℝ) => stay r.1) (hm.comp measurable_fst),
    fun x => overSites_pos h0 x, ?_, fun x y h => overSites_same h⟩
  · change transPrior (rowLaw σs dens) sp.info.lo sp.info.hi ≠ 0
    rw [Ne, ← Measure.measure_univ_eq_zero]
    unfold transPrior
    rw [Measure.finsetSum_apply, Finset.sum_eq_zero_iff]
    intro hc
    have h := hc sp.info.lo (Finset.mem_Ico.2 ⟨le_rfl, by omega⟩)
    rw [Measure.map_apply (measurable_mk _) MeasurableSet.univ, Set.preimage_univ, measure_univ] at h
    exact one_ne_zero h
  · change IsFiniteMeasure ((transPrior (rowLaw σs dens) sp.info.lo sp.info.hi).withDensity fun x => ENNReal.ofReal (overSites stay x))
    refine isFiniteMeasure_withDensity (ne_top_of_le_ne_top (measure_ne_top (transPrior (rowLaw σs dens) sp.info.lo sp.info.hi) Set.univ) ?_)
    rw [← lintegral_one]
    refine lintegral_mono fun x => ?_
    exact ENNReal.ofReal_le_one.2 (Finset.prod_le_one (fun _ _ => (h0 _).le) fun _ _ => h1 _)

theorem explored_regular {sp : Space} {b : Block} (h : Explored sp b) : Regular b := by
  cases h with
  | known h =>
    cases h with
    | @plain k _ prs dens std hk hp htr hlh =>
      exact rows_regular (row_prob (.of_forall fun _ => trivial) hp.hdens) hlh.le (fun _ => one_pos) (fun _ => le_rfl) measurable_const
    | @fixed k _ prs dens std hk hp htr =>
      exact rows_regular (row_prob (.of_forall fun _ => trivial) hp.hdens) (fixed_le htr) (fun _ => one_pos) (fun _ => le_rfl)
        measurable_const
    | @line k _ prs v dens std hp htr =>
      have hprob := line_prob hp.bounds
      exact rows_regular (row_prob (ae_cond_mem measurableSet_Icc) hp.hdens) (fixed_le htr) (line_stay hp).2
        (fun _ => measureReal_le_one) (line_stay hp).1
    | @plane k _ prs v dens std hp htr =>
      have hprob := plane_prob hp.bounds hp.dom_meas hp.dom_pos
      exact rows_regular (row_prob (ae_cond_mem hp.dom_meas) hp.hdens) (fixed_le htr) (plane_stay hp).2
        (fun _ => measureReal_le_one) (plane_stay hp).1
  | @lineBirths k _ prs v dens std hp htr hlh =>
    have hprob := line_prob hp.bounds
    exact rows_regular (row_prob (ae_cond_mem measurableSet_Icc) hp.hdens) hlh.le (line_stay hp).2
      (fun _ => measureReal_le_one) (line_stay hp).1
  | @lineNear k _ prs v dens std stdBirth hp htr hlh =>
    have hprob := line_prob hp.bounds
    exact rows_regular (row_prob (ae_cond_mem measurableSet_Icc) hp.hdens) hlh.le (line_stay hp).2
      (fun _ => measureReal_le_one) (line_stay hp).1
  | @planeBirths k _ prs v dens std hp htr hlh =>
    have hprob := plane_prob hp.bounds hp.dom_meas hp.dom_pos
    exact rows_regular (row_prob (ae_cond_mem hp.dom_meas) hp.hdens) hlh.le (plane_stay hp).2
      (fun _ => measureReal_le_one) (plane_stay hp).1
  | @planeNear k _ prs v dens std stdBirth hp htr hlh =>
    have hprob := plane_prob hp.bounds hp.dom_meas hp.dom_pos
    exact rows_regular (row_prob (ae_cond_mem hp.dom_meas) hp.hdens) hlh.le (plane_stay hp).2
      (fun _ => measureReal_le_one) (plane_stay hp).1

theorem noise_regular (tf : List (Target × Fwd)) {ts : List Target} (hnd : (ts.map (·.name)).Nodup) (h : ProperAll ts) :
    Regular (noiseBlock ts) := by
  refine ⟨?_, noisePrior_ne h, stayingAll_meas ts, stayingAll_pos h, ?_, fun x y e => congrArg _ e⟩
  · have : ∀ q, IsFiniteMeasure (flat (noiseRanges ts q)) := fun q => by
      cases noiseRanges ts q with
      | none => exact (inferInstance : IsFiniteMeasure (Measure.dirac (0 : ℝ)))
      | some r => exact (inferInstance : IsFiniteMeasure (volume.restrict (Set.Icc r.lo r.hi)))
    change IsFiniteMeasure (noisePrior ts)
    unfold noisePrior
    infer_instance
  · obtain ⟨R, hR, -⟩ := noise_realized tf hnd h
    rw [← hR]
    exact R.ok.finite

theorem whole_regular (h : AnyProblem p B logLik) (i : Fin p.cfg.perturbs.length) : Regular (B i) := by
  rcases whole_cases h i with ⟨sp, -, hm, -⟩ | ⟨-, -, hb, -⟩
  · exact explored_regular hm
  · rw [hb]
    exact noise_regular p.tf (hier_nodup h.targets) h.bounds

theorem whole_sampled (h : AnyProblem p B logLik) : (Measure.pi fun i : Fin p.cfg.perturbs.length => (B i).sampled) =
    (wholePrior p B).withDensity fun x => ENNReal.ofReal (wholeStaying p B x) := by
  have h1 : ∀ i : Fin p.cfg.perturbs.length, IsFiniteMeasure (B i).prior := fun i => (whole_regular h i).finite
  have h2 : ∀ i : Fin p.cfg.perturbs.length, IsFiniteMeasure (B i).sampled := fun i => (whole_regular h i).tilt
  have h3 : ∀ i : Fin p.cfg.perturbs.length,
      SigmaFinite ((B i).prior.withDensity fun x => ENNReal.ofReal ((B i).staying x)) := fun i => by
    have := h2 i
    unfold Block.sampled at this
    infer_instance
  unfold wholePrior Block.sampled wholeStaying
  rw [pi_density_fin (fun i : Fin p.cfg.perturbs.length => (B i).prior) fun i => (whole_regular h i).meas.ennreal_ofReal]
  congr 1
  funext x
  exact (ENNReal.ofReal_prod_of_nonneg fun i _ => ((whole_regular h i).pos _).le).symm

variable {E : Type}

theorem whole_same (R : ∀ i : Fin p.cfg.perturbs.length, Realization p.tf p.cfg.perturbs[i].2 (B i)) :
    EachSame (fun i => (R i).L.same) = (SameWhole : Whole p B → Whole p B → Prop) := by
  funext x y
  refine propext (forall_congr' fun i => ?_)
  change (R i).L.same (x i) (y i) ↔ _
  rw [(R i).same]

theorem whole_prior (h : AnyProblem p B logLik) (R : ∀ i : Fin p.cfg.perturbs.length, Realization p.tf p.cfg.perturbs[i].2 (B i))
    (hR : ∀ i, (R i).L.moves.prior = (B i).sampled) : (Measure.pi fun i => (R i).L.moves.prior) =
    (wholePrior p B).withDensity fun x => ENNReal.ofReal (wholeStaying p B x) := by
  rw [← whole_sampled h]
  exact congrArg _ (funext hR)

theorem whole_draws (R : ∀ i : Fin p.cfg.perturbs.length, Realization p.tf p.cfg.perturbs[i].2 (B i)) :
    (Measure.pi fun i => unit.prod (R i).L.moves.draws) = wholeLaw p B := by
  unfold wholeLaw
  exact congrArg _ (funext fun i => by rw [(R i).draws])

theorem whole_possible (R : ∀ i : Fin p.cfg.perturbs.length, Realization p.tf p.cfg.perturbs[i].2 (B i)) :
    ∀ᵐ x ∂Measure.pi fun i => (R i).L.moves.prior, PossibleWhole (p := p) (B := B) x := by
  have hfin : ∀ i, IsFiniteMeasure (R i).L.moves.prior := fun i => (R i).ok.finite
  refine ae_all_iff.2 fun i => ?_
  rw [← (R i).possible]
  exact (Measure.quasiMeasurePreserving_eval (fun i => (R i).L.moves.prior) i).ae (R i).ok.possible_ae

/-- A run of the perturbation of one block, in the whole inversion. -/
theorem whole_run (h : AnyProblem p B logLik) (R : ∀ i : Fin p.cfg.perturbs.length, Realization p.tf p.cfg.perturbs[i].2 (B i))
    {s : State} (hs : HoldsAll p B s.params) (hps : PossibleWhole (wholeOf p B s.params))
    {i : Fin p.cfg.perturbs.length} {j : Fin (R i).L.funcs.length} {θ new' lpr}
    (hrun : ∀ rest, (R i).L.funcs[j].2 ((R i).proj s) ((R i).L.enc j ((R i).proj s) θ ++ rest) = (.ok (new', lpr), rest))
    (hnew : (R i).L.inv new') (hval : lpr.isInf = false → (R i).L.val new' ∈ (R i).L.possible) {u : ℝ}
    (hu : u ∈ chosen ((R i).L.cfg fun _ => 0) j) :
    ∃ new, (∀ rest, p.cfg.perturbs[i].2 s ((B i).enc s (u, θ) ++ rest) = (.ok (new, lpr), rest)) ∧ HoldsAll p B new.params ∧
      wholeOf p B new.params = Function.update (wholeOf p B s.params) i ((R i).L.val new') ∧ Coherent p.tf new ∧
      (lpr.isInf = false → PossibleWhole (wholeOf p B new.params)) := by
  have hn : (dkeys s.params).Nodup := by
    rw [hs.1]
    exact h.distinct
  obtain ⟨new, g1, g2, g3, g4, g5, g6⟩ := (R i).run s (whole_loose h hs) hn (hs.2 i) j θ new' lpr hrun hnew u hu
  obtain ⟨k1, k2⟩ := whole_update h hs g2 g3 g4
  rw [g5] at k2
  refine ⟨new, g1, k1, k2, g6, fun hf l => ?_⟩
  rw [k2]
  by_cases hl : l = i
  · subst hl
    rw [Function.update_self, ← (R l).possible]
    exact hval hf
  · rw [Function.update_of_ne hl]
    exact hps l

theorem whole_chained (h : AnyProblem p B logLik) {T : ℝ} (hT : T ≠ 0)
    (R : ∀ i : Fin p.cfg.perturbs.length, Realization p.tf p.cfg.perturbs[i].2 (B i)) :
    Chained p.cfg (fun i => (R i).L) (fun i => (R i).proj) (fun i => (B i).enc) (fun s => wholeOf p B s.params)
      (fun s => HoldsAll p B s.params ∧ Coherent p.tf s) logLik T where
  len := perturbs_length p
  nonneg := weights_nonneg (p := p)
  sum := whole_weights h
  ok := fun i => (R i).ok
  local_inv := fun s hs i => (R i).inv s (hs.1.2 i)
  local_val := fun s hs i => (R i).val s (hs.1.2 i)
  meas := h.meas
  lumps := fun x y hxy => h.lumps x y (by rw [← whole_same R]; exact hxy)
  sim := by
    intro s hs hps i j θ new' lpr hrun hnew hval u hu
    have hps' : PossibleWhole (wholeOf p B s.params) := fun i => by
      rw [← (R i).possible]
      exact hps i
    obtain ⟨new, g1, k1, k2, g6, g7⟩ := whole_run h R hs.1 hps' hrun hnew hval hu
    refine ⟨new, g1, k2, fun hf => ?_⟩
    have hl := llr_whole h hT hs.1 k1 hps' (g7 hf) hs.2 g6
    obtain ⟨c1, c2⟩ := llr_step p.kind p.tf p.perturbs p.weights
      (Option.some (p.spaces.map fun kv => (kv.1, kv.2.info.transD))) p.saveDpred s new T
    refine ⟨(p.cfg.llr s new T).2.1, (p.cfg.llr s new T).2.2, ?_, ?_, ?_⟩
    · rw [← hl]
    · exact congrArg _ c1.params
    · exact congrArg _ c2.params

/-- One iteration of the chain is in balance with the posterior times the probability that nothing has to be drawn anew. -/
theorem whole_balance (h : WholeProblem p B logLik) {T : ℝ} (hT : T ≠ 0) (state : Whole p B → Chain State Store E)
    (hstate : ∀ x, PossibleWhole x → HoldsAll p B (state x).cur.params ∧ SameWhole x (wholeOf p B (state x).cur.params) ∧
      Coherent p.tf (state x).cur)
    (htemp : ∀ x, (state x).temp = T) :
    DetailedBalanceUpTo SameWhole
      (posterior ((wholePrior p B).withDensity fun x => ENNReal.ofReal (wholeStaying p B x)) logLik T)
      (fun x => IterationLaw p.cfg (wholeDraws p B) (wholeLaw p B) (fun s => wholeOf p B s.params) (state x)) ∧
    PreservesUpTo SameWhole
      (posterior ((wholePrior p B).withDensity fun x => ENNReal.ofReal (wholeStaying p B x)) logLik T)
      (fun x => IterationLaw p.cfg (wholeDraws p B) (wholeLaw p B) (fun s => wholeOf p B s.params) (state x)) := by
  choose R hR using whole_balanced h
  have h := any_of_whole h
  have key := blocks_balance (whole_chained h hT R) state ?_ htemp
  · rw [whole_same R, whole_prior h R hR, whole_draws R] at key
    exact key
  · filter_upwards [whole_possible R] with x hx
    obtain ⟨g1, g2, g3⟩ := hstate x hx
    refine ⟨⟨g1, g3⟩, ?_⟩
    rw [whole_same R]
    exact g2

/-- Almost all models have positive prior density. -/
theorem whole_possible_prior (h : AnyProblem p B logLik) : ∀ᵐ x ∂wholePrior p B, PossibleWhole x := by
  have hfi : ∀ i : Fin p.cfg.perturbs.length, IsFiniteMeasure (B i).prior := fun i => (whole_regular h i).finite
  refine ae_all_iff.2 fun i => ?_
  have R := (whole_realized h i).some
  rw [← R.possible]
  exact (Measure.quasiMeasurePreserving_eval (fun i : Fin p.cfg.perturbs.length => (B i).prior) i).ae
    (R.fine.mono fun x hx => hx.1)

theorem wholePrior_finite (h : AnyProblem p B logLik) : IsFiniteMeasure (wholePrior p B) := by
  have hfi : ∀ i : Fin p.cfg.perturbs.length, IsFiniteMeasure (B i).prior := fun i => (whole_regular h i).finite
  unfold wholePrior
  infer_instance

/-- With sites or unknown noise, an iteration does not preserve the posterior. -/
theorem whole_not_preserved (h : AnyProblem p B logLik) {T : ℝ} (hT : T ≠ 0) (state : Whole p B → Chain State Store E)
    (hstate : ∀ x, PossibleWhole x → HoldsAll p B (state x).cur.params ∧ SameWhole x (wholeOf p B (state x).cur.params) ∧
      Coherent p.tf (state x).cur)
    (htemp : ∀ x, (state x).temp = T) (hfin : posterior (wholePrior p B) logLik T Set.univ ≠ ⊤)
    (hd : (∃ kv ∈ p.spaces, kv.2.info.kind.isDisc = true) ∨ p.hier ≠ []) :
    ¬ PreservesUpTo SameWhole (posterior (wholePrior p B) logLik T)
      (fun x => IterationLaw p.cfg (wholeDraws p B) (wholeLaw p B) (fun s => wholeOf p B s.params) (state x)) := by
  obtain ⟨b, Rb, hb⟩ := whole_stirred h hd
  have hex : ∀ i : Fin p.cfg.perturbs.length, ∃ R : Realization p.tf p.cfg.perturbs[i].2 (B i),
      i = b → Stirs (B i).prior (B i).staying R.L.moves R.L.w := fun i => by
    by_cases hi : i = b
    · subst hi
      exact ⟨Rb, fun _ => hb⟩
    · exact ⟨(whole_realized h i).some, fun hc => absurd hc hi⟩
  choose R hR using hex
  have hreg := whole_regular h
  have hfi : ∀ i : Fin p.cfg.perturbs.length, IsFiniteMeasure (B i).prior := fun i => (hreg i).finite
  have hok : ∀ i, (R i).L.Ok := fun i => (R i).ok
  have H := whole_chained h hT R
  have key := stirred (fun i : Fin p.cfg.perturbs.length => (B i).prior) (fun i => (hreg i).nonzero)
    (m := fun i => (R i).L.moves) (w := fun i => (R i).L.w) (fun i => (hok i).ok) (fun i => (hok i).w_nonneg)
    (fun i => (hok i).w_sum) H.meas T (chance p.cfg) (chance_sum H.len H.nonneg H.sum) (r := fun i => (R i).L.same)
    (fun x => IterationLaw p.cfg (wholeDraws p B) (wholeLaw p B) (fun s => wholeOf p B s.params) (state x)) ?_ hfin
    (b := b) (chance_ne h b) (hreg b).meas (hreg b).pos (hreg b).tilt
    (fun x y hxy => (hreg b).same x y (by rw [← (R b).same]; exact hxy)) (hR b rfl)
  · rw [whole_same R] at key
    exact key
  · have h1 : ∀ᵐ x ∂Measure.pi fun i : Fin p.cfg.perturbs.length => (B i).prior, ∀ i, x i ∈ fine (R i).L.moves (R i).L.possible :=
      ae_all_iff.2 fun i => (Measure.quasiMeasurePreserving_eval (fun i : Fin p.cfg.perturbs.length => (B i).prior) i).ae (R i).fine
    filter_upwards [h1] with x g1 A hA hAr
    obtain ⟨k1, k2, k3⟩ := hstate x fun i => by
      rw [← (R i).possible]
      exact (g1 i).1
    have k2' : EachSame (fun i => (R i).L.same) x (wholeOf p B (state x).cur.params) := by
      rw [whole_same R]
      exact k2
    have hl := blocks_law H (state x) ⟨k1, k3⟩ (htemp x) (fun i => (fine_invariant (hok i).ok (hok i).refl (hok i).lumps
      (hok i).possible_meas (hok i).possible_same _ _ (k2' i)).1 (g1 i)) hA hAr
    rw [whole_draws R] at hl
    refine Eq.trans hl (Finset.sum_congr rfl fun i _ => ?_)
    rw [blockStep_lumps (r := fun i => (R i).L.same) (hok i).ok (fun i => (hok i).refl) (hok i).lumps H.meas H.lumps hA hAr k2']

end whole

end BB.Lemmas
