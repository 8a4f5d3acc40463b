import Verif.Lemmas.RowRoam
import Verif.Lemmas.WholeRuns

/-!
# The perturbations of whole inversions get everywhere
-/

namespace BB.Lemmas

open BB Spec Props MeasureTheory ProbabilityTheory

section rows

variable {P Θ : Type} [MeasurableSpace P] [MeasurableSpace Θ] {k : ℕ} {sp : Space} {prs : Fin k → Prior}
  {col : List P → List (String × PVal)} {dom : Set P} {σs : Measure P} {dens : Fin k → P → ℝ → ℝ} {stay : P → ℝ} {draws : Measure Θ}
  {e : PSFunc → PSState → Θ → List Draw}

theorem rows_roamed (tf : List (Target × Fwd)) [SigmaFinite σs] [IsProbabilityMeasure (rowLaw σs dens)] (hdm : MeasurableSet dom)
    (hdom : ∀ᵐ x ∂σs, x ∈ dom) (hm : ∀ j, Measurable fun z : P × ℝ => dens j z.1 z.2) (hst : ∀ x, 0 < stay x ∧ stay x ≤ 1)
    (hsm : Measurable stay) (hcol : ∀ xs, ∀ kv ∈ col xs, ∃ a, kv.2 = PVal.arr a)
    (hw : (∀ v ∈ (ownChain sp (decode col prs) (fun _ => 0)).weights, 0 ≤ v) ∧
      0 < (ownChain sp (decode col prs) (fun _ => 0)).weights.sum) {Q : (Tuple (P × (Fin k → ℝ)) → ℝ) → (Tuple (P × (Fin k → ℝ)) → ℝ) → Prop}
    (hpart : PartQ (ownChain sp (decode col prs) (fun _ => 0))
      (rowsBlock sp prs col dom (fun _ => True) (fun _ => True) σs dens stay draws e).sampled (fun _ => 0) 1
      (funcDraws sp.ownFuncs (decode col prs) (fun _ => 0) e) draws (decode col prs)
      (RowInv prs col sp.info.lo sp.info.hi fun l => InDom dom (l.map Prod.fst)) SameRows Q)
    (hQ : ∀ g c, Measurable g → Measurable c → Q g c →
      ∃ a, ∀ᵐ x ∂(rowsBlock sp prs col dom (fun _ => True) (fun _ => True) σs dens stay draws e).sampled, g x = a) :
    ∃ R : Realization tf sp.ownPert.perturb (rowsBlock sp prs col dom (fun _ => True) (fun _ => True) σs dens stay draws e),
      R.L.moves.prior = (rowsBlock sp prs col dom (fun _ => True) (fun _ => True) σs dens stay draws e).sampled ∧
      Roams R.L.moves R.L.w := by
  obtain ⟨p, h1, h2, h3, h4, h5, h6⟩ := hpart
  have hfin : IsFiniteMeasure (transPrior (rowLaw σs dens) sp.info.lo sp.info.hi) := transPrior_finite _ _
  have hap := fits_true (k := k) (P := P) (transPrior (rowLaw σs dens) sp.info.lo sp.info.hi)
  have hae : ∀ᵐ x ∂p.prior, x ∈ (rowsBlock sp prs col dom (fun _ => True) (fun _ => True) σs dens stay draws e).possible := by
    rw [h1]
    exact (withDensity_absolutelyContinuous _ _).ae_le (rows_possible_ae hap hdm hdom hm)
  have hf := fine_ae h3 (rows_possible_meas hap hdm hm) hae
  rw [h1] at hf
  refine rows_realized tf hdm hm hap (GS := InDom dom) (fun xs => by simp [InDom]) hcol hw h2 h3 h4 h5 ?_ hae
    ((rows_sampled (fun x => (hst x).1) hsm).ae_le hf) (fun m w => m.prior = _ ∧ Roams m w) ⟨h1, fun g c hg hc hh => ?_⟩
  · rw [h1]
    have hle : ∀ x : Tuple (P × (Fin k → ℝ)), overSites stay x ≤ 1 := fun x =>
      Finset.prod_le_one (fun i _ => (hst _).1.le) fun i _ => (hst _).2
    exact tilt_finite (μ := transPrior (rowLaw σs dens) sp.info.lo sp.info.hi) hle
  · rw [h1]
    exact hQ g c hg hc (h6 g c hh)

end rows

section parts

variable {P : Type} [MeasurableSpace P] [Nonempty P] {k : ℕ} {sp : Space} {prs : Fin k → Prior}
  {col : List P → List (String × PVal)} {loc : P → Pos} {dom : Set P} {dens : Fin k → P → ℝ → ℝ} {σs : Measure P}

theorem values_partQ [SigmaFinite σs] (hst : Stored prs col loc) (hd : ∀ j, HasDensity (prs j) loc dom (dens j))
    (hc : ∀ j, NotCustom (prs j)) {std : Fin k → P → ℝ} (hsm : ∀ j, Measurable (std j))
    (hstd : ∀ j, ∀ x ∈ dom, (prs j).std.get (loc x) = .ok (std j x)) (name : String)
    {GS : List P → Prop} (hGS : ∀ xs, GS xs → ∀ x ∈ xs, x ∈ dom) {lo hi : ℕ} (hlo : 1 ≤ lo)
    (val : PSState → Tuple (P × (Fin k → ℝ))) (hval : ∀ l s, Holds col prs l s → val s = ofRows l)
    (logLik : Tuple (P × (Fin k → ℝ)) → ℝ) (T : ℝ) :
    PartQ (funcsChain [(PSFunc.values name (List.ofFn prs), 3)] val logLik)
      (transPrior (rowsOf σs dens) lo hi) logLik T
      (fun _ => walkDraws) ((uniformNat hi.factorial).prod (walkLaw k)) val (RowInv prs col lo hi fun l => GS (l.map Prod.fst)) SameRows
      (Hears (valuesScheme σs dens std lo hi) fun _ => 1) := by
  refine ⟨valuesScheme σs dens std lo hi, rfl, rfl, values_ok (dens_meas hd) hsm lo hi _, values_lumps hsm lo hi,
    values_reports hst hd hc hstd name 3 hGS hlo val hval logLik T σs, fun g c h j _ => h j ?_⟩
  obtain rfl : j = ⟨0, Nat.one_pos⟩ := Fin.ext (Nat.lt_one_iff.1 j.2)
  change (0 : ℝ) < 3
  norm_num

variable {Ω : Type} [MeasurableSpace Ω]

theorem births_partQ [IsProbabilityMeasure σs] {μ : Measure Ω} [IsProbabilityMeasure μ] {site : Ω → P} {pre : ℕ → Ω → List Draw}
    (hst : Steps sp prs col loc dom μ site pre) (hlh : sp.info.lo < sp.info.hi) (hdm : MeasurableSet dom)
    (hs : Measurable site) (hσ : μ.map site = σs) (hd : ∀ j, HasDensity (prs j) loc dom (dens j))
    (val : PSState → Tuple (P × (Fin k → ℝ))) (hval : ∀ l s, Holds col prs l s → val s = ofRows l)
    (logLik : Tuple (P × (Fin k → ℝ)) → ℝ) (T : ℝ) :
    PartQ (funcsChain [(PSFunc.birth sp, 1), (PSFunc.death sp, 1)] val logLik)
      (transPrior (rowLaw σs dens) sp.info.lo sp.info.hi) logLik T
      (birthDeathDraws sp prs pre) (drawsLaw prs sp.info.hi μ) val
      (RowInv prs col sp.info.lo sp.info.hi fun l => InDom dom (l.map Prod.fst)) SameRows
      (Leaves (rowLaw σs dens) sp.info.lo sp.info.hi) := by
  obtain ⟨p, h1, h2, h3, h4, h5, μ', new, common, hp, rfl⟩ := births_scheme hst hlh hdm hs hσ hd val hval logLik T
  refine ⟨_, h1, h2, h3, h4, h5, fun g c h => ?_⟩
  refine deaths_hears (w := weight (funcsChain [(PSFunc.birth sp, 1), (PSFunc.death sp, 1)] val logLik)) ?_ h
  change (0 : ℝ) < 1
  exact one_pos

end parts

section sites

variable {P α : Type} [MeasurableSpace P] [MeasurableSpace α] [Nonempty P] {k : ℕ} {lam : Measure P}
  [SigmaFinite lam] {dom : Set P} {γ : Measure α} [IsProbabilityMeasure γ] {step : P → α → P} {κ : P × P → ℝ} {sp : Space}
  {prs : Fin k → Prior} {col : List P → List (String × PVal)} {loc : P → Pos} {ok : List P → Prop} {enc : α → List Draw}
  {dens : Fin k → P → ℝ → ℝ} {std : Fin k → P → ℝ} {GS : List P → Prop}
  {val : PSState → Tuple (P × (Fin k → ℝ))}

theorem sites_partQ (h : SiteCase lam dom γ step κ sp prs col loc ok enc dens std GS val) (hfix : sp.info.transD = false)
    (hdom : ∀ᵐ x ∂lam[|dom], x ∈ dom) [IsProbabilityMeasure lam[|dom]] (logLik : Tuple (P × (Fin k → ℝ)) → ℝ) (T : ℝ) :
    PartQ (ownChain sp val logLik) ((transPrior (rowLaw lam[|dom] dens) sp.info.lo sp.info.hi).withDensity fun x =>
        ENNReal.ofReal (overSites (stayIn γ step dom) x)) logLik T
      (funcDraws sp.ownFuncs val logLik (ownDraws noDraws walkDraws (siteDraws enc step dom val)))
      (((Measure.dirac ()).prod ((uniformNat sp.info.hi.factorial).prod (walkLaw k))).prod
        ((uniformNat sp.info.hi.factorial).prod (Measure.infinitePi fun _ : ℕ => γ))) val
      (RowInv prs col sp.info.lo sp.info.hi fun l => GS (l.map Prod.fst)) SameRows fun g c =>
      (True ∧ Hears (valuesScheme (tilted lam dom γ step) dens std sp.info.lo sp.info.hi) (fun _ => 1) g c) ∧
        Hears (siteScheme (tilted lam dom γ step) dens γ step dom sp.info.lo sp.info.hi) (fun _ => 1) g c := by
  have hprob : IsProbabilityMeasure (rowLaw lam[|dom] dens) := row_prob hdom h.hdens
  have hm := dens_meas h.hdens
  have hpr := sites_prior h.hstep hm sp.info.lo sp.info.hi (dens := dens)
  have hsf : SFinite (transPrior (((tilted lam dom γ step).prod volume).withDensity fun r => ENNReal.ofReal (priorDens dens r))
      sp.info.lo sp.info.hi) := (site_ok h.hstep hm sp.info.lo sp.info.hi (fun _ => 0)).sfinite
  rw [← hpr]
  refine own_partQ (name := sp.info.name) (ps := List.ofFn prs) (fs := []) (c := [(PSFunc.site sp, 1)]) (.inl rfl) (.inr rfl) ?_
    (nothing_part (Measure.dirac ()) SameRows.refl _).any
    (values_partQ h.stored h.hdens h.custom h.std_meas h.hstd sp.info.name h.good h.lo val h.hval logLik T)
    ⟨siteScheme (tilted lam dom γ step) dens γ step dom sp.info.lo sp.info.hi, rfl, rfl, site_ok h.hstep hm _ _ _,
      site_lumps h.hstep _ _ _ _, site_reports h.hstep h.runs 1 h.good h.stays h.lo val h.hval logLik T _, fun g c hh j _ => hh j ?_⟩
  · rw [own_funcs h.only h.pos, hfix, h.disc]
    rfl
  · obtain rfl : j = ⟨0, Nat.one_pos⟩ := Fin.ext (Nat.lt_one_iff.1 j.2)
    change (0 : ℝ) < 1
    exact one_pos

theorem fixed_ge {sp : Space} (h : sp.info.transD = false) : sp.info.hi ≤ sp.info.lo := by
  unfold Info.transD at h
  unfold Info.lo Info.hi
  cases hn : sp.info.nDim with
  | none => rw [hn] at h; cases h
  | some n => exact le_refl n

theorem sites_roam (h : SiteCase lam dom γ step κ sp prs col loc ok enc dens std GS val) (hfix : sp.info.transD = false)
    (htop : lam dom ≠ ⊤) (hdom : ∀ᵐ x ∂lam[|dom], x ∈ dom) [IsProbabilityMeasure lam[|dom]]
    (hs : ∀ j, ∀ x ∈ dom, std j x ≠ 0) (hov : Overlaps lam dom dens) {g c : Tuple (P × (Fin k → ℝ)) → ℝ} (hg : Measurable g)
    (hc : Measurable c)
    (hQ : (True ∧ Hears (valuesScheme (tilted lam dom γ step) dens std sp.info.lo sp.info.hi) (fun _ => 1) g c) ∧
        Hears (siteScheme (tilted lam dom γ step) dens γ step dom sp.info.lo sp.info.hi) (fun _ => 1) g c) :
    ∃ a, ∀ᵐ x ∂(transPrior (rowLaw lam[|dom] dens) sp.info.lo sp.info.hi).withDensity fun x =>
        ENNReal.ofReal (overSites (stayIn γ step dom) x), g x = a := by
  have hprob : IsProbabilityMeasure (rowLaw lam[|dom] dens) := row_prob hdom h.hdens
  have hm := dens_meas h.hdens
  rw [← sites_prior h.hstep hm sp.info.lo sp.info.hi (dens := dens)]
  have hsf : SigmaFinite (rowsOf (tilted lam dom γ step) dens) := SigmaFinite.withDensity_ofReal _
  have hlh := fixed_ge hfix
  exact trans_const (c := c) h.lo hg (fun n h1 h2 => sites_rows h.hstep htop hm hs hov hg hc hQ.1.2 hQ.2 h1 h2)
    fun hc => absurd hc (not_lt.2 hlh)

end sites

section spaces

variable {sp : Space} {b : Block}

theorem roaming_modelled (h : Roaming sp b) : Modelled sp b := by
  cases h with
  | plain _ prs dens std hk hp htr hlh _ => exact .plain _ prs dens std hk hp htr hlh
  | fixed _ prs dens std hk hp htr _ => exact .fixed _ prs dens std hk hp htr
  | line _ prs v dens std hp htr _ _ => exact .line _ prs v dens std hp htr
  | plane _ prs v dens std hp htr _ _ => exact .plane _ prs v dens std hp htr

theorem space_roamed (tf : List (Target × Fwd)) (h : Roaming sp b) :
    ∃ R : Realization tf sp.ownPert.perturb b, R.L.moves.prior = b.sampled ∧ Roams R.L.moves R.L.w := by
  cases h with
  | @plain k _ prs dens std hk hp htr hlh hs =>
    have hprob : IsProbabilityMeasure (rowLaw (Measure.dirac ()) dens) := row_prob (.of_forall fun _ => trivial) hp.hdens
    have hb := births_partQ (steps_plain hk hp.only) hlh MeasurableSet.univ measurable_id Measure.map_id hp.hdens _ (decode_none prs)
      (fun _ => 0) 1
    have hv := values_partQ (σs := Measure.dirac ()) (hi := sp.info.hi) (stored_plain hp.only) hp.hdens hp.custom hp.std_meas hp.hstd
      sp.info.name (GS := InDom Set.univ) (fun _ h => h) hp.lo _ (decode_none prs) (fun _ => 0) 1
    unfold rowsOf at hv
    rw [← rowLaw_eq] at hv
    have hsf : SFinite (transPrior (rowLaw (Measure.dirac ()) dens) sp.info.lo sp.info.hi) := by
      obtain ⟨p, e1, -, e2, -⟩ := hb
      rw [← e1]
      exact e2.sfinite
    have hown : sp.ownFuncs = [(PSFunc.birth sp, (1 : ℝ)), (PSFunc.death sp, 1)] ++
        [(PSFunc.values sp.info.name (List.ofFn prs), 3)] ++ [] := by
      rw [own_funcs hp.only hp.some, htr, hk]
      rfl
    rw [bd_draws (sp := sp) (val := decode noSites prs) (logLik := fun _ => 0) (birthDeathDraws sp prs fun m _ => [indexDraw m])] at hb
    have key := own_partQ (.inr rfl) (.inl rfl) hown hb hv (nothing_part (Measure.dirac ()) SameRows.refl fun _ => noDraws ()).any
    have e : (plainBlock sp prs dens).sampled = transPrior (rowLaw (Measure.dirac ()) dens) sp.info.lo sp.info.hi := by
      unfold Block.sampled plainBlock rowsBlock
      simp only [overSites_one, ENNReal.ofReal_one]
      exact withDensity_one
    refine rows_roamed tf MeasurableSet.univ (.of_forall fun _ => trivial) (dens_meas hp.hdens) (fun _ => ⟨one_pos, le_rfl⟩)
      measurable_const
      (fun xs kv hkv => nomatch hkv) (own_weights (.inr rfl) (.inl rfl) hown) (Q := fun g c =>
        (Leaves (rowLaw (Measure.dirac ()) dens) sp.info.lo sp.info.hi g c ∧
          Hears (valuesScheme (Measure.dirac ()) dens std sp.info.lo sp.info.hi) (fun _ => 1) g c) ∧ True) ?_ ?_
    · change PartQ _ (plainBlock sp prs dens).sampled _ _ _ _ _ _ _ _
      rw [e]
      exact key
    · intro g c hg hc hQ
      change ∃ a, ∀ᵐ x ∂(plainBlock sp prs dens).sampled, g x = a
      rw [e]
      refine trans_const (c := c) hp.lo hg (fun n h1 h2 => ?_) fun _ => hQ.1.1
      rw [rowLaw_eq]
      exact plain_rows (Measure.dirac_ne_zero) (dens_meas hp.hdens) hs hg hc hQ.1.2 h1 h2
  | @fixed k _ prs dens std hk hp htr hs =>
    have hprob : IsProbabilityMeasure (rowLaw (Measure.dirac ()) dens) := row_prob (.of_forall fun _ => trivial) hp.hdens
    have hv := values_partQ (σs := Measure.dirac ()) (hi := sp.info.hi) (stored_plain hp.only) hp.hdens hp.custom hp.std_meas hp.hstd
      sp.info.name (GS := InDom Set.univ) (fun _ h => h) hp.lo _ (decode_none prs) (fun _ => 0) 1
    unfold rowsOf at hv
    rw [← rowLaw_eq] at hv
    have hsf : SFinite (transPrior (rowLaw (Measure.dirac ()) dens) sp.info.lo sp.info.hi) := by
      obtain ⟨p, e1, -, e2, -⟩ := hv
      rw [← e1]
      exact e2.sfinite
    have hown : sp.ownFuncs = [] ++ [(PSFunc.values sp.info.name (List.ofFn prs), 3)] ++ [] := by
      rw [own_funcs hp.only hp.some, htr, hk]
      rfl
    have key := own_partQ (births := noDraws) (.inl rfl) (.inl rfl) hown (nothing_part (Measure.dirac ()) SameRows.refl _).any hv
      (nothing_part (Measure.dirac ()) SameRows.refl fun _ => noDraws ()).any
    have e : (fixedBlock sp prs dens).sampled = transPrior (rowLaw (Measure.dirac ()) dens) sp.info.lo sp.info.hi := by
      unfold Block.sampled fixedBlock rowsBlock
      simp only [overSites_one, ENNReal.ofReal_one]
      exact withDensity_one
    refine rows_roamed tf MeasurableSet.univ (.of_forall fun _ => trivial) (dens_meas hp.hdens) (fun _ => ⟨one_pos, le_rfl⟩)
      measurable_const
      (fun xs kv hkv => nomatch hkv) (own_weights (.inl rfl) (.inl rfl) hown) (Q := fun g c =>
        (True ∧ Hears (valuesScheme (Measure.dirac ()) dens std sp.info.lo sp.info.hi) (fun _ => 1) g c) ∧ True) ?_ ?_
    · change PartQ _ (fixedBlock sp prs dens).sampled _ _ _ _ _ _ _ _
      rw [e]
      exact key
    · intro g c hg hc hQ
      change ∃ a, ∀ᵐ x ∂(fixedBlock sp prs dens).sampled, g x = a
      rw [e]
      refine trans_const (c := c) hp.lo hg (fun n h1 h2 => ?_) fun hc => absurd hc (not_lt.2 (fixed_ge htr))
      rw [rowLaw_eq]
      exact plain_rows (Measure.dirac_ne_zero) (dens_meas hp.hdens) hs hg hc hQ.1.2 h1 h2
  | @line k _ prs v dens std hp htr hs hov =>
    have hprob := line_prob hp.bounds
    have hr : IsProbabilityMeasure (rowLaw volume[|Set.Icc v.vmin v.vmax] dens) := row_prob (ae_cond_mem measurableSet_Icc) hp.hdens
    have hc := line_case hp (GS := InDom (Set.Icc v.vmin v.vmax)) (fun _ h => h)
      fun xs hx i hi => (dom_stays (line_step hp.bounds hp.step) xs hx i hi).mono fun ω hω ys hp _ => hω ys hp
    refine rows_roamed tf measurableSet_Icc (ae_cond_mem measurableSet_Icc) (dens_meas hp.hdens)
      (fun x => ⟨(line_stay hp).2 x, measureReal_le_one⟩) (line_stay hp).1 (fun xs kv hkv => ?_) (sites_weights hc htr _) (Q := fun g c =>
        (True ∧ Hears (valuesScheme (tilted volume (Set.Icc v.vmin v.vmax) (gaussianReal 0 1) (lineStep v)) dens std sp.info.lo
          sp.info.hi) (fun _ => 1) g c) ∧
        Hears (siteScheme (tilted volume (Set.Icc v.vmin v.vmax) (gaussianReal 0 1) (lineStep v)) dens (gaussianReal 0 1) (lineStep v)
          (Set.Icc v.vmin v.vmax) sp.info.lo sp.info.hi) (fun _ => 1) g c) ?_ ?_
    · rw [List.mem_singleton.1 hkv]
      exact ⟨_, rfl⟩
    · have := sites_partQ hc htr (ae_cond_mem measurableSet_Icc) (fun _ => 0) 1
      rw [lineStay_eq hp.step] at this
      exact this
    · intro g c hg hcm hQ
      have := sites_roam hc htr (line_top v) (ae_cond_mem measurableSet_Icc) hs hov hg hcm hQ
      rw [lineStay_eq hp.step] at this
      exact this
  | @plane k _ prs v dens std hp htr hs hov =>
    have hprob := plane_prob hp.bounds hp.dom_meas hp.dom_pos
    have hr : IsProbabilityMeasure (rowLaw volume[|{q | InDomain v q}] dens) := row_prob (ae_cond_mem hp.dom_meas) hp.hdens
    have hc := plane_case hp (GS := InDom {q | InDomain v q}) (fun _ h => h)
      fun xs hx i hi => (dom_stays (plane_step hp.step.1 hp.step.2 hp.dom_meas hp.dom_pos) xs hx i hi).mono fun ω hω ys hp _ => hω ys hp
    have e : stayIn ((gaussianReal 0 1).prod (gaussianReal 0 1)) (planeStep v) {q | InDomain v q} = planeStay v :=
      planeStay_eq hp.step.1 hp.step.2
    refine rows_roamed tf hp.dom_meas (ae_cond_mem hp.dom_meas) (dens_meas hp.hdens)
      (fun x => ⟨(plane_stay hp).2 x, measureReal_le_one⟩) (plane_stay hp).1 (fun xs kv hkv => ?_) (sites_weights hc htr _) (Q := fun g c =>
        (True ∧ Hears (valuesScheme (tilted volume {q | InDomain v q} ((gaussianReal 0 1).prod (gaussianReal 0 1)) (planeStep v)) dens
          std sp.info.lo sp.info.hi) (fun _ => 1) g c) ∧
        Hears (siteScheme (tilted volume {q | InDomain v q} ((gaussianReal 0 1).prod (gaussianReal 0 1)) (planeStep v)) dens
          ((gaussianReal 0 1).prod (gaussianReal 0 1)) (planeStep v) {q | InDomain v q} sp.info.lo sp.info.hi) (fun _ => 1) g c) ?_ ?_
    · rw [List.mem_singleton.1 hkv]
      exact ⟨_, rfl⟩
    · have := sites_partQ hc htr (ae_cond_mem hp.dom_meas) (fun _ => 0) 1
      rw [e] at this
      exact this
    · intro g c hg hcm hQ
      have := sites_roam hc htr (plane_top v) (ae_cond_mem hp.dom_meas) hs hov hg hcm hQ
      rw [e] at this
      exact this

end spaces

section noise

variable {ts : List Target}

/-- A single perturbation of the noise gets everywhere. -/
theorem noise_roams (h : ProperAll ts) {w : Fin 1 → ℝ} (hw : 0 < w 0) : Roams (noiseScheme ts) w := by
  intro g c hg hc hh
  have hok := noiseScheme_ok h w
  have hsf := hok.sfinite
  have hpr := hok.prob
  have hpair : Measurable fun z : NoiseValues ts × (Fin ts.length × Bool → ℕ → ℝ) => (z.1, (noiseScheme ts).move 0 z.1 z.2) :=
    measurable_fst.prodMk (hok.meas 0)
  have hset : MeasurableSet {z : NoiseValues ts × NoiseValues ts | g z.2 = c z.1} :=
    measurableSet_eq_fun (hg.comp measurable_snd) (hc.comp measurable_fst)
  have h1 : ∀ᵐ z ∂(noiseScheme ts).prior.prod (noiseScheme ts).draws, g ((noiseScheme ts).move 0 z.1 z.2) = c z.1 := by
    refine (Measure.ae_prod_iff_ae_ae (measurableSet_eq_fun (hg.comp (hok.meas 0)) (hc.comp measurable_fst))).2 ?_
    filter_upwards [hh 0 hw] with x hx
    filter_upwards [hx] with θ hθ
    exact hθ (kernelAll_pos ts _).ne'
  have h2 := (ae_map_iff hpair.aemeasurable hset).2 h1
  rw [hok.joint 0] at h2
  have h3 : ∀ᵐ z ∂(noisePrior ts).prod (noisePrior ts), g z.2 = c z.1 :=
    (withDensity_absolutelyContinuous' (hok.dens_meas 0).ennreal_ofReal.aemeasurable
      (.of_forall fun z => (ENNReal.ofReal_pos.2 (kernelAll_pos ts z)).ne')).ae_le h2
  have hne : Filter.NeBot (ae (noisePrior ts)) := ae_neBot.2 (noisePrior_ne h)
  obtain ⟨x, hx⟩ := (Measure.ae_ae_of_ae_prod h3).exists
  exact ⟨c x, (withDensity_absolutelyContinuous _ _).ae_le hx⟩

end noise

section whole

variable {p : Problem} {B : ℕ → Block} {logLik : Whole p B → ℝ} {E : Type}

theorem whole_roamed (h : InversionOf p B Roaming logLik) (i : Fin p.cfg.perturbs.length) :
    ∃ R : Realization p.tf p.cfg.perturbs[i].2 (B i), R.L.moves.prior = (B i).sampled ∧ Roams R.L.moves R.L.w := by
  rcases inversion_cases (fun _ _ h => .known (roaming_modelled h)) h i with ⟨sp, -, hm, e⟩ | ⟨-, -, hb, e⟩
  · rw [e]
    exact space_roamed p.tf hm
  · rw [e, hb]
    exact noise_known p.tf (hier_nodup h.targets) h.bounds (fun m w => m.prior = (noiseBlock p.hier).sampled ∧ Roams m w)
      fun _ hw => ⟨rfl, noise_roams h.bounds hw⟩

theorem overSites_le {P V : Type} {Z : P → ℝ} (h : ∀ x, 0 < Z x) (h1 : ∀ x, Z x ≤ 1) (x : Tuple (P × V)) : overSites Z x ≤ 1 :=
  Finset.prod_le_one (fun _ _ => (h _).le) fun _ _ => h1 _

/-- The probabilities that nothing has to be drawn anew are bounded. -/
theorem modelled_bounded {sp : Space} {b : Block} (h : Modelled sp b) : ∃ c, ∀ x, b.staying x ≤ c := by
  cases h with
  | plain _ prs dens std hk hp htr hlh => exact ⟨1, overSites_le (fun _ => one_pos) fun _ => le_rfl⟩
  | fixed _ prs dens std hk hp htr => exact ⟨1, overSites_le (fun _ => one_pos) fun _ => le_rfl⟩
  | line _ prs v dens std hp htr => exact ⟨1, overSites_le (line_stay hp).2 fun _ => measureReal_le_one⟩
  | plane _ prs v dens std hp htr => exact ⟨1, overSites_le (plane_stay hp).2 fun _ => measureReal_le_one⟩

theorem noise_bounded {ts : List Target} (h : ProperAll ts) : ∃ c, ∀ x, (noiseBlock ts).staying x ≤ c := by
  choose c hc using fun q => staying_le (o := noiseRanges ts q) (fun r hr => h q r hr)
  exact ⟨∏ q, c q, fun x => Finset.prod_le_prod (fun q _ => (staying_pos (fun r hr => h q r hr) _).le) fun q _ => hc q _⟩

theorem whole_bounded (h : WholeProblem p B logLik) : ∃ c, ∀ x : Whole p B, wholeStaying p B x ≤ c := by
  have hb : ∀ i : Fin p.cfg.perturbs.length, ∃ c, ∀ x, (B i).staying x ≤ c := by
    intro i
    rcases inversion_cases (fun _ _ h => .known h) h i with ⟨sp, -, hm, e⟩ | ⟨-, -, hb, e⟩
    · exact modelled_bounded hm
    · rw [hb]
      exact noise_bounded h.bounds
  choose c hc using hb
  exact ⟨∏ i, c i, fun x => Finset.prod_le_prod (fun i _ => ((whole_regular (any_of_whole h) i).pos _).le) fun i _ => hc i _⟩

theorem wholeStaying_pos (h : AnyProblem p B logLik) (x : Whole p B) : 0 < wholeStaying p B x :=
  Finset.prod_pos fun i _ => (whole_regular h i).pos _

theorem wholeStaying_meas (h : AnyProblem p B logLik) : Measurable fun x : Whole p B => wholeStaying p B x :=
  Finset.measurable_fun_prod _ fun i _ => (whole_regular h i).meas.comp (measurable_pi_apply i)

/-- What is sampled has the null sets of the prior. -/
theorem prior_sampled (h : AnyProblem p B logLik) (T : ℝ) : wholePrior p B ≪
    posterior ((wholePrior p B).withDensity fun x => ENNReal.ofReal (wholeStaying p B x)) logLik T := by
  refine .trans (withDensity_absolutelyContinuous' (wholeStaying_meas h).ennreal_ofReal.aemeasurable
    (.of_forall fun x => (ENNReal.ofReal_pos.2 (wholeStaying_pos h x)).ne')) ?_
  refine withDensity_absolutelyContinuous' ?_ (.of_forall fun x => (ENNReal.ofReal_pos.2 (Real.exp_pos _)).ne')
  exact (Real.measurable_exp.comp (h.meas.div_const T)).ennreal_ofReal.aemeasurable

theorem posterior_sampled (T : ℝ) : posterior ((wholePrior p B).withDensity fun x => ENNReal.ofReal (wholeStaying p B x)) logLik T ≪
    wholePrior p B := (withDensity_absolutelyContinuous _ _).trans (withDensity_absolutelyContinuous _ _)

theorem wholePrior_ne (h : AnyProblem p B logLik) : wholePrior p B ≠ 0 := by
  have hfi : ∀ i : Fin p.cfg.perturbs.length, IsFiniteMeasure (B i).prior := fun i => (whole_regular h i).finite
  rw [Ne, ← Measure.measure_univ_eq_zero]
  unfold wholePrior
  rw [Measure.pi_univ, Finset.prod_eq_zero_iff]
  rintro ⟨i, -, hi⟩
  exact (whole_regular h i).nonzero (Measure.measure_univ_eq_zero.1 hi)

theorem sampled_finite (h : WholeProblem p B logLik) {T : ℝ} (hfin : posterior (wholePrior p B) logLik T Set.univ ≠ ⊤) :
    IsFiniteMeasure (posterior ((wholePrior p B).withDensity fun x => ENNReal.ofReal (wholeStaying p B x)) logLik T) := by
  obtain ⟨c, hc⟩ := whole_bounded h
  have ha := any_of_whole h
  have hm : Measurable fun x => ENNReal.ofReal (Real.exp (logLik x / T)) :=
    (Real.measurable_exp.comp (h.meas.div_const T)).ennreal_ofReal
  refine ⟨lt_of_le_of_lt ?_ (ENNReal.mul_lt_top (ENNReal.ofReal_lt_top (r := c)) (lt_top_iff_ne_top.2 hfin))⟩
  unfold posterior
  rw [withDensity_apply _ .univ, withDensity_apply _ .univ, Measure.restrict_univ, Measure.restrict_univ,
    lintegral_withDensity_eq_lintegral_mul _ (wholeStaying_meas ha).ennreal_ofReal hm, ← lintegral_const_mul _ hm]
  exact lintegral_mono fun x => mul_le_mul_left (ENNReal.ofReal_le_ofReal (hc x)) _

/-- The law of any number of iterations, by the transitions of realizations. -/
theorem whole_power (h : AnyProblem p B logLik) (hpn : PlainNames p) {T : ℝ} (hT : T ≠ 0) {b s : ℤ} (hs : s ≠ 0)
    (R : ∀ i : Fin p.cfg.perturbs.length, Realization p.tf p.cfg.perturbs[i].2 (B i))
    (hsp : Spares (wholePrior p B) (mixTrans (fun i => (R i).L.moves) (fun i => (R i).L.w) logLik T (chance p.cfg)))
    (n : ℕ) : ∀ᵐ x ∂wholePrior p B, ∀ c : Chain State Store E, Ready p B T c → SameWhole x (wholeOf p B c.cur.params) →
      ∀ A, MeasurableSet A → Invariant SameWhole A →
      IterationsLaw p.cfg b s (wholeDraws p B) (wholeLaw p B) (fun st => wholeOf p B st.params) n c A =
        power (mixTrans (fun i => (R i).L.moves) (fun i => (R i).L.w) logLik T (chance p.cfg)) n x A := by
  obtain ⟨hK, hprob, halike, hGm, hGr, hdr⟩ := whole_kernel h hT R
  have hfi : ∀ i : Fin p.cfg.perturbs.length, IsFiniteMeasure (B i).prior := fun i => (whole_regular h i).finite
  have hae : ∀ᵐ x ∂wholePrior p B, x ∈ wholeFine R :=
    ae_all_iff.2 fun i => (Measure.quasiMeasurePreserving_eval (fun i : Fin p.cfg.perturbs.length => (B i).prior) i).ae (R i).fine
  filter_upwards [within_ae hK hsp hGm hae n] with x h1 c h3 h4 A hA hAr
  rw [iterations_steps, power_alike halike hprob hK hA hAr n x _ h4]
  exact steps_power (whole_follows h hpn hT hs R) hK hprob halike hGm hGr hA hAr n _ h3
    ((within_invariant halike hK hGm hGr n _ _ h4).1 h1)

/-- The models of chains converge: on a set of models, their law is that of a kernel that converges. -/
theorem whole_limit_on (h : InversionOf p B Roaming logLik) (hpn : PlainNames p) {T : ℝ} (hT : T ≠ 0) {b s : ℤ} (hs : s ≠ 0)
    (hfin : posterior (wholePrior p B) logLik T Set.univ ≠ ⊤) : ∃ (P : ℕ → Whole p B → Set (Whole p B) → ENNReal) (W : ℕ → Set (Whole p B)),
    (∀ n A, MeasurableSet A → Measurable fun x => P n x A) ∧
    (∀ n A, MeasurableSet A → Invariant SameWhole A → ∀ x y, SameWhole x y → P n x A = P n y A) ∧
    (∀ n, MeasurableSet (W n) ∧ Invariant SameWhole (W n) ∧ ∀ᵐ x ∂wholePrior p B, x ∈ W n) ∧
    (∀ n (c : Chain State Store E), Ready p B T c → wholeOf p B c.cur.params ∈ W n → ∀ A, MeasurableSet A → Invariant SameWhole A →
      IterationsLaw p.cfg b s (wholeDraws p B) (wholeLaw p B) (fun st => wholeOf p B st.params) n c A = P n (wholeOf p B c.cur.params) A) ∧
    ∀ (μ : Measure (Whole p B)) [IsProbabilityMeasure μ], μ ≪ wholePrior p B → ∀ {ε : ℝ}, 0 < ε →
    ∃ n₀, ∀ n ≥ n₀, ∀ A, MeasurableSet A → |(∫⁻ x, P n x A ∂μ).toReal -
        (posterior ((wholePrior p B).withDensity fun x => ENNReal.ofReal (wholeStaying p B x)) logLik T A /
          posterior ((wholePrior p B).withDensity fun x => ENNReal.ofReal (wholeStaying p B x)) logLik T Set.univ).toReal| ≤ ε := by
  choose R hR hroam using whole_roamed h
  have hw : WholeProblem p B logLik := inversion_mono (fun _ _ => roaming_modelled) h
  have ha := any_of_whole hw
  have hfinite := sampled_finite hw hfin
  have hok : ∀ i, (R i).L.Ok := fun i => (R i).ok
  have hfi : ∀ i, IsFiniteMeasure (R i).L.moves.prior := fun i => (hok i).finite
  have H := whole_chained ha hT R
  have hsum := chance_sum H.len H.nonneg H.sum
  obtain ⟨hK, hprob, halike, hGm, hGr, hdr⟩ := whole_kernel ha hT R
  have hpi := whole_prior ha R hR
  set π := posterior ((wholePrior p B).withDensity fun x => ENNReal.ofReal (wholeStaying p B x)) logLik T with hπdef
  set K := mixKernel (p := fun i => (R i).L.moves) (w := fun i => (R i).L.w) (fun i => (R i).L.moves.prior) (fun i => (hok i).ok)
    (fun i => rfl) h.meas T (chance p.cfg) with hKdef
  have hMk : IsMarkovKernel K := ⟨hprob⟩
  have hirr : Ker.Irred π K := by
    rw [hπdef, ← hpi]
    exact mix_irred (fun i => (R i).L.moves.prior) (fun i => (hok i).ok) (fun i => rfl) (fun i => (hok i).w_nonneg) h.meas
      (chance_ne ha) hroam
  have hrev : Ker.Revers π K := by
    rw [hπdef, ← hpi]
    exact mix_revers (fun i => (R i).L.moves.prior) (fun i => (hok i).ok) (fun i => rfl) (fun i => (hok i).w_nonneg)
      (fun i => (hok i).w_sum) h.meas hsum
  have hac := prior_sampled ha T
  have hne : π ≠ 0 := fun hc => wholePrior_ne ha (Measure.absolutelyContinuous_zero_iff.1 (hc ▸ hac))
  have hpres := mixTrans_preserves (fun i => (R i).L.moves.prior) (p := fun i => (R i).L.moves) (w := fun i => (R i).L.w)
    (a := chance p.cfg) (T := T) (fun i => (hok i).ok) (fun i => rfl) (fun i => (hok i).w_nonneg) (fun i => (hok i).w_sum) h.meas hsum
  rw [hpi] at hpres
  have hsp : Spares (wholePrior p B) (mixTrans (fun i => (R i).L.moves) (fun i => (R i).L.w) logLik T (chance p.cfg)) := by
    intro N hN h0
    exact hac.ae_le (spares_of_bind hK hpres N hN (posterior_sampled (logLik := logLik) T h0))
  have hbi : ∀ i : Fin p.cfg.perturbs.length, IsFiniteMeasure (B i).prior := fun i => (whole_regular ha i).finite
  have hae : ∀ᵐ x ∂wholePrior p B, x ∈ wholeFine R :=
    ae_all_iff.2 fun i => (Measure.quasiMeasurePreserving_eval (fun i : Fin p.cfg.perturbs.length => (B i).prior) i).ae (R i).fine
  refine ⟨power K, within K (wholeFine R), fun n A hA => power_meas K.measurable hA n,
    fun n A hA hAr => power_alike halike hprob hK hA hAr n, fun n => ⟨within_meas hK hGm n, within_invariant halike hK hGm hGr n, ?_⟩,
    fun n c hc hv A hA hAr => ?_, fun μ _ hμ ε hε => ?_⟩
  · exact within_ae hK hsp hGm hae n
  · rw [iterations_steps]
    exact steps_power (whole_follows ha hpn hT hs R) hK hprob halike hGm hGr hA hAr n _ hc hv
  · obtain ⟨n₀, h₀⟩ := power_tendsto K hrev hirr hne μ (hμ.trans hac) hε
    exact ⟨n₀, fun n hn A hA => h₀ n hn A hA⟩

/-- The models of chains converge: their law is that of a kernel that converges. -/
theorem whole_limit (h : InversionOf p B Roaming logLik) (hpn : PlainNames p) {T : ℝ} (hT : T ≠ 0) {b s : ℤ} (hs : s ≠ 0)
    (hfin : posterior (wholePrior p B) logLik T Set.univ ≠ ⊤) : ∃ P : ℕ → Whole p B → Set (Whole p B) → ENNReal,
    (∀ n A, MeasurableSet A → Measurable fun x => P n x A) ∧
    (∀ n, ∀ᵐ x ∂wholePrior p B, ∀ c : Chain State Store E, Ready p B T c → SameWhole x (wholeOf p B c.cur.params) →
      ∀ A, MeasurableSet A → Invariant SameWhole A →
      IterationsLaw p.cfg b s (wholeDraws p B) (wholeLaw p B) (fun st => wholeOf p B st.params) n c A = P n x A) ∧
    ∀ (μ : Measure (Whole p B)) [IsProbabilityMeasure μ], μ ≪ wholePrior p B → ∀ {ε : ℝ}, 0 < ε →
    ∃ n₀, ∀ n ≥ n₀, ∀ A, MeasurableSet A → |(∫⁻ x, P n x A ∂μ).toReal -
        (posterior ((wholePrior p B).withDensity fun x => ENNReal.ofReal (wholeStaying p B x)) logLik T A /
          posterior ((wholePrior p B).withDensity fun x => ENNReal.ofReal (wholeStaying p B x)) logLik T Set.univ).toReal| ≤ ε := by
  obtain ⟨P, W, h1, h2, h3, h4, h5⟩ := whole_limit_on (E := E) (b := b) (s := s) h hpn hT hs hfin
  refine ⟨P, h1, fun n => ?_, h5⟩
  filter_upwards [(h3 n).2.2] with x hx c hc hr A hA hAr
  rw [h4 n c hc (((h3 n).2.1 _ _ hr).1 hx) A hA hAr]
  exact (h2 n A hA hAr _ _ hr).symm

/-- The models of chains converge. -/
theorem whole_converges (h : InversionOf p B Roaming logLik) (hpn : PlainNames p) {T : ℝ} (hT : T ≠ 0) {b s : ℤ} (hs : s ≠ 0)
    (state : Whole p B → Chain State Store E)
    (hstate : ∀ x, PossibleWhole x → Ready p B T (state x) ∧ SameWhole x (wholeOf p B (state x).cur.params))
    (hfin : posterior (wholePrior p B) logLik T Set.univ ≠ ⊤) (μ : Measure (Whole p B)) [IsProbabilityMeasure μ]
    (hμ : μ ≪ wholePrior p B) {ε : ℝ} (hε : 0 < ε) :
    ∃ n₀, ∀ n ≥ n₀, ∀ A, MeasurableSet A → Invariant SameWhole A →
      |(∫⁻ x, IterationsLaw p.cfg b s (wholeDraws p B) (wholeLaw p B) (fun st => wholeOf p B st.params) n (state x) A ∂μ).toReal -
        (posterior ((wholePrior p B).withDensity fun x => ENNReal.ofReal (wholeStaying p B x)) logLik T A /
          posterior ((wholePrior p B).withDensity fun x => ENNReal.ofReal (wholeStaying p B x)) logLik T Set.univ).toReal| ≤ ε := by
  obtain ⟨P, -, h1, h2⟩ := whole_limit (E := E) (b := b) (s := s) h hpn hT hs hfin
  obtain ⟨n₀, h₀⟩ := h2 μ hμ hε
  have ha := any_of_whole (inversion_mono (fun _ _ => roaming_modelled) h)
  refine ⟨n₀, fun n hn A hA hAr => ?_⟩
  have e : ∫⁻ x, IterationsLaw p.cfg b s (wholeDraws p B) (wholeLaw p B) (fun st => wholeOf p B st.params) n (state x) A ∂μ =
      ∫⁻ x, P n x A ∂μ :=
    lintegral_congr_ae (hμ.ae_le (by
      filter_upwards [h1 n, whole_possible_prior ha] with x hx hp
      exact hx _ (hstate x hp).1 (hstate x hp).2 A hA hAr))
  rw [e]
  exact h₀ n hn A hA

/-- The law of an iteration, by the transitions of realizations. -/
theorem whole_law (h : AnyProblem p B logLik) {T : ℝ} (hT : T ≠ 0) (state : Whole p B → Chain State Store E)
    (hstate : ∀ x, PossibleWhole x → HoldsAll p B (state x).cur.params ∧ SameWhole x (wholeOf p B (state x).cur.params) ∧
      Coherent p.tf (state x).cur)
    (htemp : ∀ x, (state x).temp = T)
    (R : ∀ i : Fin p.cfg.perturbs.length, Realization p.tf p.cfg.perturbs[i].2 (B i)) :
    ∀ᵐ x ∂wholePrior p B, ∀ A, MeasurableSet A → Invariant SameWhole A →
      IterationLaw p.cfg (wholeDraws p B) (wholeLaw p B) (fun s => wholeOf p B s.params) (state x) A =
        mixTrans (fun i => (R i).L.moves) (fun i => (R i).L.w) logLik T (chance p.cfg) x A := by
  obtain ⟨hK, hprob, halike, hGm, hGr, hdr⟩ := whole_kernel h hT R
  have hfi : ∀ i : Fin p.cfg.perturbs.length, IsFiniteMeasure (B i).prior := fun i => (whole_regular h i).finite
  have hae : ∀ᵐ x ∂wholePrior p B, x ∈ wholeFine R :=
    ae_all_iff.2 fun i => (Measure.quasiMeasurePreserving_eval (fun i : Fin p.cfg.perturbs.length => (B i).prior) i).ae (R i).fine
  filter_upwards [hae, whole_possible_prior h] with x h1 h2 A hA hAr
  obtain ⟨g1, g2, g3⟩ := hstate x h2
  have H := whole_chained h hT R
  have hl := blocks_law H (state x) ⟨g1, g3⟩ (htemp x) ((hGr _ _ g2).1 h1) hA (by rw [whole_same R]; exact hAr)
  rw [whole_draws R] at hl
  rw [halike x _ g2 A hA hAr, mixTrans_apply (fun i => (R i).ok.ok) h.meas _ hA]
  exact hl

theorem lintegral_multiple {X : Type} [MeasurableSpace X] {r : X → X → Prop} {π π' : Measure X} {c : ENNReal}
    (h : ∀ A, MeasurableSet A → Invariant r A → π' A = c * π A) {f : X → ENNReal} (hf : Measurable f)
    (hfr : ∀ x y, r x y → f x = f y) : ∫⁻ x, f x ∂π' = c * ∫⁻ x, f x ∂π := by
  have e : π'.map f = c • π.map f := by
    ext S hS
    rw [Measure.map_apply hf hS, Measure.smul_apply, Measure.map_apply hf hS]
    exact h _ (hf hS) fun x y hxy => by rw [Set.mem_preimage, Set.mem_preimage, hfr x y hxy]
  rw [← lintegral_map (f := fun z : ENNReal => z) measurable_id hf, e, lintegral_smul_measure,
    lintegral_map (f := fun z : ENNReal => z) measurable_id hf]
  rfl

/-- If what is sampled is the posterior, it is preserved. -/
theorem whole_same_posterior (h : WholeProblem p B logLik) {T : ℝ} (hT : T ≠ 0) (state : Whole p B → Chain State Store E)
    (hstate : ∀ x, PossibleWhole x → HoldsAll p B (state x).cur.params ∧ SameWhole x (wholeOf p B (state x).cur.params) ∧
      Coherent p.tf (state x).cur)
    (htemp : ∀ x, (state x).temp = T) (hfin : posterior (wholePrior p B) logLik T Set.univ ≠ ⊤)
    (heq : ∀ A, MeasurableSet A → Invariant SameWhole A →
      (posterior ((wholePrior p B).withDensity fun x => ENNReal.ofReal (wholeStaying p B x)) logLik T A /
        posterior ((wholePrior p B).withDensity fun x => ENNReal.ofReal (wholeStaying p B x)) logLik T Set.univ).toReal =
      (posterior (wholePrior p B) logLik T A / posterior (wholePrior p B) logLik T Set.univ).toReal) :
    PreservesUpTo SameWhole (posterior (wholePrior p B) logLik T)
      (fun x => IterationLaw p.cfg (wholeDraws p B) (wholeLaw p B) (fun s => wholeOf p B s.params) (state x)) := by
  choose R hR using whole_balanced h
  have ha := any_of_whole h
  have hfinite := sampled_finite h hfin
  have hok : ∀ i, (R i).L.Ok := fun i => (R i).ok
  have hfi : ∀ i, IsFiniteMeasure (R i).L.moves.prior := fun i => (hok i).finite
  have H := whole_chained ha hT R
  have hsum := chance_sum H.len H.nonneg H.sum
  obtain ⟨hK, hprob, halike, -⟩ := whole_kernel ha hT R
  have hpres := mixTrans_preserves (fun i => (R i).L.moves.prior) (p := fun i => (R i).L.moves) (w := fun i => (R i).L.w)
    (a := chance p.cfg) (T := T) (fun i => (hok i).ok) (fun i => rfl) (fun i => (hok i).w_nonneg) (fun i => (hok i).w_sum) h.meas hsum
  rw [whole_prior ha R hR] at hpres
  have hac := prior_sampled ha T
  set π := posterior ((wholePrior p B).withDensity fun x => ENNReal.ofReal (wholeStaying p B x)) logLik T with hπ
  set ρ := posterior (wholePrior p B) logLik T with hρ
  have hacρ : ρ ≪ wholePrior p B := withDensity_absolutelyContinuous _ _
  have hne : π Set.univ ≠ 0 := fun hc => wholePrior_ne ha
    (Measure.measure_univ_eq_zero.1 (hac hc))
  have hneρ : ρ Set.univ ≠ 0 := by
    intro hc
    refine wholePrior_ne ha (Measure.measure_univ_eq_zero.1 ((withDensity_absolutelyContinuous'
      (Real.measurable_exp.comp (h.meas.div_const T)).ennreal_ofReal.aemeasurable
      (.of_forall fun x => (ENNReal.ofReal_pos.2 (Real.exp_pos _)).ne')) hc))
  have hmul : ∀ A, MeasurableSet A → Invariant SameWhole A → ρ A = ρ Set.univ / π Set.univ * π A := by
    intro A hA hAr
    have h1 := heq A hA hAr
    have hAπ : π A ≠ ⊤ := measure_ne_top _ _
    have hAρ : ρ A ≠ ⊤ := ne_top_of_le_ne_top hfin (measure_mono (Set.subset_univ _))
    rw [ENNReal.toReal_eq_toReal_iff' (ENNReal.div_ne_top hAπ hne) (ENNReal.div_ne_top hAρ hneρ)] at h1
    have h2 : ρ A = ρ A / ρ Set.univ * ρ Set.univ := (ENNReal.div_mul_cancel hneρ hfin).symm
    rw [h2, ← h1, ENNReal.div_eq_inv_mul, ENNReal.div_eq_inv_mul]
    ring
  intro A hA hAr
  have e1 : ∫⁻ x, IterationLaw p.cfg (wholeDraws p B) (wholeLaw p B) (fun s => wholeOf p B s.params) (state x) A ∂ρ =
      ∫⁻ x, mixTrans (fun i => (R i).L.moves) (fun i => (R i).L.w) logLik T (chance p.cfg) x A ∂ρ :=
    lintegral_congr_ae (hacρ.ae_le ((whole_law ha hT state hstate htemp R).mono fun x hx => hx A hA hAr))
  change ∫⁻ x, IterationLaw p.cfg (wholeDraws p B) (wholeLaw p B) (fun s => wholeOf p B s.params) (state x) A ∂ρ = _
  have e2 := lintegral_multiple hmul (f := fun x => mixTrans (fun i => (R i).L.moves) (fun i => (R i).L.w) logLik T (chance p.cfg) x A)
    ((Measure.measurable_coe hA).comp hK) fun x y hxy => halike x y hxy A hA hAr
  rw [e1, e2, ← Measure.bind_apply hA hK.aemeasurable, hpres, hmul A hA hAr]

end whole

end BB.Lemmas
