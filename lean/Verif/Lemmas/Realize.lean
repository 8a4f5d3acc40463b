import Verif.Lemmas.BlockChain
import Verif.Lemmas.Stir
import Verif.Lemmas.NoiseScheme
import Verif.Lemmas.NearSites
import Verif.Spec.WholeInversion
import Verif.Lemmas.PlainKernel

/-!
# The blocks of an inversion and the perturbations of the library
-/

namespace BB.Lemmas

open BB Spec Props MeasureTheory ProbabilityTheory

/-- The function `f` perturbs the block `b`. -/
structure Realization (tf : List (Target × Fwd)) (f : State → M (State × PyF)) (b : Block) where
  L : Local b.X b.Θ
  ok : L.Ok
  proj : State → L.S
  fine : ∀ᵐ x ∂b.prior, x ∈ fine L.moves L.possible
  draws : L.moves.draws = b.draws
  same : L.same = b.same
  possible : L.possible = b.possible
  inv : ∀ s, b.holds s.params → L.inv (proj s)
  val : ∀ s, b.holds s.params → L.val (proj s) = b.val s.params
  only : ∀ q q', (∀ k ∈ b.keys, dget q' k = dget q k) → (b.holds q → b.holds q') ∧ b.val q' = b.val q
  flat : ∀ q, b.holds q → ∀ k ∈ b.keys, ∀ st, dget q k = some (.ps st) → Flat st
  run : ∀ s, Loose s.params → (dkeys s.params).Nodup → b.holds s.params → ∀ (j : Fin L.funcs.length) θ new' lpr,
    (∀ rest, L.funcs[j].2 (proj s) (L.enc j (proj s) θ ++ rest) = (.ok (new', lpr), rest)) → L.inv new' →
    ∀ u ∈ chosen (L.cfg fun _ => 0) j, ∃ new, (∀ rest, f s (b.enc s (u, θ) ++ rest) = (.ok (new, lpr), rest)) ∧
      dkeys new.params = dkeys s.params ∧ (∀ k, k ∉ b.keys → dget new.params k = dget s.params k) ∧ b.holds new.params ∧
      b.val new.params = L.val new' ∧ Coherent tf new

section rows

variable {P Θ : Type} [MeasurableSpace P] [MeasurableSpace Θ] {k : ℕ} {sp : Space} {prs : Fin k → Prior}
  {col : List P → List (String × PVal)} {dom : Set P} {apart ok : List P → Prop} {σs : Measure P} {dens : Fin k → P → ℝ → ℝ} {stay : P → ℝ}
  {draws : Measure Θ} {e : PSFunc → PSState → Θ → List Draw}

theorem possible_meas (hdom : MeasurableSet dom) (hm : ∀ j, Measurable fun z : P × ℝ => dens j z.1 z.2) (lo hi : ℕ) :
    MeasurableSet {x : Tuple (P × (Fin k → ℝ)) | (lo ≤ x.1 ∧ x.1 ≤ hi) ∧
      ∀ r ∈ List.ofFn x.2, r.1 ∈ dom ∧ ∀ j, 0 < dens j r.1 (r.2 j)} := by
  refine MeasurableSet.inter (dim_meas (R := P × (Fin k → ℝ)) (t := {n | lo ≤ n ∧ n ≤ hi}) trivial) ?_
  have hG : MeasurableSet {r : P × (Fin k → ℝ) | r.1 ∈ dom ∧ ∀ j, 0 < dens j r.1 (r.2 j)} := by
    refine MeasurableSet.inter (measurable_fst hdom) ?_
    have : {r : P × (Fin k → ℝ) | ∀ j, 0 < dens j r.1 (r.2 j)} = ⋂ j, {r | 0 < dens j r.1 (r.2 j)} := by
      ext r
      simp
    change MeasurableSet {r : P × (Fin k → ℝ) | ∀ j, 0 < dens j r.1 (r.2 j)}
    rw [this]
    refine .iInter fun j => measurableSet_lt measurable_const ?_
    exact (hm j).comp (measurable_fst.prodMk ((measurable_pi_apply j).comp measurable_snd))
  refine (MeasurableSpace.measurableSet_iInf).2 fun n => ?_
  have : Sigma.mk n ⁻¹' {x : Tuple (P × (Fin k → ℝ)) | ∀ r ∈ List.ofFn x.2, r.1 ∈ dom ∧ ∀ j, 0 < dens j r.1 (r.2 j)} =
      ⋂ i, {v : Fin n → P × (Fin k → ℝ) | v i ∈ {r : P × (Fin k → ℝ) | r.1 ∈ dom ∧ ∀ j, 0 < dens j r.1 (r.2 j)}} := by
    ext v
    simp only [Set.mem_iInter, Set.mem_ofPred_eq, Set.mem_preimage, List.forall_mem_ofFn_iff]
  change MeasurableSet (Sigma.mk n ⁻¹' {x : Tuple (P × (Fin k → ℝ)) | ∀ r ∈ List.ofFn x.2, r.1 ∈ dom ∧ ∀ j, 0 < dens j r.1 (r.2 j)})
  rw [this]
  exact .iInter fun i => (measurable_pi_apply (X := fun _ => P × (Fin k → ℝ)) i) hG

theorem possible_same (lo hi : ℕ) : Invariant SameRows {x : Tuple (P × (Fin k → ℝ)) | (lo ≤ x.1 ∧ x.1 ≤ hi) ∧
      ∀ r ∈ List.ofFn x.2, r.1 ∈ dom ∧ ∀ j, 0 < dens j r.1 (r.2 j)} := by
  intro x y h
  unfold SameRows at h
  have hl : x.1 = y.1 := by
    have := h.length_eq
    simpa using this
  refine and_congr (by rw [hl]) ⟨fun g r hr => g r (h.mem_iff.2 hr), fun g r hr => g r (h.mem_iff.1 hr)⟩

theorem possible_ae [SigmaFinite σs] [IsProbabilityMeasure (rowLaw σs dens)] (hdm : MeasurableSet dom) (hdom : ∀ᵐ x ∂σs, x ∈ dom)
    (hm : ∀ j, Measurable fun z : P × ℝ => dens j z.1 z.2) (lo hi : ℕ) :
    ∀ᵐ x ∂transPrior (rowLaw σs dens) lo hi, (lo ≤ x.1 ∧ x.1 ≤ hi) ∧
      ∀ r ∈ List.ofFn x.2, r.1 ∈ dom ∧ ∀ j, 0 < dens j r.1 (r.2 j) := by
  refine (transPrior_dim _ _ _).and ?_
  refine ae_rows (rowLaw σs dens) (G := fun l : List (P × (Fin k → ℝ)) => ∀ r ∈ l, r.1 ∈ dom ∧ ∀ j, 0 < dens j r.1 (r.2 j))
    (fun r hr => absurd hr (List.not_mem_nil)) ?_ ?_ _ _
  · intro n
    have h := possible_meas (k := k) hdm hm n n
    have h2 := measurable_mk n h
    refine (iff_of_eq (congrArg MeasurableSet ?_)).1 h2
    ext v
    simp
  · intro l hin
    have e2 : ∀ᵐ r ∂(σs.prod (volume : Measure (Fin k → ℝ))), r.1 ∈ dom := Measure.quasiMeasurePreserving_fst.ae hdom
    have hF : Measurable fun z : P × (Fin k → ℝ) => ∏ j, ENNReal.ofReal (dens j z.1 (z.2 j)) := by
      refine Finset.measurable_prod _ fun j _ => Measurable.ennreal_ofReal ?_
      exact (hm j).comp (measurable_fst.prodMk ((measurable_pi_apply j).comp measurable_snd))
    have e3 : ∀ᵐ r ∂rowLaw σs dens, ∏ j, ENNReal.ofReal (dens j r.1 (r.2 j)) ≠ 0 := by
      unfold rowLaw
      exact (ae_withDensity_iff hF).2 (.of_forall fun r h => h)
    have e4 : ∀ᵐ r ∂rowLaw σs dens, r.1 ∈ dom := (withDensity_absolutelyContinuous _ _).ae_le e2
    filter_upwards [e3, e4] with r h3 h4 r' hr'
    rcases List.mem_cons.1 hr' with rfl | h
    · refine ⟨h4, fun j => ?_⟩
      have := Finset.prod_ne_zero_iff.1 h3 j (Finset.mem_univ j)
      exact ENNReal.ofReal_pos.1 (pos_iff_ne_zero.2 this)
    · exact hin r' h

/-- The tilted prior is finite. -/
theorem tilt_finite {X : Type} [MeasurableSpace X] {μ : Measure X} [IsFiniteMeasure μ] {f : X → ℝ} {c : ℝ} (h : ∀ x, f x ≤ c) :
    IsFiniteMeasure (μ.withDensity fun x => ENNReal.ofReal (f x)) := by
  refine isFiniteMeasure_withDensity (ne_top_of_le_ne_top (b := ENNReal.ofReal c * μ Set.univ)
    (ENNReal.mul_ne_top ENNReal.ofReal_ne_top (measure_ne_top μ Set.univ)) ?_)
  calc ∫⁻ x, ENNReal.ofReal (f x) ∂μ ≤ ∫⁻ _, ENNReal.ofReal c ∂μ := lintegral_mono fun x => ENNReal.ofReal_le_ofReal (h x)
    _ = ENNReal.ofReal c * μ Set.univ := lintegral_const _

theorem draw_unit {u : ℝ} (h : 0 ≤ u ∧ u < 1) : unitDraw u = ⟨0, 0, u, h⟩ := by
  unfold unitDraw
  rw [dif_pos h]

/-- What is used of the sites being apart. -/
structure Fits (apart : List P → Prop) (prior : Measure (Tuple (P × (Fin k → ℝ)))) : Prop where
  meas : ∀ n, MeasurableSet {v : Fin n → P | apart (List.ofFn v)}
  perm : ∀ xs ys : List P, xs.Perm ys → apart xs → apart ys
  ae : ∀ᵐ x ∂prior, apart ((List.ofFn x.2).map Prod.fst)

theorem fits_true (prior : Measure (Tuple (P × (Fin k → ℝ)))) : Fits (fun _ : List P => True) prior :=
  ⟨fun n => MeasurableSet.univ, fun _ _ _ _ => trivial, .of_forall fun _ => trivial⟩

theorem fits_apart [MeasurableEq P] [SigmaFinite (rowLaw σs dens)] {d : P → P → ℝ} (hdm : MeasurableSet dom)
    (hdom : ∀ᵐ x ∂σs, x ∈ dom) (hdist : Measurable fun z : P × P => d z.1 z.2) (hnull : NullSites d σs) (lo hi : ℕ) :
    Fits (GeneralPosition d) (transPrior (rowLaw σs dens) lo hi) :=
  ⟨generic_meas hdist, fun _ _ h hx => Generic.perm hx h.symm, (generic_ae hdm hdom hdist hnull lo hi).mono fun _ hx => hx.1⟩

theorem rows_possible_meas {prior : Measure (Tuple (P × (Fin k → ℝ)))} (hap : Fits apart prior) (hdom : MeasurableSet dom)
    (hm : ∀ j, Measurable fun z : P × ℝ => dens j z.1 z.2) :
    MeasurableSet (rowsBlock sp prs col dom apart ok σs dens stay draws e).possible := by
  refine MeasurableSet.inter (possible_meas hdom hm _ _) ((MeasurableSpace.measurableSet_iInf).2 fun n => ?_)
  have hf : Measurable fun v : Fin n → P × (Fin k → ℝ) => fun i => (v i).1 :=
    measurable_pi_lambda _ fun i => measurable_fst.comp (measurable_pi_apply i)
  have e : {v : Fin n → P × (Fin k → ℝ) | apart ((List.ofFn v).map Prod.fst)} =
      (fun v : Fin n → P × (Fin k → ℝ) => fun i => (v i).1) ⁻¹' {u | apart (List.ofFn u)} := by
    ext v
    rw [Set.mem_ofPred_eq, List.map_ofFn]
    rfl
  change MeasurableSet {v : Fin n → P × (Fin k → ℝ) | apart ((List.ofFn v).map Prod.fst)}
  rw [e]
  exact hf (hap.meas n)

theorem rows_possible_same {prior : Measure (Tuple (P × (Fin k → ℝ)))} (hap : Fits apart prior) :
    Invariant SameRows (rowsBlock sp prs col dom apart ok σs dens stay draws e).possible := by
  intro x y h
  refine and_congr (possible_same _ _ x y h) ⟨hap.perm _ _ (List.Perm.map _ h), hap.perm _ _ (List.Perm.map _ h.symm)⟩

theorem rows_possible_ae [SigmaFinite σs] [IsProbabilityMeasure (rowLaw σs dens)]
    (hap : Fits apart (transPrior (rowLaw σs dens) sp.info.lo sp.info.hi)) (hdm : MeasurableSet dom) (hdom : ∀ᵐ x ∂σs, x ∈ dom)
    (hm : ∀ j, Measurable fun z : P × ℝ => dens j z.1 z.2) :
    ∀ᵐ x ∂(rowsBlock sp prs col dom apart ok σs dens stay draws e).prior,
      x ∈ (rowsBlock sp prs col dom apart ok σs dens stay draws e).possible :=
  (possible_ae hdm hdom hm _ _).and hap.ae

/-- The block of a space with rows is perturbed by the perturbation of the space. -/
theorem rows_realized (tf : List (Target × Fwd)) (hdm : MeasurableSet dom) (hm : ∀ j, Measurable fun z : P × ℝ => dens j z.1 z.2)
    (hap : Fits apart (transPrior (rowLaw σs dens) sp.info.lo sp.info.hi)) {GS : List P → Prop}
    (hGS : ∀ xs, GS xs ↔ (∀ x ∈ xs, x ∈ dom) ∧ apart xs ∧ ok xs) (hcol : ∀ xs, ∀ kv ∈ col xs, ∃ a, kv.2 = PVal.arr a)
    (hw : (∀ v ∈ (ownChain sp (decode col prs) (fun _ => 0)).weights, 0 ≤ v) ∧
      0 < (ownChain sp (decode col prs) (fun _ => 0)).weights.sum)
    {p : Scheme (Tuple (P × (Fin k → ℝ))) Θ (ownChain sp (decode col prs) (fun _ => 0)).perturbs.length} (h2 : p.draws = draws)
    (h3 : p.Ok (weight (ownChain sp (decode col prs) (fun _ => 0)))) (h4 : p.Lumps SameRows)
    (h5 : Reports (ownChain sp (decode col prs) (fun _ => 0)) p (fun _ => 0) 1
      (funcDraws sp.ownFuncs (decode col prs) (fun _ => 0) e) (decode col prs)
      (RowInv prs col sp.info.lo sp.info.hi fun l => GS (l.map Prod.fst)) SameRows)
    (hfin : IsFiniteMeasure p.prior)
    (hae : ∀ᵐ x ∂p.prior, x ∈ (rowsBlock sp prs col dom apart ok σs dens stay draws e).possible)
    (hfine : ∀ᵐ x ∂transPrior (rowLaw σs dens) sp.info.lo sp.info.hi,
      x ∈ fine p (rowsBlock sp prs col dom apart ok σs dens stay draws e).possible)
    (Q : ∀ {n : ℕ}, Scheme (Tuple (P × (Fin k → ℝ))) Θ n → (Fin n → ℝ) → Prop)
    (hQ : Q p (weight (ownChain sp (decode col prs) (fun _ => 0)))) :
    ∃ R : Realization tf sp.ownPert.perturb (rowsBlock sp prs col dom apart ok σs dens stay draws e), Q R.L.moves R.L.w := by
  have hflat : ∀ (l : List (P × (Fin k → ℝ))) st, Props.Holds col prs l st → Flat st := by
    intro l st h kv hkv
    rw [h.2] at hkv
    rcases List.mem_append.1 hkv with hkv | hkv
    · exact hcol _ kv hkv
    · obtain ⟨j, rfl⟩ := List.mem_ofFn.1 hkv
      exact ⟨_, rfl⟩
  have hrow : ∀ st, (∃ l, Props.Holds col prs l st ∧ sp.info.lo ≤ l.length ∧ l.length ≤ sp.info.hi ∧ (∀ r ∈ l, r.1 ∈ dom) ∧
      apart (l.map Prod.fst) ∧ ok (l.map Prod.fst)) ↔ RowInv prs col sp.info.lo sp.info.hi (fun l => GS (l.map Prod.fst)) st := by
    intro st
    unfold RowInv
    simp only [hGS, List.forall_mem_map]
  refine ⟨
    { L :=
        { S := PSState
          funcs := (ownChain sp (decode col prs) (fun _ => 0)).perturbs
          weights := (ownChain sp (decode col prs) (fun _ => 0)).weights
          val := decode col prs
          inv := RowInv prs col sp.info.lo sp.info.hi fun l => GS (l.map Prod.fst)
          same := SameRows
          possible := (rowsBlock sp prs col dom apart ok σs dens stay draws e).possible
          enc := funcDraws sp.ownFuncs (decode col prs) (fun _ => 0) e
          moves := p }
      ok :=
        { len := own_len sp (decode col prs) (fun _ => 0)
          nonneg := hw.1
          sum := hw.2
          ok := h3
          finite := hfin
          refl := SameRows.refl
          lumps := h4
          possible_meas := rows_possible_meas hap hdm hm
          possible_same := rows_possible_same (sp := sp) (prs := prs) (col := col) (dom := dom) (ok := ok) (σs := σs) (dens := dens)
            (stay := stay) (draws := draws) (e := e) hap
          possible_ae := hae
          proposal := h5.proposal }
      proj := fun s => match dget s.params sp.info.name with
        | some (.ps st) => st
        | _ => .mk 0 [] none
      fine := hfine
      draws := h2
      same := rfl
      possible := rfl
      inv := ?inv
      val := ?val
      only := ?only
      flat := ?flat
      run := ?run }, hQ⟩
  case inv =>
    rintro s ⟨st, hs, hl⟩
    simp only [hs]
    exact (hrow st).1 hl
  case val =>
    rintro s ⟨st, hs, hl⟩
    simp only [hs]
    change decode col prs st = match dget s.params sp.info.name with
      | some (.ps st) => decode col prs st
      | _ => ofRows []
    rw [hs]
  case only =>
    intro q q' hq
    have hq' := hq sp.info.name (List.mem_singleton.2 rfl)
    constructor
    · rintro ⟨st, hs, hl⟩
      exact ⟨st, hq'.trans hs, hl⟩
    · unfold rowsBlock
      simp only [hq']
  case flat =>
    rintro q ⟨st, hs, l, hl, -⟩ k' hk' st' hst'
    rw [List.mem_singleton.1 hk', hs] at hst'
    injection hst' with e1
    injection e1 with e1
    rw [← e1]
    exact hflat l st hl
  case run =>
    rintro s hlo hnd ⟨st, hs, hl⟩ j θ new' lpr hrun hnew u ⟨hu, hch⟩
    simp only [hs] at hrun
    have hj : j.val < sp.ownFuncs.length := Nat.lt_of_lt_of_eq j.isLt (List.length_map _)
    have hlen : sp.ownPert.funcs.length = sp.ownFuncs.length := List.length_map _
    have hch' : choices sp.ownPert.funcs.length sp.ownPert.weights [unitDraw u] = (.ok j.val, []) := by
      rw [draw_unit hu, hlen]
      have hl2 : (ownChain sp (decode col prs) (fun _ => 0)).perturbs.length = sp.ownFuncs.length := List.length_map _
      rw [← hl2]
      exact hch
    have hf : sp.ownPert.funcs[j.val]? = some (sp.ownFuncs[j.val]).1 := by
      change (sp.ownFuncs.map Prod.fst)[j.val]? = _
      rw [List.getElem?_map, List.getElem?_eq_getElem hj]
      rfl
    have henc : (rowsBlock sp prs col dom apart ok σs dens stay draws e).enc s (u, θ) =
        indexDraw 0 :: (unitDraw u :: e (sp.ownFuncs[j.val]).1 st θ) := by
      change spaceDraws sp e s (u, θ) = _
      unfold spaceDraws
      rw [hs, hch']
      simp only [hf]
    have hrun' : ∀ rest, (sp.ownFuncs[j.val]).1.run st (e (sp.ownFuncs[j.val]).1 st θ ++ rest) = (.ok (new', lpr), rest) := by
      intro rest
      have := hrun rest
      have e1 : ((ownChain sp (decode col prs) (fun _ => 0)).perturbs[j]).2 = (sp.ownFuncs[j.val]).1.run := by
        change ((sp.ownFuncs.map fun f => (f.1.name, f.1.run))[j.val]'(by simpa using hj)).2 = _
        rw [List.getElem_map]
      rw [← e1]
      exact this
    have hmem : (sp.ownPert.name, TopVal.ps st) ∈ s.params := dget_some_mem hs
    obtain ⟨new, sts, g1, g2, g3⟩ := pert_run hlo hnd hmem (perturbPS_run hch' hf hrun') (indexDraw 0)
    have hk : sp.info.name ∈ dkeys s.params := List.mem_map.2 ⟨_, hmem, rfl⟩
    have hnm : sp.ownPert.name = sp.info.name := rfl
    have hg : dget new.params sp.info.name = some (.ps new') := by
      rw [g2, hnm, dget_dset_same]
    refine ⟨new, fun rest => ?_, ?_, fun k' hk' => ?_, ⟨new', hg, (hrow new').2 hnew⟩, ?_, coherent_stats g3⟩
    · rw [henc]
      exact g1 rest
    · rw [g2, hnm, dkeys_dset, if_pos hk]
    · rw [g2, hnm, dget_dset_ne _ _ _ _ fun e => hk' (List.mem_singleton.2 e)]
    · change (match dget new.params sp.info.name with
        | some (.ps st) => decode col prs st
        | _ => ofRows []) = _
      rw [hg]

theorem overSites_pos {P V : Type} {Z : P → ℝ} (h : ∀ x, 0 < Z x) (x : Tuple (P × V)) : 0 < overSites Z x :=
  Finset.prod_pos fun _ _ => h _

/-- The prior is absolutely continuous with respect to what is sampled. -/
theorem rows_sampled (hst : ∀ x, 0 < stay x) (hsm : Measurable stay) : transPrior (rowLaw σs dens) sp.info.lo sp.info.hi ≪
    (rowsBlock sp prs col dom apart ok σs dens stay draws e).sampled := by
  have hO : Measurable fun x : Tuple (P × (Fin k → ℝ)) => overSites stay x :=
    prodF_meas (F := fun r : P × (Fin k → ℝ) => stay r.1) (hsm.comp measurable_fst)
  refine withDensity_absolutelyContinuous' hO.ennreal_ofReal.aemeasurable (.of_forall fun x => ?_)
  exact (ENNReal.ofReal_pos.2 (overSites_pos hst x)).ne'

/-- All perturbations of the space are in balance with the same distribution. -/
theorem rows_balanced (tf : List (Target × Fwd)) [SigmaFinite σs] [IsProbabilityMeasure (rowLaw σs dens)] (hdm : MeasurableSet dom)
    (hdom : ∀ᵐ x ∂σs, x ∈ dom) (hm : ∀ j, Measurable fun z : P × ℝ => dens j z.1 z.2) (hst : ∀ x, 0 < stay x ∧ stay x ≤ 1)
    (hsm : Measurable stay) (hcol : ∀ xs, ∀ kv ∈ col xs, ∃ a, kv.2 = PVal.arr a)
    (hw : (∀ v ∈ (ownChain sp (decode col prs) (fun _ => 0)).weights, 0 ≤ v) ∧
      0 < (ownChain sp (decode col prs) (fun _ => 0)).weights.sum)
    (hpart : Part (ownChain sp (decode col prs) (fun _ => 0))
      (rowsBlock sp prs col dom (fun _ => True) (fun _ => True) σs dens stay draws e).sampled (fun _ => 0) 1
      (funcDraws sp.ownFuncs (decode col prs) (fun _ => 0) e) draws (decode col prs)
      (RowInv prs col sp.info.lo sp.info.hi fun l => InDom dom (l.map Prod.fst)) SameRows) :
    ∃ R : Realization tf sp.ownPert.perturb (rowsBlock sp prs col dom (fun _ => True) (fun _ => True) σs dens stay draws e),
      R.L.moves.prior = (rowsBlock sp prs col dom (fun _ => True) (fun _ => True) σs dens stay draws e).sampled := by
  obtain ⟨p, h1, h2, h3, h4, h5⟩ := hpart
  have hfin : IsFiniteMeasure (transPrior (rowLaw σs dens) sp.info.lo sp.info.hi) := transPrior_finite _ _
  have hap := fits_true (k := k) (P := P) (transPrior (rowLaw σs dens) sp.info.lo sp.info.hi)
  have hae : ∀ᵐ x ∂p.prior, x ∈ (rowsBlock sp prs col dom (fun _ => True) (fun _ => True) σs dens stay draws e).possible := by
    rw [h1]
    exact (withDensity_absolutelyContinuous _ _).ae_le (rows_possible_ae hap hdm hdom hm)
  have hf := fine_ae h3 (rows_possible_meas hap hdm hm) hae
  rw [h1] at hf
  refine rows_realized tf hdm hm hap (GS := InDom dom) (fun xs => by simp [InDom]) hcol hw h2 h3 h4 h5 ?_ hae
    ((rows_sampled (fun x => (hst x).1) hsm).ae_le hf) (fun m _ => m.prior = _) h1
  rw [h1]
  have hle : ∀ x : Tuple (P × (Fin k → ℝ)), overSites stay x ≤ 1 := fun x =>
    Finset.prod_le_one (fun i _ => (hst _).1.le) fun i _ => (hst _).2
  exact tilt_finite (μ := transPrior (rowLaw σs dens) sp.info.lo sp.info.hi) hle

/-- The perturbation of sites is not in balance with the same distribution as the others. -/
theorem rows_stirred {α Θb : Type} [MeasurableSpace α] [MeasurableSpace Θb] [Nonempty P] {lam : Measure P} [SigmaFinite lam]
    {γ : Measure α} [IsProbabilityMeasure γ] {step : P → α → P} {κ : P × P → ℝ} {loc : P → Pos} {ok' : List P → Prop}
    {enc : α → List Draw} {std : Fin k → P → ℝ} {GS : List P → Prop} (tf : List (Target × Fwd))
    (h : SiteCase lam dom γ step κ sp prs col loc ok' enc dens std GS (decode col prs))
    {fs : List (PSFunc × ℝ)} (hfs : fs = if sp.info.transD then [(PSFunc.birth sp, (1 : ℝ)), (PSFunc.death sp, 1)] else [])
    {births : Fin 2 → PSState → Θb → List Draw} {lb : Measure Θb}
    (hb : Part (funcsChain fs (decode col prs) fun _ => 0) (transPrior (rowLaw lam[|dom] dens) sp.info.lo sp.info.hi) (fun _ => 0) 1
      (funcDraws fs (decode col prs) (fun _ => 0) (bdDraws births)) lb (decode col prs)
      (RowInv prs col sp.info.lo sp.info.hi fun l => GS (l.map Prod.fst)) SameRows)
    (htop : lam dom ≠ ⊤) (hlh : sp.info.lo ≤ sp.info.hi) (hdom : ∀ᵐ x ∂lam[|dom], x ∈ dom) [IsProbabilityMeasure lam[|dom]]
    (hap : Fits apart (transPrior (rowLaw lam[|dom] dens) sp.info.lo sp.info.hi))
    (hGS : ∀ xs, GS xs ↔ (∀ x ∈ xs, x ∈ dom) ∧ apart xs ∧ ok xs) (hcol : ∀ xs, ∀ kv ∈ col xs, ∃ a, kv.2 = PVal.arr a)
    (hstay : stayIn γ step dom = stay) :
    ∃ R : Realization tf sp.ownPert.perturb (rowsBlock sp prs col dom apart ok lam[|dom] dens stay
        ((lb.prod ((uniformNat sp.info.hi.factorial).prod (walkLaw k))).prod
          ((uniformNat sp.info.hi.factorial).prod (Measure.infinitePi fun _ : ℕ => γ)))
        (ownDraws births walkDraws (siteDraws enc step dom (decode col prs)))),
      Stirs (transPrior (rowLaw lam[|dom] dens) sp.info.lo sp.info.hi) (overSites stay) R.L.moves R.L.w := by
  have hprob : IsProbabilityMeasure (rowLaw lam[|dom] dens) := row_prob hdom h.hdens
  have hm := dens_meas h.hdens
  have hpr := sites_prior h.hstep hm sp.info.lo sp.info.hi (dens := dens)
  have hok := site_ok h.hstep hm sp.info.lo sp.info.hi (weight (funcsChain [(PSFunc.site sp, 1)] (decode col prs) fun _ => 0))
  have hv := values_part (σs := lam[|dom]) (hi := sp.info.hi) h.stored h.hdens h.custom h.std_meas h.hstd sp.info.name 3 h.good h.lo
    (decode col prs) h.hval (fun _ => 0) 1
  rw [← rowLaw_eq] at hv
  subst hstay
  have hown : sp.ownFuncs = fs ++ [(PSFunc.values sp.info.name (List.ofFn prs), 3)] ++ [(PSFunc.site sp, 1)] := by
    rw [own_funcs h.only h.pos, h.disc, hfs]
    rfl
  have hfs' : fs = [] ∨ fs = [(PSFunc.birth sp, (1 : ℝ)), (PSFunc.death sp, 1)] := by rw [hfs]; split <;> simp
  have hbl := rows_possible_ae (sp := sp) (prs := prs) (col := col) (ok := ok) (stay := stayIn γ step dom)
    (draws := (lb.prod ((uniformNat sp.info.hi.factorial).prod (walkLaw k))).prod
          ((uniformNat sp.info.hi.factorial).prod (Measure.infinitePi fun _ : ℕ => γ)))
    (e := ownDraws births walkDraws (siteDraws enc step dom (decode col prs))) hap h.hstep.dom_meas hdom hm
  obtain ⟨m, e1, e2, e3, e4, e5, e6, e7⟩ := own_stirred (staying := overSites (stayIn γ step dom)) hfs' hown hb hv hok
    (site_lumps h.hstep _ _ _ _) (site_reports h.hstep h.runs 1 h.good h.stays h.lo (decode col prs) h.hval (fun _ => 0) 1 _) hpr
    (by
      change _ ≪ transPrior (((tilted lam dom γ step).prod volume).withDensity
        fun r => ENNReal.ofReal (priorDens dens r)) sp.info.lo sp.info.hi
      rw [hpr]
      exact rows_sampled (prs := prs) (col := col) (dom := dom) (apart := apart) (ok := ok) (draws := lb) (e := fun _ _ _ => [])
        (fun x => stayIn_pos h.hstep.step_meas (h.hstep.stays x)) (stayIn_meas h.hstep.step_meas h.hstep.dom_meas))
    (sites_vary h.hstep htop hm hprob.ne_zero h.lo hlh) (rows_possible_meas hap h.hstep.dom_meas hm) hbl
  refine rows_realized tf h.hstep.dom_meas hm hap hGS hcol (own_weights hfs' (.inr rfl) hown) e2 e3 e4 e5 ?_ ?_ e6
    (fun m w => Stirs _ _ m w) e7
  · rw [e1]
    infer_instance
  · rw [e1]
    have hz : ∀ Q : Tuple (P × (Fin k → ℝ)) → Prop, ∀ᵐ x ∂(0 : Measure (Tuple (P × (Fin k → ℝ)))), Q x := fun Q => by
      rw [ae_zero]
      exact Filter.eventually_bot
    exact hz _

end rows

section noise

variable (ts : List Target)

/-- The moves of the noise. -/
noncomputable def noiseScheme : Scheme (NoiseValues ts) (Fin ts.length × Bool → ℕ → ℝ) 1 where
  prior := (noisePrior ts).withDensity fun x => ENNReal.ofReal (stayingAll ts x)
  draws := deviates ts
  move := fun _ => landAll ts
  rev := id
  common := fun _ => (noisePrior ts).prod (noisePrior ts)
  dens := fun _ => kernelAll ts

variable {ts}

theorem noiseScheme_ok (h : ProperAll ts) (w : Fin 1 → ℝ) : (noiseScheme ts).Ok w where
  sfinite := by
    unfold noiseScheme
    infer_instance
  prob := inferInstanceAs (IsProbabilityMeasure (deviates ts))
  meas := fun _ => landAll_meas ts
  rev_rev := fun _ => rfl
  rev_weight := fun _ => rfl
  symm := fun _ => Measure.prod_swap
  dens_meas := fun _ => kernelAll_meas ts
  dens_nonneg := fun _ z => (kernelAll_pos ts z).le
  joint := fun _ => noise_joint h

theorem noiseScheme_lumps : (noiseScheme ts).Lumps Eq where
  dens := by
    rintro i x x' y y' rfl rfl
    rfl
  law := by
    rintro i x x' rfl G - -
    rfl

theorem staying_le {o : Option Range} (h : ∀ r ∈ o, r.Proper) : ∃ c, ∀ x, staying o x ≤ c := by
  cases o with
  | none => exact ⟨1, fun x => le_refl _⟩
  | some r =>
    refine ⟨r.hi - r.lo, fun x => ?_⟩
    have hp := h r rfl
    have hb : ∀ z, bell r.step x z ≤ 1 := fun z => Real.exp_le_one_iff.2 (neg_nonpos.2 (by positivity))
    calc staying (some r) x = ∫ z in r.lo..r.hi, bell r.step x z := rfl
      _ ≤ ∫ _ in r.lo..r.hi, (1 : ℝ) := intervalIntegral.integral_mono_on hp.lo_hi.le
          ((bell_continuous r.step x).intervalIntegrable _ _) intervalIntegrable_const fun z _ => hb z
      _ = r.hi - r.lo := by simp

theorem noise_tilt_finite (h : ProperAll ts) :
    IsFiniteMeasure ((noisePrior ts).withDensity fun x => ENNReal.ofReal (stayingAll ts x)) := by
  choose c hc using fun q => staying_le (o := noiseRanges ts q) (fun r hr => h q r hr)
  refine tilt_finite (c := ∏ q, c q) fun x => ?_
  exact Finset.prod_le_prod (fun q _ => (staying_pos (fun r hr => h q r hr) _).le) fun q _ => hc q _

theorem noise_possible_meas : MeasurableSet (noiseSupport ts) := by
  have e : noiseSupport ts = ⋂ q, {x : NoiseValues ts | match noiseRanges ts q with
      | some r => x q ∈ Set.Icc r.lo r.hi
      | none => x q = 0} := by
    refine Set.ext fun x => ?_
    rw [Set.mem_iInter]
    exact Iff.rfl
  rw [e]
  refine .iInter fun q => ?_
  cases noiseRanges ts q with
  | none => exact measurable_pi_apply q (measurableSet_singleton 0)
  | some r => exact measurable_pi_apply q measurableSet_Icc

theorem noise_possible_ae : ∀ᵐ x ∂noisePrior ts, x ∈ noiseSupport ts := by
  refine ae_all_iff.2 fun q => ?_
  have h : ∀ᵐ y ∂flat (noiseRanges ts q), match noiseRanges ts q with
      | some r => y ∈ Set.Icc r.lo r.hi
      | none => y = 0 := by
    cases noiseRanges ts q with
    | none =>
      change ∀ᵐ v ∂Measure.dirac (0 : ℝ), v = 0
      rw [ae_dirac_eq]
      exact Filter.eventually_pure.2 rfl
    | some r => exact ae_restrict_mem measurableSet_Icc
  exact (Measure.quasiMeasurePreserving_eval (fun q => flat (noiseRanges ts q)) q).ae h

theorem noiseIn_corr {t : Target} {d : Noise} (h : NoiseIn t d) : t.correlated = true ↔ d.corr ≠ none := by
  have := h.2.2
  by_cases hc : t.correlated = true
  · rw [if_pos hc] at this
    obtain ⟨r, hr, -⟩ := this
    simp [hc, hr]
  · rw [if_neg hc] at this
    simp [hc, this]

theorem noisePerturb_keys {s new : State} {r : PyF} {t t' : List Draw}
    (hs : ∀ tg ∈ ts, tg.name ∈ dkeys s.params) (h : noisePerturb ts s t = (.ok (new, r), t')) :
    dkeys new.params = dkeys s.params := by
  unfold noisePerturb at h
  obtain ⟨e, t1, h1, h2⟩ := M.bind_ok.1 h
  rw [M.pure_run] at h2
  simp only [Prod.mk.injEq, Except.ok.injEq] at h2
  obtain ⟨⟨rfl, rfl⟩, rfl⟩ := h2
  have hm := perturbNoises_mem s.params ts [] (by simp [dkeys]) _ _ _ h1
  refine dkeys_dupdate fun kv hkv => ?_
  rcases hm kv hkv with h0 | ⟨tg, htg, d, rfl⟩
  · cases h0
  · exact hs tg htg

/-- The block of the noise is perturbed by the perturbation of the noise. -/
theorem noise_known (tf : List (Target × Fwd)) (hnd : (ts.map (·.name)).Nodup) (h : ProperAll ts)
    (Q : ∀ {n : ℕ}, Scheme (NoiseValues ts) (Fin ts.length × Bool → ℕ → ℝ) n → (Fin n → ℝ) → Prop)
    (hQ : ∀ w : Fin 1 → ℝ, 0 < w 0 → Q (noiseScheme ts) w) :
    ∃ R : Realization tf (noisePerturb ts) (noiseBlock ts), Q R.L.moves R.L.w := by
  have hhas : ∀ q, (noiseBlock ts).holds q → HasNoise ts q := by
    intro q hq t ht
    obtain ⟨d, h1, h2⟩ := hq t ht
    exact ⟨d, h1, h2.1⟩
  have hholds : ∀ {s new : State} {r : PyF} {t t' : List Draw}, noisePerturb ts s t = (.ok (new, r), t') →
      (noiseBlock ts).holds new.params := by
    intro s new r t t' hr tg htg
    obtain ⟨d, h1, h2⟩ := (noisePerturb_ok hnd hr).1 tg htg
    exact ⟨d, h1, noiseIn_corr h2⟩
  refine ⟨
    { L :=
        { S := State
          funcs := [(noiseName ts, noisePerturb ts)]
          weights := [1]
          val := fun s => noiseValues ts s.params
          inv := fun s => (noiseBlock ts).holds s.params
          same := Eq
          possible := (noiseBlock ts).possible
          enc := fun _ s θ => noiseTape ts (noiseValues ts s.params) θ
          moves := noiseScheme ts }
      ok :=
        { len := rfl
          nonneg := by simp
          sum := by simp
          ok := noiseScheme_ok h _
          finite := noise_tilt_finite h
          refl := fun _ => rfl
          lumps := noiseScheme_lumps
          possible_meas := noise_possible_meas
          possible_same := fun x y e => by rw [e]
          possible_ae := (withDensity_absolutelyContinuous _ _).ae_le noise_possible_ae
          proposal := ?prop }
      proj := id
      fine := ?fine
      draws := rfl
      same := rfl
      possible := rfl
      inv := fun s hs => hs
      val := fun s hs => rfl
      only := ?only
      flat := ?flat
      run := ?run }, hQ _ one_pos⟩
  case fine =>
    have h1 := fine_ae (noiseScheme_ok h fun _ => 1) noise_possible_meas
      ((withDensity_absolutelyContinuous _ _).ae_le noise_possible_ae)
    exact (withDensity_absolutelyContinuous' (stayingAll_meas ts).ennreal_ofReal.aemeasurable
      (.of_forall fun x => (ENNReal.ofReal_pos.2 (stayingAll_pos h x)).ne')).ae_le h1
  case prop =>
    intro i s hs
    filter_upwards [noise_lands h (noiseValues ts s.params)] with θ hθ
    obtain ⟨new, h2, h3⟩ := noisePerturb_run hnd (hhas _ hs) hθ
    obtain rfl : i = ⟨0, Nat.one_pos⟩ := Fin.ext (Nat.lt_one_iff.1 i.2)
    refine ⟨new, .fin 0, h2, hholds (h2 []), h3, fun _ => ?_⟩
    have hk := kernelAll_swap ts (noiseValues ts s.params, landAll ts (noiseValues ts s.params) θ)
    rw [Prod.swap_prod_mk] at hk
    change _ = (logQuotient (kernelAll ts (landAll ts (noiseValues ts s.params) θ, noiseValues ts s.params))
      (kernelAll ts (noiseValues ts s.params, landAll ts (noiseValues ts s.params) θ))).num
    unfold logQuotient
    rw [hk, if_neg (kernelAll_pos ts _).ne', div_self (kernelAll_pos ts _).ne', Real.log_one]
    rfl
  case only =>
    intro q q' hq
    have hq' : ∀ t ∈ ts, dget q' t.name = dget q t.name := fun t ht => hq _ (List.mem_map.2 ⟨t, ht, rfl⟩)
    constructor
    · intro hh t ht
      obtain ⟨d, h1, h2⟩ := hh t ht
      exact ⟨d, (hq' t ht).trans h1, h2⟩
    · funext z
      obtain ⟨i, b⟩ := z
      change noiseValue ts[i] q' b = noiseValue ts[i] q b
      have := hq' ts[i] (List.getElem_mem _)
      cases b <;> (unfold noiseValue; rw [this])
  case flat =>
    intro q hq k hk st hst
    obtain ⟨t, ht, rfl⟩ := List.mem_map.1 hk
    obtain ⟨d, h1, -⟩ := hq t ht
    rw [h1] at hst
    cases hst
  case run =>
    intro s _ _ hs j θ new' lpr hrun hnew u _
    obtain rfl : j = ⟨0, Nat.one_pos⟩ := Fin.ext (Nat.lt_one_iff.1 j.2)
    have hrun' : ∀ rest, noisePerturb ts s (noiseTape ts (noiseValues ts s.params) θ ++ rest) = (.ok (new', lpr), rest) := hrun
    obtain ⟨-, g2, -, -, g5, -⟩ := noisePerturb_ok hnd (hrun' [])
    refine ⟨new', hrun', noisePerturb_keys (fun t ht => ?_) (hrun' []), g2, hnew, rfl, coherent_noise g5⟩
    obtain ⟨d, h1, -⟩ := hs t ht
    exact List.mem_map.2 ⟨_, dget_some_mem h1, rfl⟩

/-- The moves of the noise are in balance with another distribution than the prior. -/
theorem noise_realized (tf : List (Target × Fwd)) (hnd : (ts.map (·.name)).Nodup) (h : ProperAll ts) :
    ∃ R : Realization tf (noisePerturb ts) (noiseBlock ts), R.L.moves.prior = (noiseBlock ts).sampled ∧
      (ts ≠ [] → Stirs (noisePrior ts) (stayingAll ts) R.L.moves R.L.w) :=
  noise_known tf hnd h (fun m w => m.prior = (noiseBlock ts).sampled ∧ (ts ≠ [] → Stirs (noisePrior ts) (stayingAll ts) m w))
    fun _ hw => ⟨rfl, fun hne => stirs_one (noiseScheme_ok h _) rfl hw fun hc => staying_varies h hne
      (hc.mono fun z hz => hz (kernelAll_pos ts _) (kernelAll_pos ts _))⟩

end noise

section spaces

variable {sp : Space} {b : Block}

theorem overSites_one {P V : Type} (x : Tuple (P × V)) : overSites (fun _ : P => (1 : ℝ)) x = 1 := by
  unfold overSites
  simp

theorem line_stay {k : ℕ} {prs : Fin k → Prior} {v : Vor1} {dens : Fin k → ℝ → ℝ → ℝ} {std : Fin k → ℝ → ℝ}
    (hp : OnLine sp prs v dens std) : Measurable (lineStay v) ∧ ∀ x, 0 < lineStay v x := by
  have hs := line_step hp.bounds hp.step
  have hm := stayIn_meas (γ := gaussianReal 0 1) hs.step_meas hs.dom_meas
  have hq : ∀ x, 0 < stayIn (gaussianReal 0 1) (lineStep v) (Set.Icc v.vmin v.vmax) x := fun x =>
    stayIn_pos hs.step_meas (hs.stays x)
  rw [lineStay_eq hp.step] at hm hq
  exact ⟨hm, hq⟩

theorem plane_stay {k : ℕ} {prs : Fin k → Prior} {v : Vor2} {dens : Fin k → ℝ × ℝ → ℝ → ℝ} {std : Fin k → ℝ × ℝ → ℝ}
    (hp : OnPlane sp prs v dens std) : Measurable (planeStay v) ∧ ∀ x, 0 < planeStay v x := by
  have hs := plane_step hp.step.1 hp.step.2 hp.dom_meas hp.dom_pos
  have hm := stayIn_meas (γ := (gaussianReal 0 1).prod (gaussianReal 0 1)) hs.step_meas hs.dom_meas
  have hq : ∀ x, 0 < stayIn ((gaussianReal 0 1).prod (gaussianReal 0 1)) (planeStep v) {q | InDomain v q} x := fun x =>
    stayIn_pos hs.step_meas (hs.stays x)
  have e : stayIn ((gaussianReal 0 1).prod (gaussianReal 0 1)) (planeStep v) {q | InDomain v q} = planeStay v :=
    planeStay_eq hp.step.1 hp.step.2
  have hm' : Measurable (planeStay v) := by
    rw [← e]
    exact hm
  rw [e] at hq
  exact ⟨hm', hq⟩

theorem line_cols : ∀ xs : List ℝ, ∀ kv ∈ lineSites xs, ∃ a, kv.2 = PVal.arr a := by
  intro xs kv hkv
  rw [List.mem_singleton.1 hkv]
  exact ⟨_, rfl⟩

theorem plane_cols : ∀ xs : List (ℝ × ℝ), ∀ kv ∈ planeSites xs, ∃ a, kv.2 = PVal.arr a := by
  intro xs kv hkv
  rw [List.mem_singleton.1 hkv]
  exact ⟨_, rfl⟩

/-- The perturbation of a space perturbs its block. -/
theorem space_realized (tf : List (Target × Fwd)) (h : Modelled sp b) :
    ∃ R : Realization tf sp.ownPert.perturb b, R.L.moves.prior = b.sampled := by
  cases h with
  | @plain k _ prs dens std hk hp htr hlh =>
    have hprob : IsProbabilityMeasure (rowLaw (Measure.dirac ()) dens) := row_prob (.of_forall fun _ => trivial) hp.hdens
    have hb := births_part (steps_plain hk hp.only) hlh MeasurableSet.univ measurable_id Measure.map_id hp.hdens _ (decode_none prs)
      (fun _ => 0) 1
    have hv := values_part (σs := Measure.dirac ()) (hi := sp.info.hi) (stored_plain hp.only) hp.hdens hp.custom hp.std_meas hp.hstd
      sp.info.name 3 (GS := InDom Set.univ) (fun _ h => h) hp.lo _ (decode_none prs) (fun _ => 0) 1
    rw [← rowLaw_eq] at hv
    have hsf : SFinite (transPrior (rowLaw (Measure.dirac ()) dens) sp.info.lo sp.info.hi) := by
      obtain ⟨p, e1, -, e2, -⟩ := hb
      rw [← e1]
      exact e2.sfinite
    have hown : sp.ownFuncs = [(PSFunc.birth sp, (1 : ℝ)), (PSFunc.death sp, 1)] ++
        [(PSFunc.values sp.info.name (List.ofFn prs), 3)] ++ [] := by
      rw [own_funcs hp.only hp.some, htr, hk]
      rfl
    rw [bd_draws (sp := sp) (val := decode noSites prs) (logLik := fun _ => 0) (birthDeathDraws sp prs fun m _ => [indexDraw m])] at hb
    have key := own_part (.inr rfl) (.inl rfl) hown hb hv (nothing_part (Measure.dirac ()) SameRows.refl fun _ => noDraws ())
    refine rows_balanced tf MeasurableSet.univ (.of_forall fun _ => trivial) (dens_meas hp.hdens) (fun _ => ⟨one_pos, le_rfl⟩)
      measurable_const
      (fun xs kv hkv => nomatch hkv) (own_weights (.inr rfl) (.inl rfl) hown) ?_
    have e : (plainBlock sp prs dens).sampled = transPrior (rowLaw (Measure.dirac ()) dens) sp.info.lo sp.info.hi := by
      unfold Block.sampled plainBlock rowsBlock
      simp only [overSites_one, ENNReal.ofReal_one]
      exact withDensity_one
    change Part _ (plainBlock sp prs dens).sampled _ _ _ _ _ _ _
    rw [e]
    exact key
  | @fixed k _ prs dens std hk hp htr =>
    have hprob : IsProbabilityMeasure (rowLaw (Measure.dirac ()) dens) := row_prob (.of_forall fun _ => trivial) hp.hdens
    have hv := values_part (σs := Measure.dirac ()) (hi := sp.info.hi) (stored_plain hp.only) hp.hdens hp.custom hp.std_meas hp.hstd
      sp.info.name 3 (GS := InDom Set.univ) (fun _ h => h) hp.lo _ (decode_none prs) (fun _ => 0) 1
    rw [← rowLaw_eq] at hv
    have hsf : SFinite (transPrior (rowLaw (Measure.dirac ()) dens) sp.info.lo sp.info.hi) := by
      obtain ⟨p, e1, -, e2, -⟩ := hv
      rw [← e1]
      exact e2.sfinite
    have hown : sp.ownFuncs = [] ++ [(PSFunc.values sp.info.name (List.ofFn prs), 3)] ++ [] := by
      rw [own_funcs hp.only hp.some, htr, hk]
      rfl
    have key := own_part (births := noDraws) (.inl rfl) (.inl rfl) hown (nothing_part (Measure.dirac ()) SameRows.refl _) hv
      (nothing_part (Measure.dirac ()) SameRows.refl fun _ => noDraws ())
    refine rows_balanced tf MeasurableSet.univ (.of_forall fun _ => trivial) (dens_meas hp.hdens) (fun _ => ⟨one_pos, le_rfl⟩)
      measurable_const
      (fun xs kv hkv => nomatch hkv) (own_weights (.inl rfl) (.inl rfl) hown) ?_
    have e : (fixedBlock sp prs dens).sampled = transPrior (rowLaw (Measure.dirac ()) dens) sp.info.lo sp.info.hi := by
      unfold Block.sampled fixedBlock rowsBlock
      simp only [overSites_one, ENNReal.ofReal_one]
      exact withDensity_one
    change Part _ (fixedBlock sp prs dens).sampled _ _ _ _ _ _ _
    rw [e]
    exact key
  | @line k _ prs v dens std hp htr =>
    have hprob := line_prob hp.bounds
    have hr : IsProbabilityMeasure (rowLaw volume[|Set.Icc v.vmin v.vmax] dens) := row_prob (ae_cond_mem measurableSet_Icc) hp.hdens
    have hc := line_case hp (GS := InDom (Set.Icc v.vmin v.vmax)) (fun _ h => h)
      fun xs hx i hi => (dom_stays (line_step hp.bounds hp.step) xs hx i hi).mono fun ω hω ys hp _ => hω ys hp
    refine rows_balanced tf measurableSet_Icc (ae_cond_mem measurableSet_Icc) (dens_meas hp.hdens)
      (fun x => ⟨(line_stay hp).2 x, measureReal_le_one⟩) (line_stay hp).1 (fun xs kv hkv => ?_) (sites_weights hc htr _) ?_
    · rw [List.mem_singleton.1 hkv]
      exact ⟨_, rfl⟩
    · have := sites_part hc htr (ae_cond_mem measurableSet_Icc) (fun _ => 0) 1
      rw [lineStay_eq hp.step] at this
      exact this
  | @plane k _ prs v dens std hp htr =>
    have hprob := plane_prob hp.bounds hp.dom_meas hp.dom_pos
    have hr : IsProbabilityMeasure (rowLaw volume[|{q | InDomain v q}] dens) := row_prob (ae_cond_mem hp.dom_meas) hp.hdens
    have hc := plane_case hp (GS := InDom {q | InDomain v q}) (fun _ h => h)
      fun xs hx i hi => (dom_stays (plane_step hp.step.1 hp.step.2 hp.dom_meas hp.dom_pos) xs hx i hi).mono fun ω hω ys hp _ => hω ys hp
    refine rows_balanced tf hp.dom_meas (ae_cond_mem hp.dom_meas) (dens_meas hp.hdens)
      (fun x => ⟨(plane_stay hp).2 x, measureReal_le_one⟩) (plane_stay hp).1 (fun xs kv hkv => ?_) (sites_weights hc htr _) ?_
    · rw [List.mem_singleton.1 hkv]
      exact ⟨_, rfl⟩
    · have := sites_part hc htr (ae_cond_mem hp.dom_meas) (fun _ => 0) 1
      have e : stayIn ((gaussianReal 0 1).prod (gaussianReal 0 1)) (planeStep v) {q | InDomain v q} = planeStay v :=
        planeStay_eq hp.step.1 hp.step.2
      rw [e] at this
      exact this

/-- Sites are perturbed: the perturbations are not all in balance with the same distribution. -/
theorem space_stirred (tf : List (Target × Fwd)) (h : Explored sp b) (hd : sp.info.kind.isDisc = true) :
    ∃ R : Realization tf sp.ownPert.perturb b, Stirs b.prior b.staying R.L.moves R.L.w := by
  cases h with
  | known h =>
    cases h with
    | @plain k _ prs dens std hk hp htr hlh =>
      rw [hk] at hd
      cases hd
    | @fixed k _ prs dens std hk hp htr =>
      rw [hk] at hd
      cases hd
    | @line k _ prs v dens std h hfix =>
      have hprob := line_prob h.bounds
      have hr : IsProbabilityMeasure (rowLaw volume[|Set.Icc v.vmin v.vmax] dens) := row_prob (ae_cond_mem measurableSet_Icc) h.hdens
      have hsf := transPrior_sfinite (rowLaw volume[|Set.Icc v.vmin v.vmax] dens) sp.info.lo sp.info.hi
      exact rows_stirred (apart := fun _ => True) (ok := fun _ => True) tf
        (line_case h (GS := InDom (Set.Icc v.vmin v.vmax)) (fun _ h => h)
          fun xs hx i hi => (dom_stays (line_step h.bounds h.step) xs hx i hi).mono fun ω hω ys hp _ => hω ys hp)
        (fs := []) (by rw [hfix]; rfl) (births := noDraws) (nothing_part (Measure.dirac ()) SameRows.refl _) (line_top v) (fixed_le hfix)
        (ae_cond_mem measurableSet_Icc) (fits_true _) (fun xs => by simp [InDom]) line_cols (lineStay_eq h.step)
    | @plane k _ prs v dens std h hfix =>
      have hprob := plane_prob h.bounds h.dom_meas h.dom_pos
      have hr : IsProbabilityMeasure (rowLaw volume[|{q | InDomain v q}] dens) := row_prob (ae_cond_mem h.dom_meas) h.hdens
      have hsf := transPrior_sfinite (rowLaw volume[|{q | InDomain v q}] dens) sp.info.lo sp.info.hi
      exact rows_stirred (apart := fun _ => True) (ok := fun _ => True) tf
        (plane_case h (GS := InDom {q | InDomain v q}) (fun _ h => h)
          fun xs hx i hi => (dom_stays (plane_step h.step.1 h.step.2 h.dom_meas h.dom_pos) xs hx i hi).mono fun ω hω ys hp _ => hω ys hp)
        (fs := []) (by rw [hfix]; rfl) (births := noDraws) (nothing_part (Measure.dirac ()) SameRows.refl _) (plane_top v) (fixed_le hfix)
        (ae_cond_mem h.dom_meas) (fits_true _) (fun xs => by simp [InDom]) plane_cols (planeStay_eq h.step.1 h.step.2)
  | @lineBirths k _ prs v dens std h htr hlh hfp =>
    have hprob := line_prob h.bounds
    have hr : IsProbabilityMeasure (rowLaw volume[|Set.Icc v.vmin v.vmax] dens) := row_prob (ae_cond_mem measurableSet_Icc) h.hdens
    have hb := births_part (σs := volume[|Set.Icc v.vmin v.vmax]) (steps_line h.kind hfp h.only h.bounds.le) hlh
      measurableSet_Icc (lineSite_meas v) (lineSite_law h.bounds) h.hdens _ (decode_line prs) (fun _ => 0) 1
    exact rows_stirred (apart := fun _ => True) (ok := fun _ => True) tf
      (line_case h (GS := InDom (Set.Icc v.vmin v.vmax)) (fun _ h => h)
        fun xs hx i hi => (dom_stays (line_step h.bounds h.step) xs hx i hi).mono fun ω hω ys hp _ => hω ys hp)
      (fs := [(PSFunc.birth sp, (1 : ℝ)), (PSFunc.death sp, 1)]) (by rw [htr]; rfl) (bd_draws _ ▸ hb) (line_top v) hlh.le
      (ae_cond_mem measurableSet_Icc) (fits_true _) (fun xs => by simp [InDom]) line_cols (lineStay_eq h.step)
  | @lineNear k _ prs v dens std stdBirth h htr hlh hfp hsm hstd hpos =>
    have hprob := line_prob h.bounds
    have hr : IsProbabilityMeasure (rowLaw volume[|Set.Icc v.vmin v.vmax] dens) := row_prob (ae_cond_mem measurableSet_Icc) h.hdens
    have hb := near_part (σs := volume[|Set.Icc v.vmin v.vmax]) (near_steps_line h.kind hfp h.only h.bounds h.hdens hstd hpos) h.lo hlh
      (lineSite_meas v) (lineSite_law h.bounds) (ae_cond_mem measurableSet_Icc) lineDist_meas h.hdens hsm hpos _ (decode_line prs)
      (fun _ => 0) 1
    exact rows_stirred (apart := GeneralPosition lineDist) (ok := List.Pairwise (· ≤ ·)) tf
      (line_case h (GS := NearDom lineDist (fun xs => xs.Pairwise (· ≤ ·)) (Set.Icc v.vmin v.vmax)) (fun _ h => h.2.2)
        fun xs hx i hi => near_stays (line_step h.bounds h.step) (line_top v) (nullSites_line cond_absolutelyContinuous) xs hx i hi)
      (fs := [(PSFunc.birth sp, (1 : ℝ)), (PSFunc.death sp, 1)]) (by rw [htr]; rfl) (bd_draws _ ▸ hb) (line_top v) hlh.le
      (ae_cond_mem measurableSet_Icc)
      (fits_apart measurableSet_Icc (ae_cond_mem measurableSet_Icc) lineDist_meas (nullSites_line cond_absolutelyContinuous) _ _)
      (fun xs => ⟨fun h => ⟨h.2.2, h.1, h.2.1⟩, fun h => ⟨h.2.1, h.2.2, h.1⟩⟩) line_cols (lineStay_eq h.step)
  | @planeBirths k _ prs v dens std h htr hlh hfp =>
    have hprob := plane_prob h.bounds h.dom_meas h.dom_pos
    have hr : IsProbabilityMeasure (rowLaw volume[|{q | InDomain v q}] dens) := row_prob (ae_cond_mem h.dom_meas) h.hdens
    have hb := births_part (σs := volume[|{q | InDomain v q}]) (steps_plane h.kind hfp h.only h.bounds.1 h.bounds.2 h.dom_meas h.dom_pos) hlh
      h.dom_meas (firstIn_meas (boxSite_meas v) h.dom_meas) (planeSite_law h.bounds.1 h.bounds.2 h.dom_meas h.dom_pos)
      h.hdens _ (decode_plane prs) (fun _ => 0) 1
    exact rows_stirred (apart := fun _ => True) (ok := fun _ => True) tf
      (plane_case h (GS := InDom {q | InDomain v q}) (fun _ h => h)
        fun xs hx i hi => (dom_stays (plane_step h.step.1 h.step.2 h.dom_meas h.dom_pos) xs hx i hi).mono fun ω hω ys hp _ => hω ys hp)
      (fs := [(PSFunc.birth sp, (1 : ℝ)), (PSFunc.death sp, 1)]) (by rw [htr]; rfl) (bd_draws _ ▸ hb) (plane_top v) hlh.le
      (ae_cond_mem h.dom_meas) (fits_true _) (fun xs => by simp [InDom]) plane_cols (planeStay_eq h.step.1 h.step.2)
  | @planeNear k _ prs v dens std stdBirth h htr hlh hfp hsm hstd hpos =>
    have hprob := plane_prob h.bounds h.dom_meas h.dom_pos
    have hr : IsProbabilityMeasure (rowLaw volume[|{q | InDomain v q}] dens) := row_prob (ae_cond_mem h.dom_meas) h.hdens
    have hb := near_part (σs := volume[|{q | InDomain v q}]) (near_steps_plane h.kind hfp h.only h.bounds.1 h.bounds.2 h.dom_meas h.dom_pos h.hdens hstd hpos) h.lo hlh
      (firstIn_meas (boxSite_meas v) h.dom_meas) (planeSite_law h.bounds.1 h.bounds.2 h.dom_meas h.dom_pos)
      (ae_cond_mem h.dom_meas) planeDist_meas h.hdens hsm hpos _ (decode_plane prs) (fun _ => 0) 1
    exact rows_stirred (apart := GeneralPosition BB.dist2) (ok := fun _ => True) tf
      (plane_case h (GS := NearDom BB.dist2 (fun _ => True) {q | InDomain v q}) (fun _ h => h.2.2)
        fun xs hx i hi => near_stays (plane_step h.step.1 h.step.2 h.dom_meas h.dom_pos) (plane_top v) (nullSites_plane cond_absolutelyContinuous) xs hx i hi)
      (fs := [(PSFunc.birth sp, (1 : ℝ)), (PSFunc.death sp, 1)]) (by rw [htr]; rfl) (bd_draws _ ▸ hb) (plane_top v) hlh.le
      (ae_cond_mem h.dom_meas)
      (fits_apart h.dom_meas (ae_cond_mem h.dom_meas) planeDist_meas (nullSites_plane cond_absolutelyContinuous) _ _)
      (fun xs => ⟨fun h => ⟨h.2.2, h.1, h.2.1⟩, fun h => ⟨h.2.1, h.2.2, h.1⟩⟩) plane_cols (planeStay_eq h.step.1 h.step.2)

/-- The perturbation of any space perturbs its block. -/
theorem explored_realized (tf : List (Target × Fwd)) (h : Explored sp b) : Nonempty (Realization tf sp.ownPert.perturb b) := by
  have key : sp.info.kind.isDisc = true → Nonempty (Realization tf sp.ownPert.perturb b) := fun hd =>
    ⟨(space_stirred tf h hd).choose⟩
  cases h with
  | known h => exact ⟨(space_realized tf h).choose⟩
  | @lineBirths k _ prs v dens std h => exact key (by rw [h.kind]; rfl)
  | @lineNear k _ prs v dens std stdBirth h => exact key (by rw [h.kind]; rfl)
  | @planeBirths k _ prs v dens std h => exact key (by rw [h.kind]; rfl)
  | @planeNear k _ prs v dens std stdBirth h => exact key (by rw [h.kind]; rfl)

end spaces

end BB.Lemmas
