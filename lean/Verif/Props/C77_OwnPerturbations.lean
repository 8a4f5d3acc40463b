import Verif.Lemmas.OwnChain

/-!
# C77 — What all perturbations of one parameter space sample together

The chain is that of a space with all the perturbations it offers: births and deaths if the number of dimensions varies, the
perturbation of the values, and for a discretization the perturbation of the sites (`Space.ownFuncs`), chosen with their weights.

* For a `ParameterSpace`, births, deaths and perturbations of values together are in detailed balance with the posterior.
* For a `Voronoi1D` or `Voronoi2D` of a fixed number of cells, the chain is in detailed balance with the posterior times, for each
  site, the probability that a step from there stays in the domain: sites that leave the domain are drawn anew, and the ratio that
  is returned does not account for it.
* The posterior itself is not invariant, whether the number of cells is fixed, or cells are born from the prior, or from the
  nearest neighbour: it is what births, deaths and perturbations of values sample (C23, C75), but not what perturbations of the
  sites sample.
-/

namespace BB.Props

open BB BB.Spec BB.Lemmas MeasureTheory ProbabilityTheory

/-- The law of the draws: those of births and deaths (`lb`), an index and a standard normal deviate for each parameter for
perturbations of the values, and an index and what the steps of a site are made of (`ls`). -/
noncomputable def ownLaw {Θb Θs : Type} [MeasurableSpace Θb] [MeasurableSpace Θs] (lb : Measure Θb) (k hi : ℕ) (ls : Measure Θs) :
    Measure ((Θb × (ℕ × (Fin k → ℝ))) × Θs) :=
  (lb.prod ((uniformNat hi.factorial).prod (walkLaw k))).prod ls

/-- The draws of the steps of a site: an index and steps, until one stays in the domain. -/
noncomputable def stepsLaw {α : Type} [MeasurableSpace α] (hi : ℕ) (γ : Measure α) [IsProbabilityMeasure γ] :
    Measure (ℕ × (ℕ → α)) :=
  (uniformNat hi.factorial).prod (Measure.infinitePi fun _ : ℕ => γ)

/-- A space with parameters the values of which can be perturbed: `dens` are the densities of the priors and `std` the
standard deviations of the perturbations. -/
structure Perturbable {P : Type} [MeasurableSpace P] {k : ℕ} (sp : Space) (prs : Fin k → Prior) (loc : P → Pos) (dom : Set P)
    (dens : Fin k → P → ℝ → ℝ) (std : Fin k → P → ℝ) : Prop where
  only : OnlyPriors sp prs
  some : 0 < k
  custom : ∀ j, NotCustom (prs j)
  hdens : ∀ j, HasDensity (prs j) loc dom (dens j)
  std_meas : ∀ j, Measurable (std j)
  hstd : ∀ j, ∀ x ∈ dom, (prs j).std.get (loc x) = .ok (std j x)
  lo : 1 ≤ sp.info.lo

/-- A `Voronoi1D` with such parameters. -/
structure OnLine {k : ℕ} (sp : Space) (prs : Fin k → Prior) (v : Vor1) (dens : Fin k → ℝ → ℝ → ℝ) (std : Fin k → ℝ → ℝ) :
    Prop extends Perturbable sp prs Pos.one (Set.Icc v.vmin v.vmax) dens std where
  kind : sp.info.kind = .vor1 v
  bounds : v.vmin < v.vmax
  step : 0 < v.std
  same : ∀ j, SameEverywhere (prs j) (Set.Icc v.vmin v.vmax) (dens j)

/-- A `Voronoi2D` with such parameters. -/
structure OnPlane {k : ℕ} (sp : Space) (prs : Fin k → Prior) (v : Vor2) (dens : Fin k → ℝ × ℝ → ℝ → ℝ)
    (std : Fin k → ℝ × ℝ → ℝ) : Prop extends Perturbable sp prs Pos.two {q | InDomain v q} dens std where
  kind : sp.info.kind = .vor2 v
  bounds : v.vmin.1 < v.vmax.1 ∧ v.vmin.2 < v.vmax.2
  step : 0 < v.std.1 ∧ 0 < v.std.2
  dom_meas : MeasurableSet {q | InDomain v q}
  dom_pos : volume {q | InDomain v q} ≠ 0
  same : ∀ j, SameEverywhere (prs j) {q | InDomain v q} (dens j)

/-- The draws on a line. -/
noncomputable def lineDraws {k : ℕ} {Θb : Type} (sp : Space) (prs : Fin k → Prior) (v : Vor1)
    (logLik : Tuple (ℝ × (Fin k → ℝ)) → ℝ) (births : Fin 2 → PSState → Θb → List Draw) :=
  funcDraws sp.ownFuncs (decode lineSites prs) logLik (ownDraws births (walkDraws (k := k))
    (siteDraws gaussDraw (lineStep v) (Set.Icc v.vmin v.vmax) (decode lineSites prs)))

/-- The draws in the plane. -/
noncomputable def planeDraws {k : ℕ} {Θb : Type} (sp : Space) (prs : Fin k → Prior) (v : Vor2)
    (logLik : Tuple ((ℝ × ℝ) × (Fin k → ℝ)) → ℝ) (births : Fin 2 → PSState → Θb → List Draw) :=
  funcDraws sp.ownFuncs (decode planeSites prs) logLik (ownDraws births (walkDraws (k := k))
    (siteDraws pairDraw (planeStep v) {q | InDomain v q} (decode planeSites prs)))

section helpers

variable {k : ℕ}

theorem decode_none (prs : Fin k → Prior) (l : List (Unit × (Fin k → ℝ))) (s : PSState) (h : Holds noSites prs l s) :
    decode noSites prs s = ofRows l :=
  decode_of (fun _ _ _ => rfl) (fun _ _ h _ => List.ext_getElem h fun _ _ _ => rfl) l s h

theorem decode_line (prs : Fin k → Prior) (l : List (ℝ × (Fin k → ℝ))) (s : PSState) (h : Holds lineSites prs l s) :
    decode lineSites prs s = ofRows l := by
  refine decode_of (fun _ _ _ => rfl) (fun a b _ h => ?_) l s h
  unfold lineSites at h
  simpa using h

theorem decode_plane (prs : Fin k → Prior) (l : List ((ℝ × ℝ) × (Fin k → ℝ))) (s : PSState) (h : Holds planeSites prs l s) :
    decode planeSites prs s = ofRows l := by
  refine decode_of (fun _ _ _ => rfl) (fun a b _ h => ?_) l s h
  unfold planeSites at h
  simpa using h

theorem fixed_le {sp : Space} (h : sp.info.transD = false) : sp.info.lo ≤ sp.info.hi := by
  unfold Info.transD at h
  unfold Info.lo Info.hi
  cases hn : sp.info.nDim with
  | none => rw [hn] at h; cases h
  | some n => exact le_refl n

theorem line_prob {v : Vor1} (hv : v.vmin < v.vmax) : IsProbabilityMeasure volume[|Set.Icc v.vmin v.vmax] := by
  rw [← lineSite_law hv]
  exact Measure.isProbabilityMeasure_map (lineSite_meas v).aemeasurable

theorem line_top (v : Vor1) : volume (Set.Icc v.vmin v.vmax) ≠ ⊤ := by
  rw [Real.volume_Icc]
  exact ENNReal.ofReal_ne_top

theorem plane_prob {v : Vor2} (h : v.vmin.1 < v.vmax.1 ∧ v.vmin.2 < v.vmax.2) (hD : MeasurableSet {q | InDomain v q})
    (hvol : volume {q | InDomain v q} ≠ 0) : IsProbabilityMeasure volume[|{q | InDomain v q}] := by
  have hmeas : Measurable (planeSite v) := firstIn_meas (boxSite_meas v) hD
  have e : (Measure.infinitePi fun _ : ℕ => unitLaw.prod unitLaw).map (planeSite v) = volume[|{q | InDomain v q}] :=
    planeSite_law h.1 h.2 hD hvol
  rw [← e]
  exact Measure.isProbabilityMeasure_map hmeas.aemeasurable

theorem plane_top (v : Vor2) : volume {q | InDomain v q} ≠ ⊤ := by
  refine ne_top_of_le_ne_top ?_ (measure_mono (t := Set.Icc v.vmin.1 v.vmax.1 ×ˢ Set.Icc v.vmin.2 v.vmax.2) ?_)
  · have hv : (volume : Measure (ℝ × ℝ)) = (volume : Measure ℝ).prod volume := rfl
    rw [hv, Measure.prod_prod, Real.volume_Icc, Real.volume_Icc]
    exact ENNReal.mul_ne_top ENNReal.ofReal_ne_top ENNReal.ofReal_ne_top
  · exact domain2_sub v

variable {sp : Space} {prs : Fin k → Prior}

theorem bd_draws {X Θ : Type} {val : PSState → X} {logLik : X → ℝ} (births : Fin 2 → PSState → Θ → List Draw) :
    births = funcDraws [(PSFunc.birth sp, (1 : ℝ)), (PSFunc.death sp, 1)] val logLik (bdDraws births) := by
  funext i
  fin_cases i <;> rfl

theorem line_case {v : Vor1} {dens : Fin k → ℝ → ℝ → ℝ} {std : Fin k → ℝ → ℝ} (h : OnLine sp prs v dens std) {GS : List ℝ → Prop}
    (good : ∀ xs, GS xs → ∀ x ∈ xs, x ∈ Set.Icc v.vmin v.vmax)
    (stays : ∀ xs, GS xs → ∀ i (hi : i < xs.length), ∀ᵐ ω ∂Measure.infinitePi fun _ : ℕ => gaussianReal 0 1, ∀ ys,
      ys.Perm (xs.set i (landIn (lineStep v) (Set.Icc v.vmin v.vmax) xs[i] ω)) → ys.Pairwise (· ≤ ·) → GS ys) :
    SiteCase volume (Set.Icc v.vmin v.vmax) (gaussianReal 0 1) (lineStep v) (lineKernel v) sp prs lineSites Pos.one
      (fun xs => xs.Pairwise (· ≤ ·)) gaussDraw dens std GS (decode lineSites prs) where
  disc := by rw [h.kind]; rfl
  only := h.only
  pos := h.some
  hstep := line_step h.bounds h.step
  runs := site_runs_line h.kind h.only h.hdens h.same
  stored := stored_disc h.only fun xs => rfl
  hdens := h.hdens
  custom := h.custom
  std_meas := h.std_meas
  hstd := h.hstd
  good := good
  stays := stays
  lo := h.lo
  hval := decode_line prs

theorem plane_case {v : Vor2} {dens : Fin k → ℝ × ℝ → ℝ → ℝ} {std : Fin k → ℝ × ℝ → ℝ} (h : OnPlane sp prs v dens std)
    {GS : List (ℝ × ℝ) → Prop} (good : ∀ xs, GS xs → ∀ x ∈ xs, x ∈ {q | InDomain v q})
    (stays : ∀ xs, GS xs → ∀ i (hi : i < xs.length),
      ∀ᵐ ω ∂Measure.infinitePi fun _ : ℕ => (gaussianReal 0 1).prod (gaussianReal 0 1), ∀ ys,
      ys.Perm (xs.set i (landIn (planeStep v) {q | InDomain v q} xs[i] ω)) → True → GS ys) :
    SiteCase volume {q | InDomain v q} ((gaussianReal 0 1).prod (gaussianReal 0 1)) (planeStep v) (planeKernel v) sp prs
      planeSites Pos.two (fun _ => True) pairDraw dens std GS (decode planeSites prs) where
  disc := by rw [h.kind]; rfl
  only := h.only
  pos := h.some
  hstep := plane_step h.step.1 h.step.2 h.dom_meas h.dom_pos
  runs := site_runs_plane h.kind h.only ⟨h.step.1.le, h.step.2.le⟩ h.hdens h.same
  stored := stored_disc h.only fun xs => rfl
  hdens := h.hdens
  custom := h.custom
  std_meas := h.std_meas
  hstd := h.hstd
  good := good
  stays := stays
  lo := h.lo
  hval := decode_plane prs

end helpers

section

variable {k : ℕ} {E : Type} (sp : Space) (prs : Fin k → Prior)

/-- C77 for a `ParameterSpace` the dimension of which varies: its perturbations are in detailed balance with the posterior. -/
theorem C77_plain (hk : sp.info.kind = .plain) (dens : Fin k → Unit → ℝ → ℝ) (std : Fin k → Unit → ℝ)
    (h : Perturbable sp prs (fun _ : Unit => .none) Set.univ dens std) (htr : sp.info.transD = true)
    (hlh : sp.info.lo < sp.info.hi)
    (logLik : Tuple (Unit × (Fin k → ℝ)) → ℝ) (hℓ : Measurable logLik) (hℓr : ∀ x y, SameRows x y → logLik x = logLik y)
    (T : ℝ) (state : Tuple (Unit × (Fin k → ℝ)) → Chain PSState Unit E)
    (hstate : ∀ x, Holds noSites prs (List.ofFn x.2) (state x).cur) (htemp : ∀ x, (state x).temp = T) :
    DetailedBalanceUpTo SameRows (posterior (transPrior (rowLaw (Measure.dirac ()) dens) sp.info.lo sp.info.hi) logLik T)
      (fun x => IterationLaw (ownChain sp (decode noSites prs) logLik)
        (funcDraws sp.ownFuncs (decode noSites prs) logLik
          (ownDraws (birthDeathDraws sp prs fun m _ => [indexDraw m]) walkDraws (noDraws ())))
        (ownLaw (drawsLaw prs sp.info.hi (Measure.dirac ())) k sp.info.hi (Measure.dirac ()))
        (decode noSites prs) (state x)) ∧
    PreservesUpTo SameRows (posterior (transPrior (rowLaw (Measure.dirac ()) dens) sp.info.lo sp.info.hi) logLik T)
      (fun x => IterationLaw (ownChain sp (decode noSites prs) logLik)
        (funcDraws sp.ownFuncs (decode noSites prs) logLik
          (ownDraws (birthDeathDraws sp prs fun m _ => [indexDraw m]) walkDraws (noDraws ())))
        (ownLaw (drawsLaw prs sp.info.hi (Measure.dirac ())) k sp.info.hi (Measure.dirac ()))
        (decode noSites prs) (state x)) := by
  have hprob : IsProbabilityMeasure (rowLaw (Measure.dirac ()) dens) := row_prob (.of_forall fun _ => trivial) h.hdens
  have hb := births_part (steps_plain hk h.only) hlh MeasurableSet.univ measurable_id Measure.map_id h.hdens _ (decode_none prs)
    logLik T
  have hv := values_part (σs := Measure.dirac ()) (hi := sp.info.hi) (stored_plain h.only) h.hdens h.custom h.std_meas h.hstd
    sp.info.name 3 (GS := InDom Set.univ) (fun _ h => h) h.lo _ (decode_none prs) logLik T
  rw [← rowLaw_eq] at hv
  have hsf : SFinite (transPrior (rowLaw (Measure.dirac ()) dens) sp.info.lo sp.info.hi) := by
    obtain ⟨p, e1, -, e2, -⟩ := hb
    rw [← e1]
    exact e2.sfinite
  refine own_balance (name := sp.info.name) (ps := List.ofFn prs) (fs := [(PSFunc.birth sp, (1 : ℝ)), (PSFunc.death sp, 1)])
    (c := []) (.inr rfl) (.inl rfl) ?_ ?_ hv (nothing_part (Measure.dirac ()) SameRows.refl _) hℓ SameRows.refl hℓr state
    (states_in MeasurableSet.univ (.of_forall fun _ => trivial) _ (decode_none prs) state
      fun x => ⟨_, List.Perm.refl _, hstate x⟩) htemp
  · rw [own_funcs h.only h.some, htr, hk]
    rfl
  · exact bd_draws _ ▸ hb

/-- C77 for a `ParameterSpace` of fixed dimension. -/
theorem C77_plain_fixed (hk : sp.info.kind = .plain) (dens : Fin k → Unit → ℝ → ℝ) (std : Fin k → Unit → ℝ)
    (h : Perturbable sp prs (fun _ : Unit => .none) Set.univ dens std) (htr : sp.info.transD = false)
    (logLik : Tuple (Unit × (Fin k → ℝ)) → ℝ) (hℓ : Measurable logLik) (hℓr : ∀ x y, SameRows x y → logLik x = logLik y)
    (T : ℝ) (state : Tuple (Unit × (Fin k → ℝ)) → Chain PSState Unit E)
    (hstate : ∀ x, Holds noSites prs (List.ofFn x.2) (state x).cur) (htemp : ∀ x, (state x).temp = T) :
    DetailedBalanceUpTo SameRows (posterior (transPrior (rowLaw (Measure.dirac ()) dens) sp.info.lo sp.info.hi) logLik T)
      (fun x => IterationLaw (ownChain sp (decode noSites prs) logLik)
        (funcDraws sp.ownFuncs (decode noSites prs) logLik (ownDraws noDraws walkDraws (noDraws ())))
        (ownLaw (Measure.dirac ()) k sp.info.hi (Measure.dirac ())) (decode noSites prs) (state x)) ∧
    PreservesUpTo SameRows (posterior (transPrior (rowLaw (Measure.dirac ()) dens) sp.info.lo sp.info.hi) logLik T)
      (fun x => IterationLaw (ownChain sp (decode noSites prs) logLik)
        (funcDraws sp.ownFuncs (decode noSites prs) logLik (ownDraws noDraws walkDraws (noDraws ())))
        (ownLaw (Measure.dirac ()) k sp.info.hi (Measure.dirac ())) (decode noSites prs) (state x)) := by
  have hprob : IsProbabilityMeasure (rowLaw (Measure.dirac ()) dens) := row_prob (.of_forall fun _ => trivial) h.hdens
  have hv := values_part (σs := Measure.dirac ()) (hi := sp.info.hi) (stored_plain h.only) h.hdens h.custom h.std_meas h.hstd
    sp.info.name 3 (GS := InDom Set.univ) (fun _ h => h) h.lo _ (decode_none prs) logLik T
  rw [← rowLaw_eq] at hv
  have hsf : SFinite (transPrior (rowLaw (Measure.dirac ()) dens) sp.info.lo sp.info.hi) := by
    obtain ⟨p, e1, -, e2, -⟩ := hv
    rw [← e1]
    exact e2.sfinite
  refine own_balance (name := sp.info.name) (ps := List.ofFn prs) (fs := []) (c := []) (.inl rfl) (.inl rfl) ?_
    (nothing_part (Measure.dirac ()) SameRows.refl _) hv (nothing_part (Measure.dirac ()) SameRows.refl _) hℓ SameRows.refl hℓr state
    (states_in MeasurableSet.univ (.of_forall fun _ => trivial) _ (decode_none prs) state
      fun x => ⟨_, List.Perm.refl _, hstate x⟩) htemp
  rw [own_funcs h.only h.some, htr, hk]
  rfl

/-- C77 for a `Voronoi1D` with a fixed number of cells: the chain is in balance with the posterior times the probabilities that steps
from the sites stay in the domain. -/
theorem C77_line_fixed (v : Vor1) (dens : Fin k → ℝ → ℝ → ℝ) (std : Fin k → ℝ → ℝ) (h : OnLine sp prs v dens std)
    (hfix : sp.info.transD = false) (logLik : Tuple (ℝ × (Fin k → ℝ)) → ℝ) (hℓ : Measurable logLik)
    (hℓr : ∀ x y, SameRows x y → logLik x = logLik y) (T : ℝ)
    (state : Tuple (ℝ × (Fin k → ℝ)) → Chain PSState Unit E)
    (hstate : ∀ x, ∃ l, l.Perm (List.ofFn x.2) ∧ (l.map Prod.fst).Pairwise (· ≤ ·) ∧ Holds lineSites prs l (state x).cur)
    (htemp : ∀ x, (state x).temp = T) :
    DetailedBalanceUpTo SameRows (posterior ((transPrior (rowLaw volume[|Set.Icc v.vmin v.vmax] dens) sp.info.lo sp.info.hi).withDensity
        fun x => ENNReal.ofReal (overSites (lineStay v) x)) logLik T)
      (fun x => IterationLaw (ownChain sp (decode lineSites prs) logLik) (lineDraws sp prs v logLik noDraws)
        (ownLaw (Measure.dirac ()) k sp.info.hi (stepsLaw sp.info.hi (gaussianReal 0 1))) (decode lineSites prs) (state x)) ∧
    PreservesUpTo SameRows (posterior ((transPrior (rowLaw volume[|Set.Icc v.vmin v.vmax] dens) sp.info.lo sp.info.hi).withDensity
        fun x => ENNReal.ofReal (overSites (lineStay v) x)) logLik T)
      (fun x => IterationLaw (ownChain sp (decode lineSites prs) logLik) (lineDraws sp prs v logLik noDraws)
        (ownLaw (Measure.dirac ()) k sp.info.hi (stepsLaw sp.info.hi (gaussianReal 0 1))) (decode lineSites prs) (state x)) := by
  have hprob := line_prob h.bounds
  have hr : IsProbabilityMeasure (rowLaw volume[|Set.Icc v.vmin v.vmax] dens) := row_prob (ae_cond_mem measurableSet_Icc) h.hdens
  rw [← lineStay_eq h.step]
  exact sites_sampled (line_case h (GS := InDom (Set.Icc v.vmin v.vmax)) (fun _ h => h)
    fun xs hx i hi => (dom_stays (line_step h.bounds h.step) xs hx i hi).mono fun ω hω ys hp _ => hω ys hp) hfix
    (ae_cond_mem measurableSet_Icc) hℓ hℓr T state (states_in measurableSet_Icc (ae_cond_mem measurableSet_Icc) _ (decode_line prs) state (fun x => by
      obtain ⟨l, e1, -, e2⟩ := hstate x
      exact ⟨l, e1, e2⟩)) htemp

/-- The posterior is not invariant, with a fixed number of cells. -/
theorem C77_line_fixed_not_posterior (v : Vor1) (dens : Fin k → ℝ → ℝ → ℝ) (std : Fin k → ℝ → ℝ)
    (h : OnLine sp prs v dens std) (hfix : sp.info.transD = false) (logLik : Tuple (ℝ × (Fin k → ℝ)) → ℝ) (hℓ : Measurable logLik)
    (hℓr : ∀ x y, SameRows x y → logLik x = logLik y) (T : ℝ)
    (hfin : posterior (transPrior (rowLaw volume[|Set.Icc v.vmin v.vmax] dens) sp.info.lo sp.info.hi) logLik T Set.univ ≠ ⊤)
    (state : Tuple (ℝ × (Fin k → ℝ)) → Chain PSState Unit E)
    (hstate : ∀ x, ∃ l, l.Perm (List.ofFn x.2) ∧ (l.map Prod.fst).Pairwise (· ≤ ·) ∧ Holds lineSites prs l (state x).cur)
    (htemp : ∀ x, (state x).temp = T) :
    ¬ PreservesUpTo SameRows (posterior (transPrior (rowLaw volume[|Set.Icc v.vmin v.vmax] dens) sp.info.lo sp.info.hi) logLik T)
      (fun x => IterationLaw (ownChain sp (decode lineSites prs) logLik) (lineDraws sp prs v logLik noDraws)
        (ownLaw (Measure.dirac ()) k sp.info.hi (stepsLaw sp.info.hi (gaussianReal 0 1))) (decode lineSites prs) (state x)) := by
  have hprob := line_prob h.bounds
  have hr : IsProbabilityMeasure (rowLaw volume[|Set.Icc v.vmin v.vmax] dens) := row_prob (ae_cond_mem measurableSet_Icc) h.hdens
  have hlh := fixed_le hfix
  have hsf := transPrior_sfinite (rowLaw volume[|Set.Icc v.vmin v.vmax] dens) sp.info.lo sp.info.hi
  exact sites_not (line_case h (GS := InDom (Set.Icc v.vmin v.vmax)) (fun _ h => h)
    fun xs hx i hi => (dom_stays (line_step h.bounds h.step) xs hx i hi).mono fun ω hω ys hp _ => hω ys hp) (fs := [])
    (by rw [hfix]; rfl) (nothing_part (Measure.dirac ()) SameRows.refl _) (line_top v) hlh (ae_cond_mem measurableSet_Icc) hℓ hℓr hfin
    state (states_in measurableSet_Icc (ae_cond_mem measurableSet_Icc) _ (decode_line prs) state (fun x => by
      obtain ⟨l, e1, -, e2⟩ := hstate x
      exact ⟨l, e1, e2⟩)) htemp

/-- The posterior is not invariant if cells are born from the prior. -/
theorem C77_line_births_not_posterior (v : Vor1) (dens : Fin k → ℝ → ℝ → ℝ) (std : Fin k → ℝ → ℝ)
    (h : OnLine sp prs v dens std) (htr : sp.info.transD = true) (hlh : sp.info.lo < sp.info.hi)
    (hfp : sp.info.fromPrior = true) (logLik : Tuple (ℝ × (Fin k → ℝ)) → ℝ) (hℓ : Measurable logLik)
    (hℓr : ∀ x y, SameRows x y → logLik x = logLik y) (T : ℝ)
    (hfin : posterior (transPrior (rowLaw volume[|Set.Icc v.vmin v.vmax] dens) sp.info.lo sp.info.hi) logLik T Set.univ ≠ ⊤)
    (state : Tuple (ℝ × (Fin k → ℝ)) → Chain PSState Unit E)
    (hstate : ∀ x, ∃ l, l.Perm (List.ofFn x.2) ∧ (l.map Prod.fst).Pairwise (· ≤ ·) ∧ Holds lineSites prs l (state x).cur)
    (htemp : ∀ x, (state x).temp = T) :
    ¬ PreservesUpTo SameRows (posterior (transPrior (rowLaw volume[|Set.Icc v.vmin v.vmax] dens) sp.info.lo sp.info.hi) logLik T)
      (fun x => IterationLaw (ownChain sp (decode lineSites prs) logLik) (lineDraws sp prs v logLik (birthDeathDraws sp prs fun _ u => [unitDraw u]))
        (ownLaw (drawsLaw prs sp.info.hi unitLaw) k sp.info.hi (stepsLaw sp.info.hi (gaussianReal 0 1))) (decode lineSites prs) (state x)) := by
  have hprob := line_prob h.bounds
  have hr : IsProbabilityMeasure (rowLaw volume[|Set.Icc v.vmin v.vmax] dens) := row_prob (ae_cond_mem measurableSet_Icc) h.hdens
  have hb := births_part (σs := volume[|Set.Icc v.vmin v.vmax]) (steps_line h.kind hfp h.only h.bounds.le) hlh
    measurableSet_Icc (lineSite_meas v) (lineSite_law h.bounds)
    h.hdens _ (decode_line prs) logLik T
  exact sites_not (line_case h (GS := InDom (Set.Icc v.vmin v.vmax)) (fun _ h => h)
    fun xs hx i hi => (dom_stays (line_step h.bounds h.step) xs hx i hi).mono fun ω hω ys hp _ => hω ys hp)
    (fs := [(PSFunc.birth sp, (1 : ℝ)), (PSFunc.death sp, 1)]) (by rw [htr]; rfl) (bd_draws _ ▸ hb) (line_top v) hlh.le
    (ae_cond_mem measurableSet_Icc) hℓ hℓr hfin
    state (states_in measurableSet_Icc (ae_cond_mem measurableSet_Icc) _ (decode_line prs) state (fun x => by
      obtain ⟨l, e1, -, e2⟩ := hstate x
      exact ⟨l, e1, e2⟩)) htemp

/-- The posterior is not invariant if cells are born from the nearest neighbour. -/
theorem C77_line_neighbour_not_posterior (v : Vor1) (dens : Fin k → ℝ → ℝ → ℝ) (std stdBirth : Fin k → ℝ → ℝ)
    (h : OnLine sp prs v dens std) (htr : sp.info.transD = true) (hlh : sp.info.lo < sp.info.hi)
    (hfp : sp.info.fromPrior = false) (hsm : ∀ j, Measurable (stdBirth j))
    (hstd : ∀ j, ∀ x ∈ Set.Icc v.vmin v.vmax, (prs j).stdBirth.get (.one x) = .ok (stdBirth j x))
    (hpos : ∀ j, ∀ x ∈ Set.Icc v.vmin v.vmax, 0 < stdBirth j x)
    (logLik : Tuple (ℝ × (Fin k → ℝ)) → ℝ) (hℓ : Measurable logLik)
    (hℓr : ∀ x y, SameRows x y → logLik x = logLik y) (T : ℝ)
    (hfin : posterior (transPrior (rowLaw volume[|Set.Icc v.vmin v.vmax] dens) sp.info.lo sp.info.hi) logLik T Set.univ ≠ ⊤)
    (state : Tuple (ℝ × (Fin k → ℝ)) → Chain PSState Unit E)
    (hstate : ∀ x, ∃ l, l.Perm (List.ofFn x.2) ∧ (l.map Prod.fst).Pairwise (· ≤ ·) ∧ Holds lineSites prs l (state x).cur)
    (htemp : ∀ x, (state x).temp = T) :
    ¬ PreservesUpTo SameRows (posterior (transPrior (rowLaw volume[|Set.Icc v.vmin v.vmax] dens) sp.info.lo sp.info.hi) logLik T)
      (fun x => IterationLaw (ownChain sp (decode lineSites prs) logLik) (lineDraws sp prs v logLik (nearDraws sp fun _ u => [unitDraw u]))
        (ownLaw (nearDrawsLaw k sp.info.hi unitLaw) k sp.info.hi (stepsLaw sp.info.hi (gaussianReal 0 1))) (decode lineSites prs) (state x)) := by
  have hprob := line_prob h.bounds
  have hr : IsProbabilityMeasure (rowLaw volume[|Set.Icc v.vmin v.vmax] dens) := row_prob (ae_cond_mem measurableSet_Icc) h.hdens
  have hb := near_part (σs := volume[|Set.Icc v.vmin v.vmax]) (near_steps_line h.kind hfp h.only h.bounds h.hdens hstd hpos) h.lo hlh
    (lineSite_meas v) (lineSite_law h.bounds)
    (ae_cond_mem measurableSet_Icc) lineDist_meas h.hdens hsm hpos _ (decode_line prs) logLik T
  exact sites_not (line_case h (GS := NearDom lineDist (fun xs => xs.Pairwise (· ≤ ·)) (Set.Icc v.vmin v.vmax)) (fun _ h => h.2.2)
    fun xs hx i hi => near_stays (line_step h.bounds h.step) (line_top v) (nullSites_line cond_absolutelyContinuous) xs hx i hi)
    (fs := [(PSFunc.birth sp, (1 : ℝ)), (PSFunc.death sp, 1)]) (by rw [htr]; rfl) (bd_draws _ ▸ hb) (line_top v) hlh.le
    (ae_cond_mem measurableSet_Icc) hℓ hℓr hfin
    state (states_near measurableSet_Icc (ae_cond_mem measurableSet_Icc) lineDist_meas (nullSites_line cond_absolutelyContinuous) _ (decode_line prs) state hstate) htemp

/-- C77 for a `Voronoi2D` with a fixed number of cells: the chain is in balance with the posterior times the probabilities that steps
from the sites stay in the domain. -/
theorem C77_plane_fixed (v : Vor2) (dens : Fin k → ℝ × ℝ → ℝ → ℝ) (std : Fin k → ℝ × ℝ → ℝ) (h : OnPlane sp prs v dens std)
    (hfix : sp.info.transD = false) (logLik : Tuple ((ℝ × ℝ) × (Fin k → ℝ)) → ℝ) (hℓ : Measurable logLik)
    (hℓr : ∀ x y, SameRows x y → logLik x = logLik y) (T : ℝ)
    (state : Tuple ((ℝ × ℝ) × (Fin k → ℝ)) → Chain PSState Unit E)
    (hstate : ∀ x, Holds planeSites prs (List.ofFn x.2) (state x).cur)
    (htemp : ∀ x, (state x).temp = T) :
    DetailedBalanceUpTo SameRows (posterior ((transPrior (rowLaw volume[|{q | InDomain v q}] dens) sp.info.lo sp.info.hi).withDensity
        fun x => ENNReal.ofReal (overSites (planeStay v) x)) logLik T)
      (fun x => IterationLaw (ownChain sp (decode planeSites prs) logLik) (planeDraws sp prs v logLik noDraws)
        (ownLaw (Measure.dirac ()) k sp.info.hi (stepsLaw sp.info.hi ((gaussianReal 0 1).prod (gaussianReal 0 1)))) (decode planeSites prs) (state x)) ∧
    PreservesUpTo SameRows (posterior ((transPrior (rowLaw volume[|{q | InDomain v q}] dens) sp.info.lo sp.info.hi).withDensity
        fun x => ENNReal.ofReal (overSites (planeStay v) x)) logLik T)
      (fun x => IterationLaw (ownChain sp (decode planeSites prs) logLik) (planeDraws sp prs v logLik noDraws)
        (ownLaw (Measure.dirac ()) k sp.info.hi (stepsLaw sp.info.hi ((gaussianReal 0 1).prod (gaussianReal 0 1)))) (decode planeSites prs) (state x)) := by
  have hprob := plane_prob h.bounds h.dom_meas h.dom_pos
  have hr : IsProbabilityMeasure (rowLaw volume[|{q | InDomain v q}] dens) := row_prob (ae_cond_mem h.dom_meas) h.hdens
  rw [← planeStay_eq h.step.1 h.step.2]
  exact sites_sampled (plane_case h (GS := InDom ({q | InDomain v q})) (fun _ h => h)
    fun xs hx i hi => (dom_stays (plane_step h.step.1 h.step.2 h.dom_meas h.dom_pos) xs hx i hi).mono fun ω hω ys hp _ => hω ys hp) hfix
    (ae_cond_mem h.dom_meas) hℓ hℓr T state (states_in h.dom_meas (ae_cond_mem h.dom_meas) _ (decode_plane prs) state (fun x => ⟨_, List.Perm.refl _, hstate x⟩)) htemp

/-- The posterior is not invariant, with a fixed number of cells. -/
theorem C77_plane_fixed_not_posterior (v : Vor2) (dens : Fin k → ℝ × ℝ → ℝ → ℝ) (std : Fin k → ℝ × ℝ → ℝ)
    (h : OnPlane sp prs v dens std) (hfix : sp.info.transD = false) (logLik : Tuple ((ℝ × ℝ) × (Fin k → ℝ)) → ℝ) (hℓ : Measurable logLik)
    (hℓr : ∀ x y, SameRows x y → logLik x = logLik y) (T : ℝ)
    (hfin : posterior (transPrior (rowLaw volume[|{q | InDomain v q}] dens) sp.info.lo sp.info.hi) logLik T Set.univ ≠ ⊤)
    (state : Tuple ((ℝ × ℝ) × (Fin k → ℝ)) → Chain PSState Unit E)
    (hstate : ∀ x, Holds planeSites prs (List.ofFn x.2) (state x).cur)
    (htemp : ∀ x, (state x).temp = T) :
    ¬ PreservesUpTo SameRows (posterior (transPrior (rowLaw volume[|{q | InDomain v q}] dens) sp.info.lo sp.info.hi) logLik T)
      (fun x => IterationLaw (ownChain sp (decode planeSites prs) logLik) (planeDraws sp prs v logLik noDraws)
        (ownLaw (Measure.dirac ()) k sp.info.hi (stepsLaw sp.info.hi ((gaussianReal 0 1).prod (gaussianReal 0 1)))) (decode planeSites prs) (state x)) := by
  have hprob := plane_prob h.bounds h.dom_meas h.dom_pos
  have hr : IsProbabilityMeasure (rowLaw volume[|{q | InDomain v q}] dens) := row_prob (ae_cond_mem h.dom_meas) h.hdens
  have hlh := fixed_le hfix
  have hsf := transPrior_sfinite (rowLaw volume[|{q | InDomain v q}] dens) sp.info.lo sp.info.hi
  exact sites_not (plane_case h (GS := InDom ({q | InDomain v q})) (fun _ h => h)
    fun xs hx i hi => (dom_stays (plane_step h.step.1 h.step.2 h.dom_meas h.dom_pos) xs hx i hi).mono fun ω hω ys hp _ => hω ys hp) (fs := [])
    (by rw [hfix]; rfl) (nothing_part (Measure.dirac ()) SameRows.refl _) (plane_top v) hlh (ae_cond_mem h.dom_meas) hℓ hℓr hfin
    state (states_in h.dom_meas (ae_cond_mem h.dom_meas) _ (decode_plane prs) state (fun x => ⟨_, List.Perm.refl _, hstate x⟩)) htemp

/-- The posterior is not invariant if cells are born from the prior. -/
theorem C77_plane_births_not_posterior (v : Vor2) (dens : Fin k → ℝ × ℝ → ℝ → ℝ) (std : Fin k → ℝ × ℝ → ℝ)
    (h : OnPlane sp prs v dens std) (htr : sp.info.transD = true) (hlh : sp.info.lo < sp.info.hi)
    (hfp : sp.info.fromPrior = true) (logLik : Tuple ((ℝ × ℝ) × (Fin k → ℝ)) → ℝ) (hℓ : Measurable logLik)
    (hℓr : ∀ x y, SameRows x y → logLik x = logLik y) (T : ℝ)
    (hfin : posterior (transPrior (rowLaw volume[|{q | InDomain v q}] dens) sp.info.lo sp.info.hi) logLik T Set.univ ≠ ⊤)
    (state : Tuple ((ℝ × ℝ) × (Fin k → ℝ)) → Chain PSState Unit E)
    (hstate : ∀ x, Holds planeSites prs (List.ofFn x.2) (state x).cur)
    (htemp : ∀ x, (state x).temp = T) :
    ¬ PreservesUpTo SameRows (posterior (transPrior (rowLaw volume[|{q | InDomain v q}] dens) sp.info.lo sp.info.hi) logLik T)
      (fun x => IterationLaw (ownChain sp (decode planeSites prs) logLik) (planeDraws sp prs v logLik (birthDeathDraws sp prs fun _ ω => planeTape v ω))
        (ownLaw (drawsLaw prs sp.info.hi (Measure.infinitePi fun _ : ℕ => unitLaw.prod unitLaw)) k sp.info.hi (stepsLaw sp.info.hi ((gaussianReal 0 1).prod (gaussianReal 0 1)))) (decode planeSites prs) (state x)) := by
  have hprob := plane_prob h.bounds h.dom_meas h.dom_pos
  have hr : IsProbabilityMeasure (rowLaw volume[|{q | InDomain v q}] dens) := row_prob (ae_cond_mem h.dom_meas) h.hdens
  have hb := births_part (σs := volume[|{q | InDomain v q}]) (steps_plane h.kind hfp h.only h.bounds.1 h.bounds.2 h.dom_meas h.dom_pos) hlh
    h.dom_meas (firstIn_meas (boxSite_meas v) h.dom_meas) (planeSite_law h.bounds.1 h.bounds.2 h.dom_meas h.dom_pos)
    h.hdens _ (decode_plane prs) logLik T
  exact sites_not (plane_case h (GS := InDom ({q | InDomain v q})) (fun _ h => h)
    fun xs hx i hi => (dom_stays (plane_step h.step.1 h.step.2 h.dom_meas h.dom_pos) xs hx i hi).mono fun ω hω ys hp _ => hω ys hp)
    (fs := [(PSFunc.birth sp, (1 : ℝ)), (PSFunc.death sp, 1)]) (by rw [htr]; rfl) (bd_draws _ ▸ hb) (plane_top v) hlh.le
    (ae_cond_mem h.dom_meas) hℓ hℓr hfin
    state (states_in h.dom_meas (ae_cond_mem h.dom_meas) _ (decode_plane prs) state (fun x => ⟨_, List.Perm.refl _, hstate x⟩)) htemp

/-- The posterior is not invariant if cells are born from the nearest neighbour. -/
theorem C77_plane_neighbour_not_posterior (v : Vor2) (dens : Fin k → ℝ × ℝ → ℝ → ℝ) (std stdBirth : Fin k → ℝ × ℝ → ℝ)
    (h : OnPlane sp prs v dens std) (htr : sp.info.transD = true) (hlh : sp.info.lo < sp.info.hi)
    (hfp : sp.info.fromPrior = false) (hsm : ∀ j, Measurable (stdBirth j))
    (hstd : ∀ j, ∀ x ∈ {q | InDomain v q}, (prs j).stdBirth.get (.two x) = .ok (stdBirth j x))
    (hpos : ∀ j, ∀ x ∈ {q | InDomain v q}, 0 < stdBirth j x)
    (logLik : Tuple ((ℝ × ℝ) × (Fin k → ℝ)) → ℝ) (hℓ : Measurable logLik)
    (hℓr : ∀ x y, SameRows x y → logLik x = logLik y) (T : ℝ)
    (hfin : posterior (transPrior (rowLaw volume[|{q | InDomain v q}] dens) sp.info.lo sp.info.hi) logLik T Set.univ ≠ ⊤)
    (state : Tuple ((ℝ × ℝ) × (Fin k → ℝ)) → Chain PSState Unit E)
    (hstate : ∀ x, Holds planeSites prs (List.ofFn x.2) (state x).cur)
    (htemp : ∀ x, (state x).temp = T) :
    ¬ PreservesUpTo SameRows (posterior (transPrior (rowLaw volume[|{q | InDomain v q}] dens) sp.info.lo sp.info.hi) logLik T)
      (fun x => IterationLaw (ownChain sp (decode planeSites prs) logLik) (planeDraws sp prs v logLik (nearDraws sp fun _ ω => planeTape v ω))
        (ownLaw (nearDrawsLaw k sp.info.hi (Measure.infinitePi fun _ : ℕ => unitLaw.prod unitLaw)) k sp.info.hi (stepsLaw sp.info.hi ((gaussianReal 0 1).prod (gaussianReal 0 1)))) (decode planeSites prs) (state x)) := by
  have hprob := plane_prob h.bounds h.dom_meas h.dom_pos
  have hr : IsProbabilityMeasure (rowLaw volume[|{q | InDomain v q}] dens) := row_prob (ae_cond_mem h.dom_meas) h.hdens
  have hb := near_part (σs := volume[|{q | InDomain v q}]) (near_steps_plane h.kind hfp h.only h.bounds.1 h.bounds.2 h.dom_meas h.dom_pos h.hdens hstd hpos) h.lo hlh
    (firstIn_meas (boxSite_meas v) h.dom_meas) (planeSite_law h.bounds.1 h.bounds.2 h.dom_meas h.dom_pos)
    (ae_cond_mem h.dom_meas) planeDist_meas h.hdens hsm hpos _ (decode_plane prs) logLik T
  exact sites_not (plane_case h (GS := NearDom BB.dist2 (fun _ => True) ({q | InDomain v q})) (fun _ h => h.2.2)
    fun xs hx i hi => near_stays (plane_step h.step.1 h.step.2 h.dom_meas h.dom_pos) (plane_top v) (nullSites_plane cond_absolutelyContinuous) xs hx i hi)
    (fs := [(PSFunc.birth sp, (1 : ℝ)), (PSFunc.death sp, 1)]) (by rw [htr]; rfl) (bd_draws _ ▸ hb) (plane_top v) hlh.le
    (ae_cond_mem h.dom_meas) hℓ hℓr hfin
    state (states_near h.dom_meas (ae_cond_mem h.dom_meas) planeDist_meas (nullSites_plane cond_absolutelyContinuous) _ (decode_plane prs) state (fun x => ⟨_, List.Perm.refl _, trivial, hstate x⟩)) htemp

end

/-! ### Non-trivial instances -/

section Examples

/-- The space of the examples of C23 with three dimensions. -/
noncomputable def exSpace77 (k : Kind) : Space :=
  .mk { name := "s", kind := k, nDim := some 3 }
    (.cons "a" (.prior (exPriors23 0)) (.cons "b" (.prior (exPriors23 1)) .nil))

theorem ex77_only (k : Kind) : OnlyPriors (exSpace77 k) exPriors23 :=
  ⟨rfl, (ex23_only k).inj, (ex23_only k).disc⟩

theorem ex77_can {P : Type} [MeasurableSpace P] (loc : P → Pos) (dom : Set P) {sp : Space} (h : OnlyPriors sp exPriors23)
    (hlo : 1 ≤ sp.info.lo) : Perturbable sp exPriors23 loc dom exDens23 fun _ _ => 1 where
  only := h
  some := by norm_num
  custom := by
    intro j f g h
    fin_cases j <;> exact fun h => nomatch h
  hdens := ex23_dens _ _
  std_meas := fun _ => measurable_const
  hstd := by
    intro j x _
    fin_cases j <;> rfl
  lo := hlo

theorem ex77_same {P : Type} (dom : Set P) (j : Fin 2) : SameEverywhere (exPriors23 j) dom (exDens23 j) := by
  fin_cases j <;> exact fun _ _ _ _ _ => rfl

theorem ex77_line {sp : Space} (h : OnlyPriors sp exPriors23) (hlo : 1 ≤ sp.info.lo) (s : ArgSort)
    (hk : sp.info.kind = .vor1 ⟨0, 10, 1, s⟩) : OnLine sp exPriors23 ⟨0, 10, 1, s⟩ exDens23 fun _ _ => 1 where
  toPerturbable := ex77_can _ _ h hlo
  kind := hk
  bounds := by norm_num
  step := by norm_num
  same := ex77_same _

theorem ex77_plane {sp : Space} (h : OnlyPriors sp exPriors23) (hlo : 1 ≤ sp.info.lo)
    (hk : sp.info.kind = .vor2 exVor23) : OnPlane sp exPriors23 exVor23 exDens23 fun _ _ => 1 where
  toPerturbable := ex77_can _ _ h hlo
  kind := hk
  bounds := ⟨by change (0 : ℝ) < 1; norm_num, by change (0 : ℝ) < 1; norm_num⟩
  step := ⟨by change (0 : ℝ) < 1; norm_num, by change (0 : ℝ) < 1; norm_num⟩
  dom_meas := by
    rw [ex23_domain]
    exact (measurableSet_le measurable_const measurable_snd).inter
      ((measurableSet_le measurable_snd measurable_fst).inter (measurableSet_le measurable_fst measurable_const))
  dom_pos := by
    rw [ex23_domain]
    refine ne_of_gt (lt_of_lt_of_le ?_ (measure_mono (s := Set.Icc (1 / 2) 1 ×ˢ Set.Icc 0 (1 / 2)) ?_))
    · have hv : (volume : Measure (ℝ × ℝ)) = (volume : Measure ℝ).prod volume := rfl
      rw [hv, Measure.prod_prod, Real.volume_Icc, Real.volume_Icc]
      exact ENNReal.mul_pos (by norm_num) (by norm_num)
    · rintro ⟨a, b⟩ ⟨⟨h1, h2⟩, h3, h4⟩
      exact ⟨h3, le_trans h4 h1, h2⟩
  same := ex77_same _

theorem ex77_fin {P : Type} [MeasurableSpace P] (σs : Measure P) [IsProbabilityMeasure σs] (lo hi : ℕ) :
    posterior (transPrior (rowLaw σs exDens23) lo hi) exLik23 2 Set.univ ≠ ⊤ := by
  have h1 : IsProbabilityMeasure (rowLaw σs exDens23) :=
    row_prob (prs := exPriors23) (loc := fun _ => .none) (dom := Set.univ) (.of_forall fun _ => trivial) (ex23_dens _ _)
  have h2 : IsFiniteMeasure (transPrior (rowLaw σs exDens23) lo hi) := by
    unfold transPrior
    have : ∀ n, IsFiniteMeasure ((Measure.pi fun _ : Fin n => rowLaw σs exDens23).map (tup n)) := fun n => inferInstance
    infer_instance
  unfold posterior
  rw [withDensity_apply _ MeasurableSet.univ, Measure.restrict_univ]
  refine ne_top_of_le_ne_top (measure_ne_top (transPrior (rowLaw σs exDens23) lo hi) Set.univ) ?_
  rw [← lintegral_one]
  refine lintegral_mono fun x => ?_
  rw [← ENNReal.ofReal_one]
  refine ENNReal.ofReal_le_ofReal (Real.exp_le_one_iff.2 ?_)
  unfold exLik23
  have : (0 : ℝ) ≤ x.1 := Nat.cast_nonneg _
  linarith

instance (s : ArgSort) : IsProbabilityMeasure
    (volume[|Set.Icc (⟨0, 10, 1, s⟩ : Vor1).vmin (⟨0, 10, 1, s⟩ : Vor1).vmax] : Measure ℝ) := line_prob (by norm_num)

instance : IsProbabilityMeasure (volume[|{q | InDomain exVor23 q}] : Measure (ℝ × ℝ)) :=
  have h := ex77_plane (sp := exSpace77 (.vor2 exVor23)) (ex77_only _) (by change 1 ≤ 3; decide) rfl
  plane_prob h.bounds h.dom_meas h.dom_pos

example (c : Chain PSState Unit Unit) := C77_plain (exSpace23 .plain) exPriors23 rfl exDens23 _
  (ex77_can _ _ (ex23_only _) (by decide)) rfl (by decide) exLik23 ex23_lik ex23_same 2 (exState23 noSites c) (ex23_state _ c)
  fun _ => rfl

example (c : Chain PSState Unit Unit) := C77_plain_fixed (exSpace77 .plain) exPriors23 rfl exDens23 _
  (ex77_can _ _ (ex77_only _) (by decide)) rfl exLik23 ex23_lik ex23_same 2 (exState23 noSites c) (ex23_state _ c)
  fun _ => rfl

example (c : Chain PSState Unit Unit) (s : ArgSort) := C77_line_fixed (exSpace77 (.vor1 ⟨0, 10, 1, s⟩)) exPriors23 ⟨0, 10, 1, s⟩
  exDens23 _ (ex77_line (ex77_only _) (by change 1 ≤ 3; decide) s rfl) rfl exLik23 ex23_lik ex23_same 2 (exState75 c)
  (ex75_state c) fun _ => rfl

example (c : Chain PSState Unit Unit) (s : ArgSort) := C77_line_fixed_not_posterior (exSpace77 (.vor1 ⟨0, 10, 1, s⟩)) exPriors23
  ⟨0, 10, 1, s⟩ exDens23 _ (ex77_line (ex77_only _) (by change 1 ≤ 3; decide) s rfl) rfl exLik23 ex23_lik ex23_same 2
  (ex77_fin _ _ _) (exState75 c) (ex75_state c) fun _ => rfl

example (c : Chain PSState Unit Unit) (s : ArgSort) := C77_line_births_not_posterior (exSpace23 (.vor1 ⟨0, 10, 1, s⟩)) exPriors23
  ⟨0, 10, 1, s⟩ exDens23 _ (ex77_line (ex23_only _) (by change 1 ≤ 1; decide) s rfl) rfl (by change 1 < 10; decide) rfl exLik23
  ex23_lik ex23_same 2 (ex77_fin _ _ _) (exState75 c) (ex75_state c) fun _ => rfl

example (c : Chain PSState Unit Unit) (s : ArgSort) := C77_line_neighbour_not_posterior (exSpace75 (.vor1 ⟨0, 10, 1, s⟩))
  exPriors23 ⟨0, 10, 1, s⟩ exDens23 _ (fun _ _ => 1) (ex77_line (ex75_only _) (by change 1 ≤ 1; decide) s rfl) rfl
  (by change 1 < 10; decide) rfl (fun _ => measurable_const) (fun j _ _ => ex75_std j _) (fun _ _ _ => one_pos) exLik23 ex23_lik
  ex23_same 2 (ex77_fin _ _ _) (exState75 c) (ex75_state c) fun _ => rfl

example (c : Chain PSState Unit Unit) := C77_plane_fixed (exSpace77 (.vor2 exVor23)) exPriors23 exVor23
  exDens23 _ (ex77_plane (ex77_only _) (by change 1 ≤ 3; decide) rfl) rfl exLik23 ex23_lik ex23_same 2 (exState23 planeSites c)
  (ex23_state _ c) fun _ => rfl

example (c : Chain PSState Unit Unit) := C77_plane_fixed_not_posterior (exSpace77 (.vor2 exVor23)) exPriors23 exVor23
  exDens23 _ (ex77_plane (ex77_only _) (by change 1 ≤ 3; decide) rfl) rfl exLik23 ex23_lik ex23_same 2 (ex77_fin _ _ _)
  (exState23 planeSites c) (ex23_state _ c) fun _ => rfl

example (c : Chain PSState Unit Unit) := C77_plane_births_not_posterior (exSpace23 (.vor2 exVor23)) exPriors23 exVor23
  exDens23 _ (ex77_plane (ex23_only _) (by change 1 ≤ 1; decide) rfl) rfl (by change 1 < 10; decide) rfl exLik23 ex23_lik
  ex23_same 2 (ex77_fin _ _ _) (exState23 planeSites c) (ex23_state _ c) fun _ => rfl

example (c : Chain PSState Unit Unit) := C77_plane_neighbour_not_posterior (exSpace75 (.vor2 exVor23)) exPriors23 exVor23
  exDens23 _ (fun _ _ => 1) (ex77_plane (ex75_only _) (by change 1 ≤ 1; decide) rfl) rfl (by change 1 < 10; decide) rfl
  (fun _ => measurable_const) (fun j _ _ => ex75_std j _) (fun _ _ _ => one_pos) exLik23 ex23_lik ex23_same 2 (ex77_fin _ _ _)
  (exState23 planeSites c) (ex23_state _ c) fun _ => rfl

end Examples

end BB.Props
