import Verif.Lemmas.OwnParts

/-!
# The chain with all perturbations of a parameter space
-/

namespace BB.Lemmas

open BB BB.Spec BB.Props MeasureTheory ProbabilityTheory

section draws

variable {X Θ Θ' : Type} (val : PSState → X) (logLik : X → ℝ)

theorem joins_draws (a b : List (PSFunc × ℝ)) (e1 : PSFunc → PSState → Θ → List Draw) (e2 : PSFunc → PSState → Θ' → List Draw)
    (e : PSFunc → PSState → Θ × Θ' → List Draw) (h1 : ∀ f ∈ a, ∀ s θ, e f.1 s θ = e1 f.1 s θ.1)
    (h2 : ∀ f ∈ b, ∀ s θ, e f.1 s θ = e2 f.1 s θ.2) :
    (joins_funcs a b val logLik).draws (funcDraws a val logLik e1) (funcDraws b val logLik e2) =
      funcDraws (a ++ b) val logLik e := by
  funext i s θ
  unfold Joins.draws funcDraws
  have hla : (funcsChain a val logLik).perturbs.length = a.length := List.length_map _
  have hlb : (funcsChain b val logLik).perturbs.length = b.length := List.length_map _
  rcases (joins_funcs a b val logLik).cases i with ⟨j, g1, g2⟩ | ⟨j, g1, g2⟩
  · have hj : j.val < a.length := Nat.lt_of_lt_of_eq j.isLt hla
    have hv : (a ++ b)[i.val]'(Nat.lt_of_lt_of_eq i.isLt (List.length_map _)) = a[j.val] := by
      refine (List.getElem_eq_iff _).2 ?_
      rw [g2, List.getElem?_append_left hj]
      exact List.getElem?_eq_getElem hj
    rw [g1, Sum.elim_inl, hv]
    exact (h1 _ (List.getElem_mem hj) s θ).symm
  · have hj : j.val < b.length := Nat.lt_of_lt_of_eq j.isLt hlb
    have hv : (a ++ b)[i.val]'(Nat.lt_of_lt_of_eq i.isLt (List.length_map _)) = b[j.val] := by
      refine (List.getElem_eq_iff _).2 ?_
      rw [g2, hla, List.getElem?_append_right (by omega), Nat.add_sub_cancel_left]
      exact List.getElem?_eq_getElem hj
    rw [g1, Sum.elim_inr, hv]
    exact (h2 _ (List.getElem_mem hj) s θ).symm

end draws

section

variable {X Θb Θv Θs : Type} [MeasurableSpace X] [MeasurableSpace Θb] [MeasurableSpace Θv] [MeasurableSpace Θs]
  {val : PSState → X} {logLik : X → ℝ} {prior : Measure X} {T : ℝ} {inv : PSState → Prop} {r : X → X → Prop}

/-- No perturbations at all. -/
def nothing (prior : Measure X) (draws : Measure Θb) : Scheme X Θb 0 where
  prior := prior
  draws := draws
  move := fun i => i.elim0
  rev := id
  common := fun i => i.elim0
  dens := fun i => i.elim0

theorem nothing_part [SFinite prior] (draws : Measure Θb) [IsProbabilityMeasure draws] (hrefl : ∀ x, r x x)
    (enc : Fin 0 → PSState → Θb → List Draw) : Part (funcsChain [] val logLik) prior logLik T enc draws val inv r :=
  ⟨nothing prior draws, rfl, rfl,
    { sfinite := inferInstanceAs (SFinite prior)
      prob := inferInstanceAs (IsProbabilityMeasure draws)
      meas := fun i => i.elim0
      rev_rev := fun i => i.elim0
      rev_weight := fun i => i.elim0
      symm := fun i => i.elim0
      dens_meas := fun i => i.elim0
      dens_nonneg := fun i => i.elim0
      joint := fun i => i.elim0 },
    { dens := fun i => i.elim0
      law := fun i => i.elim0 },
    { proposal := fun i => i.elim0
      likelihood := fun s new hs hn => ⟨s, new, rfl, hs, hn, hrefl _, hrefl _⟩ }⟩

variable {births : Fin 2 → PSState → Θb → List Draw} {values : PSState → Θv → List Draw} {sites : PSState → Θs → List Draw}
  {lb : Measure Θb} {lv : Measure Θv} {ls : Measure Θs} {sp : Space} {name : String} {ps : List Prior} {w : ℝ}

/-- The draws of births and deaths. -/
def bdDraws (births : Fin 2 → PSState → Θb → List Draw) (f : PSFunc) (s : PSState) (θ : Θb) : List Draw :=
  match f with
  | .birth _ => births 0 s θ
  | .death _ => births 1 s θ
  | _ => []

/-- The draws of births, deaths and perturbations of values. -/
def bvDraws (births : Fin 2 → PSState → Θb → List Draw) (values : PSState → Θv → List Draw) (f : PSFunc) (s : PSState)
    (θ : Θb × Θv) : List Draw :=
  match f with
  | .birth _ => births 0 s θ.1
  | .death _ => births 1 s θ.1
  | _ => values s θ.2

/-- The births and deaths, if there are any, and the perturbations of the values. -/
theorem lead_part {fs : List (PSFunc × ℝ)} (hfs : fs = [] ∨ fs = [(PSFunc.birth sp, (1 : ℝ)), (PSFunc.death sp, 1)])
    (hb : Part (funcsChain fs val logLik) prior logLik T (funcDraws fs val logLik (bdDraws births)) lb val inv r)
    (hv : Part (funcsChain [(PSFunc.values name ps, w)] val logLik) prior logLik T (fun _ => values) lv val inv r) :
    Part (funcsChain (fs ++ [(PSFunc.values name ps, w)]) val logLik) prior logLik T
      (funcDraws (fs ++ [(PSFunc.values name ps, w)]) val logLik (bvDraws births values)) (lb.prod lv) val inv r := by
  have e2 : (fun _ => values) = funcDraws [(PSFunc.values name ps, w)] val logLik fun _ => values := rfl
  rw [e2] at hv
  have := hb.join (joins_funcs fs [(PSFunc.values name ps, w)] val logLik) hv
  rwa [joins_draws val logLik fs _ _ _ (bvDraws births values) (fun f hf s θ => by
    rcases hfs with rfl | rfl
    · cases hf
    · simp only [List.mem_cons, List.not_mem_nil, or_false] at hf
      rcases hf with rfl | rfl <;> rfl) (fun f hf s θ => by
    rw [List.mem_singleton.1 hf]
    rfl)] at this

/-- The draws of all perturbations. -/
theorem all_draws {a c : List (PSFunc × ℝ)} (ha : ∀ f ∈ a, ∀ q, f.1 ≠ PSFunc.site q) (hc : ∀ f ∈ c, ∃ q, f.1 = PSFunc.site q) :
    (joins_funcs a c val logLik).draws (funcDraws a val logLik (bvDraws births values)) (funcDraws c val logLik fun _ => sites) =
      funcDraws (a ++ c) val logLik (ownDraws births values sites) := by
  refine joins_draws val logLik a c _ _ _ (fun f hf s θ => ?_) fun f hf s θ => ?_
  · have := ha f hf
    cases hff : f.1 with
    | birth q => rfl
    | death q => rfl
    | values n p => rfl
    | site q => exact absurd hff (this q)
  · obtain ⟨q, hq⟩ := hc f hf
    rw [hq]
    rfl

theorem lead_no_site {fs : List (PSFunc × ℝ)} (hfs : fs = [] ∨ fs = [(PSFunc.birth sp, (1 : ℝ)), (PSFunc.death sp, 1)]) :
    ∀ f ∈ fs ++ [(PSFunc.values name ps, w)], ∀ q, f.1 ≠ PSFunc.site q := by
  intro f hf q
  rcases hfs with rfl | rfl
  · rw [List.mem_singleton.1 hf]
    exact fun h => nomatch h
  · simp only [List.cons_append, List.nil_append, List.mem_cons, List.not_mem_nil, or_false] at hf
    rcases hf with rfl | rfl | rfl <;> exact fun h => nomatch h

theorem lead_weights {fs : List (PSFunc × ℝ)} (hfs : fs = [] ∨ fs = [(PSFunc.birth sp, (1 : ℝ)), (PSFunc.death sp, 1)]) :
    (∀ v ∈ (funcsChain (fs ++ [(PSFunc.values name ps, 3)]) val logLik).weights, 0 ≤ v) ∧
      0 < (funcsChain (fs ++ [(PSFunc.values name ps, 3)]) val logLik).weights.sum := by
  rcases hfs with rfl | rfl
  · simp [funcsChain]
  · simp [funcsChain]
    norm_num

/-- All perturbations of a space, put together. -/
theorem own_part {fs c : List (PSFunc × ℝ)}
    (hfs : fs = [] ∨ fs = [(PSFunc.birth sp, (1 : ℝ)), (PSFunc.death sp, 1)])
    (hc : c = [] ∨ c = [(PSFunc.site sp, 1)]) (hown : sp.ownFuncs = fs ++ [(PSFunc.values name ps, 3)] ++ c)
    (hb : Part (funcsChain fs val logLik) prior logLik T (funcDraws fs val logLik (bdDraws births)) lb val inv r)
    (hv : Part (funcsChain [(PSFunc.values name ps, 3)] val logLik) prior logLik T (fun _ => values) lv val inv r)
    (hs : Part (funcsChain c val logLik) prior logLik T (fun _ => sites) ls val inv r) :
    Part (ownChain sp val logLik) prior logLik T (funcDraws sp.ownFuncs val logLik (ownDraws births values sites))
      ((lb.prod lv).prod ls) val inv r := by
  unfold ownChain
  generalize sp.ownFuncs = gs at hown
  subst hown
  have hj := joins_funcs (fs ++ [(PSFunc.values name ps, 3)]) c val logLik
  have hl := lead_part hfs hb hv
  have h := hl.join hj hs
  have e := all_draws (val := val) (logLik := logLik) (births := births) (values := values) (sites := sites)
    (lead_no_site (name := name) (ps := ps) (w := 3) hfs) (c := c) (by
      rcases hc with rfl | rfl
      · exact fun f hf => nomatch hf
      · exact fun f hf => ⟨sp, by rw [List.mem_singleton.1 hf]⟩)
  have e2 : hj.draws (funcDraws (fs ++ [(PSFunc.values name ps, 3)]) val logLik (bvDraws births values)) (fun _ => sites) =
    funcDraws (fs ++ [(PSFunc.values name ps, 3)] ++ c) val logLik (ownDraws births values sites) := e
  rw [e2] at h
  exact h

theorem own_weights {fs c : List (PSFunc × ℝ)}
    (hfs : fs = [] ∨ fs = [(PSFunc.birth sp, (1 : ℝ)), (PSFunc.death sp, 1)])
    (hc : c = [] ∨ c = [(PSFunc.site sp, 1)]) (hown : sp.ownFuncs = fs ++ [(PSFunc.values name ps, 3)] ++ c) :
    (∀ v ∈ (ownChain sp val logLik).weights, 0 ≤ v) ∧ 0 < (ownChain sp val logLik).weights.sum := by
  unfold ownChain
  generalize sp.ownFuncs = gs at hown
  subst hown
  have hj := joins_funcs (fs ++ [(PSFunc.values name ps, 3)]) c val logLik
  obtain ⟨w1, w2⟩ := lead_weights (val := val) (logLik := logLik) (name := name) (ps := ps) hfs
  have hc0 : ∀ v ∈ (funcsChain c val logLik).weights, 0 ≤ v := by
    rcases hc with rfl | rfl <;> simp [funcsChain]
  refine ⟨fun v hv => ?_, ?_⟩
  · rw [hj.weights] at hv
    rcases List.mem_append.1 hv with hv | hv
    · exact w1 v hv
    · exact hc0 v hv
  · rw [hj.weights, List.sum_append]
    exact add_pos_of_pos_of_nonneg w2 (List.sum_nonneg hc0)

theorem own_len (sp : Space) (val : PSState → X) (logLik : X → ℝ) :
    (ownChain sp val logLik).perturbs.length = (ownChain sp val logLik).weights.length := by
  unfold ownChain funcsChain
  simp

/-- All perturbations of a space are in balance with the same distribution. -/
theorem own_balance {E : Type} {fs c : List (PSFunc × ℝ)}
    (hfs : fs = [] ∨ fs = [(PSFunc.birth sp, (1 : ℝ)), (PSFunc.death sp, 1)])
    (hc : c = [] ∨ c = [(PSFunc.site sp, 1)]) (hown : sp.ownFuncs = fs ++ [(PSFunc.values name ps, 3)] ++ c)
    (hb : Part (funcsChain fs val logLik) prior logLik T (funcDraws fs val logLik (bdDraws births)) lb val inv r)
    (hv : Part (funcsChain [(PSFunc.values name ps, 3)] val logLik) prior logLik T (fun _ => values) lv val inv r)
    (hs : Part (funcsChain c val logLik) prior logLik T (fun _ => sites) ls val inv r)
    (hℓ : Measurable logLik) (hrefl : ∀ x, r x x) (hℓr : ∀ x y, r x y → logLik x = logLik y)
    (state : X → Chain PSState Unit E) (hval : ∀ᵐ x ∂prior, inv (state x).cur ∧ r x (val (state x).cur))
    (htemp : ∀ x, (state x).temp = T) :
    DetailedBalanceUpTo r (posterior prior logLik T) (fun x => IterationLaw (ownChain sp val logLik)
      (funcDraws sp.ownFuncs val logLik (ownDraws births values sites)) ((lb.prod lv).prod ls) val (state x)) ∧
    PreservesUpTo r (posterior prior logLik T) (fun x => IterationLaw (ownChain sp val logLik)
      (funcDraws sp.ownFuncs val logLik (ownDraws births values sites)) ((lb.prod lv).prod ls) val (state x)) := by
  obtain ⟨w1, w2⟩ := own_weights (val := val) (logLik := logLik) hfs hc hown
  exact (own_part hfs hc hown hb hv hs).balance (own_len sp val logLik) w1 w2 hℓ hrefl hℓr state hval htemp

/-- Births, deaths and perturbations of values are in balance with the posterior, perturbations of sites do not preserve it. -/
theorem own_not {E : Type} {fs : List (PSFunc × ℝ)}
    (hfs : fs = [] ∨ fs = [(PSFunc.birth sp, (1 : ℝ)), (PSFunc.death sp, 1)])
    (hown : sp.ownFuncs = fs ++ [(PSFunc.values name ps, 3)] ++ [(PSFunc.site sp, 1)])
    (hb : Part (funcsChain fs val logLik) prior logLik T (funcDraws fs val logLik (bdDraws births)) lb val inv r)
    (hv : Part (funcsChain [(PSFunc.values name ps, 3)] val logLik) prior logLik T (fun _ => values) lv val inv r)
    {q : Scheme X Θs 1} (hq : q.Ok (weight (funcsChain [(PSFunc.site sp, 1)] val logLik))) (hql : q.Lumps r)
    (hqr : Reports (funcsChain [(PSFunc.site sp, 1)] val logLik) q logLik T (fun _ => sites) val inv r) (hac : prior ≪ q.prior)
    (hℓ : Measurable logLik) (hrefl : ∀ x, r x x) (hℓr : ∀ x y, r x y → logLik x = logLik y)
    (hfin : posterior prior logLik T Set.univ ≠ ⊤)
    (hne : ¬ PreservesUpTo r (posterior prior logLik T)
      (transition q (weight (funcsChain [(PSFunc.site sp, 1)] val logLik)) logLik T))
    (state : X → Chain PSState Unit E) (hval : ∀ᵐ x ∂prior, inv (state x).cur ∧ r x (val (state x).cur))
    (htemp : ∀ x, (state x).temp = T) :
    ¬ PreservesUpTo r (posterior prior logLik T) (fun x => IterationLaw (ownChain sp val logLik)
      (funcDraws sp.ownFuncs val logLik (ownDraws births values sites)) ((lb.prod lv).prod q.draws) val (state x)) := by
  unfold ownChain
  generalize sp.ownFuncs = gs at hown
  subst hown
  have hj := joins_funcs (fs ++ [(PSFunc.values name ps, 3)]) [(PSFunc.site sp, 1)] val logLik
  have hl := lead_part hfs hb hv
  have e := all_draws (val := val) (logLik := logLik) (births := births) (values := values) (sites := sites)
    (lead_no_site (name := name) (ps := ps) (w := 3) hfs) (c := [(PSFunc.site sp, 1)])
    fun f hf => ⟨sp, by rw [List.mem_singleton.1 hf]⟩
  have e2 : hj.draws (funcDraws (fs ++ [(PSFunc.values name ps, 3)]) val logLik (bvDraws births values)) (fun _ => sites) =
    funcDraws (fs ++ [(PSFunc.values name ps, 3)] ++ [(PSFunc.site sp, 1)]) val logLik (ownDraws births values sites) := e
  rw [← e2]
  obtain ⟨w1, w2⟩ := lead_weights (val := val) (logLik := logLik) (name := name) (ps := ps) hfs
  exact Part.not_preserved hj hl hq hql hqr hac w1 w2 (by simp [funcsChain]) (by simp [funcsChain]) hℓ hrefl hℓr hfin hne state
    hval htemp

end

section sites

variable {P α Θb : Type} [MeasurableSpace P] [MeasurableSpace α] [MeasurableSpace Θb] [Nonempty P] {k : ℕ} {lam : Measure P}
  [SigmaFinite lam] {dom : Set P} {γ : Measure α} [IsProbabilityMeasure γ] {step : P → α → P} {κ : P × P → ℝ} {sp : Space}
  {prs : Fin k → Prior} {col : List P → List (String × PVal)} {loc : P → Pos} {ok : List P → Prop} {enc : α → List Draw}
  {dens : Fin k → P → ℝ → ℝ} {std : Fin k → P → ℝ} {GS : List P → Prop}
  {val : PSState → Tuple (P × (Fin k → ℝ))} {logLik : Tuple (P × (Fin k → ℝ)) → ℝ}

/-- What is used of the sites, the values and the chain. -/
structure SiteCase (lam : Measure P) (dom : Set P) (γ : Measure α) (step : P → α → P) (κ : P × P → ℝ) (sp : Space)
    (prs : Fin k → Prior) (col : List P → List (String × PVal)) (loc : P → Pos) (ok : List P → Prop) (enc : α → List Draw)
    (dens : Fin k → P → ℝ → ℝ) (std : Fin k → P → ℝ) (GS : List P → Prop) (val : PSState → Tuple (P × (Fin k → ℝ))) : Prop where
  disc : sp.info.kind.isDisc = true
  only : OnlyPriors sp prs
  pos : 0 < k
  hstep : SiteStep lam dom γ step κ
  runs : SiteRuns sp prs col ok dom step enc dens
  stored : Stored prs col loc
  hdens : ∀ j, HasDensity (prs j) loc dom (dens j)
  custom : ∀ j, NotCustom (prs j)
  std_meas : ∀ j, Measurable (std j)
  hstd : ∀ j, ∀ x ∈ dom, (prs j).std.get (loc x) = .ok (std j x)
  good : ∀ xs, GS xs → ∀ x ∈ xs, x ∈ dom
  stays : ∀ xs, GS xs → ∀ i (hi : i < xs.length), ∀ᵐ ω ∂Measure.infinitePi fun _ : ℕ => γ, ∀ ys,
    ys.Perm (xs.set i (landIn step dom xs[i] ω)) → ok ys → GS ys
  lo : 1 ≤ sp.info.lo
  hval : ∀ l s, Holds col prs l s → val s = ofRows l

/-- Perturbations of values and sites, put together. -/
theorem sites_part (h : SiteCase lam dom γ step κ sp prs col loc ok enc dens std GS val) (hfix : sp.info.transD = false)
    (hdom : ∀ᵐ x ∂lam[|dom], x ∈ dom) [IsProbabilityMeasure lam[|dom]] (logLik : Tuple (P × (Fin k → ℝ)) → ℝ) (T : ℝ) :
    Part (ownChain sp val logLik) ((transPrior (rowLaw lam[|dom] dens) sp.info.lo sp.info.hi).withDensity fun x =>
        ENNReal.ofReal (overSites (stayIn γ step dom) x)) logLik T
      (funcDraws sp.ownFuncs val logLik (ownDraws noDraws walkDraws (siteDraws enc step dom val)))
      (((Measure.dirac ()).prod ((uniformNat sp.info.hi.factorial).prod (walkLaw k))).prod
        ((uniformNat sp.info.hi.factorial).prod (Measure.infinitePi fun _ : ℕ => γ))) val
      (RowInv prs col sp.info.lo sp.info.hi fun l => GS (l.map Prod.fst)) SameRows := by
  have hprob : IsProbabilityMeasure (rowLaw lam[|dom] dens) := row_prob hdom h.hdens
  have hm := dens_meas h.hdens
  have hpr := sites_prior h.hstep hm sp.info.lo sp.info.hi (dens := dens)
  have hsf : SFinite (transPrior (((tilted lam dom γ step).prod volume).withDensity fun r => ENNReal.ofReal (priorDens dens r))
      sp.info.lo sp.info.hi) := (site_ok h.hstep hm sp.info.lo sp.info.hi (fun _ => 0)).sfinite
  rw [← hpr]
  refine own_part (name := sp.info.name) (ps := List.ofFn prs) (fs := []) (c := [(PSFunc.site sp, 1)]) (.inl rfl) (.inr rfl) ?_
    (nothing_part (Measure.dirac ()) SameRows.refl _)
    (values_part h.stored h.hdens h.custom h.std_meas h.hstd sp.info.name 3 h.good h.lo val h.hval logLik T)
    ⟨siteScheme (tilted lam dom γ step) dens γ step dom sp.info.lo sp.info.hi, rfl, rfl, site_ok h.hstep hm _ _ _,
      site_lumps h.hstep _ _ _ _, site_reports h.hstep h.runs 1 h.good h.stays h.lo val h.hval logLik T _⟩
  rw [own_funcs h.only h.pos, hfix, h.disc]
  rfl

theorem sites_weights (h : SiteCase lam dom γ step κ sp prs col loc ok enc dens std GS val) (hfix : sp.info.transD = false)
    (logLik : Tuple (P × (Fin k → ℝ)) → ℝ) :
    (∀ v ∈ (ownChain sp val logLik).weights, 0 ≤ v) ∧ 0 < (ownChain sp val logLik).weights.sum := by
  refine own_weights (name := sp.info.name) (ps := List.ofFn prs) (fs := []) (c := [(PSFunc.site sp, 1)]) (.inl rfl) (.inr rfl) ?_
  rw [own_funcs h.only h.pos, hfix, h.disc]
  rfl

/-- Perturbations of values and sites sample the posterior of a prior with other sites. -/
theorem sites_sampled {E : Type} (h : SiteCase lam dom γ step κ sp prs col loc ok enc dens std GS val) (hfix : sp.info.transD = false)
    (hdom : ∀ᵐ x ∂lam[|dom], x ∈ dom) [IsProbabilityMeasure lam[|dom]]
    (hℓ : Measurable logLik) (hℓr : ∀ x y, SameRows x y → logLik x = logLik y) (T : ℝ)
    (state : Tuple (P × (Fin k → ℝ)) → Chain PSState Unit E)
    (hval : ∀ᵐ x ∂transPrior (rowLaw lam[|dom] dens) sp.info.lo sp.info.hi,
      RowInv prs col sp.info.lo sp.info.hi (fun l => GS (l.map Prod.fst)) (state x).cur ∧ SameRows x (val (state x).cur))
    (htemp : ∀ x, (state x).temp = T) :
    DetailedBalanceUpTo SameRows (posterior ((transPrior (rowLaw lam[|dom] dens) sp.info.lo sp.info.hi).withDensity fun x =>
        ENNReal.ofReal (overSites (stayIn γ step dom) x)) logLik T) (fun x => IterationLaw (ownChain sp val logLik)
      (funcDraws sp.ownFuncs val logLik (ownDraws noDraws walkDraws (siteDraws enc step dom val)))
      (((Measure.dirac ()).prod ((uniformNat sp.info.hi.factorial).prod (walkLaw k))).prod
        ((uniformNat sp.info.hi.factorial).prod (Measure.infinitePi fun _ : ℕ => γ))) val (state x)) ∧
    PreservesUpTo SameRows (posterior ((transPrior (rowLaw lam[|dom] dens) sp.info.lo sp.info.hi).withDensity fun x =>
        ENNReal.ofReal (overSites (stayIn γ step dom) x)) logLik T) (fun x => IterationLaw (ownChain sp val logLik)
      (funcDraws sp.ownFuncs val logLik (ownDraws noDraws walkDraws (siteDraws enc step dom val)))
      (((Measure.dirac ()).prod ((uniformNat sp.info.hi.factorial).prod (walkLaw k))).prod
        ((uniformNat sp.info.hi.factorial).prod (Measure.infinitePi fun _ : ℕ => γ))) val (state x)) := by
  obtain ⟨w1, w2⟩ := sites_weights h hfix logLik
  exact (sites_part h hfix hdom logLik T).balance (own_len sp val logLik) w1 w2 hℓ SameRows.refl hℓr state
    ((withDensity_absolutelyContinuous _ _).ae_le hval) htemp

/-- With perturbations of sites the posterior is not preserved. -/
theorem sites_not {E : Type} (h : SiteCase lam dom γ step κ sp prs col loc ok enc dens std GS val)
    {fs : List (PSFunc × ℝ)} (hfs : fs = if sp.info.transD then [(PSFunc.birth sp, (1 : ℝ)), (PSFunc.death sp, 1)] else [])
    {births : Fin 2 → PSState → Θb → List Draw} {lb : Measure Θb} {T : ℝ}
    (hb : Part (funcsChain fs val logLik) (transPrior (rowLaw lam[|dom] dens) sp.info.lo sp.info.hi) logLik T
      (funcDraws fs val logLik (bdDraws births)) lb val
      (RowInv prs col sp.info.lo sp.info.hi fun l => GS (l.map Prod.fst)) SameRows)
    (htop : lam dom ≠ ⊤) (hlh : sp.info.lo ≤ sp.info.hi)
    (hdom : ∀ᵐ x ∂lam[|dom], x ∈ dom) [IsProbabilityMeasure lam[|dom]]
    (hℓ : Measurable logLik) (hℓr : ∀ x y, SameRows x y → logLik x = logLik y)
    (hfin : posterior (transPrior (rowLaw lam[|dom] dens) sp.info.lo sp.info.hi) logLik T Set.univ ≠ ⊤)
    (state : Tuple (P × (Fin k → ℝ)) → Chain PSState Unit E)
    (hval : ∀ᵐ x ∂transPrior (rowLaw lam[|dom] dens) sp.info.lo sp.info.hi,
      RowInv prs col sp.info.lo sp.info.hi (fun l => GS (l.map Prod.fst)) (state x).cur ∧ SameRows x (val (state x).cur))
    (htemp : ∀ x, (state x).temp = T) :
    ¬ PreservesUpTo SameRows (posterior (transPrior (rowLaw lam[|dom] dens) sp.info.lo sp.info.hi) logLik T)
      (fun x => IterationLaw (ownChain sp val logLik)
      (funcDraws sp.ownFuncs val logLik (ownDraws births walkDraws (siteDraws enc step dom val)))
      ((lb.prod ((uniformNat sp.info.hi.factorial).prod (walkLaw k))).prod
        ((uniformNat sp.info.hi.factorial).prod (Measure.infinitePi fun _ : ℕ => γ))) val (state x)) := by
  have hprob : IsProbabilityMeasure (rowLaw lam[|dom] dens) := row_prob hdom h.hdens
  have hm := dens_meas h.hdens
  have hpr := sites_prior h.hstep hm sp.info.lo sp.info.hi (dens := dens)
  have hok := site_ok h.hstep hm sp.info.lo sp.info.hi (weight (funcsChain [(PSFunc.site sp, 1)] val logLik))
  have hv := values_part (σs := lam[|dom]) (hi := sp.info.hi) h.stored h.hdens h.custom h.std_meas h.hstd sp.info.name 3 h.good h.lo val h.hval logLik T
  rw [← rowLaw_eq] at hv
  refine own_not (name := sp.info.name) (ps := List.ofFn prs) (fs := fs) (by rw [hfs]; split <;> simp) ?_ hb hv hok
    (site_lumps h.hstep _ _ _ _) (site_reports h.hstep h.runs 1 h.good h.stays h.lo val h.hval logLik T _) ?_ hℓ SameRows.refl hℓr hfin
    (sites_not_preserved h.hstep htop hm hprob.ne_zero h.lo hlh one_pos hℓ T hfin) state hval htemp
  · rw [own_funcs h.only h.pos, h.disc, hfs]
    rfl
  · show transPrior (rowLaw lam[|dom] dens) sp.info.lo sp.info.hi ≪ transPrior (((tilted lam dom γ step).prod volume).withDensity
      fun r => ENNReal.ofReal (priorDens dens r)) sp.info.lo sp.info.hi
    rw [hpr]
    have hZ1 : Measurable fun r : P × (Fin k → ℝ) => stayIn γ step dom r.1 :=
      (stayIn_meas h.hstep.step_meas h.hstep.dom_meas).comp measurable_fst
    have hO : Measurable fun x : Tuple (P × (Fin k → ℝ)) => overSites (stayIn γ step dom) x := prodF_meas hZ1
    refine withDensity_absolutelyContinuous' hO.ennreal_ofReal.aemeasurable (.of_forall fun x => ?_)
    exact (ENNReal.ofReal_pos.2 (Finset.prod_pos fun i _ => stayIn_pos h.hstep.step_meas (h.hstep.stays _))).ne'

end sites

end BB.Lemmas
