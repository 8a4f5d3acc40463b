import Verif.Lemmas.TiltSites
import Verif.Lemmas.Parts

/-!
# The perturbations that one parameter space offers
-/

namespace BB.Lemmas

open BB BB.Spec BB.Props MeasureTheory ProbabilityTheory

/-- All sites are in the domain. -/
def InDom {P : Type} (dom : Set P) (xs : List P) : Prop := ∀ x ∈ xs, x ∈ dom

/-- The sites are in general position, in the order that the class keeps, and in the domain. -/
def NearDom {P : Type} (d : P → P → ℝ) (ok : List P → Prop) (dom : Set P) (xs : List P) : Prop :=
  Generic d xs ∧ ok xs ∧ ∀ x ∈ xs, x ∈ dom

section lists

theorem priors_of_toList : ∀ {ps : ParamList} {l : List Prior}, ps.toList = l.map (fun p => (p.name, Param.prior p)) → ps.priors = l
  | .nil, l, h => by
    cases l with
    | nil => rfl
    | cons a l => simp [ParamList.toList] at h
  | .cons n (.prior p) rest, l, h => by
    cases l with
    | nil => simp [ParamList.toList] at h
    | cons a l =>
      simp only [ParamList.toList, List.map_cons, List.cons.injEq, Prod.mk.injEq, Param.prior.injEq] at h
      simp only [ParamList.priors, h.1.2]
      rw [priors_of_toList h.2]
  | .cons n (.space s) rest, l, h => by
    cases l with
    | nil => simp [ParamList.toList] at h
    | cons a l => simp [ParamList.toList] at h

theorem only_priors {k : ℕ} {sp : Space} {prs : Fin k → Prior} (h : OnlyPriors sp prs) : sp.params.priors = List.ofFn prs := by
  refine priors_of_toList ?_
  rw [h.params, List.map_ofFn]
  rfl

/-- The functions that a space offers. -/
theorem own_funcs {k : ℕ} {sp : Space} {prs : Fin k → Prior} (h : OnlyPriors sp prs) (hk : 0 < k) :
    sp.ownFuncs = (if sp.info.transD then [(PSFunc.birth sp, (1 : ℝ)), (PSFunc.death sp, 1)] else []) ++
      [(PSFunc.values sp.info.name (List.ofFn prs), (3 : ℝ))] ++
      (if sp.info.kind.isDisc then [(PSFunc.site sp, (1 : ℝ))] else []) := by
  obtain ⟨k, rfl⟩ : ∃ j, k = j + 1 := ⟨k - 1, by omega⟩
  unfold Space.ownFuncs
  rw [only_priors h, List.ofFn_succ]

end lists

section

variable {P Ω : Type} [MeasurableSpace P] [MeasurableSpace Ω] {k : ℕ} {sp : Space} {prs : Fin k → Prior}
  {col : List P → List (String × PVal)} {loc : P → Pos} {dom : Set P} {dens : Fin k → P → ℝ → ℝ} {σs : Measure P}

theorem row_prob [IsProbabilityMeasure σs] (hdom : ∀ᵐ x ∂σs, x ∈ dom) (hd : ∀ j, HasDensity (prs j) loc dom (dens j)) :
    IsProbabilityMeasure (rowLaw σs dens) := by
  have hsam := fun j => HasDensity.sampled (hd j)
  choose hm value hvm hrun hlaw using hsam
  have hnew : Measurable fun ω : P × (Fin k → ℝ) => (ω.1, fun j => value j ω.1 (ω.2 j)) := by
    refine measurable_fst.prodMk (measurable_pi_lambda _ fun j => ?_)
    exact (hvm j).comp (measurable_fst.prodMk ((measurable_pi_apply j).comp measurable_snd))
  have hrow := row_law hm measurable_id Measure.map_id hdom hvm hlaw
  rw [← hrow]
  exact Measure.isProbabilityMeasure_map hnew.aemeasurable

theorem dens_meas (hd : ∀ j, HasDensity (prs j) loc dom (dens j)) : ∀ j, Measurable fun z : P × ℝ => dens j z.1 z.2 := by
  have hsam := fun j => HasDensity.sampled (hd j)
  choose hm value hvm hrun hlaw using hsam
  exact hm

/-- The states stand for the models. -/
theorem states_in {E : Type} [SigmaFinite (rowLaw σs dens)] (hdm : MeasurableSet dom) (hdom : ∀ᵐ x ∂σs, x ∈ dom) {lo hi : ℕ}
    (val : PSState → Tuple (P × (Fin k → ℝ))) (hval : ∀ l s, Holds col prs l s → val s = ofRows l)
    (state : Tuple (P × (Fin k → ℝ)) → Chain PSState Unit E)
    (hstate : ∀ x, ∃ l, l.Perm (List.ofFn x.2) ∧ Holds col prs l (state x).cur) :
    ∀ᵐ x ∂transPrior (rowLaw σs dens) lo hi, RowInv prs col lo hi (fun l => InDom dom (l.map Prod.fst)) (state x).cur ∧
      SameRows x (val (state x).cur) := by
  have hae : ∀ᵐ x ∂transPrior (rowLaw σs dens) lo hi, ∀ r ∈ List.ofFn x.2, r.1 ∈ dom := by
    refine ae_rows (rowLaw σs dens) (G := fun l : List (P × (Fin k → ℝ)) => ∀ r ∈ l, r.1 ∈ dom)
      (fun r hr => absurd hr (List.not_mem_nil)) ?_ ?_ _ _
    · intro n
      have : {v : Fin n → P × (Fin k → ℝ) | ∀ r ∈ List.ofFn v, r.1 ∈ dom} = ⋂ i, {v | (v i).1 ∈ dom} := by
        ext v
        simp only [Set.mem_iInter, Set.mem_ofPred_eq, List.forall_mem_ofFn_iff]
      rw [this]
      exact .iInter fun i => (measurable_fst.comp (measurable_pi_apply (X := fun _ => P × (Fin k → ℝ)) i)) hdm
    · intro l hin
      have e2 : ∀ᵐ r ∂(σs.prod (volume : Measure (Fin k → ℝ))), r.1 ∈ dom := Measure.quasiMeasurePreserving_fst.ae hdom
      rw [rowLaw_eq]
      refine (withDensity_absolutelyContinuous _ _).ae_le (e2.mono fun r hr r' hr' => ?_)
      rcases List.mem_cons.1 hr' with rfl | h
      · exact hr
      · exact hin r' h
  refine ((transPrior_dim _ _ _).and hae).mono fun x hx => ?_
  obtain ⟨l, e1, e3⟩ := hstate x
  have hlen : l.length = x.1 := by rw [e1.length_eq, List.length_ofFn]
  refine ⟨⟨l, e3, by rw [hlen]; exact hx.1.1, by rw [hlen]; exact hx.1.2, fun y hy => ?_⟩, ?_⟩
  · obtain ⟨r, hr, rfl⟩ := List.mem_map.1 hy
    exact hx.2 r (e1.subset hr)
  · rw [hval _ _ e3]
    unfold SameRows
    rw [rows_ofRows]
    exact e1.symm

/-- Almost all models have their sites in general position. -/
theorem generic_ae [SigmaFinite (rowLaw σs dens)] [MeasurableEq P] {d : P → P → ℝ} (hdm : MeasurableSet dom)
    (hdom : ∀ᵐ x ∂σs, x ∈ dom) (hdist : Measurable fun z : P × P => d z.1 z.2) (hnull : NullSites d σs) (lo hi : ℕ) :
    ∀ᵐ x ∂transPrior (rowLaw σs dens) lo hi, Generic d ((List.ofFn x.2).map Prod.fst) ∧ ∀ r ∈ List.ofFn x.2, r.1 ∈ dom := by
  refine ae_rows (rowLaw σs dens) (G := fun l : List (P × (Fin k → ℝ)) => Generic d (l.map Prod.fst) ∧ ∀ r ∈ l, r.1 ∈ dom)
    ⟨⟨List.nodup_nil, fun a ha => absurd ha (List.not_mem_nil)⟩, fun r hr => absurd hr (List.not_mem_nil)⟩ ?_ ?_ _ _
  · intro n
    have hf : Measurable fun v : Fin n → P × (Fin k → ℝ) => fun i => (v i).1 :=
      measurable_pi_lambda _ fun i => measurable_fst.comp (measurable_pi_apply i)
    have e1 := hf (generic_meas hdist n)
    have e2 : MeasurableSet {v : Fin n → P × (Fin k → ℝ) | ∀ i, (v i).1 ∈ dom} := by
      have : {v : Fin n → P × (Fin k → ℝ) | ∀ i, (v i).1 ∈ dom} = ⋂ i, {v | (v i).1 ∈ dom} := by
        ext v
        simp only [Set.mem_iInter, Set.mem_ofPred_eq]
      rw [this]
      exact .iInter fun i => (measurable_fst.comp (measurable_pi_apply (X := fun _ => P × (Fin k → ℝ)) i)) hdm
    refine (congrArg MeasurableSet (Set.ext fun v => ?_)).mp (e1.inter e2)
    simp only [Set.mem_inter_iff, Set.mem_preimage, Set.mem_ofPred_eq, List.map_ofFn, List.forall_mem_ofFn_iff]
    rfl
  · rintro l ⟨hg, hin⟩
    have e1 : ∀ᵐ s ∂σs, Generic d (s :: l.map Prod.fst) ∧ s ∈ dom := (generic_cons hnull hg).and hdom
    have e2 : ∀ᵐ r ∂(σs.prod (volume : Measure (Fin k → ℝ))), Generic d (r.1 :: l.map Prod.fst) ∧ r.1 ∈ dom :=
      Measure.quasiMeasurePreserving_fst.ae e1
    rw [rowLaw_eq]
    refine (withDensity_absolutelyContinuous _ _).ae_le (e2.mono fun r hr => ⟨hr.1, fun r' hr' => ?_⟩)
    rcases List.mem_cons.1 hr' with rfl | h
    · exact hr.2
    · exact hin r' h

/-- The states stand for the models. -/
theorem states_near {E : Type} [SigmaFinite (rowLaw σs dens)] [MeasurableEq P] {d : P → P → ℝ} {ok : List P → Prop}
    (hdm : MeasurableSet dom) (hdom : ∀ᵐ x ∂σs, x ∈ dom) (hdist : Measurable fun z : P × P => d z.1 z.2) (hnull : NullSites d σs)
    {lo hi : ℕ}
    (val : PSState → Tuple (P × (Fin k → ℝ))) (hval : ∀ l s, Holds col prs l s → val s = ofRows l)
    (state : Tuple (P × (Fin k → ℝ)) → Chain PSState Unit E)
    (hstate : ∀ x, ∃ l, l.Perm (List.ofFn x.2) ∧ ok (l.map Prod.fst) ∧ Holds col prs l (state x).cur) :
    ∀ᵐ x ∂transPrior (rowLaw σs dens) lo hi, RowInv prs col lo hi (fun l => NearDom d ok dom (l.map Prod.fst)) (state x).cur ∧
      SameRows x (val (state x).cur) := by
  have hin := states_in (E := E) hdm hdom (lo := lo) (hi := hi) val hval state
    (fun x => by
      obtain ⟨l, e1, -, e3⟩ := hstate x
      exact ⟨l, e1, e3⟩) (dens := dens)
  have hae := generic_ae (dens := dens) hdm hdom hdist hnull lo hi
  refine (hin.and hae).mono fun x hx => ⟨?_, hx.1.2⟩
  obtain ⟨l, e1, e2, e3⟩ := hstate x
  obtain ⟨l', e1', h1, h2, -⟩ := hx.1.1
  have hll : l.length = l'.length := by rw [← e3.1, e1'.1]
  refine ⟨l, e3, hll ▸ h1, hll ▸ h2, hx.2.1.perm (e1.map _), e2, fun y hy => ?_⟩
  obtain ⟨r, hr, rfl⟩ := List.mem_map.1 hy
  exact hx.2.2 r (e1.subset hr)

/-- The perturbation of values. -/
theorem values_part [SigmaFinite σs] [Nonempty P] (hst : Stored prs col loc) (hd : ∀ j, HasDensity (prs j) loc dom (dens j))
    (hc : ∀ j, NotCustom (prs j)) {std : Fin k → P → ℝ} (hsm : ∀ j, Measurable (std j))
    (hstd : ∀ j, ∀ x ∈ dom, (prs j).std.get (loc x) = .ok (std j x)) (name : String) (w : ℝ)
    {GS : List P → Prop} (hGS : ∀ xs, GS xs → ∀ x ∈ xs, x ∈ dom) {lo hi : ℕ} (hlo : 1 ≤ lo)
    (val : PSState → Tuple (P × (Fin k → ℝ))) (hval : ∀ l s, Holds col prs l s → val s = ofRows l)
    (logLik : Tuple (P × (Fin k → ℝ)) → ℝ) (T : ℝ) :
    Part (funcsChain [(PSFunc.values name (List.ofFn prs), w)] val logLik)
      (transPrior ((σs.prod volume).withDensity fun r => ENNReal.ofReal (priorDens dens r)) lo hi) logLik T
      (fun _ => walkDraws) ((uniformNat hi.factorial).prod (walkLaw k)) val (RowInv prs col lo hi fun l => GS (l.map Prod.fst)) SameRows :=
  ⟨valuesScheme σs dens std lo hi, rfl, rfl, values_ok (dens_meas hd) hsm lo hi _, values_lumps hsm lo hi,
    values_reports hst hd hc hstd name w hGS hlo val hval logLik T σs⟩

omit [MeasurableSpace P] in
theorem addRow_in {hi : ℕ} {x : Tuple (P × (Fin k → ℝ))} (hx : ∀ i, (x.2 i).1 ∈ dom) (m : ℕ) {y : P × (Fin k → ℝ)}
    (hy : y.1 ∈ dom) : ∀ i, ((addRow hi x m y).2 i).1 ∈ dom := by
  by_cases hc : x.1 = hi
  · rw [show addRow hi x m y = x from if_pos hc]
    exact hx
  · rw [show addRow hi x m y = tup (x.1 + 1) ((Fin.ofNat (x.1 + 1) m).insertNth y x.2) from if_neg hc]
    intro i
    show (((Fin.ofNat (x.1 + 1) m).insertNth y x.2 : Fin (x.1 + 1) → P × (Fin k → ℝ)) i).1 ∈ dom
    change Fin (x.1 + 1) at i
    by_cases h : i = Fin.ofNat (x.1 + 1) m
    · subst h
      rw [Fin.insertNth_apply_same]
      exact hy
    · obtain ⟨j, rfl⟩ := Fin.exists_succAbove_eq h
      rw [Fin.insertNth_apply_succAbove]
      exact hx j

omit [MeasurableSpace P] in
theorem removeRow_in {lo hi : ℕ} {x : Tuple (P × (Fin k → ℝ))} (hx : ∀ i, (x.2 i).1 ∈ dom) (m : ℕ) :
    ∀ i, ((removeRow lo hi x m).2 i).1 ∈ dom := by
  by_cases hc : x.1 = lo ∨ hi < x.1
  · rw [show removeRow lo hi x m = x from if_pos hc]
    exact hx
  · obtain ⟨n, v⟩ := x
    cases n with
    | zero =>
      rw [show removeRow lo hi ⟨0, v⟩ m = ⟨0, v⟩ from if_neg hc]
      exact hx
    | succ n =>
      rw [show removeRow lo hi ⟨n + 1, v⟩ m = ⟨n, (Fin.ofNat (n + 1) m).removeNth v⟩ from if_neg hc]
      exact fun i => hx _

omit [MeasurableSpace P] in
theorem in_rows {l : List (P × (Fin k → ℝ))} : (∀ i, ((ofRows l).2 i).1 ∈ dom) ↔ InDom dom (l.map Prod.fst) := by
  unfold InDom
  rw [List.forall_mem_map]
  constructor
  · intro h r hr
    obtain ⟨i, hi⟩ := List.mem_iff_get.1 hr
    rw [← hi]
    exact h i
  · intro h i
    exact h _ (List.get_mem l i)

/-- Births from the prior and deaths. -/
theorem births_scheme [IsProbabilityMeasure σs] {μ : Measure Ω} [IsProbabilityMeasure μ] {site : Ω → P} {pre : ℕ → Ω → List Draw}
    (hst : Steps sp prs col loc dom μ site pre) (hlh : sp.info.lo < sp.info.hi) (hdm : MeasurableSet dom)
    (hs : Measurable site) (hσ : μ.map site = σs) (hd : ∀ j, HasDensity (prs j) loc dom (dens j))
    (val : PSState → Tuple (P × (Fin k → ℝ))) (hval : ∀ l s, Holds col prs l s → val s = ofRows l)
    (logLik : Tuple (P × (Fin k → ℝ)) → ℝ) (T : ℝ) :
    ∃ p : Scheme (Tuple (P × (Fin k → ℝ))) (ℕ × (Ω × (Fin k → ℝ))) 2, p.prior = transPrior (rowLaw σs dens) sp.info.lo sp.info.hi ∧
      p.draws = drawsLaw prs sp.info.hi μ ∧ p.Ok (weight (funcsChain [(PSFunc.birth sp, 1), (PSFunc.death sp, 1)] val logLik)) ∧
      p.Lumps SameRows ∧ Reports (funcsChain [(PSFunc.birth sp, 1), (PSFunc.death sp, 1)] val logLik) p logLik T
        (birthDeathDraws sp prs pre) val (RowInv prs col sp.info.lo sp.info.hi fun l => InDom dom (l.map Prod.fst)) SameRows ∧
      ∃ μ' new common, IsProbabilityMeasure μ' ∧ p = birthDeath (rowLaw σs dens) μ' new sp.info.lo sp.info.hi common := by
  have hsam := fun j => HasDensity.sampled (hd j)
  choose hm value hvm hrun hlaw using hsam
  have hnew : Measurable fun ω : Ω × (Fin k → ℝ) => (site ω.1, fun j => value j (site ω.1) (ω.2 j)) := by
    refine (hs.comp measurable_fst).prodMk (measurable_pi_lambda _ fun j => ?_)
    exact (hvm j).comp ((hs.comp measurable_fst).prodMk ((measurable_pi_apply j).comp measurable_snd))
  have hsite : ∀ᵐ ω ∂μ, site ω ∈ dom := hst.birth.mono fun ω hω => hω.1
  have hdom : ∀ᵐ x ∂σs, x ∈ dom := by
    rw [← hσ]
    exact (ae_map_iff hs.aemeasurable hdm).2 hsite
  have hrow := row_law hm hs hσ hdom hvm hlaw
  have hprob : IsProbabilityMeasure (rowLaw σs dens) := by
    rw [← hrow]
    exact Measure.isProbabilityMeasure_map hnew.aemeasurable
  have := uniformNat_prob (Nat.factorial_ne_zero sp.info.hi)
  have hinv : RowInv prs col sp.info.lo sp.info.hi (fun l => InDom dom (l.map Prod.fst)) =
      fun s => (∃ l, Holds col prs l s ∧ sp.info.lo ≤ l.length ∧ l.length ≤ sp.info.hi) ∧ ∀ i, ((val s).2 i).1 ∈ dom := by
    funext s
    refine propext (Iff.symm ?_)
    constructor
    · rintro ⟨⟨l, h1, h2, h3⟩, h4⟩
      rw [hval l s h1] at h4
      exact ⟨l, h1, h2, h3, in_rows.1 h4⟩
    · rintro ⟨l, h1, h2, h3, h4⟩
      refine ⟨⟨l, h1, h2, h3⟩, ?_⟩
      rw [hval l s h1]
      exact in_rows.2 h4
  refine ⟨birthDeath (rowLaw σs dens) (μ.prod (Measure.pi fun j => devLaw (prs j).dist)) (rowOf site value)
      sp.info.lo sp.info.hi (pairs (rowLaw σs dens) sp.info.lo sp.info.hi), rfl, rfl, birthDeath_ok hnew hrow hlh rfl,
    birthDeath_lumps _ _ _, ?_, _, _, _, inferInstance, rfl⟩
  rw [hinv]
  refine reports_and (birthDeath_reports hst hlh hrun val hval logLik T _ _) (Q := fun x => ∀ i, (x.2 i).1 ∈ dom) ?_ ?_
  · intro x y hxy
    have e : ∀ x : Tuple (P × (Fin k → ℝ)), (∀ i, (x.2 i).1 ∈ dom) ↔ ∀ r ∈ List.ofFn x.2, r.1 ∈ dom := fun x => by
      rw [List.forall_mem_ofFn_iff]
    rw [e, e]
    exact ⟨fun h r hr => h r (hxy.symm.subset hr), fun h r hr => h r (hxy.subset hr)⟩
  · rintro ⟨i, hi⟩ x hx
    have hi2 : i < 2 := hi
    rcases i with _ | _ | i
    · have h1 : ∀ᵐ ω ∂μ.prod (Measure.pi fun j => devLaw (prs j).dist), site ω.1 ∈ dom :=
        Measure.quasiMeasurePreserving_fst.ae hsite
      have h2 : ∀ᵐ θ ∂(uniformNat sp.info.hi.factorial).prod (μ.prod (Measure.pi fun j => devLaw (prs j).dist)),
          site θ.2.1 ∈ dom := Measure.quasiMeasurePreserving_snd.ae h1
      refine h2.mono fun θ hθ => ?_
      exact addRow_in hx θ.1 hθ
    · exact .of_forall fun θ => removeRow_in hx θ.1
    · omega

/-- Births from the prior and deaths satisfy the conditions of C09. -/
theorem births_part [IsProbabilityMeasure σs] {μ : Measure Ω} [IsProbabilityMeasure μ] {site : Ω → P} {pre : ℕ → Ω → List Draw}
    (hst : Steps sp prs col loc dom μ site pre) (hlh : sp.info.lo < sp.info.hi) (hdm : MeasurableSet dom)
    (hs : Measurable site) (hσ : μ.map site = σs) (hd : ∀ j, HasDensity (prs j) loc dom (dens j))
    (val : PSState → Tuple (P × (Fin k → ℝ))) (hval : ∀ l s, Holds col prs l s → val s = ofRows l)
    (logLik : Tuple (P × (Fin k → ℝ)) → ℝ) (T : ℝ) :
    Part (funcsChain [(PSFunc.birth sp, 1), (PSFunc.death sp, 1)] val logLik) (transPrior (rowLaw σs dens) sp.info.lo sp.info.hi)
      logLik T (birthDeathDraws sp prs pre) (drawsLaw prs sp.info.hi μ) val
      (RowInv prs col sp.info.lo sp.info.hi fun l => InDom dom (l.map Prod.fst)) SameRows := by
  obtain ⟨p, h1, h2, h3, h4, h5, -⟩ := births_scheme hst hlh hdm hs hσ hd val hval logLik T
  exact ⟨p, h1, h2, h3, h4, h5⟩

/-- Births from the nearest neighbour and deaths. -/
theorem near_part [MeasurableEq P] [MeasurableEq (P × (Fin k → ℝ))] [IsProbabilityMeasure σs] {μ : Measure Ω} [IsProbabilityMeasure μ]
    {site : Ω → P} {pre : ℕ → Ω → List Draw} {d : P → P → ℝ} {ok : List P → Prop} {std : Fin k → P → ℝ}
    (hst : NearSteps sp prs col d ok dom μ site pre std dens) (h1 : 1 ≤ sp.info.lo) (hlh : sp.info.lo < sp.info.hi)
    (hs : Measurable site) (hσ : μ.map site = σs) (hdom : ∀ᵐ x ∂σs, x ∈ dom)
    (hdist : Measurable fun z : P × P => d z.1 z.2) (hd : ∀ j, HasDensity (prs j) loc dom (dens j))
    (hstd : ∀ j, Measurable (std j)) (hpos : ∀ j, ∀ s ∈ dom, 0 < std j s)
    (val : PSState → Tuple (P × (Fin k → ℝ))) (hval : ∀ l s, Holds col prs l s → val s = ofRows l)
    (logLik : Tuple (P × (Fin k → ℝ)) → ℝ) (T : ℝ) :
    Part (funcsChain [(PSFunc.birth sp, 1), (PSFunc.death sp, 1)] val logLik) (transPrior (rowLaw σs dens) sp.info.lo sp.info.hi)
      logLik T (nearDraws sp pre) (nearDrawsLaw k sp.info.hi μ) val
      (RowInv prs col sp.info.lo sp.info.hi fun l => NearDom d ok dom (l.map Prod.fst)) SameRows := by
  have hprob : IsProbabilityMeasure (rowLaw σs dens) := row_prob hdom hd
  have hm := dens_meas hd
  have hprob' := hprob
  rw [rowLaw_eq] at hprob'
  have hq : Measurable fun z : Tuple (P × (Fin k → ℝ)) × (P × (Fin k → ℝ)) => nearDens d std z.1 z.2 :=
    nearDens_meas hdist hstd
  have hcs : ∀ x x' : Tuple (P × (Fin k → ℝ)), SameRows x x' → center d x = center d x' := fun x x' h => by
    funext s j
    exact center_same h s j
  suffices H : Part (funcsChain [(PSFunc.birth sp, 1), (PSFunc.death sp, 1)] val logLik)
      (transPrior (rowLaw σs dens) sp.info.lo sp.info.hi) logLik T (nearDraws sp pre) (nearDrawsLaw k sp.info.hi μ) val
      (NearInv sp prs col d ok dom) SameRows by
    refine H.mono fun s => ?_
    unfold NearInv RowInv GoodRows NearDom
    simp only [List.forall_mem_map]
  refine ⟨nearScheme (σs.prod volume) d std dens μ site sp.info.lo sp.info.hi,
    ?_, rfl, birthDeathFrom_ok (priorDens_meas hm) (priorDens_nonneg dens) hq (nearDens_nonneg d std) (nearRow_meas hdist hstd hs)
      (nearRow_law hdist hstd hs hσ hdom hpos) hlh rfl,
    birthDeathFrom_lumps (nearDens_nonneg d std) (fun x x' h => by
        funext r
        unfold nearDens
        rw [hcs x x' h])
      fun x x' h => by
        funext ω
        unfold nearRow
        rw [hcs x x' h], near_reports hst h1 hlh val hval logLik T _⟩
  rw [rowLaw_eq]
  rfl

end

section site

variable {P α : Type} [MeasurableSpace P] [MeasurableSpace α] {lam : Measure P} {dom : Set P} {γ : Measure α}
  [IsProbabilityMeasure γ] {step : P → α → P} {κ : P × P → ℝ}

theorem dom_stays (h : SiteStep lam dom γ step κ) (xs : List P) (hx : InDom dom xs) (i : ℕ) (hi : i < xs.length) :
    ∀ᵐ ω ∂Measure.infinitePi fun _ : ℕ => γ, ∀ ys, ys.Perm (xs.set i (landIn step dom xs[i] ω)) → InDom dom ys := by
  filter_upwards [landIn_mem h.step_meas h.dom_meas (h.stays xs[i])] with ω hω ys hp y hy
  rcases List.mem_or_eq_of_mem_set (hp.subset hy) with h1 | rfl
  · exact hx y h1
  · exact landIn_in hω

theorem near_stays [SigmaFinite lam] (h : SiteStep lam dom γ step κ) {d : P → P → ℝ} {ok : List P → Prop} (htop : lam dom ≠ ⊤)
    (hnull : NullSites d lam[|dom]) (xs : List P) (hx : NearDom d ok dom xs) (i : ℕ) (hi : i < xs.length) :
    ∀ᵐ ω ∂Measure.infinitePi fun _ : ℕ => γ, ∀ ys, ys.Perm (xs.set i (landIn step dom xs[i] ω)) → ok ys → NearDom d ok dom ys := by
  have hland : Measurable (landIn step dom xs[i]) := (landIn_meas h.step_meas h.dom_meas).comp measurable_prodMk_left
  have hg : Generic d (xs.eraseIdx i) := (hx.1.perm (eraseIdx_perm hi).symm).tail
  have h1 := generic_cons hnull hg
  have hac : (Measure.infinitePi fun _ : ℕ => γ).map (landIn step dom xs[i]) ≪ lam[|dom] := by
    rw [landIn_law h.step_meas h.dom_meas h.kernel_meas h.law (h.stays _)]
    exact (withDensity_absolutelyContinuous _ _).trans (Measure.absolutelyContinuous_smul (ENNReal.inv_ne_zero.2 htop))
  have h2 := ae_of_ae_map hland.aemeasurable (hac.ae_le h1)
  filter_upwards [dom_stays h xs hx.2.2 i hi, h2] with ω hω hω2 ys hp hok
  refine ⟨hω2.perm (hp.trans ?_), hok, hω ys hp⟩
  have := eraseIdx_perm (l := xs.set i (landIn step dom xs[i] ω)) (i := i) (by rw [List.length_set]; exact hi)
  rw [List.getElem_set_self, List.eraseIdx_set_eq] at this
  exact this

end site

end BB.Lemmas
