import Verif.Props.C83_WholeAverages
import Verif.Lemmas.WholeStart

/-!
# C84 — whole inversions from their start

`BayesianInversion(…)` makes its chains itself: the number of dimensions of each space is drawn, then the sites, then the values at the
sites, and then the unknown noise of the targets.  The construction succeeds with probability one and gives a chain from which the
iterations of C78–C83 can be made; the law of its model is given, and it is the prior if all numbers of dimensions are allowed at the start.
No assumption about the first model is left in the theorems about any number of iterations: they are completed with probability one; their
models converge; and the averages over the saved samples converge.  In the plane, Gaussian and Laplacian priors the mean or standard
deviation of which depend on the position cannot be started from, unless there is one cell.
-/

namespace BB.Props

open BB Spec Lemmas MeasureTheory ProbabilityTheory

variable {E : Type} {p : Problem} {S : ℕ → Beginning} {logLik : Whole p (fun i => (S i).block) → ℝ}

/-- With probability one, the construction succeeds and its chain is ready for iterations. -/
theorem C84_ready (h : AnyProblem p (fun i => (S i).block) logLik) (hS : AllStart p S) (w : E) :
    newChainLaw p S w ({c | Ready p (fun i => (S i).block) 1 c ∧ c.saved = [] ∧ c.total = 0}.indicator 1) = 1 := by
  obtain ⟨-, -, -, hp, -⟩ := whole_start h hS
  rw [newChain_mean h hS w _ (fun _ => 1) measurable_const, lintegral_one, measure_univ]
  refine Filter.Eventually.of_forall fun x c h1 h2 h3 _ => ?_
  rw [Set.indicator_of_mem (show c ∈ {c | Ready p (fun i => (S i).block) 1 c ∧ c.saved = [] ∧ c.total = 0} from ⟨h1, h2, h3⟩)]
  rfl

/-- The law of the first model. -/
theorem C84_start (h : AnyProblem p (fun i => (S i).block) logLik) (hS : AllStart p S) (w : E)
    (A : Set (Whole p fun i => (S i).block)) (hA : MeasurableSet A) (hAr : Invariant SameWhole A) :
    newChainLaw p S w ({c | wholeOf p (fun i => (S i).block) c.cur.params ∈ A}.indicator 1) = firstLaw p S A := by
  rw [newChain_mean h hS w _ (A.indicator 1) (measurable_one.indicator hA), lintegral_indicator_one hA]
  refine Filter.Eventually.of_forall fun x c _ _ _ h4 => ?_
  by_cases hx : x ∈ A
  · rw [Set.indicator_of_mem hx, Set.indicator_of_mem (show c ∈ {c | wholeOf p (fun i => (S i).block) c.cur.params ∈ A} from
      (hAr _ _ h4).1 hx)]
    rfl
  · rw [Set.indicator_of_notMem hx, Set.indicator_of_notMem
      (show c ∉ {c | wholeOf p (fun i => (S i).block) c.cur.params ∈ A} from fun hy => hx ((hAr _ _ h4).2 hy))]

theorem started_prior {sp : Space} {b : Beginning} (h : Started sp b) (hm : Makes sp b) (ht : startTop sp.info = sp.info.hi) :
    b.law = (b.block.prior Set.univ)⁻¹ • b.block.prior := by
  have key : ∀ {X : Type} [MeasurableSpace X] (μ ν : Measure X) (c : ENNReal), IsProbabilityMeasure μ → c ≠ 0 → c ≠ ⊤ → μ = c⁻¹ • ν →
      μ = (ν Set.univ)⁻¹ • ν := by
    intro X _ μ ν c hμ h0 h1 e
    have : c⁻¹ * ν Set.univ = 1 := by
      rw [← smul_eq_mul, ← Measure.smul_apply, ← e, measure_univ]
    rw [← ENNReal.eq_inv_of_mul_eq_one_left this]
    exact e
  have hp := hm.2.1
  have hr : ∀ {P : Type} [MeasurableSpace P] {k : ℕ} (σ : Measure P) (dens : Fin k → P → ℝ → ℝ),
      IsProbabilityMeasure (((startTop sp.info - sp.info.lo + 1 : ℕ) : ENNReal)⁻¹ •
        transPrior (rowLaw σ dens) sp.info.lo (startTop sp.info)) →
      ((startTop sp.info - sp.info.lo + 1 : ℕ) : ENNReal)⁻¹ • transPrior (rowLaw σ dens) sp.info.lo (startTop sp.info) =
        (transPrior (rowLaw σ dens) sp.info.lo sp.info.hi Set.univ)⁻¹ • transPrior (rowLaw σ dens) sp.info.lo sp.info.hi := by
    intro P _ k σ dens hq
    refine key _ _ ((startTop sp.info - sp.info.lo + 1 : ℕ) : ENNReal) hq ?_ (ENNReal.natCast_ne_top _) ?_
    · exact Nat.cast_ne_zero.2 (Nat.succ_ne_zero _)
    · rw [ht]
  cases h with
  | plain => exact hr _ _ hp
  | line => exact hr _ _ hp
  | plane => exact hr _ _ hp

theorem noise_prior {ts : List Target} (h : ProperAll ts) :
    (noiseBeginning ts).law = ((noiseBeginning ts).block.prior Set.univ)⁻¹ • (noiseBeginning ts).block.prior := by
  have : ∀ q, IsProbabilityMeasure (flatLaw (noiseRanges ts q)) := fun q => flatLaw_prob fun r hr => h q r hr
  have h2 : ∀ q, IsFiniteMeasure (flat (noiseRanges ts q)) := fun q => by
    cases noiseRanges ts q <;> (unfold flat; infer_instance)
  have e : ∀ q, flatLaw (noiseRanges ts q) = (flat (noiseRanges ts q) Set.univ)⁻¹ • flat (noiseRanges ts q) := by
    intro q
    cases noiseRanges ts q with
    | none => simp [flat, flatLaw]
    | some r =>
      unfold flat flatLaw
      rw [Measure.restrict_apply_univ]
      rfl
  exact pi_normalised _ _ e

/-- If all numbers of dimensions are allowed at the start, the first model is drawn from the prior. -/
theorem C84_prior (h : AnyProblem p (fun i => (S i).block) logLik) (hS : AllStart p S)
    (hall : ∀ kv ∈ p.spaces, kv.2.info.nDim = none → kv.2.info.initRange = 1) (w : E)
    (A : Set (Whole p fun i => (S i).block)) (hA : MeasurableSet A) (hAr : Invariant SameWhole A) :
    newChainLaw p S w ({c | wholeOf p (fun i => (S i).block) c.cur.params ∈ A}.indicator 1) =
      wholePrior p (fun i => (S i).block) A / wholePrior p (fun i => (S i).block) Set.univ := by
  rw [C84_start h hS w A hA hAr]
  have hfi : ∀ i : Fin p.cfg.perturbs.length, IsFiniteMeasure (S i).block.prior := fun i => (whole_regular h i).finite
  have hpr : ∀ i : Fin p.cfg.perturbs.length, IsProbabilityMeasure (S i).law := fun i => (block_yields h hS i).2.1
  have e : ∀ i : Fin p.cfg.perturbs.length, (S i).law = ((S i).block.prior Set.univ)⁻¹ • (S i).block.prior := by
    intro i
    rcases whole_cases h i with ⟨sp, hsp, -, -⟩ | ⟨hi, hne, -, -⟩
    · have hs := hS.spaces _ _ _ hsp
      refine started_prior hs (started_makes hs) ?_
      have := hall _ (List.mem_of_getElem? hsp)
      unfold startTop Info.hi
      cases hn : sp.info.nDim with
      | some n => simp
      | none =>
        simp only
        rw [this hn, one_mul, add_sub_cancel, Nat.floor_natCast]
        rfl
    · have hb := hS.noise hne
      rw [← hi] at hb
      have key : ∀ b : Beginning, b = noiseBeginning p.hier → b.law = (b.block.prior Set.univ)⁻¹ • b.block.prior := by
        rintro b rfl
        exact noise_prior h.bounds
      exact key _ hb
  have := pi_normalised (fun i : Fin p.cfg.perturbs.length => (S i).law) (fun i => (S i).block.prior) e
  change Measure.pi (fun i : Fin p.cfg.perturbs.length => (S i).law) A = _
  rw [this, Measure.smul_apply, smul_eq_mul, mul_comm, div_eq_mul_inv]
  rfl

/-- Any number of iterations after the start are completed. -/
theorem C84_completed (h : AnyProblem p (fun i => (S i).block) logLik) (hn : PlainNames p) (hS : AllStart p S) {b s : ℤ} (hs : s ≠ 0)
    (w : E) (n : ℕ) :
    newChainLaw p S w (fun c => IterationsLaw p.cfg b s (wholeDraws p fun i => (S i).block) (wholeLaw p fun i => (S i).block)
      (fun st => wholeOf p (fun i => (S i).block) st.params) n c Set.univ) = 1 := by
  obtain ⟨-, -, -, hp, -⟩ := whole_start h hS
  rw [newChain_mean h hS w _ (fun _ => 1) measurable_const, lintegral_one, measure_univ]
  exact (any_complete (E := E) h hn one_ne_zero hs n).mono fun x hx c h1 _ _ h4 => hx c h1 h4

/-- After the start, the models converge. -/
theorem C84_converges (h : InversionOf p (fun i => (S i).block) Roaming logLik) (hn : PlainNames p) (hS : AllStart p S) {b s : ℤ}
    (hs : s ≠ 0) (hfin : posterior (wholePrior p fun i => (S i).block) logLik 1 Set.univ ≠ ⊤) (w : E) (ε : ℝ) (hε : 0 < ε) :
    ∃ n₀, ∀ n ≥ n₀, ∀ A, MeasurableSet A → Invariant SameWhole A →
      |(newChainLaw p S w (fun c => IterationsLaw p.cfg b s (wholeDraws p fun i => (S i).block) (wholeLaw p fun i => (S i).block)
          (fun st => wholeOf p (fun i => (S i).block) st.params) n c A)).toReal -
        (posterior ((wholePrior p fun i => (S i).block).withDensity fun x => ENNReal.ofReal (wholeStaying p (fun i => (S i).block) x))
            logLik 1 A /
          posterior ((wholePrior p fun i => (S i).block).withDensity fun x => ENNReal.ofReal (wholeStaying p (fun i => (S i).block) x))
            logLik 1 Set.univ).toReal| ≤ ε := by
  have ha := any_of_whole (inversion_mono (fun _ _ => roaming_modelled) h)
  obtain ⟨-, -, -, hp, hac, -⟩ := whole_start ha hS
  obtain ⟨P, h0, h1, h2⟩ := whole_limit (E := E) (b := b) (s := s) h hn one_ne_zero hs hfin
  obtain ⟨n₀, h₀⟩ := h2 (firstLaw p S) hac hε
  refine ⟨n₀, fun n hn' A hA hAr => ?_⟩
  rw [newChain_mean ha hS w _ (fun x => P n x A) (h0 n A hA)]
  · exact h₀ n hn' A hA
  · exact (h1 n).mono fun x hx c g1 _ _ g4 => hx c g1 g4 A hA hAr

/-- After the start, the averages over the saved samples converge: with a probability as close to one as desired, all lists of saved values
are those of one or more models, and the average over these models is close to the mean of the distribution that the iterations
preserve. -/
theorem C84_averages (h : InversionOf p (fun i => (S i).block) Roaming logLik) (hn : PlainNames p) (hS : AllStart p S) {b s : ℤ}
    (hs : s ≠ 0) (hfin : posterior (wholePrior p fun i => (S i).block) logLik 1 Set.univ ≠ ⊤) (w : E)
    (f : Whole p (fun i => (S i).block) → ℝ) (hf : Measurable f) (C : ℝ) (hC : ∀ x, |f x| ≤ C)
    (hfr : ∀ x y, SameWhole x y → f x = f y) (ε δ : ℝ) (hε : 0 < ε) (hδ : 0 < δ) :
    ∃ n₀, ∀ n ≥ n₀, 1 - ENNReal.ofReal ε ≤ newChainLaw p S w (fun c =>
      RunsLaw p.cfg b s (wholeDraws p fun i => (S i).block) (wholeLaw p fun i => (S i).block) (fun c' => ∃ sts,
        SavesStates p [] c'.saved sts ∧ (∀ st ∈ sts, HoldsAll p (fun i => (S i).block) st.params) ∧ sts ≠ [] ∧
        |averageModel p (fun i => (S i).block) f sts - meanOf (wholeSampled p (fun i => (S i).block) logLik 1) f| ≤ δ) n c) := by
  have ha := any_of_whole (inversion_mono (fun _ _ => roaming_modelled) h)
  obtain ⟨-, -, -, hp, hac, -⟩ := whole_start ha hS
  obtain ⟨n₀, h₀⟩ := whole_averaging (E := E) (b := b) (s := s) h hn hs 0 hfin (firstLaw p S) hac ⟨hf, C, hC⟩ hfr hε hδ
  refine ⟨n₀, fun n hn' => ?_⟩
  obtain ⟨g, hg, h1, h2⟩ := h₀ n hn'
  refine h1.trans (newChain_bound ha hS w _ g hg ?_)
  refine h2.mono fun x hx c g1 g2 g3 g4 => ?_
  have := hx c g1 g4 g3
  rw [g2] at this
  exact this

/-- Without tessellations and with known noise, the means are those of the posterior. -/
theorem C84_posterior (h : InversionOf p (fun i => (S i).block) Roaming logLik) (hn : PlainNames p) (hS : AllStart p S)
    (hplain : ∀ kv ∈ p.spaces, kv.2.info.kind = .plain) (hknown : p.hier = []) {b s : ℤ}
    (hs : s ≠ 0) (hfin : posterior (wholePrior p fun i => (S i).block) logLik 1 Set.univ ≠ ⊤) (w : E)
    (f : Whole p (fun i => (S i).block) → ℝ) (hf : Measurable f) (C : ℝ) (hC : ∀ x, |f x| ≤ C)
    (hfr : ∀ x y, SameWhole x y → f x = f y) (ε δ : ℝ) (hε : 0 < ε) (hδ : 0 < δ) :
    ∃ n₀, ∀ n ≥ n₀, 1 - ENNReal.ofReal ε ≤ newChainLaw p S w (fun c =>
      RunsLaw p.cfg b s (wholeDraws p fun i => (S i).block) (wholeLaw p fun i => (S i).block) (fun c' => ∃ sts,
        SavesStates p [] c'.saved sts ∧ (∀ st ∈ sts, HoldsAll p (fun i => (S i).block) st.params) ∧ sts ≠ [] ∧
        |averageModel p (fun i => (S i).block) f sts - meanOf (posterior (wholePrior p fun i => (S i).block) logLik 1) f| ≤ δ) n c) := by
  have hw : WholeProblem p (fun i => (S i).block) logLik := inversion_mono (fun _ _ => roaming_modelled) h
  have hpl : ∀ (i : ℕ) (nm : String) (sp : Space), p.spaces[i]? = some (nm, sp) → sp.info.kind = .plain :=
    fun i nm sp hi => hplain _ (List.mem_of_getElem? hi)
  have e : (wholePrior p fun i => (S i).block).withDensity (fun x => ENNReal.ofReal (wholeStaying p (fun i => (S i).block) x)) =
      wholePrior p fun i => (S i).block := by
    simp only [wholeStaying_one hw hpl hknown, ENNReal.ofReal_one]
    exact withDensity_one
  have := C84_averages h hn hS hs hfin w f hf C hC hfr ε δ hε hδ (b := b)
  unfold wholeSampled at this
  rw [e] at this
  exact this

/-! ### hyper-parameters that depend on the position in the plane -/

/-- A Gaussian or Laplacian prior with a hyper-parameter that depends on the position in the plane. -/
def InPlane (d : Dist) : Prop :=
  ∃ f h, d = .gaussian (.plane f) h ∨ d = .gaussian h (.plane f) ∨ d = .laplace (.plane f) h ∨ d = .laplace h (.plane f)

theorem getAll_plane {f : ℝ × ℝ → Option ℝ} {ps : List Pos} (h : ps.length ≠ 1) : Hyper.getAll (.plane f) ps = .error .valueError := by
  match ps, h with
  | [], _ => rfl
  | [_], h => exact absurd rfl h
  | _ :: _ :: _, _ => rfl

theorem post_lift_error {α : Type} {e : PyErr} {x : Except PyErr α} (h : x = .error e) : Post (M.lift x) fun _ => False := by
  subst h
  intro t a t' h
  cases h

theorem post_true {α : Type} (m : M α) : Post m fun _ => True := fun _ _ _ _ => trivial

theorem inPlane_prior {pr : Prior} (hi : pr.init = none) (hd : InPlane pr.dist) {ps : List Pos} (h : ps.length ≠ 1) :
    Post (pr.initialize ps) fun _ => False := by
  unfold Prior.initialize
  rw [hi]
  obtain ⟨f, g, hd | hd | hd | hd⟩ := hd <;> simp only [hd]
  · exact (post_lift_error (getAll_plane h)).bind' fun _ hx => hx.elim
  · exact (post_true _).bind' fun _ _ => (post_lift_error (getAll_plane h)).bind' fun _ hx => hx.elim
  · exact (post_lift_error (getAll_plane h)).bind' fun _ hx => hx.elim
  · exact (post_true _).bind' fun _ _ => (post_lift_error (getAll_plane h)).bind' fun _ hx => hx.elim

theorem inPlane_params {pr : Prior} (hi : pr.init = none) (hd : InPlane pr.dist) {sites : List Pos} (h : sites.length ≠ 1) :
    ∀ {ps : ParamList} {nm : String}, (nm, Param.prior pr) ∈ ps.toList → ∀ vals, Post (ps.initAt sites vals) fun _ => False
  | .nil, _, hm, _ => by cases hm
  | .cons m q rest, nm, hm, vals => by
    rw [ParamList.initAt]
    rw [ParamList.toList] at hm
    rcases List.mem_cons.1 hm with e | hm
    · obtain ⟨-, rfl⟩ := Prod.mk.inj e
      have h1 : Post ((Param.prior pr).initialize sites) fun _ => False := by
        rw [Param.initialize]
        exact (inPlane_prior hi hd h).bind' fun _ hx => hx.elim
      exact h1.bind' fun _ hx => hx.elim
    · exact (post_true _).bind' fun _ _ => inPlane_params hi hd h hm _

/-- With two or more cells in the plane, no chain can be made from a Gaussian or Laplacian prior the mean, standard deviation or scale of
which depends on the position: whatever the draws, an exception is raised. -/
theorem C84_plane_raises {p : Problem} {nm nm' : String} {info : Info} {ps : ParamList} {v : Vor2} {pr : Prior} {n : ℕ}
    (hsp : (nm, Space.mk info ps) ∈ p.spaces) (hk : info.kind = .vor2 v) (hn : info.nDim = some n) (h2 : 2 ≤ n)
    (hpr : (nm', Param.prior pr) ∈ ps.toList) (hi : pr.init = none) (hd : InPlane pr.dist) (w : E) (t : List Draw) :
    ∃ e, (p.newChain w t).1 = .error e := by
  have hinit : Post (Space.initialize (.mk info ps)) fun _ => False := by
    rw [Space.initialize]
    have h1 : Post info.initDim fun m => m = n := by
      unfold Info.initDim
      rw [hn]
      exact Post.pure' rfl
    refine h1.bind' fun m hm => ?_
    subst hm
    have h3 : Post (info.kind.sampleSites m) fun o => ∃ a, o = some a ∧ a.positions.length ≠ 1 := by
      unfold Kind.sampleSites
      rw [hk]
      refine (times_post (post_true _) m).bind' fun xs hxs => Post.pure' ⟨_, rfl, ?_⟩
      rw [if_neg (by omega), Arr.positions, List.length_map, hxs.1]
      omega
    refine h3.bind' fun o ho => ?_
    obtain ⟨a, rfl, ha⟩ := ho
    exact (inPlane_params hi hd ha hpr _).bind' fun _ hx => hx.elim
  have hvals : ∀ sps : Spaces, (nm, Space.mk info ps) ∈ sps → Post (Spaces.initValues sps) fun _ => False := by
    intro sps
    induction sps with
    | nil => intro hm; cases hm
    | cons kv rest ih =>
      intro hm
      obtain ⟨k, sp⟩ := kv
      rw [Spaces.initValues]
      rcases List.mem_cons.1 hm with e | hm
      · obtain ⟨-, rfl⟩ := Prod.mk.inj e
        exact hinit.bind' fun _ hx => hx.elim
      · exact (post_true _).bind' fun _ _ => (ih hm).bind' fun _ hx => hx.elim
  have hnew : Post (p.newChain w) fun _ => False := by
    unfold Problem.newChain
    have h1 : Post p.spaces.initialize fun _ => False := (hvals _ hsp).bind' fun _ hx => hx.elim
    have h3 : Post p.start fun _ => False := h1.bind' fun _ hx => hx.elim
    exact h3.bind' fun _ hx => hx.elim
  cases hr : p.newChain w t with
  | mk r t' =>
    cases r with
    | ok c => exact (hnew t c t' hr).elim
    | error e => exact ⟨e, rfl⟩

/-! ### all inversions have starts -/

/-- The values of a space can be initialized by the library. -/
structure Initial (sp : Space) : Prop where
  order : sp.info.lo ≤ sp.info.hi
  range : sp.info.nDim = none → 0 ≤ sp.info.initRange ∧ sp.info.initRange ≤ 1
  priors : ∀ nm pr, (nm, Param.prior pr) ∈ sp.params.toList → pr.init = none ∧ NotPlane pr

theorem initial_begins {k : ℕ} {sp : Space} {prs : Fin k → Prior} (h : Initial sp) (ho : OnlyPriors sp prs) : Begins sp prs where
  order := h.order
  range := h.range
  init := fun j => (h.priors (prs j).name (prs j) (by rw [ho.params]; exact List.mem_ofFn.2 ⟨j, rfl⟩)).1
  flat := fun j => (h.priors (prs j).name (prs j) (by rw [ho.params]; exact List.mem_ofFn.2 ⟨j, rfl⟩)).2

theorem general_perm {P : Type} (d : P → P → ℝ) {xs ys : List P} (hp : xs.Perm ys) (h : GeneralPosition d xs) : GeneralPosition d ys :=
  ⟨hp.nodup_iff.1 h.1, fun a ha b hb c hc => h.2 a (hp.mem_iff.2 ha) b (hp.mem_iff.2 hb) c (hp.mem_iff.2 hc)⟩

/-- Numbers for the arrays that are not initialized. -/
def zeros (k : ℕ) : ℕ → Fin k → List Draw := fun n _ => List.replicate n (indexDraw 0)

theorem explored_started {sp : Space} {b : Block} (h : Explored sp b) (hi : Initial sp) : ∃ S : Beginning, S.block = b ∧ Started sp S := by
  cases h with
  | known h =>
    cases h with
    | plain _ prs dens std h1 h2 h3 h4 =>
      exact ⟨_, rfl, .plain sp prs dens std _ _ (zeros _) h1 h2 (initial_begins hi h2.only) fun n _ => List.length_replicate⟩
    | fixed _ prs dens std h1 h2 h3 =>
      exact ⟨_, rfl, .plain sp prs dens std _ _ (zeros _) h1 h2 (initial_begins hi h2.only) fun n _ => List.length_replicate⟩
    | line _ prs v dens std h1 h2 =>
      exact ⟨_, rfl, .line sp prs v dens std _ _ _ _ h1 (initial_begins hi h1.only) (fun _ _ _ _ => trivial) fun _ _ => trivial⟩
    | plane _ prs v dens std h1 h2 =>
      exact ⟨_, rfl, .plane sp prs v dens std _ _ _ h1 (initial_begins hi h1.only) fun _ _ _ _ => trivial⟩
  | lineBirths _ prs v dens std h1 h2 h3 h4 =>
    exact ⟨_, rfl, .line sp prs v dens std _ _ _ _ h1 (initial_begins hi h1.only) (fun _ _ _ _ => trivial) fun _ _ => trivial⟩
  | lineNear _ prs v dens std stdBirth h1 h2 h3 h4 h5 h6 h7 =>
    exact ⟨_, rfl, .line sp prs v dens std _ _ _ _ h1 (initial_begins hi h1.only) (fun _ _ hp hg => general_perm _ hp hg) fun _ hx => hx⟩
  | planeBirths _ prs v dens std h1 h2 h3 h4 =>
    exact ⟨_, rfl, .plane sp prs v dens std _ _ _ h1 (initial_begins hi h1.only) fun _ _ _ _ => trivial⟩
  | planeNear _ prs v dens std stdBirth h1 h2 h3 h4 h5 h6 h7 =>
    exact ⟨_, rfl, .plane sp prs v dens std _ _ _ h1 (initial_begins hi h1.only) fun _ _ hp hg => general_perm _ hp hg⟩

/-- All inversions of C80–C83 the values of which are initialized by the library have starts. -/
theorem C84_applies {p : Problem} {B : ℕ → Block} {logLik : Whole p B → ℝ} (h : AnyProblem p B logLik)
    (hi : ∀ kv ∈ p.spaces, Initial kv.2) : ∃ S : ℕ → Beginning, (fun i => (S i).block) = B ∧ AllStart p S := by
  classical
  have hex : ∀ i : ℕ, ∃ b : Beginning, b.block = B i ∧ (∀ nm sp, p.spaces[i]? = some (nm, sp) → Started sp b) ∧
      (i = p.spaces.length → p.hier ≠ [] → b = noiseBeginning p.hier) := by
    intro i
    by_cases hl : i < p.spaces.length
    · have hsp : p.spaces[i]? = some (p.spaces[i].1, p.spaces[i].2) := List.getElem?_eq_getElem hl
      obtain ⟨b, h1, h2⟩ := explored_started (h.spaces _ _ _ hsp).2 (hi _ (List.getElem_mem hl))
      refine ⟨b, h1, fun nm sp hq => ?_, fun hc => absurd hc hl.ne⟩
      obtain ⟨-, rfl⟩ := Prod.mk.inj (Option.some.inj (hsp.symm.trans hq))
      exact h2
    · have hno : ∀ (nm : String) (sp : Space), p.spaces[i]? = some (nm, sp) → False := fun nm sp hq => by
        rw [List.getElem?_eq_none (not_lt.1 hl)] at hq
        cases hq
      by_cases hc : i = p.spaces.length ∧ p.hier ≠ []
      · refine ⟨noiseBeginning p.hier, ?_, fun nm sp hq => (hno nm sp hq).elim, fun _ _ => rfl⟩
        rw [hc.1, h.noise hc.2]
        rfl
      · exact ⟨{ block := B i, Θ := Unit, draws := 0, enc := fun _ => [], law := 0 }, rfl, fun nm sp hq => (hno nm sp hq).elim,
          fun h1 h2 => absurd ⟨h1, h2⟩ hc⟩
  choose S h1 h2 h3 using hex
  exact ⟨S, funext h1, fun i nm sp hq => h2 i nm sp hq, fun hne => h3 _ rfl hne⟩

/-! ### examples

Those of C82. -/

section Examples

theorem ex84_initial {sp : Space} (hp : sp.params.toList = [("a", Param.prior (exPriors23 0)), ("b", .prior (exPriors23 1))])
    (ho : sp.info.lo ≤ sp.info.hi) (hr : sp.info.initRange = 0.3) : Initial sp where
  order := ho
  range := fun _ => by rw [hr]; norm_num
  priors := by
    intro nm pr hm
    rw [hp] at hm
    rcases List.mem_cons.1 hm with e | hm
    · obtain ⟨-, e⟩ := Prod.mk.inj e
      obtain rfl := Param.prior.inj e
      exact ⟨rfl, trivial⟩
    · obtain ⟨-, e⟩ := Prod.mk.inj (List.mem_singleton.1 hm)
      obtain rfl := Param.prior.inj e
      exact ⟨rfl, ⟨nofun, nofun⟩⟩

theorem ex84_spaces (s : ArgSort) : ∀ kv ∈ (ex78p s).spaces, Initial kv.2 := by
  intro kv hkv
  obtain rfl := List.mem_singleton.1 hkv
  exact ex84_initial rfl le_rfl rfl

/-- Three cells on a line and unknown noise. -/
theorem ex84_start (s : ArgSort) : ∃ (S : ℕ → Beginning) (l : Whole (ex78p s) (fun i => (S i).block) → ℝ), AllStart (ex78p s) S ∧
    InversionOf (ex78p s) (fun i => (S i).block) Roaming l ∧ posterior (wholePrior (ex78p s) fun i => (S i).block) l 1 Set.univ ≠ ⊤ := by
  obtain ⟨S, hB, hS⟩ := C84_applies (any_of_whole (ex78_problem s)) (ex84_spaces s)
  have key : ∀ B, B = ex78B s → ∃ l : Whole (ex78p s) B → ℝ, InversionOf (ex78p s) B Roaming l ∧
      posterior (wholePrior (ex78p s) B) l 1 Set.univ ≠ ⊤ := by
    rintro _ rfl
    exact ⟨ex78l, ex82_problem s, ex80_fin s⟩
  obtain ⟨l, h1, h2⟩ := key _ hB
  exact ⟨S, l, hS, h1, h2⟩

/-- A start. -/
noncomputable def ex84S (s : ArgSort) : ℕ → Beginning := (ex84_start s).choose

/-- The log likelihood. -/
noncomputable def ex84l (s : ArgSort) : Whole (ex78p s) (fun i => (ex84S s i).block) → ℝ := (ex84_start s).choose_spec.choose

theorem ex84_all (s : ArgSort) : AllStart (ex78p s) (ex84S s) := (ex84_start s).choose_spec.choose_spec.1

theorem ex84_problem (s : ArgSort) : InversionOf (ex78p s) (fun i => (ex84S s i).block) Roaming (ex84l s) :=
  (ex84_start s).choose_spec.choose_spec.2.1

theorem ex84_fin (s : ArgSort) : posterior (wholePrior (ex78p s) fun i => (ex84S s i).block) (ex84l s) 1 Set.univ ≠ ⊤ :=
  (ex84_start s).choose_spec.choose_spec.2.2

theorem ex84_any (s : ArgSort) : AnyProblem (ex78p s) (fun i => (ex84S s i).block) (ex84l s) :=
  any_of_whole (inversion_mono (fun _ _ => roaming_modelled) (ex84_problem s))

example (s : ArgSort) := C84_ready (ex84_any s) (ex84_all s) ()

example (s : ArgSort) := C84_start (ex84_any s) (ex84_all s) ()

example (s : ArgSort) := C84_prior (ex84_any s) (ex84_all s) (fun kv hkv hn => by
  obtain rfl := List.mem_singleton.1 hkv
  cases hn) ()

example (s : ArgSort) := C84_completed (ex84_any s) (ex79_names s) (ex84_all s) (b := 10) (s := 5) (by norm_num) () 100

example (s : ArgSort) := C84_converges (ex84_problem s) (ex79_names s) (ex84_all s) (b := 10) (s := 5) (by norm_num) (ex84_fin s) ()
  (1 / 100) (by norm_num)

example (s : ArgSort) := C84_averages (ex84_problem s) (ex79_names s) (ex84_all s) (b := 10) (s := 5) (by norm_num) (ex84_fin s) ()

/-- Two spaces without sites, one with a variable number of dimensions. -/
theorem ex84q_start : ∃ (S : ℕ → Beginning) (l : Whole ex78q (fun i => (S i).block) → ℝ), AllStart ex78q S ∧
    InversionOf ex78q (fun i => (S i).block) Roaming l ∧ posterior (wholePrior ex78q fun i => (S i).block) l 1 Set.univ ≠ ⊤ := by
  obtain ⟨S, hB, hS⟩ := C84_applies (any_of_whole ex78q_problem) (fun kv hkv => by
    have h : kv ∈ [_, _] := hkv
    rcases List.mem_cons.1 h with rfl | h
    · exact ex84_initial rfl (by decide) rfl
    · obtain rfl := List.mem_singleton.1 h
      exact ex84_initial rfl le_rfl rfl)
  have key : ∀ B, B = ex78C → ∃ l : Whole ex78q B → ℝ, InversionOf ex78q B Roaming l ∧
      posterior (wholePrior ex78q B) l 1 Set.univ ≠ ⊤ := by
    rintro _ rfl
    exact ⟨_, ex82q_problem, ex82q_fin⟩
  obtain ⟨l, h1, h2⟩ := key _ hB
  exact ⟨S, l, hS, h1, h2⟩

example := C84_posterior ex84q_start.choose_spec.choose_spec.2.1 ex79q_names ex84q_start.choose_spec.choose_spec.1 ex83_plain rfl
  (b := 10) (s := 5) (by norm_num) ex84q_start.choose_spec.choose_spec.2.2 ()

/-- Two cells in the plane, and a Gaussian prior the mean of which is the first coordinate. -/
noncomputable def ex84p : Problem where
  spaces := [("s", .mk { name := "s", kind := .vor2 ⟨(0, 0), (1, 1), (1, 1), none, nofun, false⟩, nDim := some 2 }
    (.cons "a" (.prior { name := "a", dist := .gaussian (.plane fun q => some q.1) (.const 1), std := .const 1, stdBirth := .const 1,
                         hasPosition := true }) .nil))]
  kind := .targets
  tf := []

example (t : List Draw) : ∃ e, (ex84p.newChain () t).1 = .error e :=
  C84_plane_raises (List.mem_singleton_self _) rfl rfl le_rfl (List.mem_singleton_self _) rfl ⟨_, _, .inl rfl⟩ () t

end Examples

end BB.Props
