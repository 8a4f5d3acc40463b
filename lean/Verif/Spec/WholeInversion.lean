import Verif.Props.C76_Hierarchical
import Verif.Props.C77_OwnPerturbations
import Verif.Lemmas.SpacePert

/-!
# Specification: whole inversions

The parameters of an inversion consist of blocks: one for each parameter space, and one for the unknown noise.
-/

namespace BB.Spec

open BB BB.Props BB.Lemmas MeasureTheory ProbabilityTheory

/-- A block of parameters. -/
structure Block where
  /-- The values. -/
  X : Type
  [mX : MeasurableSpace X]
  /-- What the random numbers of a perturbation are made of. -/
  Θ : Type
  [mΘ : MeasurableSpace Θ]
  /-- The names of its entries in the dictionary of parameters. -/
  keys : List String
  /-- The parameters have such entries. -/
  holds : Params → Prop
  /-- The values in the parameters. -/
  val : Params → X
  /-- Values that stand for the same model. -/
  same : X → X → Prop
  /-- The prior (up to a factor). -/
  prior : Measure X
  /-- The probability (up to a factor) that nothing has to be drawn anew when the block is perturbed. -/
  staying : X → ℝ
  /-- The values of positive prior density. -/
  possible : Set X
  /-- The law of the random numbers of a perturbation. -/
  draws : Measure Θ
  /-- The draws of a perturbation, made of a number in `[0, 1)` and `Θ`. -/
  enc : State → ℝ × Θ → List Draw

attribute [instance] Block.mX Block.mΘ

/-- The prior times the probability that nothing has to be drawn anew. -/
noncomputable def Block.sampled (b : Block) : Measure b.X := b.prior.withDensity fun x => ENNReal.ofReal (b.staying x)

/-- The draws of the perturbation of a space: one to choose among the spaces of this name (of which there is one), one to
choose the function, and those of the function. -/
noncomputable def spaceDraws {Θ : Type} (sp : Space) (e : PSFunc → PSState → Θ → List Draw) (s : State) (z : ℝ × Θ) : List Draw :=
  indexDraw 0 :: unitDraw z.1 ::
    match dget s.params sp.info.name, choices sp.ownPert.funcs.length sp.ownPert.weights [unitDraw z.1] with
    | some (.ps st), (.ok j, _) => match sp.ownPert.funcs[j]? with
      | some f => e f st z.2
      | none => []
    | _, _ => []

/-- The block of a space with rows: sites (in `dom`, with the law `σ`) and the values of parameters (with the densities `dens`).
The sites are such that `apart`, and the library keeps them in an order such that `ok`. -/
noncomputable def rowsBlock {P Θ : Type} [MeasurableSpace P] [MeasurableSpace Θ] {k : ℕ} (sp : Space) (prs : Fin k → Prior)
    (col : List P → List (String × PVal)) (dom : Set P) (apart ok : List P → Prop) (σ : Measure P) (dens : Fin k → P → ℝ → ℝ) (stay : P → ℝ)
    (draws : Measure Θ) (e : PSFunc → PSState → Θ → List Draw) : Block where
  X := Tuple (P × (Fin k → ℝ))
  Θ := Θ
  keys := [sp.info.name]
  holds := fun q => ∃ st, dget q sp.info.name = some (.ps st) ∧ ∃ l, Props.Holds col prs l st ∧
    sp.info.lo ≤ l.length ∧ l.length ≤ sp.info.hi ∧ (∀ r ∈ l, r.1 ∈ dom) ∧
    apart (l.map Prod.fst) ∧ ok (l.map Prod.fst)
  val := fun q => match dget q sp.info.name with
    | some (.ps st) => decode col prs st
    | _ => ofRows []
  same := SameRows
  prior := transPrior (rowLaw σ dens) sp.info.lo sp.info.hi
  staying := overSites stay
  possible := {x | ((sp.info.lo ≤ x.1 ∧ x.1 ≤ sp.info.hi) ∧ ∀ r ∈ List.ofFn x.2, r.1 ∈ dom ∧ ∀ j, 0 < dens j r.1 (r.2 j)) ∧
    apart ((List.ofFn x.2).map Prod.fst)}
  draws := draws
  enc := spaceDraws sp e

/-- A `ParameterSpace` with a variable number of dimensions. -/
noncomputable def plainBlock {k : ℕ} (sp : Space) (prs : Fin k → Prior) (dens : Fin k → Unit → ℝ → ℝ) : Block :=
  rowsBlock sp prs noSites Set.univ (fun _ => True) (fun _ => True) (Measure.dirac ()) dens (fun _ => 1)
    (ownLaw (drawsLaw prs sp.info.hi (Measure.dirac ())) k sp.info.hi (Measure.dirac ()))
    (ownDraws (birthDeathDraws sp prs fun m _ => [indexDraw m]) walkDraws (noDraws ()))

/-- A `ParameterSpace` with a fixed number of dimensions. -/
noncomputable def fixedBlock {k : ℕ} (sp : Space) (prs : Fin k → Prior) (dens : Fin k → Unit → ℝ → ℝ) : Block :=
  rowsBlock sp prs noSites Set.univ (fun _ => True) (fun _ => True) (Measure.dirac ()) dens (fun _ => 1)
    (ownLaw (Measure.dirac ()) k sp.info.hi (Measure.dirac ())) (ownDraws noDraws walkDraws (noDraws ()))

/-- A `Voronoi1D` with a fixed number of cells. -/
noncomputable def lineBlock {k : ℕ} (sp : Space) (prs : Fin k → Prior) (v : Vor1) (dens : Fin k → ℝ → ℝ → ℝ) : Block :=
  rowsBlock sp prs lineSites (Set.Icc v.vmin v.vmax) (fun _ => True) (fun _ => True) volume[|Set.Icc v.vmin v.vmax] dens (lineStay v)
    (ownLaw (Measure.dirac ()) k sp.info.hi (stepsLaw sp.info.hi (gaussianReal 0 1)))
    (ownDraws noDraws walkDraws (siteDraws gaussDraw (lineStep v) (Set.Icc v.vmin v.vmax) (decode lineSites prs)))

/-- A `Voronoi2D` with a fixed number of cells. -/
noncomputable def planeBlock {k : ℕ} (sp : Space) (prs : Fin k → Prior) (v : Vor2) (dens : Fin k → ℝ × ℝ → ℝ → ℝ) : Block :=
  rowsBlock sp prs planeSites {q | InDomain v q} (fun _ => True) (fun _ => True) volume[|{q | InDomain v q}] dens (planeStay v)
    (ownLaw (Measure.dirac ()) k sp.info.hi (stepsLaw sp.info.hi ((gaussianReal 0 1).prod (gaussianReal 0 1))))
    (ownDraws noDraws walkDraws (siteDraws pairDraw (planeStep v) {q | InDomain v q} (decode planeSites prs)))

/-- The spaces that are modelled, with their blocks. -/
inductive Modelled : Space → Block → Prop
  | plain {k : ℕ} (sp : Space) (prs : Fin k → Prior) (dens : Fin k → Unit → ℝ → ℝ) (std : Fin k → Unit → ℝ) :
      sp.info.kind = .plain → Perturbable sp prs (fun _ : Unit => .none) Set.univ dens std → sp.info.transD = true →
      sp.info.lo < sp.info.hi → Modelled sp (plainBlock sp prs dens)
  | fixed {k : ℕ} (sp : Space) (prs : Fin k → Prior) (dens : Fin k → Unit → ℝ → ℝ) (std : Fin k → Unit → ℝ) :
      sp.info.kind = .plain → Perturbable sp prs (fun _ : Unit => .none) Set.univ dens std → sp.info.transD = false →
      Modelled sp (fixedBlock sp prs dens)
  | line {k : ℕ} (sp : Space) (prs : Fin k → Prior) (v : Vor1) (dens : Fin k → ℝ → ℝ → ℝ) (std : Fin k → ℝ → ℝ) :
      OnLine sp prs v dens std → sp.info.transD = false → Modelled sp (lineBlock sp prs v dens)
  | plane {k : ℕ} (sp : Space) (prs : Fin k → Prior) (v : Vor2) (dens : Fin k → ℝ × ℝ → ℝ → ℝ) (std : Fin k → ℝ × ℝ → ℝ) :
      OnPlane sp prs v dens std → sp.info.transD = false → Modelled sp (planeBlock sp prs v dens)

/-- No two sites coincide, and none is as far from a second one as from a third one. -/
def GeneralPosition {P : Type} (d : P → P → ℝ) (xs : List P) : Prop :=
  xs.Nodup ∧ ∀ a ∈ xs, ∀ b ∈ xs, ∀ c ∈ xs, a ≠ b → a ≠ c → b ≠ c → d b a ≠ d c a

/-- A `Voronoi1D` with a variable number of cells, the values of which are drawn from the prior. -/
noncomputable def lineBirthsBlock {k : ℕ} (sp : Space) (prs : Fin k → Prior) (v : Vor1) (dens : Fin k → ℝ → ℝ → ℝ) : Block :=
  rowsBlock sp prs lineSites (Set.Icc v.vmin v.vmax) (fun _ => True) (fun _ => True) volume[|Set.Icc v.vmin v.vmax] dens (lineStay v)
    (ownLaw (drawsLaw prs sp.info.hi unitLaw) k sp.info.hi (stepsLaw sp.info.hi (gaussianReal 0 1)))
    (ownDraws (birthDeathDraws sp prs fun _ u => [unitDraw u]) walkDraws
      (siteDraws gaussDraw (lineStep v) (Set.Icc v.vmin v.vmax) (decode lineSites prs)))

/-- A `Voronoi1D` with a variable number of cells, the values of which are drawn around those of the nearest cell. -/
noncomputable def lineNearBlock {k : ℕ} (sp : Space) (prs : Fin k → Prior) (v : Vor1) (dens : Fin k → ℝ → ℝ → ℝ) : Block :=
  rowsBlock sp prs lineSites (Set.Icc v.vmin v.vmax) (GeneralPosition lineDist) (List.Pairwise (· ≤ ·)) volume[|Set.Icc v.vmin v.vmax] dens
    (lineStay v) (ownLaw (nearDrawsLaw k sp.info.hi unitLaw) k sp.info.hi (stepsLaw sp.info.hi (gaussianReal 0 1)))
    (ownDraws (nearDraws sp fun _ u => [unitDraw u]) walkDraws
      (siteDraws gaussDraw (lineStep v) (Set.Icc v.vmin v.vmax) (decode lineSites prs)))

/-- A `Voronoi2D` with a variable number of cells, the values of which are drawn from the prior. -/
noncomputable def planeBirthsBlock {k : ℕ} (sp : Space) (prs : Fin k → Prior) (v : Vor2) (dens : Fin k → ℝ × ℝ → ℝ → ℝ) : Block :=
  rowsBlock sp prs planeSites {q | InDomain v q} (fun _ => True) (fun _ => True) volume[|{q | InDomain v q}] dens (planeStay v)
    (ownLaw (drawsLaw prs sp.info.hi (Measure.infinitePi fun _ : ℕ => unitLaw.prod unitLaw)) k sp.info.hi
      (stepsLaw sp.info.hi ((gaussianReal 0 1).prod (gaussianReal 0 1))))
    (ownDraws (birthDeathDraws sp prs fun _ ω => planeTape v ω) walkDraws
      (siteDraws pairDraw (planeStep v) {q | InDomain v q} (decode planeSites prs)))

/-- A `Voronoi2D` with a variable number of cells, the values of which are drawn around those of the nearest cell. -/
noncomputable def planeNearBlock {k : ℕ} (sp : Space) (prs : Fin k → Prior) (v : Vor2) (dens : Fin k → ℝ × ℝ → ℝ → ℝ) : Block :=
  rowsBlock sp prs planeSites {q | InDomain v q} (GeneralPosition BB.dist2) (fun _ => True) volume[|{q | InDomain v q}] dens (planeStay v)
    (ownLaw (nearDrawsLaw k sp.info.hi (Measure.infinitePi fun _ : ℕ => unitLaw.prod unitLaw)) k sp.info.hi
      (stepsLaw sp.info.hi ((gaussianReal 0 1).prod (gaussianReal 0 1))))
    (ownDraws (nearDraws sp fun _ ω => planeTape v ω) walkDraws
      (siteDraws pairDraw (planeStep v) {q | InDomain v q} (decode planeSites prs)))

/-- All the spaces, also tessellations with a variable number of cells, with their blocks. -/
inductive Explored : Space → Block → Prop
  | known {sp : Space} {b : Block} : Modelled sp b → Explored sp b
  | lineBirths {k : ℕ} (sp : Space) (prs : Fin k → Prior) (v : Vor1) (dens : Fin k → ℝ → ℝ → ℝ) (std : Fin k → ℝ → ℝ) :
      OnLine sp prs v dens std → sp.info.transD = true → sp.info.lo < sp.info.hi → sp.info.fromPrior = true →
      Explored sp (lineBirthsBlock sp prs v dens)
  | lineNear {k : ℕ} (sp : Space) (prs : Fin k → Prior) (v : Vor1) (dens : Fin k → ℝ → ℝ → ℝ) (std stdBirth : Fin k → ℝ → ℝ) :
      OnLine sp prs v dens std → sp.info.transD = true → sp.info.lo < sp.info.hi → sp.info.fromPrior = false →
      (∀ j, Measurable (stdBirth j)) →
      (∀ j, ∀ x ∈ Set.Icc v.vmin v.vmax, (prs j).stdBirth.get (.one x) = .ok (stdBirth j x)) →
      (∀ j, ∀ x ∈ Set.Icc v.vmin v.vmax, 0 < stdBirth j x) → Explored sp (lineNearBlock sp prs v dens)
  | planeBirths {k : ℕ} (sp : Space) (prs : Fin k → Prior) (v : Vor2) (dens : Fin k → ℝ × ℝ → ℝ → ℝ) (std : Fin k → ℝ × ℝ → ℝ) :
      OnPlane sp prs v dens std → sp.info.transD = true → sp.info.lo < sp.info.hi → sp.info.fromPrior = true →
      Explored sp (planeBirthsBlock sp prs v dens)
  | planeNear {k : ℕ} (sp : Space) (prs : Fin k → Prior) (v : Vor2) (dens : Fin k → ℝ × ℝ → ℝ → ℝ)
      (std stdBirth : Fin k → ℝ × ℝ → ℝ) :
      OnPlane sp prs v dens std → sp.info.transD = true → sp.info.lo < sp.info.hi → sp.info.fromPrior = false →
      (∀ j, Measurable (stdBirth j)) →
      (∀ j, ∀ x ∈ {q | InDomain v q}, (prs j).stdBirth.get (.two x) = .ok (stdBirth j x)) →
      (∀ j, ∀ x ∈ {q | InDomain v q}, 0 < stdBirth j x) → Explored sp (planeNearBlock sp prs v dens)

/-- The values between the bounds (and 0 for the correlation of noise that is not correlated). -/
def noiseSupport (ts : List Target) : Set (NoiseValues ts) := {x | ∀ q, match noiseRanges ts q with
  | some r => x q ∈ Set.Icc r.lo r.hi
  | none => x q = 0}

/-- The block of the unknown noise of the targets. -/
noncomputable def noiseBlock (ts : List Target) : Block where
  X := NoiseValues ts
  Θ := Fin ts.length × Bool → ℕ → ℝ
  keys := ts.map (·.name)
  holds := fun q => ∀ t ∈ ts, ∃ d, dget q t.name = some (.noise d) ∧ (t.correlated = true ↔ d.corr ≠ none)
  val := noiseValues ts
  same := Eq
  prior := noisePrior ts
  staying := stayingAll ts
  possible := noiseSupport ts
  draws := deviates ts
  enc := fun s z => noiseTape ts (noiseValues ts s.params) z.2

/-! ### inversions

Block `i` is that of space `i`; the noise, if any is unknown, comes last. -/

section whole

variable (p : Problem) (B : ℕ → Block)

/-- The models: the values of all blocks. -/
abbrev Whole : Type := ∀ i : Fin p.cfg.perturbs.length, (B i).X

/-- The parameters have an entry for each space and each target with unknown noise, and these hold values of the blocks. -/
def HoldsAll (q : Params) : Prop :=
  dkeys q = p.spaces.map (·.1) ++ p.hier.map (·.name) ∧ ∀ i : Fin p.cfg.perturbs.length, (B i).holds q

/-- The model in the parameters. -/
def wholeOf (q : Params) : Whole p B := fun i => (B i).val q

variable {p B}

/-- All blocks stand for the same. -/
def SameWhole (x y : Whole p B) : Prop := ∀ i : Fin p.cfg.perturbs.length, (B i).same (x i) (y i)

/-- All values have positive prior density. -/
def PossibleWhole (x : Whole p B) : Prop := ∀ i : Fin p.cfg.perturbs.length, x i ∈ (B i).possible

variable (p B)

/-- The prior: the blocks are independent. -/
noncomputable def wholePrior : Measure (Whole p B) := Measure.pi fun i : Fin p.cfg.perturbs.length => (B i).prior

/-- The probability (up to a factor) that nothing has to be drawn anew when all blocks are perturbed. -/
noncomputable def wholeStaying (x : Whole p B) : ℝ := ∏ i : Fin p.cfg.perturbs.length, (B i).staying (x i)

/-- The draws of an iteration, apart from the choice of the perturbation and the acceptance. -/
noncomputable def wholeDraws (i : Fin p.cfg.perturbs.length) (s : State) (θ : ∀ i : Fin p.cfg.perturbs.length, ℝ × (B i).Θ) :
    List Draw := (B i).enc s (θ i)

/-- The law of these draws. -/
noncomputable def wholeLaw : Measure (∀ i : Fin p.cfg.perturbs.length, ℝ × (B i).Θ) :=
  Measure.pi fun i : Fin p.cfg.perturbs.length => unit.prod (B i).draws

/-- The likelihood of the inversion is defined for all possible models, and its logarithm is `logLik`. -/
def HasWholeLogLik (logLik : Whole p B → ℝ) : Prop :=
  match p.kind with
  | .targets => ∀ q, HoldsAll p B q → PossibleWhole (wholeOf p B q) →
      (∀ y ∈ p.tf, Evaluable q y) ∧ logLik (wholeOf p B q) = Spec.logLik p.tf q
  | .loglike f => ∀ s : State, HoldsAll p B s.params → PossibleWhole (wholeOf p B s.params) →
      f s = .ok (.fin (logLik (wholeOf p B s.params)))
  | .ratio f => ∀ s t : State, HoldsAll p B s.params → PossibleWhole (wholeOf p B s.params) →
      HoldsAll p B t.params → PossibleWhole (wholeOf p B t.params) →
      f s t = .ok (.fin (logLik (wholeOf p B t.params) - logLik (wholeOf p B s.params)))

/-- An inversion of spaces with blocks such that `Known`, with or without unknown noise. -/
structure InversionOf (Known : Space → Block → Prop) (logLik : Whole p B → ℝ) : Prop where
  exist : p.spaces ≠ [] ∨ p.hier ≠ []
  spaces : ∀ i nm sp, p.spaces[i]? = some (nm, sp) → nm = sp.info.name ∧ Known sp (B i)
  noise : p.hier ≠ [] → B p.spaces.length = noiseBlock p.hier
  distinct : (p.spaces.map (·.1) ++ p.hier.map (·.name)).Nodup
  targets : (p.targets.map (·.name)).Nodup
  bounds : ProperAll p.hier
  likelihood : HasWholeLogLik p B logLik
  meas : Measurable logLik
  lumps : ∀ x y, SameWhole x y → logLik x = logLik y

/-- An inversion of spaces without sites or with a fixed number of sites, with or without unknown noise. -/
abbrev WholeProblem (logLik : Whole p B → ℝ) : Prop := InversionOf p B Modelled logLik

/-- An inversion of any spaces, with or without unknown noise. -/
abbrev AnyProblem (logLik : Whole p B → ℝ) : Prop := InversionOf p B Explored logLik

end whole

end BB.Spec
