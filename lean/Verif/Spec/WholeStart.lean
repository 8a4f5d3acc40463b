import Verif.Spec.Samples
import Verif.Model.WholeRun

/-!
# Specification: the chains at the start of whole inversions
-/

namespace BB.Spec

open BB BB.Props BB.Lemmas MeasureTheory ProbabilityTheory

/-- The first model of a block: what the random numbers are made of, their law, the draws, and the law of the model. -/
structure Beginning where
  block : Block
  Θ : Type
  [mΘ : MeasurableSpace Θ]
  draws : Measure Θ
  enc : Θ → List Draw
  law : Measure block.X

attribute [instance] Beginning.mΘ

/-- The largest number of dimensions at the start: the number itself if it is fixed, otherwise it is in the given fraction of
the range of the numbers of dimensions. -/
noncomputable def startTop (i : Info) : ℕ :=
  match i.nDim with
  | some n => n
  | none => ⌊(i.nMin : ℝ) + i.initRange * ((i.nMax : ℝ) - i.nMin)⌋₊

/-- The number of dimensions at the start, made of an integer. -/
noncomputable def startDim (i : Info) (m : ℕ) : ℕ := i.lo + m % (startTop i - i.lo + 1)

/-- The draws: one for the number of dimensions, if it varies; those of the sites; and for each parameter those for the values
at all sites, after `junk`. -/
noncomputable def startTape {Ω : Type} {k : ℕ} (sp : Space) (prs : Fin k → Prior) (tape : Ω → List Draw) (junk : ℕ → Fin k → List Draw)
    (θ : ℕ × ((ℕ → Ω) × (ℕ → Fin k → ℝ))) : List Draw :=
  (if sp.info.transD then [indexDraw θ.1] else []) ++
    ((List.ofFn fun i : Fin (startDim sp.info θ.1) => tape (θ.2.1 i)).flatten ++
      (List.ofFn fun j : Fin k => junk (startDim sp.info θ.1) j ++
        List.ofFn fun i : Fin (startDim sp.info θ.1) => devDraw (prs j).dist (θ.2.2 i j)).flatten)

/-- The start of a space with rows.  All numbers of dimensions between the smallest one and the largest one for the start have the same
probability; given the number, the rows are independent: the sites have the law `σ`, and the values the densities of their priors. -/
noncomputable def rowsBeginning {P Θ Ω : Type} [MeasurableSpace P] [MeasurableSpace Θ] [MeasurableSpace Ω] {k : ℕ} (sp : Space)
    (prs : Fin k → Prior) (col : List P → List (String × PVal)) (dom : Set P) (apart ok : List P → Prop) (σ : Measure P)
    (dens : Fin k → P → ℝ → ℝ) (stay : P → ℝ) (draws : Measure Θ) (e : PSFunc → PSState → Θ → List Draw)
    (law : Measure Ω) (tape : Ω → List Draw) (junk : ℕ → Fin k → List Draw) : Beginning where
  block := rowsBlock sp prs col dom apart ok σ dens stay draws e
  Θ := ℕ × ((ℕ → Ω) × (ℕ → Fin k → ℝ))
  draws := (uniformNat sp.info.hi.factorial).prod ((Measure.infinitePi fun _ : ℕ => law).prod
    (Measure.infinitePi fun _ : ℕ => Measure.pi fun j => devLaw (prs j).dist))
  enc := startTape sp prs tape junk
  law := ((startTop sp.info - sp.info.lo + 1 : ℕ) : ENNReal)⁻¹ • transPrior (rowLaw σ dens) sp.info.lo (startTop sp.info)

/-- The hyper-parameters of a Gaussian or Laplacian prior do not depend on the position in the plane. -/
def NotPlane (pr : Prior) : Prop :=
  match pr.dist with
  | .gaussian a b => (∀ f, a ≠ .plane f) ∧ ∀ f, b ≠ .plane f
  | .laplace a b => (∀ f, a ≠ .plane f) ∧ ∀ f, b ≠ .plane f
  | _ => True

/-- What is asked for the start: the fraction is one, and the values are initialized by the library. -/
structure Begins {k : ℕ} (sp : Space) (prs : Fin k → Prior) : Prop where
  order : sp.info.lo ≤ sp.info.hi
  range : sp.info.nDim = none → 0 ≤ sp.info.initRange ∧ sp.info.initRange ≤ 1
  init : ∀ j, (prs j).init = none
  flat : ∀ j, NotPlane (prs j)

/-- The spaces and their starts.  The draws `junk` are for the numbers in the arrays that the library does not initialize. -/
inductive Started : Space → Beginning → Prop
  | plain {k : ℕ} {Θ : Type} [MeasurableSpace Θ] (sp : Space) (prs : Fin k → Prior) (dens : Fin k → Unit → ℝ → ℝ)
      (std : Fin k → Unit → ℝ) (draws : Measure Θ) (e : PSFunc → PSState → Θ → List Draw) (junk : ℕ → Fin k → List Draw) :
      sp.info.kind = .plain → Perturbable sp prs (fun _ : Unit => .none) Set.univ dens std → Begins sp prs →
      (∀ n j, (junk n j).length = n) →
      Started sp (rowsBeginning sp prs noSites Set.univ (fun _ => True) (fun _ => True) (Measure.dirac ()) dens (fun _ => 1) draws e
        (Measure.dirac ()) (fun _ => []) junk)
  | line {k : ℕ} {Θ : Type} [MeasurableSpace Θ] (sp : Space) (prs : Fin k → Prior) (v : Vor1) (dens : Fin k → ℝ → ℝ → ℝ)
      (std : Fin k → ℝ → ℝ) (draws : Measure Θ) (e : PSFunc → PSState → Θ → List Draw) (apart ok : List ℝ → Prop) :
      OnLine sp prs v dens std → Begins sp prs → (∀ xs ys : List ℝ, xs.Perm ys → apart xs → apart ys) →
      (∀ xs : List ℝ, xs.Pairwise (· ≤ ·) → ok xs) →
      Started sp (rowsBeginning sp prs lineSites (Set.Icc v.vmin v.vmax) apart ok volume[|Set.Icc v.vmin v.vmax] dens (lineStay v) draws e
        unitLaw (fun u => [unitDraw u]) fun _ _ => [])
  | plane {k : ℕ} {Θ : Type} [MeasurableSpace Θ] (sp : Space) (prs : Fin k → Prior) (v : Vor2) (dens : Fin k → ℝ × ℝ → ℝ → ℝ)
      (std : Fin k → ℝ × ℝ → ℝ) (draws : Measure Θ) (e : PSFunc → PSState → Θ → List Draw) (apart : List (ℝ × ℝ) → Prop) :
      OnPlane sp prs v dens std → Begins sp prs → (∀ xs ys : List (ℝ × ℝ), xs.Perm ys → apart xs → apart ys) →
      Started sp (rowsBeginning sp prs planeSites {q | InDomain v q} apart (fun _ => True) volume[|{q | InDomain v q}] dens (planeStay v)
        draws e (Measure.infinitePi fun _ : ℕ => unitLaw.prod unitLaw) (planeTape v) fun _ _ => [])

/-- The law of a noise parameter at the start: uniform between its bounds. -/
noncomputable def flatLaw : Option Range → Measure ℝ
  | some r => volume[|Set.Icc r.lo r.hi]
  | none => Measure.dirac 0

/-- The start of the unknown noise: a draw for each parameter. -/
noncomputable def noiseBeginning (ts : List Target) : Beginning where
  block := noiseBlock ts
  Θ := Fin ts.length × Bool → ℝ
  draws := Measure.pi fun _ => unitLaw
  enc := fun u => (List.ofFn fun i : Fin ts.length => unitDraw (u (i, false)) ::
    if ts[i].correlated then [unitDraw (u (i, true))] else []).flatten
  law := Measure.pi fun q => flatLaw (noiseRanges ts q)

/-- All starts of an inversion. -/
structure AllStart (p : Problem) (S : ℕ → Beginning) : Prop where
  spaces : ∀ i nm sp, p.spaces[i]? = some (nm, sp) → Started sp (S i)
  noise : p.hier ≠ [] → S p.spaces.length = noiseBeginning p.hier

section

variable {E : Type} (p : Problem) (S : ℕ → Beginning)

/-- The draws of a start: those of the spaces, in their order, and then those of the noise. -/
noncomputable def startDraws (θ : ∀ i : Fin p.cfg.perturbs.length, (S i).Θ) : List Draw :=
  (List.ofFn fun i : Fin p.cfg.perturbs.length => (S i).enc (θ i)).flatten

/-- The mean of a function (which is not negative) of the new chain; chains the construction of which raises an exception, or does not use
all of its draws, are left out. -/
noncomputable def newChainLaw (w : E) (F : Chain State Store E → ENNReal) : ENNReal :=
  ∫⁻ θ, (match p.newChain w (startDraws p S θ) with
    | (.ok c, []) => F c
    | _ => 0) ∂Measure.pi fun i : Fin p.cfg.perturbs.length => (S i).draws

/-- The law of the first model: the blocks are independent. -/
noncomputable def firstLaw : Measure (Whole p fun i => (S i).block) :=
  Measure.pi fun i : Fin p.cfg.perturbs.length => (S i).law

end

end BB.Spec
