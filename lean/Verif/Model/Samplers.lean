import Mathlib.Analysis.SpecialFunctions.Pow.Real
import Mathlib.Algebra.Order.Floor.Ring
import Verif.Model.Chain

/-!
# Model of `/repo/src/bayesbay/samplers/_samplers.py` and of `BaseBayesianInversion.run`

A sampler holds a list of chains.  The hooks (the sampler's own ones and the user's functions) are
methods of a chain or of the sampler that can also read and modify an outside world `E`.

With `n_jobs > 1` the chains are advanced by other processes (`joblib`), each on copies of a chain and
of the outside world and with its own random numbers: what a process changes in its copy of the world
is lost, and if one fails no chain is replaced.  Otherwise the chains are advanced one after the other
in the same process.

Not modelled: the printed output, the other entries of `parallel_config`, and chains with
different perturbation functions or likelihoods.
-/

namespace BB

/-- The attributes of a sampler, and the number of calls of `advance_chain` so far (bookkeeping of the
model, to tell apart the random numbers used by the processes of different calls). -/
structure Samp (S σ E : Type) where
  chains : List (Chain S σ E)
  world : E
  batch : ℕ

/-- `parallel_config`: the entry `n_jobs`, if there is one; and the draws of the process that
advances chain `j` in the `i`-th call of `advance_chain`. -/
structure Par where
  nJobs : Option ℤ
  work : ℕ → ℕ → List Draw

/-- A sampler: the four methods customised by the subclasses and the four lists of registered
functions (lines 16-20). -/
structure SamplerDef (S σ E : Type) where
  onInit : Act (Samp S σ E) Unit
  onBegin : Act (Chain S σ E) Unit
  onEnd : Act (Chain S σ E) Unit
  onEndAdvance : Act (Samp S σ E) Unit
  extraInit : List (Act (Samp S σ E) Unit) := []
  extraBegin : List (Act (Chain S σ E) Unit) := []
  extraEnd : List (Act (Chain S σ E) Unit) := []
  extraEndAdvance : List (Act (Samp S σ E) Unit) := []

/-- `for func in funcs: func(self, ...)` -/
def runAll {C : Type} : List (Act C Unit) → Act C Unit
  | [] => Act.skip
  | f :: fs => do f; runAll fs

section

variable {S σ E : Type}

/-- `initialize`, lines 22-33 (`self._chains` are the chains on which `onInit` acts). -/
def SamplerDef.initialize (d : SamplerDef S σ E) : Act (Samp S σ E) Unit := do
  d.onInit
  runAll d.extraInit

/-- `begin_iteration`, lines 35-46. -/
def SamplerDef.beginIteration (d : SamplerDef S σ E) : Act (Chain S σ E) Unit := do
  d.onBegin
  runAll d.extraBegin

/-- `end_iteration`, lines 48-59. -/
def SamplerDef.endIteration (d : SamplerDef S σ E) : Act (Chain S σ E) Unit := do
  d.onEnd
  runAll d.extraEnd

/-- `end_advance_chain`, lines 61-67 (not called by the library). -/
def SamplerDef.endAdvanceChain (d : SamplerDef S σ E) : Act (Samp S σ E) Unit := do
  d.onEndAdvance
  runAll d.extraEndAdvance

/-- Line 236: the chains one after the other.  A chain that raises keeps what it has done so far; the
following ones are not touched. -/
def advSeq {α : Type} (f : Act (Chain S σ E) α) :
    List (Chain S σ E) → E → List Draw → Except PyErr (List α) × List (Chain S σ E) × E × List Draw
  | [], w, t => (.ok [], [], w, t)
  | c :: cs, w, t =>
    match f { c with world := w } t with
    | (.error e, c, t) => (.error e, c :: cs, c.world, t)
    | (.ok a, c, t) =>
      match advSeq f cs c.world t with
      | (.error e, cs, w, t) => (.error e, c :: cs, w, t)
      | (.ok as, cs, w, t) => (.ok (a :: as), c :: cs, w, t)

/-- Lines 232-234: each chain (from number `j` on) by its own process. -/
def advPar {α : Type} (f : Act (Chain S σ E) α) (work : ℕ → List Draw) (w : E) :
    ℕ → List (Chain S σ E) → Except PyErr (List α × List (Chain S σ E))
  | _, [] => .ok ([], [])
  | j, c :: cs =>
    match f { c with world := w } (work j) with
    | (.error e, _, _) => .error e
    | (.ok a, c, _) =>
      match advPar f work w (j + 1) cs with
      | .error e => .error e
      | .ok (as, cs) => .ok (a :: as, c :: cs)

/-- Lines 231-236: the function applied to each of the chains. -/
def Samp.each {α : Type} (par : Par) (f : Act (Chain S σ E) α) : Act (Samp S σ E) (List α) :=
  fun s t =>
  match par.nJobs with
  | none => (.error .keyError, s, t)
  | some n =>
    if 1 < n then
      match advPar f (par.work s.batch) s.world 0 s.chains with
      | .error e => (.error e, { s with batch := s.batch + 1 }, t)
      | .ok (as, cs) => (.ok as, { s with chains := cs, batch := s.batch + 1 }, t)
    else
      match advSeq f s.chains s.world t with
      | (r, cs, w, t) => (r, { chains := cs, world := w, batch := s.batch + 1 }, t)

/-- `Sampler.advance_chain`, lines 180-238.  The value is the list of the records of the chains. -/
noncomputable def SamplerDef.advanceChain (cfg : ChainCfg S σ) (par : Par) (d : SamplerDef S σ E)
    (n : ℤ) (burnin saveEvery : ℤ) : Act (Samp S σ E) (List (List (Event S))) := do
  let evs ← Samp.each par
    (Chain.advance cfg burnin saveEvery d.beginIteration d.endIteration n.toNat)
  d.onEndAdvance
  return evs

/-! ### `VanillaSampler`, lines 241-274 -/

/-- `VanillaSampler`, with the registered functions of `d`. -/
def vanilla (d : SamplerDef S σ E) : SamplerDef S σ E :=
  { d with onInit := Act.skip, onBegin := Act.skip, onEnd := Act.skip, onEndAdvance := Act.skip }

/-- `VanillaSampler.run`, lines 260-274. -/
noncomputable def vanillaRun (cfg : ChainCfg S σ) (par : Par) (d : SamplerDef S σ E)
    (n burnin saveEvery : ℤ) : Act (Samp S σ E) (List (List (Event S))) :=
  (vanilla d).advanceChain cfg par n burnin saveEvery

/-! ### `ParallelTempering`, lines 277-364 -/

/-- `np.geomspace(1, stop, num)`: `num` numbers evenly spaced on a logarithmic scale, with the exact
end points (`[1]` if `num = 1`); `ValueError` if `stop` is 0. A negative `stop` leads to complex
numbers, which are not modelled. -/
noncomputable def geomspace (stop : ℝ) (num : ℕ) : Except PyErr (List ℝ) :=
  if stop = 0 then .error .valueError
  else if stop < 0 then .error .nonFinite
  else .ok ((List.range num).map (fun i : ℕ => stop ^ ((i : ℝ) / ((num : ℝ) - 1))))

/-- Lines 316-325: the temperatures.  `int(...)` truncates; if all chains are used up by the ones, the
variable `size` is never assigned. -/
noncomputable def ptLadder (n : ℕ) (fraction tmax : ℝ) : Except PyErr (List ℝ) :=
  let ones : ℕ := max 2 (⌊(n : ℝ) * fraction⌋₊) - 1
  if (n : ℤ) - ones > 0 then
    match geomspace tmax (n - ones) with
    | .error e => .error e
    | .ok g => .ok (List.replicate ones 1 ++ g)
  else .error .unboundLocalError

/-- Lines 326-327: `chain.temperature = temperatures[i]`. -/
def assignTemps (cfg : ChainCfg S σ) : List (Chain S σ E) → List ℝ →
    Except PyErr (List (Chain S σ E))
  | [], _ => .ok []
  | _ :: _, [] => .error .indexError
  | c :: cs, x :: xs =>
    match assignTemps cfg cs xs with
    | .error e => .error e
    | .ok cs => .ok (c.setTemp cfg x :: cs)

/-- `ParallelTempering.on_initialize`, lines 315-327.  (If it raises, no chain is changed: the ladder
is computed first, and it has as many entries as there are chains.) -/
noncomputable def ptInit (cfg : ChainCfg S σ) (fraction tmax : ℝ) : Act (Samp S σ E) Unit :=
  fun s t =>
  match ptLadder s.chains.length fraction tmax with
  | .error e => (.error e, s, t)
  | .ok temps =>
    match assignTemps cfg s.chains temps with
    | .error e => (.error e, s, t)
    | .ok cs => (.ok (), { s with chains := cs }, t)

/-- `np.random.choice(chains, 2, replace=False)`: the positions of two different chains;
`ValueError` if there are fewer than two. -/
def pickTwo (n : ℕ) : M (ℕ × ℕ) :=
  if n < 2 then M.throw .valueError
  else do
    let i := (← M.draw).n % n
    let j := (← M.draw).n % (n - 1)
    return (i, if j < i then j else j + 1)

/-- `x * y` for a finite `x`. -/
noncomputable def PyF.mulFin (x : ℝ) : PyF → PyF
  | .fin y => .fin (x * y)
  | .nan => .nan
  | .pinf => if 0 < x then .pinf else if x < 0 then .ninf else .nan
  | .ninf => if 0 < x then .ninf else if x < 0 then .pinf else .nan

/-- Line 341: the logarithm of the acceptance probability of a swap, from the ratio returned by
`chain1._log_likelihood_ratio`. -/
noncomputable def swapLogProb (T1 T2 : ℝ) (r : PyF) : PyF := PyF.mulFin (1 / T1 - 1 / T2) r

open Classical in
/-- Lines 338-344 for the chains `c1` and `c2` at positions `i` and `j`, once the ratio `r` has been
computed (or has failed), which may have updated the caches of the two states: the decision.  A
temperature of 0 raises `ZeroDivisionError`. -/
noncomputable def ptDecide (cfg : ChainCfg S σ) (i j : ℕ) (c1 c2 : Chain S σ E)
    (r : Except PyErr PyF) (s1 s2 : S) : Act (Samp S σ E) Unit := fun s t =>
  let cs := (s.chains.set i { c1 with cur := s1 }).set j { c2 with cur := s2 }
  match r with
  | .error e => (.error e, { s with chains := cs }, t)
  | .ok r =>
    if c1.temp = 0 ∨ c2.temp = 0 then (.error .zeroDivisionError, { s with chains := cs }, t)
    else match t with
      | [] => (.error .tapeExhausted, { s with chains := cs }, [])
      | d :: t =>
        if d.u ≤ 0 then (.error .valueError, { s with chains := cs }, t)
        else if (swapLogProb c1.temp c2.temp r).gtFin (Real.log d.u) then
          let d1 := Chain.setTemp cfg { c1 with cur := s1 } c2.temp
          let d2 := Chain.setTemp cfg { c2 with cur := s2 } c1.temp
          (.ok (), { s with chains := (s.chains.set i d1).set j d2 }, t)
        else (.ok (), { s with chains := cs }, t)

/-- Lines 338-344 for the chains at positions `i` and `j`: the ratio, evaluated at the temperature of
the first chain, and the decision. -/
noncomputable def ptSwap (cfg : ChainCfg S σ) (i j : ℕ) : Act (Samp S σ E) Unit := fun s t =>
  match s.chains[i]?, s.chains[j]? with
  | some c1, some c2 =>
    ptDecide cfg i j c1 c2 (cfg.llr c1.cur c2.cur c1.temp).1 (cfg.llr c1.cur c2.cur c1.temp).2.1
      (cfg.llr c1.cur c2.cur c1.temp).2.2 s t
  | _, _ => (.error .indexError, s, t)

/-- The body of the loop of lines 336-344. -/
noncomputable def ptSwapRandom (cfg : ChainCfg S σ) : Act (Samp S σ E) Unit := do
  let s ← Act.get
  let (i, j) ← Act.ofM (pickTwo s.chains.length)
  ptSwap cfg i j

/-- The loop with `k` rounds left. -/
noncomputable def ptSwaps (cfg : ChainCfg S σ) : ℕ → Act (Samp S σ E) Unit
  | 0 => Act.skip
  | k + 1 => do ptSwapRandom cfg; ptSwaps cfg k

/-- `ParallelTempering.on_end_advance_chain`, lines 335-344. -/
noncomputable def ptEndAdvance (cfg : ChainCfg S σ) : Act (Samp S σ E) Unit := do
  let s ← Act.get
  ptSwaps cfg s.chains.length

/-- `ParallelTempering`, with the registered functions of `d`. -/
noncomputable def tempering (cfg : ChainCfg S σ) (fraction tmax : ℝ) (d : SamplerDef S σ E) :
    SamplerDef S σ E :=
  { d with onInit := ptInit cfg fraction tmax, onBegin := Act.skip, onEnd := Act.skip,
           onEndAdvance := ptEndAdvance cfg }

/-- Line 358: the number of iterations of the next batch. -/
def ptIterations (swapEvery n iteration : ℤ) : ℤ := min swapEvery (n - iteration)

/-- Lines 359-361: the burn-in handed to the next batch. -/
def ptBurnin (swapEvery burnin iteration : ℤ) : ℤ := max 0 (min swapEvery (burnin - iteration))

/-- The records of two successive batches. -/
def joinEvents (a b : List (List (Event S))) : List (List (Event S)) := List.zipWith (· ++ ·) a b

/-- `ParallelTempering.run`, lines 346-364: the loop with `fuel` batches; the value is `none` if it has
not ended by then. -/
noncomputable def ptRun (cfg : ChainCfg S σ) (par : Par) (d : SamplerDef S σ E)
    (swapEvery n burnin saveEvery : ℤ) : ℕ → Act (Samp S σ E) (Option (List (List (Event S))))
  | 0 => fun s t => (.ok none, s, t)
  | fuel + 1 => fun s t =>
    match s.chains.head? with
    | none => (.error .indexError, s, t)
    | some c0 =>
      match d.advanceChain cfg par (ptIterations swapEvery n c0.total)
        (ptBurnin swapEvery burnin c0.total) saveEvery s t with
      | (.error e, s, t) => (.error e, s, t)
      | (.ok evs, s, t) =>
        if n ≤ c0.total then (.ok (some evs), s, t)
        else match ptRun cfg par d swapEvery n burnin saveEvery fuel s t with
          | (.error e, s, t) => (.error e, s, t)
          | (.ok none, s, t) => (.ok none, s, t)
          | (.ok (some evs'), s, t) => (.ok (some (joinEvents evs evs')), s, t)

/-! ### `SimulatedAnnealing`, lines 367-430 -/

/-- `SimulatedAnnealing.on_initialize`, lines 394-396. -/
def saInit (cfg : ChainCfg S σ) (T0 : ℝ) : Act (Samp S σ E) Unit :=
  Act.modify (fun s => { s with chains := s.chains.map (fun c => c.setTemp cfg T0) })

/-- `SimulatedAnnealing.on_begin_iteration`, lines 398-405 (`math.exp` never overflows for the
arguments that occur: `-cooling_rate * iteration` is at most `|log T0|`). -/
noncomputable def saBegin (cfg : ChainCfg S σ) (T0 rate : ℝ) (burnin : ℤ) :
    Act (Chain S σ E) Unit :=
  Act.modify (fun c =>
    if (c.total : ℤ) < burnin then c.setTemp cfg (T0 * Real.exp (-rate * c.total))
    else if (c.total : ℤ) = burnin then c.setTemp cfg 1
    else c)

/-- `SimulatedAnnealing`, with the registered functions of `d`. -/
noncomputable def annealing (cfg : ChainCfg S σ) (T0 rate : ℝ) (burnin : ℤ) (d : SamplerDef S σ E) :
    SamplerDef S σ E :=
  { d with onInit := saInit cfg T0, onBegin := saBegin cfg T0 rate burnin, onEnd := Act.skip,
           onEndAdvance := Act.skip }

open Classical in
/-- `SimulatedAnnealing.run`, lines 413-430 (`math.log` raises for a temperature that is not
positive).  With `burnin_iterations = 0` the cooling rate is not assigned; it is not used either. -/
noncomputable def saRun (cfg : ChainCfg S σ) (par : Par) (d : SamplerDef S σ E) (T0 : ℝ)
    (n burnin saveEvery : ℤ) : Act (Samp S σ E) (List (List (Event S))) :=
  if burnin ≠ 0 ∧ T0 ≤ 0 then Act.throw .valueError
  else (annealing cfg T0 (Real.log T0 / burnin) burnin d).advanceChain cfg par n burnin saveEvery

/-! ### `BaseBayesianInversion.run`, `/repo/src/bayesbay/_bayes_inversion.py` lines 202-253 -/

/-- `sampler.initialize(self.chains)` followed by `sampler.run(...)`; the chains of the inversion are
those of the sampler afterwards. -/
def inversionRun {α : Type} (d : SamplerDef S σ E) (run : Act (Samp S σ E) α) :
    Act (Samp S σ E) α := do
  d.initialize
  run

end

end BB
