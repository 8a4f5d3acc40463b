import Verif.Model.UserFunc
import Mathlib.Data.Real.Basic

/-!
# Model of `set_perturbation_funcs` and of the assignment of `chains`

`/repo/src/bayesbay/_bayes_inversion.py` lines 116-200 and `/repo/src/bayesbay/_markov_chain.py` lines 88-91.
The lists of weights are Python objects that are shared and modified in place, hence they are kept in a
memory, and referred to by addresses.
-/

namespace BB

/-- What `isinstance` tells of a perturbation function, with `param_space_name` for births and deaths. -/
inductive PClass where
  | birth (space : String)
  | death (space : String)
  | other
  deriving DecidableEq

/-- The class of a function; `cls` gives that of the instances of `Perturbation`. -/
def Pre.cls {F V : Type} (cls : ℕ → PClass) : Pre F V → PClass
  | .instance_ l => cls l
  | _ => .other

/-- Lists of numbers by address. -/
abbrev Mem := ℕ → List ℝ

/-- `l[:] = ws`, or the assignments to the elements of the list at address `a`. -/
def Mem.write (m : Mem) (a : ℕ) (ws : List ℝ) : Mem := fun b => if b = a then ws else m b

/-- `birth_death_pairs`, lines 135-138: a `defaultdict(list)`; `i` is the index of the first function. -/
def birthDeathPairs : List PClass → ℕ → List (String × List ℕ) → List (String × List ℕ)
  | [], _, d => d
  | .other :: cs, i, d => birthDeathPairs cs (i + 1) d
  | .birth n :: cs, i, d => birthDeathPairs cs (i + 1) (dset d n ((dget d n).getD [] ++ [i]))
  | .death n :: cs, i, d => birthDeathPairs cs (i + 1) (dset d n ((dget d n).getD [] ++ [i]))

/-- `isinstance(perturbation_funcs[i], BirthPerturbation)` -/
def isBirth (cs : List PClass) (i : ℕ) : Bool :=
  match cs[i]? with
  | some (.birth _) => true
  | _ => false

/-- `isinstance(perturbation_funcs[i], DeathPerturbation)` -/
def isDeath (cs : List PClass) (i : ℕ) : Bool :=
  match cs[i]? with
  | some (.death _) => true
  | _ => false

open Classical in
/-- The loop of lines 139-168: the exception, if any, and the list of weights, which is modified in place. -/
noncomputable def equalizePairs (cs : List PClass) :
    List (String × List ℕ) → List ℝ → Option PyErr × List ℝ
  | [], ws => (none, ws)
  | (_, is) :: rest, ws =>
    match is.filter (isBirth cs), is.filter (isDeath cs) with
    | [b], [d] =>
      if ws.getD b 0 ≠ ws.getD d 0 then equalizePairs cs rest (ws.set d (ws.getD b 0))
      else equalizePairs cs rest ws
    | _, _ => (some .valueError, ws)

/-- The perturbations of a chain: `perturbation_funcs`, `perturbation_types` (here: the functions of which these are
the names), and the address of `perturbation_weights`. -/
structure ChainPerts (F V : Type) where
  funcs : List (Pre F V)
  types : List (Pre F V)
  weights : ℕ

/-- The perturbations of an inversion and its chains; `chains` is `none` while the inversion is being set up. -/
structure InvPerts (F V : Type) where
  funcs : List (Pre F V)
  weights : ℕ
  chains : Option (List (ChainPerts F V))

/-- `func is None` -/
def Pre.isNone {F V : Type} : Pre F V → Bool
  | .none => true
  | _ => false

/-- `BaseMarkovChain.set_perturbation_funcs`, `_markov_chain.py` lines 88-91: `None.__name__` raises
`AttributeError`. -/
def ChainPerts.set {F V : Type} (c : ChainPerts F V) (fs : List (Pre F V)) (w : ℕ) :
    Option PyErr × ChainPerts F V :=
  if fs.any Pre.isNone then
    (some .attributeError, { c with funcs := fs })
  else (none, { funcs := fs, types := fs, weights := w })

/-- The loop of lines 173-176. -/
def setChains {F V : Type} (fs : List (Pre F V)) (w : ℕ) :
    List (ChainPerts F V) → Option PyErr × List (ChainPerts F V)
  | [] => (none, [])
  | c :: cs =>
    match c.set fs w with
    | (some e, c') => (some e, c' :: cs)
    | (none, c') =>
      let r := setChains fs w cs
      (r.1, c' :: r.2)

/-- `[_preprocess_func(func) for func in perturbation_funcs]`, line 122. -/
def preprocessAll {F V : Type} : List (UF F V) → Except PyErr (List (Pre F V))
  | [] => .ok []
  | f :: fs => do
    let p ← preprocess f
    let ps ← preprocessAll fs
    return p :: ps

/-- `set_perturbation_funcs`, lines 116-176: the exception, if any, the perturbations in force afterwards, and
the memory.  `w` is the address of the argument `perturbation_weights`, `fresh` the one of a new list. -/
noncomputable def setPerturbationFuncs {F V : Type} (cls : ℕ → PClass) (fresh : ℕ) (inv : InvPerts F V) (m : Mem)
    (fs : List (UF F V)) (w : Option ℕ) : Option PyErr × InvPerts F V × Mem :=
  match preprocessAll fs with
  | .error e => (some e, inv, m)
  | .ok ps =>
    let a := w.getD fresh
    let m := match w with
      | none => m.write fresh (List.replicate ps.length 1)
      | some _ => m
    if ps.length ≠ (m a).length then (some .assertionError, inv, m)
    else
      let cs := ps.map (Pre.cls cls)
      match equalizePairs cs (birthDeathPairs cs 0 []) (m a) with
      | (some e, ws) => (some e, inv, m.write a ws)
      | (none, ws) =>
        match inv.chains with
        | none => (none, { funcs := ps, weights := a, chains := none }, m.write a ws)
        | some chains =>
          let r := setChains ps a chains
          (r.1, { funcs := ps, weights := a, chains := some r.2 }, m.write a ws)

/-! ### the assignment of chains -/

/-- An object that is assigned to `inversion.chains`: a list of objects, each of which is a `BaseMarkovChain` (of
some identity) or not, or something else. -/
inductive Assigned where
  | list (l : List (Option ℕ))
  | other

/-- `_chains` and `n_chains` of an inversion. -/
structure InvChains where
  chains : List (Option ℕ)
  nChains : ℕ

/-- The setter of `chains`, lines 181-200. -/
def InvChains.assign (inv : InvChains) : Assigned → Except PyErr InvChains
  | .other => .error .typeError
  | .list l =>
    if l.all (fun c => c.isSome) then .error .typeError
    else .ok { chains := l, nChains := l.length }

end BB
