import Mathlib.Data.Set.Basic
import Mathlib.Data.Set.Insert
import Verif.Model.Heap

/-!
# What it means that objects on a heap represent a value

Specification vocabulary for the theorems about sharing and modification in place (C58, C59, C60).
-/

namespace BB.Spec

open BB

/-! ### objects that represent a value -/

mutual
/-- The object `a` is a parameter-space state with this value (nothing is said about its cache and its
attributes). -/
def RepPS (h : Heap) : PSState → Addr → Prop
  | .mk n vals _, a => ∃ vs attrs kd, h[a]? = some (.ps n vs attrs kd) ∧ RepVals h vals vs
/-- The entries of a dictionary. -/
def RepVals (h : Heap) : List (String × PVal) → List (String × Addr) → Prop
  | [], vs => vs = []
  | (k, v) :: rest, vs => ∃ b vs', vs = (k, b) :: vs' ∧ RepVal h v b ∧ RepVals h rest vs'
/-- An array or a list. -/
def RepVal (h : Heap) : PVal → Addr → Prop
  | .arr x, b => h[b]? = some (.arr x)
  | .states l, b => ∃ as, h[b]? = some (.list as) ∧ RepList h l as
  | .objs l, b => ∃ as, h[b]? = some (.objs as) ∧ RepList h l as
/-- The members of a list. -/
def RepList (h : Heap) : List PSState → List Addr → Prop
  | [], as => as = []
  | s :: l, as => ∃ a as', as = a :: as' ∧ RepPS h s a ∧ RepList h l as'
end

/-- The entries of the dictionary of a `State`. -/
def RepTop (h : Heap) : Params → List (String × TRef) → Prop
  | [], vs => vs = []
  | (k, .noise d) :: rest, vs => ∃ vs', vs = (k, .noise d) :: vs' ∧ RepTop h rest vs'
  | (k, .ps s) :: rest, vs => ∃ a vs', vs = (k, .ps a) :: vs' ∧ RepPS h s a ∧ RepTop h rest vs'

/-- The object `a` is a `State` with this value. -/
def RepState (h : Heap) (s : State) (a : Addr) : Prop :=
  ∃ vs attrs, h[a]? = some (.state vs attrs s.temperature s.cache s.extra) ∧ RepTop h s.params vs

/-! ### objects of their own -/

/-- The objects `as` represent the values, whatever happens to the objects outside `G` (and to the cached
trees). -/
def Stable (G : Set Addr) (h : Heap) (l : List PSState) (as : List Addr) : Prop :=
  ∀ h' : Heap, (∀ a ∈ G, ∀ o : Obj, h[a]? = some o → h'[a]? = some o ∨
    ∃ n vs attrs kd kd', o = .ps n vs attrs kd ∧ h'[a]? = some (.ps n vs attrs kd')) → RepList h' l as

mutual
/-- The object `a` represents the value, and all the objects of the representation are different from each
other and belong to `F`; except that the members of an array of states may instead depend on `G` only. -/
def OwnPS (G : Set Addr) (h : Heap) : PSState → Addr → Set Addr → Prop
  | .mk n vals _, a, F => ∃ vs attrs kd F', h[a]? = some (.ps n vs attrs kd) ∧ OwnVals G h vals vs F' ∧
      a ∉ F' ∧ a ∈ F ∧ F' ⊆ F
def OwnVals (G : Set Addr) (h : Heap) : List (String × PVal) → List (String × Addr) → Set Addr → Prop
  | [], vs, _ => vs = []
  | (k, v) :: rest, vs, F => ∃ b vs' F₁ F₂, vs = (k, b) :: vs' ∧ OwnVal G h v b F₁ ∧
      OwnVals G h rest vs' F₂ ∧ Disjoint F₁ F₂ ∧ F₁ ⊆ F ∧ F₂ ⊆ F
def OwnVal (G : Set Addr) (h : Heap) : PVal → Addr → Set Addr → Prop
  | .arr x, b, F => h[b]? = some (.arr x) ∧ b ∈ F
  | .states l, b, F => ∃ as F', h[b]? = some (.list as) ∧ OwnList G h l as F' ∧ b ∉ F' ∧ b ∈ F ∧ F' ⊆ F
  | .objs l, b, F => ∃ as F', h[b]? = some (.objs as) ∧ (OwnList G h l as F' ∨ Stable G h l as) ∧
      b ∉ F' ∧ b ∈ F ∧ F' ⊆ F
def OwnList (G : Set Addr) (h : Heap) : List PSState → List Addr → Set Addr → Prop
  | [], as, _ => as = []
  | s :: l, as, F => ∃ a as' F₁ F₂, as = a :: as' ∧ OwnPS G h s a F₁ ∧ OwnList G h l as' F₂ ∧
      Disjoint F₁ F₂ ∧ F₁ ⊆ F ∧ F₂ ⊆ F
end

/-- The same for the entries of the dictionary of a `State`. -/
def OwnTop (G : Set Addr) (h : Heap) : Params → List (String × TRef) → Set Addr → Prop
  | [], vs, _ => vs = []
  | (k, .noise d) :: rest, vs, F => ∃ vs', vs = (k, .noise d) :: vs' ∧ OwnTop G h rest vs' F
  | (k, .ps s) :: rest, vs, F => ∃ a vs' F₁ F₂, vs = (k, .ps a) :: vs' ∧ OwnPS G h s a F₁ ∧
      OwnTop G h rest vs' F₂ ∧ Disjoint F₁ F₂ ∧ F₁ ⊆ F ∧ F₂ ⊆ F

/-! ### what can be reached -/

/-- The objects an object refers to. -/
def refs : Obj → List Addr
  | .arr _ => []
  | .list l => l
  | .objs l => l
  | .ps _ vals attrs _ => vals.map (·.2) ++ attrs.map (·.2)
  | .state vals attrs _ _ _ =>
    (vals ++ attrs).filterMap fun kv => match kv.2 with | .ps a => some a | .noise _ => none

/-- What can be reached from some objects by following references. -/
inductive Reach (h : Heap) (roots : Set Addr) : Addr → Prop
  | root {a : Addr} : a ∈ roots → Reach h roots a
  | step {a b : Addr} {o : Obj} : Reach h roots a → h[a]? = some o → b ∈ refs o → Reach h roots b

/-- No dangling references. -/
def NoDangling (h : Heap) : Prop := ∀ (a : Addr) (o : Obj), h[a]? = some o → ∀ b ∈ refs o, b < h.length

/-- What a program can do that has been given some objects: make new objects, and modify objects in
place – always with references to what it can reach, and only what it can reach. -/
inductive Later : Heap → Set Addr → Heap → Set Addr → Prop
  | refl (h : Heap) (roots : Set Addr) : Later h roots h roots
  | alloc {h : Heap} {roots : Set Addr} {h' : Heap} {roots' : Set Addr} (o : Obj) :
      Later h roots h' roots' → (∀ b ∈ refs o, Reach h' roots' b) →
      Later h roots (h' ++ [o]) (insert h'.length roots')
  | write {h : Heap} {roots : Set Addr} {h' : Heap} {roots' : Set Addr} (a : Addr) (o : Obj) :
      Later h roots h' roots' → Reach h' roots' a → (∀ b ∈ refs o, Reach h' roots' b) →
      Later h roots (h'.set a o) roots'

/-- Nothing can be reached both from `ra` and from `rb`. -/
def Separated (h : Heap) (ra rb : Set Addr) : Prop := ∀ x, Reach h ra x → ¬ Reach h rb x

/-- Two programs working in turns, each with what it has been given and has made. -/
inductive Turns (h : Heap) (ra rb : Set Addr) : Heap → Set Addr → Set Addr → Prop
  | refl : Turns h ra rb h ra rb
  | fst {h₁ : Heap} {ra₁ rb₁ : Set Addr} {h₂ : Heap} {ra₂ : Set Addr} :
      Turns h ra rb h₁ ra₁ rb₁ → Later h₁ ra₁ h₂ ra₂ → Turns h ra rb h₂ ra₂ rb₁
  | snd {h₁ : Heap} {ra₁ rb₁ : Set Addr} {h₂ : Heap} {rb₂ : Set Addr} :
      Turns h ra rb h₁ ra₁ rb₁ → Later h₁ rb₁ h₂ rb₂ → Turns h ra rb h₂ ra₁ rb₂

/-! ### what is not modified -/

/-- Every object is what it was, except that states in `W` may have another k-d tree in their caches. -/
def Unmodified (W : Set Addr) (h h' : Heap) : Prop :=
  ∀ (a : Addr) (o : Obj), h[a]? = some o → h'[a]? = some o ∨
    a ∈ W ∧ ∃ n vs attrs kd kd', o = .ps n vs attrs kd ∧ h'[a]? = some (.ps n vs attrs kd')

/-- `compute_kdtree` of a `Voronoi2D`. -/
def hasTree : Kind → Bool
  | .vor2 v => v.kdtree
  | _ => false

/-- No birth or death of `g` is in a `Voronoi2D` with k-d trees. -/
def TreeFree (g : PSPert) : Prop :=
  ∀ sp, PSFunc.birth sp ∈ g.funcs ∨ PSFunc.death sp ∈ g.funcs → hasTree sp.info.kind = false

/-- A perturbation function of the library that proposes a new state. -/
inductive Proposer where
  | space (g : PSPert)
  | noise (ts : List Target)

/-- Its `perturb` method. -/
noncomputable def Proposer.run (fuel : ℕ) : Proposer → Addr → HM (Addr × PyF)
  | .space g, a => g.perturbH fuel a
  | .noise ts, a => noisePerturbH fuel ts a

/-- The rest of an iteration changes the cache, the extra storage and the temperature of a state. -/
def SameData : Obj → Obj → Prop
  | .state vals attrs _ _ _, .state vals' attrs' _ _ _ => vals = vals' ∧ attrs = attrs'
  | .ps n vals attrs _, .ps n' vals' attrs' _ => n = n' ∧ vals = vals' ∧ attrs = attrs'
  | o, o' => o = o'

/-- What happens in a run of an inversion with these perturbation functions: proposals from whatever state, with
or without exceptions, initial states, copies, and changes of what is beside the parameters. -/
inductive History (ps : List Proposer) : Heap → Heap → Prop
  | refl (h : Heap) : History ps h h
  | propose {h h₁ : Heap} (p : Proposer) (fuel : ℕ) (a : Addr) (t : List Draw) : p ∈ ps → History ps h h₁ →
      History ps h (p.run fuel a h₁ t).2.1
  | copy {h h₁ : Heap} (fuel : ℕ) (a : Addr) (keep : Bool) (t : List Draw) : History ps h h₁ →
      History ps h (copyState fuel a keep h₁ t).2.1
  | initial {h h₁ : Heap} (s : State) (t : List Draw) : History ps h h₁ →
      History ps h (storeState s h₁ t).2.1
  | other {h h₁ : Heap} (a : Addr) (o o' : Obj) : History ps h h₁ → h₁[a]? = some o → SameData o o' →
      History ps h (h₁.set a o')

/-! ### attributes and items -/

/-- The parameters whose values are perturbed by functions in `ps`. -/
def valueNames (ps : List Proposer) : Set String :=
  {k | ∃ g nm priors, Proposer.space g ∈ ps ∧ PSFunc.values nm priors ∈ g.funcs ∧ ∃ p ∈ priors, p.name = k}

/-- The targets whose noise is perturbed by functions in `ps`. -/
def noiseNames (ps : List Proposer) : Set String :=
  {k | ∃ ts, Proposer.noise ts ∈ ps ∧ ∃ t ∈ ts, t.name = k}

/-- The attributes of a state denote what the entries of its dictionary do, apart from the names in `B` (for a
`ParameterSpaceState`) and in `N` (for a `State`).  Every key occurs once in a dictionary. -/
def AgreeObj (B N : Set String) : Obj → Prop
  | .ps _ vals attrs _ => (dkeys vals).Nodup → ∀ k ∉ B, dget attrs k = dget vals k
  | .state vals attrs _ _ _ => (dkeys vals).Nodup → ∀ k ∉ N, dget attrs k = dget vals k
  | _ => True

/-- This holds for all objects. -/
def Agree (B N : Set String) (h : Heap) : Prop := ∀ (a : Addr) (o : Obj), h[a]? = some o → AgreeObj B N o

/-! ### the size of a value -/

mutual
/-- How deeply states are nested in a parameter-space state. -/
def depthPS : PSState → ℕ
  | .mk _ vals _ => depthVals vals + 1
def depthVals : List (String × PVal) → ℕ
  | [] => 0
  | (_, v) :: rest => max (depthVal v) (depthVals rest)
def depthVal : PVal → ℕ
  | .arr _ => 0
  | .states l => depthList l
  | .objs _ => 0
def depthList : List PSState → ℕ
  | [] => 0
  | s :: l => max (depthPS s) (depthList l)
end

def depthTop : Params → ℕ
  | [] => 0
  | (_, .noise _) :: rest => depthTop rest
  | (_, .ps s) :: rest => max (depthPS s) (depthTop rest)

/-! ### plain values -/

mutual
/-- No array of states (`dtype=object`) anywhere. -/
def NoObjsPS : PSState → Prop
  | .mk _ vals _ => NoObjsVals vals
def NoObjsVals : List (String × PVal) → Prop
  | [] => True
  | (_, v) :: rest => NoObjsVal v ∧ NoObjsVals rest
def NoObjsVal : PVal → Prop
  | .arr _ => True
  | .states l => NoObjsList l
  | .objs _ => False
def NoObjsList : List PSState → Prop
  | [] => True
  | s :: l => NoObjsPS s ∧ NoObjsList l
end

def NoObjsTop : Params → Prop
  | [] => True
  | (_, .noise _) :: rest => NoObjsTop rest
  | (_, .ps s) :: rest => NoObjsPS s ∧ NoObjsTop rest

/-! ### valid values -/

mutual
/-- What the constructor has checked (`_state.py` lines 75-86), for the state and the states in its lists. -/
def ValidPS : PSState → Prop
  | .mk n vals _ => ValidVals n vals
def ValidVals (n : ℕ) : List (String × PVal) → Prop
  | [] => True
  | (_, v) :: rest => (v.len = n ∧ ValidVal v) ∧ ValidVals n rest
def ValidVal : PVal → Prop
  | .arr _ => True
  | .states l => l ≠ [] ∧ ValidList l
  | .objs _ => True
def ValidList : List PSState → Prop
  | [] => True
  | s :: l => ValidPS s ∧ ValidList l
end

def ValidTop : Params → Prop
  | [] => True
  | (_, .noise _) :: rest => ValidTop rest
  | (_, .ps s) :: rest => ValidPS s ∧ ValidTop rest

end BB.Spec
