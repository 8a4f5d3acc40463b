import Verif.Model.State

/-!
# Specification of the selection of dimensions
-/

namespace BB.Spec

open BB

/-- An entry of a parameter. -/
inductive DimEntry where
  | num (x : ℝ)
  | point (p : ℝ × ℝ)
  | state (s : PSState)

/-- The dimEntries of a parameter, one for each dimension. -/
def dimEntries : PVal → List DimEntry
  | .arr (.vec xs) => xs.map .num
  | .arr (.pts xs) => xs.map .point
  | .states l => l.map .state
  | .objs l => l.map .state

/-- What kind of object holds the values. -/
inductive SameKind : PVal → PVal → Prop
  | vec (xs ys) : SameKind (.arr (.vec xs)) (.arr (.vec ys))
  | pts (xs ys) : SameKind (.arr (.pts xs)) (.arr (.pts ys))
  | states (xs ys) : SameKind (.states xs) (.states ys)
  | objs (xs ys) : SameKind (.objs xs) (.objs ys)

/-- The dimension meant by an index, negative ones counting from the end. -/
def Means (n : ℕ) (i : ℤ) (d : ℕ) : Prop := d < n ∧ (i = d ∨ i = (d : ℤ) - n)

/-- The second state has the dimensions `ds` of the first one, in this order: the same parameters in the same order, and as the
`j`-th entry of each the entry of dimension `ds[j]`. -/
structure SelectedDims (ds : List ℕ) (s s' : PSState) : Prop where
  n : s'.n = ds.length
  vals : List.Forall₂ (fun (kv kv' : String × PVal) => kv'.1 = kv.1 ∧ SameKind kv.2 kv'.2 ∧ (dimEntries kv'.2).length = ds.length ∧
    ∀ j d : ℕ, ds[j]? = some d → (dimEntries kv'.2)[j]? = (dimEntries kv.2)[d]?) s.vals s'.vals
  fresh : s'.kd = none

end BB.Spec
