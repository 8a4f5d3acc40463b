import Verif.Model.Py

/-!
# Python dictionaries

A `dict` is an insertion-ordered association list with at most one entry per key.
-/

namespace BB

/-- `d.get(k)` -/
def dget {α : Type} (d : List (String × α)) (k : String) : Option α :=
  match d with
  | [] => none
  | (k', v) :: rest => if k' = k then some v else dget rest k

/-- `d[k] = v`: replaces the value in place if the key is present, otherwise appends. -/
def dset {α : Type} (d : List (String × α)) (k : String) (v : α) : List (String × α) :=
  match d with
  | [] => [(k, v)]
  | (k', v') :: rest => if k' = k then (k', v) :: rest else (k', v') :: dset rest k v

/-- `d.update(e)` -/
def dupdate {α : Type} (d e : List (String × α)) : List (String × α) :=
  e.foldl (fun d kv => dset d kv.1 kv.2) d

/-- `d.keys()` -/
def dkeys {α : Type} (d : List (String × α)) : List String := d.map (·.1)

end BB
