import Verif.Model.Names

/-!
# Specification: objects the attributes of which are what they should be
-/

namespace BB.Spec

/-- The attributes and methods of the class: a parameter with such a name hides it. -/
def reservedNames : List String :=
  ["n_dimensions", "param_values", "cache", "set_param_values", "get_param_values", "saved_in_cache", "load_from_cache",
    "save_to_cache", "copy", "todict"]

/-- An object for the values `vals` of `n` cells: the three attributes are those that were given, the cache is empty, all methods can
be called, and every parameter is found as an attribute. -/
structure Proper (o : PSObj) (n : ℕ) (vals : List (String × PVal)) : Prop where
  dimensions : o.attr "n_dimensions" = .ok (.int n)
  values : o.attr "param_values" = .ok (.dict vals)
  cache : o.attr "cache" = .ok (.store [])
  methods : ∀ k ∈ psMethods, o.method k = .ok ()
  params : ∀ k v, (k, v) ∈ vals → o.attr k = .ok (.val v)

/-- An object and a state of the other models (number of dimensions, values and cached tree) that agree. -/
structure Represents (o : PSObj) (s : PSState) : Prop where
  dimensions : o.attr "n_dimensions" = .ok (.int s.n)
  values : o.attr "param_values" = .ok (.dict s.vals)
  cache : ∃ c, o.attr "cache" = .ok (.store c) ∧ dget c "kdtree" = s.kd
  methods : ∀ k ∈ psMethods, o.method k = .ok ()
  params : ∀ k v, dget s.vals k = some v → o.attr k = .ok (.val v)

/-- Both raise the same exception, or both return, and what they return agrees. -/
def SameResult : Except PyErr PSObj → Except PyErr PSState → Prop
  | .ok o, .ok s => Represents o s
  | .error e, .error e' => e = e'
  | _, _ => False

end BB.Spec
