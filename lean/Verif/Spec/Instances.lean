import Verif.Model.Moves

/-!
# Specification: the instances of a named parameter space within a state
-/

namespace BB.Spec

open BB

/-- Every dictionary of a parameter-space state has distinct keys and no list of nested states is
empty. -/
inductive PSWf : PSState → Prop
  | mk {n : ℕ} {vals : List (String × PVal)} {kd : Option (List (ℝ × ℝ))} :
    (vals.map (·.1)).Nodup →
    (∀ k l, (k, PVal.states l) ∈ vals → l ≠ []) →
    (∀ k l, (k, PVal.states l) ∈ vals → ∀ x, x ∈ l → PSWf x) → PSWf (.mk n vals kd)

/-- The same for a state. -/
def ParamsWf (p : Params) : Prop :=
  (p.map (·.1)).Nodup ∧ ∀ k s, (k, TopVal.ps s) ∈ p → PSWf s

/-- `x` is one of the (outermost) states of the space `name` nested in `s`; the path says where. -/
inductive Within (name : String) : PSState → Path → PSState → Prop
  | here {s x : PSState} {l : List PSState} {i : ℕ} :
    (name, PVal.states l) ∈ s.vals → l[i]? = some x → Within name s [(name, i)] x
  | deeper {s y x : PSState} {k : String} {l : List PSState} {i : ℕ} {path : Path} :
    (k, PVal.states l) ∈ s.vals → k ≠ name → l[i]? = some y → Within name y path x →
    Within name s ((k, i) :: path) x

/-- `x` is one of the states of the space `name` in the parameters of a state. -/
inductive Instance (name : String) (p : Params) : String → Path → PSState → Prop
  | top {s : PSState} : (name, TopVal.ps s) ∈ p → Instance name p name [] s
  | nested {k : String} {s x : PSState} {path : Path} :
    (k, TopVal.ps s) ∈ p → k ≠ name → Within name s path x → Instance name p k path x

/-- The second state is the first one with `x` in the place of the state at the path; everything else is
the same. -/
inductive ReplacedAt (x : PSState) : Path → PSState → PSState → Prop
  | nil {s : PSState} : ReplacedAt x [] s x
  | cons {k : String} {path : Path} {y y' : PSState} {n : ℕ} {kd : Option (List (ℝ × ℝ))}
      {pre post : List (String × PVal)} {a b : List PSState} :
    ReplacedAt x path y y' →
    ReplacedAt x ((k, a.length) :: path)
      (.mk n (pre ++ (k, .states (a ++ y :: b)) :: post) kd)
      (.mk n (pre ++ (k, .states (a ++ y' :: b)) :: post) kd)

/-- The same for the parameters of a state. -/
inductive ReplacedTop (x : PSState) : String → Path → Params → Params → Prop
  | mk {k : String} {path : Path} {s s' : PSState} {pre post : Params} :
    ReplacedAt x path s s' →
    ReplacedTop x k path (pre ++ (k, .ps s) :: post) (pre ++ (k, .ps s') :: post)

end BB.Spec
