import Mathlib.Data.Real.Basic
import Verif.Model.Py

/-!
# Python floats with infinities and NaN

Finite values are exact reals; the arithmetic of the special values is IEEE 754.
-/

namespace BB

/-- A Python/NumPy float. -/
inductive PyF where
  | fin (x : ℝ)
  | pinf
  | ninf
  | nan

namespace PyF

/-- `-x` -/
def neg : PyF → PyF
  | fin x => fin (-x)
  | pinf => ninf
  | ninf => pinf
  | nan => nan

/-- `x + y` -/
noncomputable def add : PyF → PyF → PyF
  | fin x, fin y => fin (x + y)
  | nan, _ => nan
  | _, nan => nan
  | pinf, ninf => nan
  | ninf, pinf => nan
  | pinf, _ => pinf
  | ninf, _ => ninf
  | fin _, pinf => pinf
  | fin _, ninf => ninf

/-- `x - y` -/
noncomputable def sub (x y : PyF) : PyF := add x (neg y)

/-- `x / t` for a finite non-zero `t`. -/
noncomputable def divFin : PyF → ℝ → PyF
  | fin x, t => fin (x / t)
  | nan, _ => nan
  | pinf, t => if 0 < t then pinf else ninf
  | ninf, t => if 0 < t then ninf else pinf

/-- `x > y` for a finite `y` (comparisons with NaN are false). -/
def gtFin : PyF → ℝ → Prop
  | fin x, y => y < x
  | pinf, _ => True
  | ninf, _ => False
  | nan, _ => False

/-- `math.isinf(x)` -/
def isInf : PyF → Bool
  | pinf => true
  | ninf => true
  | _ => false

end PyF

end BB
