import Mathlib.Analysis.SpecialFunctions.Pow.Real

/-!
# Numeric values

Shared conventions for modelling `float64` values over `ℝ`.  Rounding is out of
scope, but NaN and the infinities are part of several documented contracts, so
they are kept as explicit values here.
-/

namespace Hazma

/-- A floating-point value with rounding removed: NaN, the two infinities, or a
real number (models the `float64` results of NumPy/Rust arithmetic). -/
inductive XReal where
  | nan : XReal
  | ninf : XReal
  | pinf : XReal
  | num : ℝ → XReal

namespace XReal

/-- `np.sqrt` on a real argument: NaN below zero
(`hazma/utils.py:159-160`; NumPy semantics). -/
noncomputable def sqrt (x : ℝ) : XReal :=
  if x < 0 then nan else num (Real.sqrt x)

/-- Multiplication restricted to the cases used (finite or NaN operands);
products involving an infinity are conservatively NaN. -/
noncomputable def mul : XReal → XReal → XReal
  | num x, num y => num (x * y)
  | _, _ => nan

/-- `x / c` for a finite, non-zero divisor. -/
noncomputable def divReal (x : XReal) (c : ℝ) : XReal :=
  match x with
  | num y => num (y / c)
  | pinf => if 0 < c then pinf else ninf
  | ninf => if 0 < c then ninf else pinf
  | nan => nan

/-- `1.0 / x` in IEEE arithmetic when zero can only be `+0.0` (a product of
non-negative factors, as in `hazma/utils.py:188`). -/
noncomputable def recip : XReal → XReal
  | num x => if x = 0 then pinf else num (1 / x)
  | pinf => num 0
  | ninf => num 0
  | nan => nan

end XReal

end Hazma
