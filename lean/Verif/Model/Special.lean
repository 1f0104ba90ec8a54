import Verif.Model.Num
import Mathlib.Analysis.SpecialFunctions.Log.Basic
import Mathlib.Analysis.Real.Pi.Bounds

/-!
# Special functions

Model of `spence` and `bessel_kn`, `rust/src/special.rs`.  Arithmetic is exact: the fused
multiply-adds are products and sums of real numbers and `ln` is the logarithm.  The cephes routines
`bessel_k0` and `bessel_k1` of `spec_math` are parameters.
-/

namespace Hazma.Special

open Hazma

/-- `SPENCE_A`, `rust/src/special.rs:65-74`. -/
noncomputable def spenceA : List ℝ :=
  [4.65128586073990045278e-5, 7.31589045238094711071e-3, 1.33847639578309018650e-1,
    8.79691311754530315341e-1, 2.71149851196553469920e0, 4.25697156008121755724e0,
    3.29771340985225106936e0, 1.00000000000000000126e0]

/-- `SPENCE_B`, `rust/src/special.rs:78-87`. -/
noncomputable def spenceB : List ℝ :=
  [6.90990488912553276999e-4, 2.54043763932544379113e-2, 2.82974860602568089943e-1,
    1.41172597751831069617e0, 3.63800533345137075418e0, 5.03278880143316990390e0,
    3.54771340985225096217e0, 9.99999999999999998740e-1]

/-- `polevl`, `rust/src/special.rs:93-99`. -/
noncomputable def polevl (x : ℝ) (coefficients : List ℝ) : ℝ :=
  match coefficients with
  | [] => 0
  | c :: cs => cs.foldl (fun answer coefficient => answer * x + coefficient) c

/-- The state `(x, flag 1, flag 2)` after the inversion, `rust/src/special.rs:161-168`. -/
noncomputable def invertLarge (x : ℝ) : ℝ × Bool :=
  if x > 2 then (1 / x, true) else (x, false)

/-- `spence`, `rust/src/special.rs:146-198`, at a real argument. -/
noncomputable def spence (x0 : ℝ) : XReal :=
  if x0 < 0 then .nan
  else if x0 = 1 then .num 0
  else if x0 = 0 then .num (Real.pi * Real.pi / 6)
  else
    let x := (invertLarge x0).1
    let flag2 := (invertLarge x0).2
    let w := if x > 1.5 then 1 / x - 1 else if x < 0.5 then -x else x - 1
    let flag2' := if x > 1.5 then true else flag2
    let flag1 := if x > 1.5 then false else if x < 0.5 then true else false
    let y := -w * polevl w spenceA / polevl w spenceB
    let y1 := if flag1 = true then -Real.log x * Real.log (1 - x) + Real.pi * Real.pi / 6 - y else y
    .num (if flag2' = true then -0.5 * Real.log x * Real.log x + -y1 else y1)

/-- The loop `for m in 1..order` of `bessel_kn`, `rust/src/special.rs:280-288`: `steps` iterations
from `m`. -/
noncomputable def besselLoop (x : ℝ) : ℕ → ℕ → ℝ → ℝ → ℝ
  | 0, _, _, current => current
  | steps + 1, m, lower, current =>
    besselLoop x steps (m + 1) current (lower + 2 * (m : ℝ) * current / x)

/-- `bessel_kn`, `rust/src/special.rs:260-290`, at a real argument; `k0`, `k1` are cephes' functions,
NaN below zero. -/
noncomputable def besselKn (k0 k1 : ℝ → ℝ) (n : ℤ) (x : ℝ) : XReal :=
  if x = 0 then .pinf
  else if x < 0 then .nan
  else
    match n.natAbs with
    | 0 => .num (k0 x)
    | 1 => .num (k1 x)
    | order + 2 => .num (besselLoop x (order + 1) 1 (k0 x) (k1 x))

end Hazma.Special
