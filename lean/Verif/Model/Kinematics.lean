import Verif.Model.Num

/-!
# Two-body kinematics (`hazma/utils.py`)
-/

namespace Hazma.Kinematics

open Hazma

/-- `kinematically_accessable`, `hazma/utils.py:71-72`. -/
def kinematicallyAccessible (etot : ℝ) (masses : List ℝ) : Prop :=
  masses.sum < etot

/-- `kallen_lambda`, `hazma/utils.py:75-88`. -/
def kallenLambda (a b c : ℝ) : ℝ :=
  a ^ 2 + b ^ 2 + c ^ 2 - 2 * a * b - 2 * a * c - 2 * b * c

/-- `two_body_momentum`, `hazma/utils.py:155-161`, on scalar arguments.
Simplification: the division by `2 * cme` is only meaningful for `cme ≠ 0`. -/
noncomputable def twoBodyMomentum (cme m1 m2 : ℝ) : XReal :=
  let heavy := max m1 m2
  let light := min m1 m2
  let upper := XReal.sqrt ((cme - heavy - light) * (cme + heavy + light))
  let lower := XReal.sqrt ((cme - heavy + light) * (cme + heavy - light))
  XReal.divReal (XReal.mul upper lower) (2 * cme)

/-- `cross_section_prefactor`, `hazma/utils.py:164-188`. -/
noncomputable def crossSectionPrefactor (m1 m2 cme : ℝ) : XReal :=
  let p := twoBodyMomentum cme m1 m2
  XReal.recip (XReal.mul (XReal.mul (XReal.num 4) p) (XReal.num cme))

/-- `minkowski_dot`, `hazma/utils.py:215-239` (components `(E, px, py, pz)`). -/
def minkowskiDot (a b : Fin 4 → ℝ) : ℝ :=
  a 0 * b 0 - a 1 * b 1 - a 2 * b 2 - a 3 * b 3

/-- `lnorm_sqr`, `hazma/utils.py:242-261`, on one four-vector. -/
def lnormSqr (a : Fin 4 → ℝ) : ℝ :=
  a 0 ^ 2 - a 1 ^ 2 - a 2 ^ 2 - a 3 ^ 2

/-- `ldot`, `hazma/utils.py:191-212`, on one pair of four-vectors. -/
def ldot (a b : Fin 4 → ℝ) : ℝ :=
  let p0 := a 0 * b 0
  let p1 := a 1 * b 1
  let p2 := a 2 * b 2
  let p3 := a 3 * b 3
  p0 - p1 - p2 - p3

end Hazma.Kinematics
