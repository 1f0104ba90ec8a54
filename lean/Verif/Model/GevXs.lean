import Verif.Model.ThreeBody
import Verif.Model.GevCache
import Mathlib.Analysis.SpecialFunctions.Artanh

/-!
# Cross sections of the GeV vector mediator and the two-meson currents

Models `hazma/vector_mediator/_gev/cross_sections.py`,
`hazma/form_factors/vector/_base.py:133-206` and
`hazma/form_factors/vector/_two_body.py`.  The form factors themselves (fits of
resonance parameters) enter as functions.  The mediator width `wv`, read from the
object by `width_v()`, is an argument.
-/

namespace Hazma.GevXs

open Hazma.GevCache (widthFF)
open Hazma.ThreeBody (twoBodyPrefactor)

/-- NumPy division of real numbers; a zero divisor stands for `+0.0`. -/
noncomputable def npDiv (a b : ℝ) : XReal :=
  if b = 0 then (if a = 0 then .nan else if 0 < a then .pinf else .ninf) else .num (a / b)

/-- NumPy product of a value with a finite number. -/
noncomputable def npMul (x : XReal) (r : ℝ) : XReal :=
  match x with
  | .num y => .num (y * r)
  | .nan => .nan
  | .pinf => if r = 0 then .nan else if 0 < r then .pinf else .ninf
  | .ninf => if r = 0 then .nan else if 0 < r then .ninf else .pinf

/-! ### Two-meson currents, `_two_body.py` -/

/-- The three current structures. -/
inductive Current
  | pp | pa | pv
  deriving DecidableEq

/-- `squared_lorentz_structure`: `_two_body.py:68-71` (two pseudoscalars),
`:100-103` (pseudoscalar and photon), `:129-132` (pseudoscalar and vector). -/
noncomputable def lorentz (c : Current) (m1 m2 q : ℝ) : ℝ :=
  match c with
  | .pp => (q ^ 2 - 2 * m1 ^ 2 - 2 * m2 ^ 2) / (3 * q ^ 2)
  | .pa => (q ^ 2 - m1 ^ 2) ^ 2 / (6 * q ^ 2)
  | .pv => (q ^ 2 - (m1 - m2) ^ 2) * (q ^ 2 - (m1 + m2) ^ 2) / (6 * q ^ 2)

/-- `_integrated_form_factor`, `_two_body.py:38-43`, with `|F(q)|` given. -/
noncomputable def integrated (c : Current) (m1 m2 : ℝ) (absF : ℝ → ℝ) (q : ℝ) : ℝ :=
  twoBodyPrefactor q m1 m2 * lorentz c m1 m2 q * absF q ^ 2

/-! ### Widths and cross sections from an integrated form factor, `_base.py` -/

/-- `VectorFormFactor._width`, `_base.py:133-161`, for one mass. -/
noncomputable def hadWidth (masses : List ℝ) (J : ℝ → ℝ) (mv : ℝ) : ℝ :=
  if masses.sum < mv then 1 / 2 * mv * J mv else 0

/-- `VectorFormFactor._cross_section`, `_base.py:163-206`, for one energy.  The
mask tests the final state only; `np.sqrt` gives NaN below zero. -/
noncomputable def hadXs (masses : List ℝ) (J : ℝ → ℝ) (mx mv gvxx wv q : ℝ) : XReal :=
  if masses.sum < q then
    let s := q ^ 2
    if s - 4 * mx ^ 2 < 0 then .nan
    else
      npMul (npMul (npDiv (gvxx ^ 2 * (s + 2 * mx ^ 2))
        (√(s - 4 * mx ^ 2) * ((s - mv ^ 2) ^ 2 + (mv * wv) ^ 2))) (1 / 2 * q)) (J q)
  else .num 0

/-! ### `_gev/cross_sections.py` -/

/-- `__sigma_xx_to_f_f`, L111-146. -/
noncomputable def sigmaFF (mx mv gvxx wv gvff mf q : ℝ) : ℝ :=
  if q > 2 * mx ∧ q > 2 * mf then
    let s := q ^ 2
    gvff ^ 2 * gvxx ^ 2 * √(1 - 4 * mf ^ 2 / s) * (2 * mf ^ 2 + s) * (2 * mx ^ 2 + s) /
      (12 * Real.pi * √(1 - 4 * mx ^ 2 / s) * s *
        (mv ^ 4 + s ^ 2 + mv ^ 2 * (-2 * s + wv ^ 2)))
  else 0

/-- `sigma_xx_to_ve_ve`, `..._vm_vm`, `..._vt_vt`, L214-235. -/
noncomputable def sigmaNuNu (mx mv gvxx wv gvnn q : ℝ) : ℝ := sigmaFF mx mv gvxx wv gvnn 0 q / 2

/-- `__width_to_cs`, L56-74. -/
noncomputable def widthToCs (mx mv gvxx wv cme : ℝ) : ℝ :=
  let mux2 := (mx / cme) ^ 2
  let mug2 := (wv / cme) ^ 2
  let muv2 := (mv / cme) ^ 2
  gvxx ^ 2 * (1 + 2 * mux2) /
    ((1 + (mug2 - 2) * muv2 + muv2 ^ 2) * √(1 - 4 * mux2) * cme ^ 3)

/-- `__sigma_from_width_fn`, L77-108, for a scalar energy. -/
noncomputable def sigmaFromWidth (width : ℝ → ℝ) (masses : List ℝ) (mx mv gvxx wv e : ℝ) : ℝ :=
  if e > masses.sum ∧ e > 2 * mx then width e * widthToCs mx mv gvxx wv e else 0

/-- `sigma_xx_to_pi0_pi0_gamma`, L350-369: the width of a pion and an omega times
the branching ratio of the omega. -/
noncomputable def sigmaPi0Pi0Gamma (mpi0 momega : ℝ) (J : ℝ → ℝ) (mx mv gvxx wv e : ℝ) : ℝ :=
  sigmaFromWidth (fun c => 8.34e-2 * hadWidth [mpi0, momega] J c) [mpi0, mpi0, 0] mx mv gvxx wv e

/-- The unused helpers `cross_section_x_x_to_p_p`, `..._p_a`, `..._p_v`, L33-53,
with `|ff|` given. -/
noncomputable def xsPP (s mx mp absF mv gamv : ℝ) : ℝ :=
  (-4 * mp ^ 2 + s) ^ (3 / 2 : ℝ) * (2 * mx ^ 2 + s) * absF ^ 2 /
    (48 * Real.pi * s * √(-4 * mx ^ 2 + s) * (mv ^ 4 + s ^ 2 + mv ^ 2 * (gamv ^ 2 - 2 * s)))

/-- See `xsPP`. -/
noncomputable def xsPA (s mx mp absF mv gamv : ℝ) : ℝ :=
  (-mp ^ 2 + s) ^ 3 * (2 * mx ^ 2 + s) * absF ^ 2 /
    (96 * Real.pi * s * √(s * (-4 * mx ^ 2 + s)) * (mv ^ 4 + s ^ 2 + mv ^ 2 * (gamv ^ 2 - 2 * s)))

/-- See `xsPP`. -/
noncomputable def xsPV (s mx mp mvec absF mv gamv : ℝ) : ℝ :=
  (2 * mx ^ 2 + s) *
    ((mp ^ 4 + (mvec ^ 2 - s) ^ 2 - 2 * mp ^ 2 * (mvec ^ 2 + s)) / s) ^ (3 / 2 : ℝ) * absF ^ 2 /
    (96 * Real.pi * √(-4 * mx ^ 2 + s) * (mv ^ 4 + s ^ 2 + mv ^ 2 * (gamv ^ 2 - 2 * s)))

/-- The expression of `sigma_xx_to_v_v` above threshold, L170-191. -/
noncomputable def vvValue (mx mv gvxx q : ℝ) : ℝ :=
  let muv2 := (mv / q) ^ 2
  let mux2 := (mx / q) ^ 2
  let mux4 := mux2 ^ 2
  let muv4 := muv2 ^ 2
  let sqrtx := √(1 - 4 * mux2)
  let sqrtv := √(1 - 4 * muv2)
  let sqrtxv := sqrtx * sqrtv
  gvxx ^ 4 * sqrtv / (4 * Real.pi * sqrtx * q ^ 2) *
    (-((2 * muv4 + mux2 + 4 * mux4) / (muv4 + mux2 - 4 * muv2 * mux2)) -
      2 * (1 + 4 * muv4 + 4 * mux2 - 8 * muv2 * mux2 - 8 * mux4) *
        Real.artanh (sqrtxv / (1 - 2 * muv2)) / ((-1 + 2 * muv2) * sqrtxv))

/-- A Python number: `int` or `float`. -/
inductive PyNum
  | int (n : ℤ)
  | float (x : ℝ)

/-- Its value. -/
def PyNum.val : PyNum → ℝ
  | .int n => n
  | .float x => x

/-- Storing a float in an array of integers drops the fractional part. -/
noncomputable def truncate (x : ℝ) : ℝ := if 0 ≤ x then ⌊x⌋ else ⌈x⌉

/-- `sigma_xx_to_v_v`, L149-196: the result array is `np.zeros_like(q)`, and `q`
is `np.array([cme])`, so it holds integers when `cme` is an `int`. -/
noncomputable def sigmaVV (mx mv gvxx : ℝ) (cme : PyNum) : ℝ :=
  if 2 * mv < cme.val ∧ 2 * mx < cme.val then
    match cme with
    | .float q => vvValue mx mv gvxx q
    | .int n => truncate (vvValue mx mv gvxx n)
  else 0

end Hazma.GevXs
