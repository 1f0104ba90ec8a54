import Mathlib.Analysis.SpecialFunctions.Log.Basic
import Mathlib.Analysis.Real.Sqrt

/-!
# Boosting lines and spectra

Model of `hazma/spectra/boost.py` and the scalar part of `rust/src/boost.rs`.
-/

namespace Hazma.Boost

/-- `boost_gamma`, `rust/src/boost.rs:123-125`. -/
noncomputable def boostGamma (energy mass : ℝ) : ℝ := energy / mass

/-- `boost_beta`, `rust/src/boost.rs:143-146`. -/
noncomputable def boostBeta (energy mass : ℝ) : ℝ :=
  let ratio := mass / energy
  Real.sqrt (1 - ratio * ratio)

/-- `boost_delta_function`, `rust/src/boost.rs:167-183`. -/
noncomputable def boostDeltaRust (e0 e m beta : ℝ) : ℝ :=
  if beta > 1 ∨ beta ≤ 0 ∨ e < m then 0
  else
    let gamma := 1 / Real.sqrt (-beta * beta + 1)
    let k := Real.sqrt (e * e + -(m * m))
    let eminus := gamma * (-beta * k + e)
    let eplus := gamma * (beta * k + e)
    if eminus < e0 ∧ e0 < eplus then
      let k0 := Real.sqrt (e0 * e0 + -(m * m))
      1 / (2 * gamma * beta * k0)
    else 0

/-- `boost_delta_function`, `hazma/spectra/boost.py:95-130`, on one energy. -/
noncomputable def boostDeltaPy (e e0 m beta : ℝ) : ℝ :=
  if 0 < beta ∧ beta < 1 then
    let gamma := 1 / Real.sqrt (1 - beta * beta)
    let k := Real.sqrt (e ^ 2 - m ^ 2)
    let eminus := gamma * (e - beta * k)
    let eplus := gamma * (e + beta * k)
    if e ≥ m ∧ eminus < e0 ∧ e0 < eplus then
      1 / (2 * gamma * beta * Real.sqrt (e0 * e0 - m * m))
    else 0
  else 0

/-- `double_boost_delta_function`, `hazma/spectra/boost.py:133-181`, on one energy `e2 ≥ m`. -/
noncomputable def doubleBoostDelta (e2 e0 m beta1 beta2 : ℝ) : ℝ :=
  let gamma1 := 1 / Real.sqrt (1 - beta1 ^ 2)
  let gamma2 := 1 / Real.sqrt (1 - beta2 ^ 2)
  let epsM := gamma1 * (e0 - beta1 * Real.sqrt (e0 ^ 2 - m ^ 2))
  let epsP := gamma1 * (e0 + beta1 * Real.sqrt (e0 ^ 2 - m ^ 2))
  let eM := gamma2 * (e2 - beta2 * Real.sqrt (e2 ^ 2 - m ^ 2))
  let eP := gamma2 * (e2 + beta2 * Real.sqrt (e2 ^ 2 - m ^ 2))
  let val :=
    if eP > epsM ∧ eM < epsP then
      let b := min epsP eP
      let a := max epsM eM
      if m > 0 then
        let num := (a - Real.sqrt (a ^ 2 - m ^ 2)) * (b + Real.sqrt (b ^ 2 - m ^ 2))
        let den := (a + Real.sqrt (a ^ 2 - m ^ 2)) * (b - Real.sqrt (b ^ 2 - m ^ 2))
        0.5 * Real.log (num / den)
      else 1 * Real.log (b / a)
    else 0
  val / (4 * gamma1 * gamma2 * beta1 * beta2 * e0)

/-- `dnde_boost_array`, `hazma/spectra/boost.py:184-230`.  `eps` is `np.finfo(float).eps`, and
`splineInt es ys a b` the integral of SciPy's linear spline through `(es, ys)`. -/
noncomputable def dndeBoostArray (eps : ℝ) (splineInt : List ℝ → List ℝ → ℝ → ℝ → ℝ)
    (dnde energies : List ℝ) (beta mass : ℝ) : List ℝ :=
  if beta < eps then dnde
  else if beta < 0 ∨ beta > 1 then energies.map fun _ => 0
  else
    let gamma := 1 / Real.sqrt (1 - beta ^ 2)
    let masked := (energies.zip dnde).filter fun p => p.1 > mass
    let es := masked.map Prod.fst
    let integrand := masked.map fun p => p.2 / Real.sqrt (p.1 ^ 2 - mass ^ 2)
    let pre := 1 / (2 * beta * gamma)
    energies.map fun e =>
      if e > mass then
        let k := Real.sqrt (e ^ 2 - mass ^ 2)
        pre * splineInt es integrand (gamma * (e - beta * k)) (gamma * (e + beta * k))
      else pre * 0

end Hazma.Boost
