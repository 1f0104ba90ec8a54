import Verif.Model.ScalarModel
import Mathlib.Analysis.SpecialFunctions.Log.Basic

/-!
# Final-state radiation of the mediator models

Models `hazma/scalar_mediator/_scalar_mediator_fsr.py`, `hazma/vector_mediator/_vector_mediator_fsr.py`
and the rest-frame radiation functions of the two `*_decay_spectrum.pyx` files.  The Python code
works with complex roots and logarithms and keeps the real part; on the branches where they are
evaluated all arguments are real and in the domain, so real functions are used.
-/

namespace Hazma.Fsr

open Hazma.ScalarModel (Err checked pydiv)

/-- `sqrt(1 + (4*mu**2)/(-1 + x))`. -/
noncomputable def root (mu x : ℝ) : Except Err ℝ := do
  let q ← pydiv (4 * mu ^ 2) (-1 + x)
  return Real.sqrt (1 + q)

/-- `log((1 + b)/(1 - b))`; the sign form `-((1 + b)/(-1 + b))` is the same number. -/
noncomputable def logRatio (b : ℝ) : Except Err ℝ := do
  let q ← pydiv (1 + b) (1 - b)
  return Real.log q

/-- `__dnde_xx_to_s_to_ffg` (`_scalar_mediator_fsr.py:7-40`). -/
noncomputable def scalarFF (alpha mx e Q mf : ℝ) : Except Err ℝ :=
  let s := Q ^ 2 - 2 * Q * e
  if 2 * mf < Q ∧ 4 * mf ^ 2 < s ∧ s < Q ^ 2 ∧ 2 * mx < Q then do
    let x ← pydiv (2 * e) Q
    let mu ← pydiv mf Q
    let b ← root mu x
    let l ← logRatio b
    let v ← pydiv (2 * alpha * (-2 * (-1 + x) * (-1 + 4 * mu ^ 2) * b
        + ((x + 4 * mu ^ 2) ^ 2 - 2 * (-1 + x + 6 * mu ^ 2)) * l))
      (Real.pi * Q * x * (1 - 4 * mu ^ 2) ^ (3 / 2 : ℝ))
    checked v
  else .ok 0

/-- `__dnde_xx_to_s_to_pipig` (`_scalar_mediator_fsr.py:75-104`). -/
noncomputable def scalarPiPi (alpha mpi mx e Q : ℝ) : Except Err ℝ := do
  let mu ← pydiv mpi Q
  let x ← pydiv (2 * e) Q
  if x < 0 ∨ 1 - 4 * mu ^ 2 < x ∨ 2 * mx > Q then .ok 0
  else
    let b ← root mu x
    let l ← logRatio b
    let v ← pydiv (4 * alpha * ((-1 + x) * b - (-1 + x + 2 * mu ^ 2) * l))
      (Real.pi * Q * x * Real.sqrt (1 - 4 * mu ^ 2))
    checked v

/-- `__dnde_xx_to_v_to_ffg` (`_vector_mediator_fsr.py:11-71`) for a known fermion of mass `mf`. -/
noncomputable def vectorFF (alpha mx e Q mf : ℝ) : Except Err ℝ := do
  let mu ← pydiv mf Q
  let x ← pydiv (2 * e) Q
  if 4 * mf ^ 2 ≤ Q ^ 2 - 2 * Q * e ∧ Q ^ 2 - 2 * Q * e ≤ Q ^ 2 ∧ Q > 2 * mf ∧ Q > 2 * mx then
    let b ← root mu x
    let l ← logRatio b
    let v ← pydiv (2 * alpha * (-(b * (2 - 2 * x + x ^ 2 - 4 * (-1 + x) * mu ^ 2))
        + (2 + (-2 + x) * x - 4 * x * mu ^ 2 - 8 * mu ^ 4) * l))
      (Real.pi * Q * x * Real.sqrt (1 - 4 * mu ^ 2) * (1 + 2 * mu ^ 2))
    checked v
  else .ok 0

/-- `__dnde_xx_to_v_to_pipig` (`_vector_mediator_fsr.py:99-132`). -/
noncomputable def vectorPiPi (alpha mpi mx e Q : ℝ) : Except Err ℝ := do
  let mu ← pydiv mpi Q
  let x ← pydiv (2 * e) Q
  if x < 0 ∨ x > 1 - 4 * mu ^ 2 ∨ Q < 2 * mpi ∨ Q < 2 * mx then .ok 0
  else
    let b ← root mu x
    let l ← logRatio b
    let v ← pydiv (4 * alpha * (b * (-1 + x + x ^ 2 - 4 * (-1 + x) * mu ^ 2)
        + (-1 + x + 2 * mu ^ 2) * (-1 + 4 * mu ^ 2) * l))
      (Real.pi * Q * x * (1 - 4 * mu ^ 2) ^ (3 / 2 : ℝ))
    checked v

/-- `dnde_fsr_cp_srf` (`scalar_mediator_decay_spectrum.pyx:62-84`). -/
noncomputable def scalarPiRest (qe mpi e ms : ℝ) : ℝ :=
  let mu := mpi / ms
  let x := 2 * e / ms
  if x < 0 ∨ x > 1 - 4 * mu ^ 2 then 0
  else
    let dyn := (-2 * Real.sqrt (1 - x) * Real.sqrt (1 - 4 * mu ^ 2 - x)
      + (-1 + 2 * mu ^ 2 + x)
        * Real.log ((1 - x - Real.sqrt (1 - x) * Real.sqrt (1 - 4 * mu ^ 2 - x)) ^ 2
          / (-1 + x - Real.sqrt (1 - x) * Real.sqrt (1 - 4 * mu ^ 2 - x)) ^ 2)) / x
    let coeff := qe ^ 2 / (8 * Real.sqrt (1 - 4 * mu ^ 2) * Real.pi ^ 2)
    2 * (dyn * coeff) / ms

/-- `dnde_fsr_l_srf` (`scalar_mediator_decay_spectrum.pyx:89-115`). -/
noncomputable def scalarLepRest (qe ml e ms : ℝ) : ℝ :=
  let mu := ml / ms
  let x := 2 * e / ms
  if x < 0 ∨ x > 1 - 4 * mu ^ 2 then 0
  else
    let dyn := (4 * (-1 + 4 * mu ^ 2) * Real.sqrt (1 - x) * Real.sqrt (1 - 4 * mu ^ 2 - x)
      + (2 - 12 * mu ^ 2 + 16 * mu ^ 4 - 2 * x + 8 * mu ^ 2 * x + x ^ 2)
        * Real.log ((1 - x + Real.sqrt ((-1 + x) * (-1 + 4 * mu ^ 2 + x))) ^ 2
          / (-1 + x + Real.sqrt ((-1 + x) * (-1 + 4 * mu ^ 2 + x))) ^ 2)) / x
    let coeff := qe ^ 2 / (16 * (1 - 4 * mu ^ 2) ^ (3 / 2 : ℝ) * Real.pi ^ 2)
    2 * (dyn * coeff) / ms

/-- `__dnde_fsr_cp_vrf` (`vector_mediator_decay_spectrum.pyx:61-83`). -/
noncomputable def vectorPiRest (qe mpi e mv : ℝ) : ℝ :=
  let mu := mpi / mv
  let x := 2 * e / mv
  if x < 0 ∨ x > 1 - 4 * mu ^ 2 then 0
  else
    let coeff := qe ^ 2 / (4 * (1 - 4 * mu ^ 2) ^ (3 / 2 : ℝ) * Real.pi ^ 2)
    let dyn := (2 * Real.sqrt (1 - 4 * mu ^ 2 - x) * (-1 - 4 * mu ^ 2 * (-1 + x) + x + x ^ 2)
        / Real.sqrt (1 - x)
      + (-1 + 4 * mu ^ 2) * (-1 + 2 * mu ^ 2 + x)
        * Real.log ((1 + Real.sqrt (1 - x) * Real.sqrt (1 - 4 * mu ^ 2 - x) - x) ^ 2
          / (-1 + Real.sqrt (1 - x) * Real.sqrt (1 - 4 * mu ^ 2 - x) + x) ^ 2)) / x
    2 * (dyn * coeff) / mv

/-- `__dnde_fsr_l_vrf` (`vector_mediator_decay_spectrum.pyx:86-110`). -/
noncomputable def vectorLepRest (qe ml e mv : ℝ) : ℝ :=
  let mu := ml / mv
  let x := 2 * e / mv
  if x < 0 ∨ x > 1 - 4 * mu ^ 2 then 0
  else
    let coeff := -qe ^ 2 / (8 * Real.sqrt (1 - 4 * mu ^ 2) * (1 + 2 * mu ^ 2) * Real.pi ^ 2)
    let dyn := (2 * Real.sqrt (1 - 4 * mu ^ 2 - x) * (2 - 4 * mu ^ 2 * (-1 + x) - 2 * x + x ^ 2)
        / Real.sqrt (1 - x)
      + (2 - 8 * mu ^ 4 - 4 * mu ^ 2 * x + (-2 + x) * x)
        * Real.log ((-1 + Real.sqrt (1 - x) * Real.sqrt (1 - 4 * mu ^ 2 - x) + x) ^ 2
          / (1 + Real.sqrt (1 - x) * Real.sqrt (1 - 4 * mu ^ 2 - x) - x) ^ 2)) / x
    2 * (dyn * coeff) / mv

end Hazma.Fsr
