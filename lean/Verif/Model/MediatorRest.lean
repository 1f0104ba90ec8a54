import Verif.Model.MediatorDecay
import Verif.Model.GevXs

/-!
# Mediators at rest

The four functions of `Model/MediatorDecay.lean` with their division by the velocity in floating-point semantics
(`cdivision(True)`: a division by zero gives an infinity or NaN and no exception), so that a mediator at rest is
included.
-/

namespace Hazma.Mediator

open Hazma.GevXs (npDiv)

/-- A finite number plus a value. -/
noncomputable def addX (x : ℝ) : XReal → XReal
  | .num y => .num (x + y)
  | .nan => .nan
  | .pinf => .pinf
  | .ninf => .ninf

/-- The line of `scalar_mediator_decay_spectrum.pyx:180-189` and `vector_mediator_decay_spectrum.pyx:212-217`. -/
noncomputable def photonBoxX (bf E m e : ℝ) : XReal :=
  if E * (1 - beta E m) / 2 ≤ e ∧ e ≤ E * (1 + beta E m) / 2 then npDiv bf (E * beta E m) else .num 0

/-- `c_scalar_mediator_decay_spectrum_point` (`scalar_mediator_decay_spectrum.pyx:166-191`). -/
noncomputable def scalarPointX (r : RestPhoton) (pws : Fin 5 → ℝ) (b : Modes) (e E m : ℝ) : XReal :=
  if E < m then .num 0
  else addX (∫ cl in (-1 : ℝ)..1, photonIntegrand (scalarRest r pws b) E m e cl)
    (if b.gg then photonBoxX (pws 4) E m e else .num 0)

/-- `__dnde_decay_v` for photons (`vector_mediator_decay_spectrum.pyx:184-227`). -/
noncomputable def vectorPointX (r : RestPhoton) (pws : Fin 5 → ℝ) (mode : VMode) (e E m : ℝ) : XReal :=
  if E < m then .num 0
  else addX (∫ cl in (-1 : ℝ)..1, photonIntegrand (vectorRest r pws mode) E m e cl)
    (if mode = .p0g ∨ mode = .total then photonBoxX (pws 2) E m e else .num 0)

/-- `lines_contrib` (`scalar_mediator_positron_spec.pyx:192-199`, `vector_mediator_positron_spec.pyx:193-200`). -/
noncomputable def positronBoxX (bf me E m e : ℝ) : XReal :=
  if 1 - 4 * me * me / (m * m) < 0 then .num 0
  else
    let r := Real.sqrt (1 - 4 * me * me / (m * m))
    if E * (1 - r * beta E m) / 2 ≤ e ∧ e ≤ E * (1 + r * beta E m) / 2 then npDiv bf (E * beta E m) else .num 0

/-- `__dnde_decay_s`, `__dnde_decay_v` for positrons (`scalar_mediator_positron_spec.pyx:166-215`,
`vector_mediator_positron_spec.pyx:167-216`). -/
noncomputable def positronPointX (pi mu : ℝ → ℝ) (pws : Fin 3 → ℝ) (fs : PMode) (me e E m : ℝ) : XReal :=
  if E < m then .num 0
  else if fs = .ee then positronBoxX (pws 0) me E m e
  else if fs = .total ∨ fs = .pp ∨ fs = .mm then
    addX (∫ cl in (-1 : ℝ)..1, positronIntegrand (positronRest pi mu pws fs) me E m e cl)
      (positronBoxX (pws 0) me E m e)
  else .num 0

end Hazma.Mediator
