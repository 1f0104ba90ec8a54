import Verif.Model.Constrain
import Verif.Model.Dict

/-!
# The limit classes of `hazma.limits` and the units of binned scans

Models `hazma/limits/_abstract.py`, `hazma/limits/_existing_telescope.py`, the rate that
`_constrain_binned_gamma_helper` (`theory/_theory_constrain.py:117-126`) compares with data and the unit
conversion of `hazma/parameters.py:15-31`.  Warnings are not modelled.  A model is what the limit
classes see of it.
-/

namespace Hazma.LimitsApi

open Hazma
open Hazma.Limits
open Hazma.Constrain

/-! ### `AbstractLimit.constrain` -/

/-- The argument `model_iterator`: a sequence has a length, an iterator or generator has none. -/
inductive Models (M : Type) where
  | sequence (l : List M)
  | iterator (l : List M)

/-- The loop of `AbstractLimit.constrain` (`limits/_abstract.py:43-44`): entry `i` of the array is
overwritten with the constraint on the `i`-th model. -/
def fill {M E : Type} (constrain : M → Except E (WithTop ℝ)) :
    ℕ → List M → List (WithTop ℝ) → Except E (List (WithTop ℝ))
  | _, [], out => .ok out
  | i, m :: ms, out => do
    let v ← constrain m
    fill constrain (i + 1) ms (out.set i v)

/-- `AbstractLimit.constrain` (`limits/_abstract.py:26-45`); `len` of an iterator is a `TypeError`. -/
def constrainAll {M E : Type} (typeError : E) (constrain : M → Except E (WithTop ℝ)) :
    Models M → Except E (List (WithTop ℝ))
  | .sequence l => fill constrain 0 l (List.replicate l.length 0)
  | .iterator _ => .error typeError

/-! ### Telescopes -/

/-- What `ExistingTelescopeLimit` uses of a model: its `binned_limit(measurement, n_sigma, method)`, if
it has one. -/
abbrev Theory (Meas : Type) := Option (Meas → ℝ → Method → Except LimErr (WithTop ℝ))

/-- An `ExistingTelescopeLimit` (`_existing_telescope.py:12-16`). -/
structure Telescope (Meas : Type) where
  measurement : Meas
  sigma : ℝ
  method : Method

/-- `ComptelLimit()`, `EgretLimit()`, `FermiLimit()`, `IntegralLimit()`
(`_existing_telescope.py:28-29, 41-42, 54-55, 67-68`) on the module's measurement. -/
noncomputable def defaultTelescope {Meas : Type} (m : Meas) : Telescope Meas := ⟨m, 2, .chi2⟩

/-- `model.binned_limit(measurement)` with the defaults of `_theory_gamma_ray_limits.py:436`. -/
noncomputable def theoryDefault {Meas : Type}
    (binned : Meas → ℝ → Method → Except LimErr (WithTop ℝ)) (m : Meas) : Except LimErr (WithTop ℝ) :=
  binned m 2 .oneBin

/-- `ExistingTelescopeLimit._constrain` (`_existing_telescope.py:18-23`). -/
def telescopeConstrain {Meas : Type} (t : Telescope Meas) : Theory Meas → Except LimErr (WithTop ℝ)
  | none => .error .assertion
  | some binned => binned t.measurement t.sigma t.method

/-! ### Composite -/

/-- `CompositeConstrainer._constrain` (`limits/_abstract.py:65-71`): a dictionary keyed by the limits'
names. -/
def composite {M E : Type} (typeError : E) (models : Models M) :
    List (String × (M → Except E (WithTop ℝ))) → Dict (List (WithTop ℝ)) →
      Except E (Dict (List (WithTop ℝ)))
  | [], out => .ok out
  | (name, c) :: cs, out => do
    let v ← constrainAll typeError c models
    composite typeError models cs (out.set name v)

/-! ### Units -/

/-- `_hbar_joule_sec` (`parameters.py:18`). -/
noncomputable def hbarJouleSec : ℝ := 6.62607015e-34 / (2 * Real.pi)

/-- `_joule_to_mev` (`parameters.py:19`). -/
noncomputable def jouleToMev : ℝ := 1 / 1.602176634e-19 * 1e-6

/-- `speed_of_light` in m/s (`parameters.py:16`). -/
noncomputable def speedOfLight : ℝ := 299792458

/-- `s_to_inv_MeV` (`parameters.py:24`). -/
noncomputable def sToInvMev : ℝ := 1 / (hbarJouleSec * jouleToMev)

/-- `m_to_inv_MeV` (`parameters.py:26`). -/
noncomputable def mToInvMev : ℝ := sToInvMev / speedOfLight

/-- `cm_to_inv_MeV` (`parameters.py:28`). -/
noncomputable def cmToInvMev : ℝ := mToInvMev * 1e-2

/-- `sv_inv_MeV_to_cm3_per_s` (`parameters.py:31`). -/
noncomputable def svInvMevToCm3PerS : ℝ := 1 / cmToInvMev ^ 2 * speedOfLight * 1e2

/-- One point of `constrain_binned_gamma` (`_theory_constrain.py:113-171`): the rate compared with the
data is `annihilation_cross_sections(e_cm)["total"]` (in MeV⁻²) times `vx` (lines 122-126). -/
noncomputable def scanPoint (mx sigma vx J dw nSigma : ℝ) (integral : ℝ → ℝ → ℝ) (bins : List Bin) :
    Except LimErr (WithTop ℝ) :=
  binnedGamma .ann mx (sigma * vx) J dw nSigma (fun a b => some (integral a b)) bins .oneBin

end Hazma.LimitsApi
