import Mathlib.Analysis.SpecialFunctions.Log.Basic
import Mathlib.Analysis.SpecialFunctions.Trigonometric.Basic
import Mathlib.Analysis.Real.Sqrt

/-!
# Altarelli-Parisi final-state radiation

Models `hazma/spectra/altarelli_parisi.py` and the deprecated pair versions of `hazma/utils.py`.
Arrays are treated element by element; `alpha` is `parameters.alpha_em`.
-/

namespace Hazma.AltarelliParisi

/-- `_scalar_splitting` (`altarelli_parisi.py:22-23`), `__scalar_splitting` (`utils.py:269-270`). -/
noncomputable def scalarSplitting (x : ℝ) : ℝ := 2 * (1 - x) / x

/-- `_fermion_splitting` (`altarelli_parisi.py:26-27`), `__fermion_splitting` (`utils.py:273-274`). -/
noncomputable def fermionSplitting (x : ℝ) : ℝ := (1 + (1 - x) ^ 2) / x

/-- `_dndx_photon_fsr` (`altarelli_parisi.py:30-38`): entries outside the mask stay zero. -/
noncomputable def dndxPhotonFsr (alpha x s m : ℝ) (split : ℝ → ℝ) (q : ℝ) : ℝ :=
  let pre := q ^ 2 * alpha / (2 * Real.pi)
  let xm := 1 - x
  let kernel := if s * xm / m ^ 2 > Real.exp 1 then split x * (Real.log (s * xm / m ^ 2) - 1) else 0
  pre * kernel

/-- `_dnde_photon_fsr` (`altarelli_parisi.py:41-44`). -/
noncomputable def dndePhotonFsr (alpha e s m : ℝ) (split : ℝ → ℝ) (q : ℝ) : ℝ :=
  let eToX := 2 / Real.sqrt s
  let x := e * eToX
  dndxPhotonFsr alpha x s m split q * eToX

/-- `dnde_photon_ap_fermion` (`altarelli_parisi.py:87-104`). -/
noncomputable def apFermion (alpha e s m q : ℝ) : ℝ := dndePhotonFsr alpha e s m fermionSplitting q

/-- `dnde_photon_ap_scalar` (`altarelli_parisi.py:107-124`). -/
noncomputable def apScalar (alpha e s m q : ℝ) : ℝ := dndePhotonFsr alpha e s m scalarSplitting q

/-- `__dnde_altarelli_parisi` (`utils.py:277-290`). -/
noncomputable def dndeAltarelliParisi (alpha e cme mass : ℝ) (splitting : ℝ → ℝ) : ℝ :=
  let mu := mass / cme
  let x := 2 * e / cme
  if x > 1 - Real.exp 1 * mu ^ 2 then 0
  else 2 * alpha / (Real.pi * cme) * splitting x * (Real.log ((1 - x) / mu ^ 2) - 1)

/-- `dnde_altarelli_parisi_fermion` (`utils.py:293-314`). -/
noncomputable def oldApFermion (alpha e cme m : ℝ) : ℝ :=
  dndeAltarelliParisi alpha e cme m fermionSplitting

/-- `dnde_altarelli_parisi_scalar` (`utils.py:317-338`). -/
noncomputable def oldApScalar (alpha e cme m : ℝ) : ℝ :=
  dndeAltarelliParisi alpha e cme m scalarSplitting

end Hazma.AltarelliParisi
