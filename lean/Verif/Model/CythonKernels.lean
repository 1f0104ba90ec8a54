import Verif.Model.Spectra
import Verif.Model.MediatorDecay
import Verif.Model.Fsr
import Mathlib.Analysis.SpecialFunctions.Log.Base

/-!
# Compiled kernels and tables behind the mediator decays

The mediators' decay spectra do not call the Rust kernels of `hazma.spectra`; they `cimport` older
twins written in Cython.  Models these twins (`hazma/spectra/_photon/_muon.pyx`,
`_photon/_pion.pyx`, `hazma/spectra/_positron/_muon.pyx`, `_positron/_pion.pyx`,
`hazma/_utils/boost.pyx:60-113`) and the interpolation tables that the four mediator modules build
from them.  Arithmetic is over the reals: the single-precision variables of the neutral pion are not
rounded, `quad` is the exact integral, SciPy's `spence` its defining integral, and `abs` the real
absolute value.  NaN arguments are not modelled.  `eng_gam_max`, `boost_jac`, `boost_eng` and
`boost_integrate_linear_interp` have no caller and are not modelled.
-/

namespace Hazma.CythonKernels

/-! ### Constants of `hazma/_utils/constants.pxd` -/

/-- `MASS_E`, `constants.pxd:5`. -/
def massE : ℝ := 0.5109989461
/-- `MASS_MU`, `constants.pxd:6`. -/
def massMu : ℝ := 105.6583745
/-- `MASS_PI0`, `constants.pxd:8`. -/
def massPi0 : ℝ := 134.9768
/-- `MASS_PI`, `constants.pxd:9`. -/
def massPi : ℝ := 139.57039
/-- `BR_PI_TO_MU_NUMU`, `constants.pxd:25`. -/
def brPiMuNu : ℝ := 0.9998770
/-- `BR_PI_TO_E_NUE`, `constants.pxd:27`. -/
def brPiENu : ℝ := 1.230e-4
/-- `BR_PI0_TO_A_A`, `constants.pxd:34`. -/
def brPi0AA : ℝ := 98.823e-2
/-- `ALPHA_EM`, `constants.pxd:338`. -/
noncomputable def alphaEM : ℝ := 1 / 137.035999084
/-- `F_A_PI`, `constants.pxd:342`. -/
def fAPi : ℝ := 0.0119
/-- `F_V_PI`, `constants.pxd:344`. -/
def fVPi : ℝ := 0.0254
/-- `F_V_PI_SLOPE`, `constants.pxd:346`. -/
def fVPiSlope : ℝ := 0.10
/-- `DECAY_CONST_PI`, `constants.pxd:351`. -/
def decayConstPi : ℝ := 130.41
/-- `ENG_MU_PIRF`, `_photon/_pion.pyx:18`. -/
def engMuPirf : ℝ := 109.77820123634007
/-- `FPI`, `_photon/_pion.pyx:19`. -/
noncomputable def fpi : ℝ := decayConstPi * (1 / Real.sqrt 2)
/-- `R_FACTOR`, `_positron/_muon.pyx:15`. -/
def rFactor : ℝ := 1.0001870858234163
/-- `DBL_EPSILON`. -/
noncomputable def dblEps : ℝ := 1 / 2 ^ 52
/-- SciPy's `spence`. -/
noncomputable def spence (x : ℝ) : ℝ := -∫ t in (1 : ℝ)..x, Real.log t / (t - 1)

/-! ### Boosts (`hazma/_utils/boost.pxd:8-34`, `hazma/_utils/boost.pyx:60-113`) -/

/-- `boost_gamma`, `boost.pxd:9-20`. -/
noncomputable def cBoostGamma (energy mass : ℝ) : ℝ := energy / mass

/-- `boost_beta`, `boost.pxd:23-34`. -/
noncomputable def cBoostBeta (energy mass : ℝ) : ℝ := Real.sqrt (1 - (mass / energy) ^ 2)

/-- `boost_delta_function`, `boost.pyx:73-113`.  For `beta = 1` the code divides by zero: `gamma` is
infinite, both `eminus` and `eplus` are infinite or NaN and the comparison is false. -/
noncomputable def cBoostDelta (e0 e m beta : ℝ) : ℝ :=
  if beta > 1 ∨ beta ≤ 0 ∨ e < m then 0
  else if beta = 1 then 0
  else
    let gamma := 1 / Real.sqrt (1 - beta * beta)
    let k := Real.sqrt (e * e - m * m)
    let eminus := gamma * (e - beta * k)
    let eplus := gamma * (e + beta * k)
    if eminus < e0 ∧ e0 < eplus then
      let k0 := Real.sqrt (e0 * e0 - m * m)
      1 / (2 * gamma * beta * k0)
    else 0

/-! ### Photons -/

/-- `dnde_photon_muon_rest_frame`, `_photon/_muon.pyx:29-51`. -/
noncomputable def cPhotonMuonRest (egam : ℝ) : ℝ :=
  let y := 2 * egam / massMu
  let r := (massE / massMu) ^ 2
  if y ≤ 0 ∨ y ≥ 1 - massE / massMu then 0
  else
    let pre := alphaEM / (3 * Real.pi * y * massMu)
    let ym := 1 - y
    let poly1 := -102 + 46 * y - 101 * y ^ 2 + 55 * y ^ 3
    let poly2 := 3 - 5 * y + 6 * y ^ 2 - 6 * y ^ 3 + 2 * y ^ 4
    2 * pre * (poly1 * ym / 12 + poly2 * Real.log (ym / r))

/-- `dnde_photon_muon_point`, `_photon/_muon.pyx:59-117`. -/
noncomputable def cPhotonMuon (egam emu : ℝ) : ℝ :=
  if emu < massMu then 0
  else if emu - massMu < dblEps then cPhotonMuonRest egam
  else
    let gamma := emu / massMu
    let beta := Real.sqrt (1 - (massMu / emu) ^ 2)
    let y := 2 * egam / massMu
    let r := (massE / massMu) ^ 2
    let x := y * gamma
    if x < 0 ∨ x ≥ (1 - r) / (1 - beta) then 0
    else
      let wp := if x < (1 - r) / (1 + beta) then 1 + beta else (1 - r) / x
      let wm := 1 - beta
      let xp := x * wp
      let xm := x * wm
      let result := (xm - xp) * (102 + xm * xp * (191 + 21 * xm ^ 2 + xm * (-92 + 21 * xp)
        + xp * (-92 + 21 * xp))) / (12 * xm * xp * beta)
      let result := result
        + (9 + xm * (18 + xm * (-18 + (9 - 2 * xm) * xm))) * Real.log ((1 - xm) / r) / (3 * xm * beta)
      let result := result
        + (-9 + xp * (-18 + xp * (18 + xp * (-9 + 2 * xp)))) * Real.log ((1 - xp) / r) / (3 * xp * beta)
      let result := result
        + 5 / beta * (Real.log ((1 - xm) / r) * Real.log xm - Real.log ((1 - xp) / r) * Real.log xp)
      let result := result
        + 4 / (3 * beta) * (4 * Real.log ((1 - xp) / (1 - xm)) + 7 * Real.log (xp / xm))
      let result := result + 5 / beta * (spence xm - spence xp)
      result * alphaEM / (3 * Real.pi * emu)

/-- `dnde_pi_to_lnug`, `_photon/_pion.pyx:34-62`. -/
noncomputable def cPiLNuG (egam ml : ℝ) : ℝ :=
  let x := 2 * egam / massPi
  let r := (ml / massPi) * (ml / massPi)
  if x < 0 ∨ (1 - r) < x then 0
  else
    let fV := fVPi * (1 + fVPiSlope * (1 - x))
    let f := (r + x - 1) * (
      massPi * massPi * x * x * x * x * (fAPi * fAPi + fV * fV) * (r * r - r * x + r - 2 * (x - 1) * (x - 1))
      - 12 * Real.sqrt 2 * fpi * massPi * r * (x - 1) * x * x * (fAPi * (r - 2 * x + 1) + fV * x)
      - 24 * fpi * fpi * r * (x - 1) * (4 * r * (x - 1) + (x - 2) * (x - 2)))
    let g := 12 * Real.sqrt 2 * fpi * r * (x - 1) * (x - 1) * Real.log (r / (1 - x)) * (
      massPi * x * x * (fAPi * (x - 2 * r) - fV * x)
      + Real.sqrt 2 * fpi * (2 * r * r - 2 * r * x - x * x + 2 * x - 2))
    alphaEM * (f + g) / (24 * Real.pi * massPi * fpi * fpi * (r - 1) * (r - 1)
      * (x - 1) * (x - 1) * r * x)

/-- `charged_pion_integrand`, `_photon/_pion.pyx:86-107`. -/
noncomputable def cPionIntegrand (cl egam epi : ℝ) : ℝ :=
  let betaPi := cBoostBeta epi massPi
  let gammaPi := cBoostGamma epi massPi
  let engRf := egam * gammaPi * (1 - betaPi * cl)
  let jac := 1 / (2 * gammaPi * |1 - betaPi * cl|)
  let result := 0 + brPiMuNu * jac * cPhotonMuon engRf engMuPirf
  let result := result + brPiMuNu * jac * cPiLNuG engRf massMu
  result + brPiENu * jac * cPiLNuG engRf massE

/-- `dnde_photon_charged_pion_point`, `_photon/_pion.pyx:110-126`. -/
noncomputable def cPhotonChargedPion (egam epi : ℝ) : ℝ :=
  if epi < massPi then 0
  else ∫ cl in (-1 : ℝ)..1, cPionIntegrand cl egam epi

/-- `dnde_photon_neutral_pion_point`, `_photon/_pion.pyx:147-161`. -/
noncomputable def cPhotonNeutralPion (egam epi : ℝ) : ℝ :=
  if epi < massPi0 then 0
  else
    let beta := Real.sqrt (1 - (massPi0 / epi) ^ 2)
    if epi * (1 - beta) / 2 ≤ egam ∧ egam ≤ epi * (1 + beta) / 2 then brPi0AA * 2 / (epi * beta)
    else 0

/-! ### Positrons -/

/-- `R`, `_positron/_muon.pyx:12`. -/
noncomputable def rr : ℝ := massE / massMu
/-- `R2`, `_positron/_muon.pyx:13`. -/
noncomputable def r2 : ℝ := rr * rr

/-- `dndx_positron_muon_rest_frame`, `_positron/_muon.pyx:25-28`. -/
noncomputable def cPositronMuonRest (x : ℝ) : ℝ :=
  if x ≤ 2 * rr ∨ x ≥ 1 + r2 then 0
  else -2 * Real.sqrt (x ^ 2 - 4 * r2) * (4 * r2 + x * (-3 - 3 * r2 + 2 * x)) / rFactor

/-- `dndx_positron_muon`, `_positron/_muon.pyx:34-58`.  The root of a negative number is NaN in the
code, and `fmax`/`fmin` then return the other argument; the theorems keep `x² ≥ r22` where it
matters. -/
noncomputable def cPositronMuonX (x beta : ℝ) : ℝ :=
  if beta < 0 ∨ beta > 1 then 0
  else if beta < dblEps then cPositronMuonRest x
  else
    let gamma2 := 1 / (1 - beta ^ 2)
    let r22 := 4 * r2 * (1 - beta ^ 2)
    let xm := max (gamma2 * (x - beta * Real.sqrt (x ^ 2 - r22))) (2 * rr)
    let xp := min (gamma2 * (x + beta * Real.sqrt (x ^ 2 - r22))) (1 + r2)
    if xm > xp ∨ xp < xm then 0
    else (xm * (8 * r2 + xm * (-3 - 3 * r2 + 4 * xm / 3))
      + xp * (-8 * r2 + (3 + 3 * r2 - 4 * xp / 3) * xp)) / (2 * beta * rFactor)

/-- `dnde_positron_muon_point`, `_positron/_muon.pyx:64-80`. -/
noncomputable def cPositronMuon (e emu : ℝ) : ℝ :=
  if emu < massMu ∨ e ≤ massE then 0
  else if emu - massMu < dblEps then 2 / massMu * cPositronMuonRest (2 / massMu * e)
  else 2 / emu * cPositronMuonX (2 / emu * e) (cBoostBeta emu massMu)

/-- `eng_mu_pi_rf`, `_positron/_pion.pyx:18`. -/
noncomputable def engMuPiRf : ℝ := 0.5 * (massPi * massPi + massMu * massMu) / massPi
/-- `eng_e_pi_rf`, `_positron/_pion.pyx:19`. -/
noncomputable def engEPiRf : ℝ := 0.5 * (massPi * massPi + massE * massE) / massPi
/-- `gamma_mu`, `_positron/_pion.pyx:20`. -/
noncomputable def gammaMu : ℝ := engMuPiRf / massMu
/-- `beta_mu`, `_positron/_pion.pyx:22`. -/
noncomputable def betaMu : ℝ := Real.sqrt (1 - (massMu / engMuPiRf) ^ 2)
/-- `emax_mu_rf`, `_positron/_pion.pyx:24`. -/
noncomputable def emaxMuRf : ℝ := (massE * massE + massMu * massMu) / (2 * massMu)
/-- `emax_pi_rf`, `_positron/_pion.pyx:25`. -/
noncomputable def emaxPiRf : ℝ :=
  gammaMu * emaxMuRf * (1 + betaMu * Real.sqrt (1 - (massE / emaxMuRf) ^ 2))

/-- `dnde_positron_charged_pion_integrand`, `_positron/_pion.pyx:31-32`. -/
noncomputable def cPositronPionIntegrand (e : ℝ) : ℝ :=
  cPositronMuon e engMuPiRf / Real.sqrt (e ^ 2 - massE ^ 2)

/-- `dnde_positron_charged_pion_point`, `_positron/_pion.pyx:38-66`. -/
noncomputable def cPositronChargedPion (e epi : ℝ) : ℝ :=
  if epi < massPi ∨ e < massE then 0
  else if |epi - massPi| < dblEps then 0
  else
    let gamma := cBoostGamma epi massPi
    let beta := cBoostBeta epi massPi
    let emin := max (gamma * (e - beta * Real.sqrt (e ^ 2 - massE ^ 2))) massE
    let emax := min (gamma * (e + beta * Real.sqrt (e ^ 2 - massE ^ 2))) emaxPiRf
    let dndeMu := brPiMuNu * ∫ e' in emin..emax, cPositronPionIntegrand e'
    let dndeMu := dndeMu / (2 * beta * gamma)
    let dndeE := brPiENu * cBoostDelta engEPiRf e massE beta
    dndeMu + dndeE

/-! ### The tables of the mediator modules -/

/-- `log10`. -/
noncomputable def log10 (x : ℝ) : ℝ := Real.log x / Real.log 10

/-- `np.logspace(a, b, num=500)[i]`. -/
noncomputable def logspace (a b : ℝ) (i : ℕ) : ℝ := (10 : ℝ) ^ (a + i * ((b - a) / 499))

/-- `np.interp(x, xs, ys)` for 500 points: the end values outside, otherwise the chord from the last
point that is not beyond `x` (which is what the binary search finds in an increasing table). -/
noncomputable def npInterp (xs ys : ℕ → ℝ) (x : ℝ) : ℝ :=
  open Classical in
  if x < xs 0 then ys 0
  else if xs 499 < x then ys 499
  else
    let j := Nat.findGreatest (fun j => xs j ≤ x) 499
    if j = 499 then ys 499
    else (ys (j + 1) - ys j) / (xs (j + 1) - xs j) * (x - xs j) + ys j

/-- Photon energies of the tables (`scalar_mediator_decay_spectrum.pyx:43`,
`vector_mediator_decay_spectrum.pyx:31`). -/
noncomputable def photonNode (m : ℝ) : ℕ → ℝ := logspace (-1) (log10 (m / 2))

/-- `interp_spec_cp` (`scalar_mediator_decay_spectrum.pyx:52-55`) and `__interp_spec`
(`vector_mediator_decay_spectrum.pyx:50-58`) on the table of `kernel(·, m / 2)`. -/
noncomputable def photonTable (kernel : ℝ → ℝ → ℝ) (m e : ℝ) : ℝ :=
  if e < 0.1 then kernel (photonNode m 0) (m / 2) * photonNode m 0 / e
  else npInterp (photonNode m) (fun i => kernel (photonNode m i) (m / 2)) e

/-! Constants of `hazma/_utils/legacy_parameters.pxd`, which the mediator modules include. -/

/-- `MASS_E`, `legacy_parameters.pxd:18`. -/
def legacyE : ℝ := 0.510998928
/-- `MASS_MU`, `legacy_parameters.pxd:19`. -/
def legacyMu : ℝ := 105.6583715
/-- `MASS_PI0`, `legacy_parameters.pxd:20`. -/
def legacyPi0 : ℝ := 134.9766
/-- `MASS_PI`, `legacy_parameters.pxd:21`. -/
def legacyPi : ℝ := 139.57018
/-- `qe`, `scalar_mediator_decay_spectrum.pyx:28` with `ALPHA_EM` of `legacy_parameters.pxd:77`. -/
noncomputable def legacyQe : ℝ := Real.sqrt (4 * Real.pi * (1 / 137))

/-- Positron energies of the tables (`scalar_mediator_positron_spec.pyx:72`). -/
noncomputable def positronNode (m : ℝ) : ℕ → ℝ := logspace (log10 legacyE) (log10 (m / 2))

/-- `__interp_spec` (`scalar_mediator_positron_spec.pyx:76-99`). -/
noncomputable def positronTable (kernel : ℝ → ℝ → ℝ) (m e : ℝ) : ℝ :=
  npInterp (positronNode m) (fun i => kernel (positronNode m i) (m / 2)) e

open Hazma.Mediator in
/-- The rest-frame spectra used in `integrand` of the scalar mediator
(`scalar_mediator_decay_spectrum.pyx:142-153`). -/
noncomputable def scalarRestPhoton (m : ℝ) : RestPhoton where
  fsrE e := Fsr.scalarLepRest legacyQe legacyE e m
  fsrMu e := Fsr.scalarLepRest legacyQe legacyMu e m
  fsrPi e := Fsr.scalarPiRest legacyQe legacyPi e m
  pi := photonTable cPhotonChargedPion m
  pi0 e := cPhotonNeutralPion e (m / 2)
  mu e := cPhotonMuon e (m / 2)

/-- `e_pi0`, `vector_mediator_decay_spectrum.pyx:158`. -/
noncomputable def vectorPi0Energy (m : ℝ) : ℝ := 0.5 * (legacyPi0 ^ 2 + m ^ 2) / m

open Hazma.Mediator in
/-- The rest-frame spectra used in `__integrand` of the vector mediator
(`vector_mediator_decay_spectrum.pyx:150-161`). -/
noncomputable def vectorRestPhoton (m : ℝ) : RestPhoton where
  fsrE e := Fsr.vectorLepRest legacyQe legacyE e m
  fsrMu e := Fsr.vectorLepRest legacyQe legacyMu e m
  fsrPi e := Fsr.vectorPiRest legacyQe legacyPi e m
  pi := photonTable cPhotonChargedPion m
  pi0 e := cPhotonNeutralPion e (vectorPi0Energy m)
  mu := photonTable cPhotonMuon m

/-- `scalar_mediator_decay_spectrum` at one energy. -/
noncomputable def scalarDecayPhotons (pws : Fin 5 → ℝ) (b : Mediator.Modes) (e E m : ℝ) : ℝ :=
  Mediator.scalarPoint (scalarRestPhoton m) pws b e E m

/-- `dnde_decay_v_pt` of the photon module. -/
noncomputable def vectorDecayPhotons (pws : Fin 5 → ℝ) (mode : Mediator.VMode) (e E m : ℝ) : ℝ :=
  Mediator.vectorPoint (vectorRestPhoton m) pws mode e E m

/-- `dnde_decay_s_pt` and `dnde_decay_v_pt` of the positron modules. -/
noncomputable def decayPositrons (pws : Fin 3 → ℝ) (fs : Mediator.PMode) (e E m : ℝ) : ℝ :=
  Mediator.positronPoint (positronTable cPositronChargedPion m) (positronTable cPositronMuon m) pws fs
    legacyE e E m

end Hazma.CythonKernels
