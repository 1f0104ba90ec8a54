import Verif.Model.Boost
import Mathlib.MeasureTheory.Integral.IntervalIntegral.Basic
import Mathlib.Analysis.SpecialFunctions.Log.Basic
import Mathlib.Analysis.Real.Pi.Bounds

/-!
# Spectrum kernels

Models the muon, pion and rho decay kernels under `rust/src/kernels/` (the compiled code behind
`hazma.spectra`).  Arithmetic is over the reals: `mul_add` is a product and a sum, the single
precision roundings of the neutral-pion kernel are dropped.  `quad` is the exact integral and
`spence` its defining integral.  NaN arguments are not modelled.
-/

namespace Hazma.Spectra

open Hazma.Boost

/-! ### Constants (`rust/src/constants.rs:72-105`, `403-416`, `541`, `572`) -/

/-- `MASS_E`, `constants.rs:72`. -/
def massE : ℝ := 0.5109989461
/-- `MASS_MU`, `constants.rs:73`. -/
def massMu : ℝ := 105.6583745
/-- `MASS_PI0`, `constants.rs:75`. -/
def massPi0 : ℝ := 134.9768
/-- `MASS_PI`, `constants.rs:76`. -/
def massPi : ℝ := 139.57039
/-- `MASS_RHO`, `constants.rs:83`. -/
def massRho : ℝ := 775.26
/-- `BR_PI_TO_MU_NUMU`, `constants.rs:92`. -/
def brPiMuNu : ℝ := 0.9998770
/-- `BR_PI_TO_E_NUE`, `constants.rs:94`. -/
def brPiENu : ℝ := 1.230e-4
/-- `BR_PI0_TO_A_A`, `constants.rs:101`. -/
def brPi0AA : ℝ := 98.823e-2
/-- `ALPHA_EM`, `constants.rs:403`. -/
noncomputable def alphaEM : ℝ := 1 / 137.035999084
/-- `F_A_PI`, `constants.rs:407`. -/
def fAPi : ℝ := 0.0119
/-- `F_V_PI`, `constants.rs:409`. -/
def fVPi : ℝ := 0.0254
/-- `F_V_PI_SLOPE`, `constants.rs:411`. -/
def fVPiSlope : ℝ := 0.10
/-- `DECAY_CONST_PI`, `constants.rs:416`. -/
def decayConstPi : ℝ := 130.41
/-- `photon_pion::ENG_MU_PIRF`, `constants.rs:543`. -/
def engMuPirf : ℝ := 109.77820123634007
/-- `R_FACTOR`, `constants.rs:572`, `neutrino_muon.rs:80`. -/
def rFactor : ℝ := 1.0001870858234163
/-- `f64::EPSILON`. -/
noncomputable def f64eps : ℝ := 1 / 2 ^ 52
/-- Electron to muon mass ratio, `constants.rs:561`, `neutrino_muon.rs:67`, `photon_muon.rs:85`. -/
noncomputable def rr : ℝ := massE / massMu

/-- `spence`, `special.rs:146`: the dilogarithm `-∫_1^x ln t / (t - 1) dt`. -/
noncomputable def spence (x : ℝ) : ℝ := -∫ t in (1 : ℝ)..x, Real.log t / (t - 1)

/-! ### Positrons from muons (`rust/src/kernels/positron_muon.rs`) -/

/-- `dndx_rest_frame`, `positron_muon.rs:99-112`. -/
noncomputable def positronMuonRest (x : ℝ) : ℝ :=
  if x ≤ 2 * rr ∨ x ≥ 1 + rr ^ 2 then 0
  else
    let root := Real.sqrt (x * x - 4 * rr ^ 2)
    let inner := x * 2 + (-3 - 3 * rr ^ 2)
    let poly := x * inner + 4 * rr ^ 2
    (-2 * root) * poly / rFactor

/-- `dndx`, `positron_muon.rs:146-193`. -/
noncomputable def positronMuonX (x beta : ℝ) : ℝ :=
  if beta < 0 ∨ beta > 1 then 0
  else if beta < f64eps then positronMuonRest x
  else
    let oneMinusBeta2 := 1 - beta * beta
    let gamma2 := 1 / oneMinusBeta2
    let r22 := 4 * rr ^ 2 * oneMinusBeta2
    let root := Real.sqrt (x * x - r22)
    let xm := max (gamma2 * (-beta * root + x)) (2 * rr)
    let xp := min (gamma2 * (beta * root + x)) (1 + rr ^ 2)
    if xm > xp then 0
    else
      let innerM := (4 * xm) / 3 + (-3 - 3 * rr ^ 2)
      let termM := xm * innerM + 8 * rr ^ 2
      let innerP := (3 + 3 * rr ^ 2) - (4 * xp) / 3
      let termP := xp * (innerP * xp + -(8 * rr ^ 2))
      let numerator := xm * termM + termP
      numerator / ((beta + beta) * rFactor)

/-- `dnde_positron_muon`, `positron_muon.rs:217-230`. -/
noncomputable def dndePositronMuon (e emu : ℝ) : ℝ :=
  if emu < massMu ∨ e ≤ massE then 0
  else if emu - massMu < f64eps then
    let pre := 2 / massMu
    pre * positronMuonRest (pre * e)
  else
    let beta := boostBeta emu massMu
    let pre := 2 / emu
    pre * positronMuonX (pre * e) beta

/-! ### Neutrinos from muons (`rust/src/kernels/neutrino_muon.rs`) -/

/-- `NeutrinoSpectrumPoint`, `neutrino_flavors.rs`. -/
@[ext] structure NuPoint where
  electron : ℝ
  muon : ℝ
  tau : ℝ

/-- `NeutrinoSpectrumPoint::ZERO`. -/
def NuPoint.zero : NuPoint := ⟨0, 0, 0⟩

/-- `dnde_neutrino_muon_rest_frame`, `neutrino_muon.rs:117-150`. -/
noncomputable def neutrinoMuonRest (enu : ℝ) : NuPoint :=
  let pre := 2 / massMu
  let x := pre * enu
  if x ≤ 0 ∨ x ≥ 1 - rr ^ 2 then NuPoint.zero
  else
    let xm := 1 - x
    let x2 := x * x
    let gap := (1 - rr ^ 2) - x
    let common := rFactor * x2 * (gap * gap) / xm
    let dndxe := 12 * common
    let twoCommon := common + common
    let poly := x2 * 2 + (x * -5 + ((3 - x) * rr ^ 2 + 3))
    let dndxm := twoCommon * poly / (xm * xm)
    ⟨dndxe * pre, dndxm * pre, 0⟩

/-- `dnde_neutrino_muon`, `neutrino_muon.rs:176-262`. -/
noncomputable def dndeNeutrinoMuon (enu emu : ℝ) : NuPoint :=
  if emu < massMu then NuPoint.zero
  else if emu - massMu < f64eps then neutrinoMuonRest enu
  else
    let eToX := 2 / emu
    let x := eToX * enu
    let gam := emu / massMu
    let ratio := massMu / emu
    let beta := Real.sqrt (1 - ratio * ratio)
    let onePlusBeta := beta + 1
    let pre := rFactor * eToX / (beta + beta)
    if x ≤ 0 ∨ onePlusBeta * (1 - rr ^ 2) ≤ x then NuPoint.zero
    else
      let gam2x := gam * gam * x
      let xm := gam2x * (1 - beta)
      let xp := min (gam2x * onePlusBeta) (1 - rr ^ 2)
      let xmm := 1 - xm
      let xpm := 1 - xp
      let diff := xm - xp
      let sum := xm + xp
      let xm2 := xm * xm
      let xp2 := xp * xp
      let logRatio := Real.log (xpm / xmm)
      let poly := sum * (3 * rr ^ 2) + (xp2 + (xm * xp + (xm2 + 3 * rr ^ 4)))
      let bracket := sum * -3 + (poly + poly)
      let electron := (pre + pre) * (diff * bracket + logRatio * -(6 * rr ^ 4))
      let low := xm * 4 + -9
      let high := (xp * -4 + 9) * xp2
      let cubic := (xm2 * low + high) / 3
      let acc := (3 * rr ^ 2 * diff) * sum + cubic
      let poles := (xp + xp) / (xpm * xpm) - (xm + xm) / (xmm * xmm)
      let acc := poles * rr ^ 6 + acc
      let acc := (1 / xmm - 1 / xpm) * (6 * rr ^ 4) + acc
      let muon := pre * (logRatio * (2 * rr ^ 4 * (-3 + rr ^ 2)) + acc)
      ⟨electron, muon, 0⟩

/-! ### Photons from muons (`rust/src/kernels/photon_muon.rs`) -/

/-- `dnde_photon_muon_rest_frame`, `photon_muon.rs:114-148`. -/
noncomputable def photonMuonRest (egam : ℝ) : ℝ :=
  let y := (2 * egam) / massMu
  if y ≤ 0 ∨ y ≥ 1 - rr then 0
  else
    let pre := alphaEM / ((3 * Real.pi * y) * massMu)
    let ym := 1 - y
    let poly1 := y ^ 3 * 55 + (y ^ 2 * -101 + (y * 46 + -102))
    let poly2 := y ^ 4 * 2 + (y ^ 3 * -6 + (y ^ 2 * 6 + (y * -5 + 3)))
    (pre + pre) * (poly2 * Real.log (ym / rr ^ 2) + (poly1 * ym) / 12)

/-- `dnde_photon_muon`, `photon_muon.rs:175-256`. -/
noncomputable def dndePhotonMuon (egam emu : ℝ) : ℝ :=
  if emu < massMu then 0
  else if emu - massMu < f64eps then photonMuonRest egam
  else
    let gamma := boostGamma emu massMu
    let beta := boostBeta emu massMu
    let y := (2 * egam) / massMu
    let x := y * gamma
    let wm := 1 - beta
    if x < 0 ∨ x ≥ (1 - rr ^ 2) / wm then 0
    else
      let wp := if x < (1 - rr ^ 2) / (1 + beta) then 1 + beta else (1 - rr ^ 2) / x
      let xp := x * wp
      let xm := x * wm
      let edge := xp * 21 + -92
      let inner := xp * edge + (edge * xm + (xm * xm * 21 + 191))
      let poly := (xp * xm) * inner + 102
      let result := ((xm - xp) * poly) / (12 * xm * xp * beta)
      let logM := Real.log ((1 - xm) / rr ^ 2)
      let logP := Real.log ((1 - xp) / rr ^ 2)
      let polyM := (((xm * -2 + 9) * xm + -18) * xm + 18) * xm + 9
      let polyP := (((xp * 2 + -9) * xp + 18) * xp + -18) * xp + -9
      let result := result + (logM * polyM) / (3 * xm * beta)
      let result := result + (logP * polyP) / (3 * xp * beta)
      let fiveOverBeta := 5 / beta
      let result := fiveOverBeta * (logM * Real.log xm + -(logP * Real.log xp)) + result
      let ratioTerm := Real.log ((1 - xp) / (1 - xm)) * 4 + Real.log (xp / xm) * 7
      let result := (4 / (3 * beta)) * ratioTerm + result
      let result := fiveOverBeta * (spence xm - spence xp) + result
      (result * alphaEM) / (emu * (3 * Real.pi))

/-! ### Photons from pions (`rust/src/kernels/photon_pion.rs`) -/

/-- `dnde_photon_neutral_pion`, `photon_pion.rs:396-416` (single precision roundings dropped). -/
noncomputable def dndePhotonNeutralPion (egam epi : ℝ) : ℝ :=
  if epi < massPi0 then 0
  else
    let ratio := massPi0 / epi
    let beta := Real.sqrt (1 - ratio * ratio)
    let lower := (epi * (1 - beta)) * 0.5
    let upper := (epi * (1 + beta)) * 0.5
    if lower ≤ egam ∧ egam ≤ upper then (brPi0AA * 2) / (epi * beta) else 0

/-- `dnde_pi_to_lnug`, `photon_pion.rs:163-272`. -/
noncomputable def dndePiLNuG (egam ml : ℝ) : ℝ :=
  let fpi := decayConstPi * (1 / Real.sqrt 2)
  let x := (2 * egam) / massPi
  let massRatio := ml / massPi
  let r := massRatio * massRatio
  if x < 0 ∨ (1 - r) < x then 0
  else
    let fV := ((1 - x) * fVPiSlope + 1) * fVPi
    let termX4 := massPi * massPi * x * x * x * x * (fV * fV + fAPi * fAPi)
    let polyR := ((x - 1) * -2) * (x - 1) + (r * r + -(x * r) + r)
    let termFV := fpi * (12 * Real.sqrt 2) * massPi * r * (x - 1) * x * x
    let formFactors := (x * -2 + r + 1) * fAPi + x * fV
    let bracket := termX4 * polyR + -(formFactors * termFV)
    let termFpi2 := fpi * -24 * fpi * r * (x - 1)
    let inner := (r * 4) * (x - 1) + (x - 2) * (x - 2)
    let bracket := termFpi2 * inner + bracket
    let f := ((x + r) - 1) * bracket
    let logPrefactor := r * (fpi * (12 * Real.sqrt 2)) * (x - 1) * (x - 1)
    let logTerm := Real.log (r / (1 - x)) * logPrefactor
    let mPiX2 := x * massPi * x
    let axial := (r * -2 + x) * fAPi + -(x * fV)
    let twoR := r + r
    let polyG := x * 2 + (-x * x + (twoR * r + -(x * twoR))) - 2
    let g := (mPiX2 * axial + polyG * (fpi * Real.sqrt 2)) * logTerm
    let denominator := fpi * (24 * Real.pi * massPi) * fpi * (r - 1) * (r - 1) * (x - 1) * (x - 1)
      * r * x
    ((g + f) * alphaEM) / denominator

/-- `charged_pion_integrand`, `photon_pion.rs:295-318`. -/
noncomputable def chargedPionPhotonIntegrand (cl egam epi : ℝ) : ℝ :=
  let betaPi := boostBeta epi massPi
  let gammaPi := boostGamma epi massPi
  let doppler := -betaPi * cl + 1
  let engGamPiRf := (egam * gammaPi) * doppler
  let jac := 1 / ((gammaPi + gammaPi) * |doppler|)
  let weightMu := jac * brPiMuNu
  let result := weightMu * dndePhotonMuon engGamPiRf engMuPirf + 0
  let result := weightMu * dndePiLNuG engGamPiRf massMu + result
  (jac * brPiENu) * dndePiLNuG engGamPiRf massE + result

/-- `dnde_photon_charged_pion`, `photon_pion.rs:355-373`. -/
noncomputable def dndePhotonChargedPion (egam epi : ℝ) : ℝ :=
  if epi < massPi then 0
  else ∫ cl in (-1 : ℝ)..1, chargedPionPhotonIntegrand cl egam epi

/-! ### Photons from rho mesons (`rust/src/kernels/photon_rho.rs`) -/

/-- `ENG_PI_CHARGED_RHO`, `photon_rho.rs:91-92`. -/
noncomputable def engPiChargedRho : ℝ :=
  (massRho * massRho + massPi * massPi - massPi0 * massPi0) / (2 * massRho)
/-- `ENG_PI0_CHARGED_RHO`, `photon_rho.rs:98-99`. -/
noncomputable def engPi0ChargedRho : ℝ :=
  (massRho * massRho + massPi0 * massPi0 - massPi * massPi) / (2 * massRho)
/-- `ENG_PI_NEUTRAL_RHO`, `photon_rho.rs:105`. -/
noncomputable def engPiNeutralRho : ℝ := massRho / 2

/-- `neutral_rho_integrand`, `photon_rho.rs:133-136`. -/
noncomputable def neutralRhoIntegrand (e : ℝ) : ℝ :=
  let dnde := dndePhotonChargedPion e engPiNeutralRho
  (dnde + dnde) / e

/-- `charged_rho_integrand`, `photon_rho.rs:145-149`. -/
noncomputable def chargedRhoIntegrand (e : ℝ) : ℝ :=
  (dndePhotonChargedPion e engPiChargedRho + dndePhotonNeutralPion e engPi0ChargedRho) / e

/-- `boosted`, `photon_rho.rs:211-235`, with `boost_window` (`photon_rho.rs:178-186`) inlined. -/
noncomputable def rhoBoosted (e erho : ℝ) (integrand : ℝ → ℝ) : ℝ :=
  if erho < massRho then 0
  else if erho - massRho < f64eps then integrand e
  else
    let beta := boostBeta erho massRho
    let gamma := boostGamma erho massRho
    (0.5 / (beta * gamma)) * ∫ e' in (gamma * e * (1 - beta))..(gamma * e * (1 + beta)), integrand e'

/-- `dnde_photon_neutral_rho`, `photon_rho.rs:260-262`. -/
noncomputable def dndePhotonNeutralRho (egam erho : ℝ) : ℝ := rhoBoosted egam erho neutralRhoIntegrand
/-- `dnde_photon_charged_rho`, `photon_rho.rs:277-279`. -/
noncomputable def dndePhotonChargedRho (egam erho : ℝ) : ℝ := rhoBoosted egam erho chargedRhoIntegrand

/-! ### Positrons from pions (`rust/src/kernels/positron_pion.rs`) -/

/-- `ENG_MU_PI_RF`, `constants.rs:592` and `neutrino_pion.rs:66`. -/
noncomputable def engMuPiRf : ℝ := (massPi * massPi + massMu * massMu) / (2 * massPi)
/-- `ENG_E_PI_RF`, `constants.rs:594`. -/
noncomputable def engEPiRf : ℝ := 0.5 * (massPi * massPi + massE * massE) / massPi
/-- `EMAX_PI_RF`, `positron_pion.rs:87`. -/
def emaxPiRf : ℝ := 69.78613044168974

/-- `charged_pion_integrand`, `positron_pion.rs:115-117`. -/
noncomputable def positronPionIntegrand (e : ℝ) : ℝ :=
  dndePositronMuon e engMuPiRf / Real.sqrt (e * e - massE * massE)

/-- `dnde_positron_charged_pion`, `positron_pion.rs:141-180`. -/
noncomputable def dndePositronChargedPion (e epi : ℝ) : ℝ :=
  if epi < massPi ∨ e < massE then 0
  else if |epi - massPi| < f64eps then 0
  else
    let gamma := boostGamma epi massPi
    let beta := boostBeta epi massPi
    let k := Real.sqrt (e * e - massE * massE)
    let emin := max (gamma * (-beta * k + e)) massE
    let emax := min (gamma * (beta * k + e)) emaxPiRf
    let integral := ∫ e' in emin..emax, positronPionIntegrand e'
    let dndeMu := (brPiMuNu * integral) / ((2 * beta) * gamma)
    let dndeE := brPiENu * boostDeltaRust engEPiRf e massE beta
    dndeMu + dndeE

/-! ### Neutrinos from pions (`rust/src/kernels/neutrino_pion.rs`) -/

/-- `ENU_E_PI_RF`, `neutrino_pion.rs:74`. -/
noncomputable def enuEPiRf : ℝ := (massPi * massPi - massE * massE) / (2 * massPi)
/-- `ENU_MU_PI_RF`, `neutrino_pion.rs:79`. -/
noncomputable def enuMuPiRf : ℝ := (massPi * massPi - massMu * massMu) / (2 * massPi)

/-- `boost_integral` of one row (`neutrino_pion.rs:122-128`, `232-244`). -/
noncomputable def nuBoostIntegral (emin emax : ℝ) (row : NuPoint → ℝ) : ℝ :=
  ∫ e in emin..emax, row (dndeNeutrinoMuon e engMuPiRf) / e

/-- `dnde_mu_numu`, `neutrino_pion.rs:161-190`, with `boost_window` (`216-226`) inlined. -/
noncomputable def dndeMuNumu (enu epi : ℝ) : NuPoint :=
  if epi < massPi then NuPoint.zero
  else if epi - massPi < f64eps then
    let point := dndeNeutrinoMuon enu engMuPiRf
    ⟨point.electron * brPiMuNu, point.muon * brPiMuNu, point.tau⟩
  else
    let beta := boostBeta epi massPi
    let gamma := 1 / Real.sqrt (1 - beta * beta)
    let emin := max (enu * gamma * (1 - beta)) 0
    let emax := enu * gamma * (1 + beta)
    let pre := 0.5 / (gamma * beta)
    let deltaE := brPiENu * boostDeltaRust enuEPiRf enu 0 beta
    let deltaM := brPiMuNu * boostDeltaRust enuMuPiRf enu 0 beta
    let weight := pre * brPiMuNu
    ⟨deltaE + weight * nuBoostIntegral emin emax NuPoint.electron,
     deltaM + weight * nuBoostIntegral emin emax NuPoint.muon, 0⟩

/-- `dnde_e_nue`, `neutrino_pion.rs:263-280`. -/
noncomputable def dndeENue (enu epi : ℝ) : NuPoint :=
  if epi < massPi then NuPoint.zero
  else
    let ratio := massPi / epi
    let beta := Real.sqrt (1 - ratio * ratio)
    ⟨brPiENu * boostDeltaRust enuEPiRf enu 0 beta, 0, 0⟩

/-- `dnde_neutrino_charged_pion`, `neutrino_pion.rs:305-315`. -/
noncomputable def dndeNeutrinoChargedPion (enu epi : ℝ) : NuPoint :=
  let muNu := dndeMuNumu enu epi
  let eNu := dndeENue enu epi
  ⟨muNu.electron + eNu.electron, muNu.muon + eNu.muon, 0⟩

end Hazma.Spectra
