import Mathlib.Analysis.SpecialFunctions.Trigonometric.Basic
import Mathlib.Analysis.Real.Sqrt
import Verif.Model.Num

/-!
# Gamma-ray limits

Model of `hazma/theory/_theory_gamma_ray_limits.py`.  The convolved spectrum and the splines built
from it (SciPy) enter only through their integrals over an energy window, which are parameters.
Limits live in `WithTop ℝ`, with `⊤` for `np.inf`.
-/

namespace Hazma.Limits

/-- Exceptions raised by the limit code. -/
inductive LimErr where
  | assertion
  | valueError
  | notImplemented
  | typeError
  deriving DecidableEq

/-- One bin of a `FluxMeasurement` (`hazma/flux_measurement.py:27-85`): edges, observed
differential flux and upper error bar. -/
structure Bin where
  eLow : ℝ
  eHigh : ℝ
  flux : ℝ
  upperErr : ℝ

/-- `TargetParams` (`hazma/target_params.py:9-21`): unset factors are `none`. -/
structure Target where
  J : Option ℝ
  D : Option ℝ
  dOmega : Option ℝ

/-- `model.kind`. -/
inductive Kind where
  | ann
  | dec
  | other
  deriving DecidableEq

/-- `_differential_signal_flux_prefactor`, `_theory_gamma_ray_limits.py:141-170`. -/
noncomputable def signalFluxPrefactor (kind : Kind) (mx : ℝ) (t : Target) (selfConj : Bool) :
    Except LimErr ℝ :=
  match t.dOmega with
  | none => .error .assertion
  | some dw =>
    match kind with
    | .ann =>
      match t.J with
      | none => .error .assertion
      | some J =>
        let fdm : ℝ := if selfConj then 1 else 2
        .ok (dw / (4 * Real.pi * mx ^ 2) * J * (1 / (2 * fdm)))
    | .dec =>
      match t.D with
      | none => .error .assertion
      | some D => .ok (dw / (4 * Real.pi * mx ^ 1) * D * 1)
    | .other => .error .valueError

/-- The factor `dm_flux_factor` of `_compute_fluxes`, `_theory_gamma_ray_limits.py:404-424`
(arithmetic with `None` is a `TypeError`). -/
noncomputable def dmFluxFactor (kind : Kind) (mx : ℝ) (t : Target) : Except LimErr ℝ :=
  match t.dOmega with
  | none => .error .typeError
  | some dw =>
    match kind with
    | .ann =>
      match t.J with
      | none => .error .typeError
      | some J => .ok (dw / (4 * Real.pi * mx) * (J / (2 * 2 * mx)))
    | .dec =>
      match t.D with
      | none => .error .typeError
      | some D => .ok (dw / (4 * Real.pi * mx) * D)
    | .other => .error .valueError

/-- `_compute_fluxes`, `_theory_gamma_ray_limits.py:404-434`; `integral el eh` is
`dnde_conv.integral(el, eh)`. -/
noncomputable def computeFluxes (kind : Kind) (mx : ℝ) (t : Target) (integral : ℝ → ℝ → ℝ)
    (bins : List Bin) : Except LimErr (List ℝ) := do
  let factor ← dmFluxFactor kind mx t
  return bins.map fun b => factor * integral b.eLow b.eHigh

/-- `np.min` of a list of limits; an empty array raises `ValueError`. -/
noncomputable def npMin : List (WithTop ℝ) → Except LimErr (WithTop ℝ)
  | [] => .error .valueError
  | x :: xs => .ok (xs.foldl min x)

/-- The entry of `sv_lims` for one bin, `_theory_gamma_ray_limits.py:63-74`. -/
noncomputable def oneBinLimit (dw nSigma : ℝ) (phi : ℝ) (b : Bin) : WithTop ℝ :=
  let dphiObs := nSigma * b.upperErr
  let phiMax := dw * (b.eHigh - b.eLow) * (b.flux + dphiObs)
  if 0 < phi then ((phiMax / phi : ℝ) : WithTop ℝ) else ⊤

/-- `constrain_one_bin`, `_theory_gamma_ray_limits.py:45-76`. -/
noncomputable def constrainOneBin (dw : ℝ) (phi : List ℝ) (bins : List Bin) (nSigma : ℝ) :
    Except LimErr (WithTop ℝ) :=
  npMin (List.zipWith (oneBinLimit dw nSigma) phi bins)

/-- The summand of `chi2_obs`, `_theory_gamma_ray_limits.py:80-88`. -/
noncomputable def chi2Term (dw : ℝ) (phi : ℝ) (b : Bin) : ℝ :=
  let phiObs := dw * (b.eHigh - b.eLow) * b.flux
  let uncertainty := dw * (b.eHigh - b.eLow) * b.upperErr
  (max (phi - phiObs) 0) ^ 2 / uncertainty ^ 2

/-- `constrain_chi_squared`, `_theory_gamma_ray_limits.py:79-96`.  `crit` is
`chi2.ppf(norm.cdf(n_sigma), df=len(phi))` (SciPy), a parameter. -/
noncomputable def constrainChiSquared (dw : ℝ) (phi : List ℝ) (bins : List Bin)
    (crit : ℝ) : WithTop ℝ :=
  let chi2Obs := (List.zipWith (chi2Term dw) phi bins).sum
  if chi2Obs = 0 then ⊤ else ((Real.sqrt (crit / chi2Obs) : ℝ) : WithTop ℝ)

/-- The `method` argument of `binned_limit`. -/
inductive Method where
  | oneBin
  | chi2
  | other
  deriving DecidableEq

/-- `binned_limit`, `_theory_gamma_ray_limits.py:436-477`.  The fluxes are computed before the
method is looked at.  `ppf nSigma n` is SciPy's critical value. -/
noncomputable def binnedLimit (kind : Kind) (mx : ℝ) (t : Target) (integral : ℝ → ℝ → ℝ)
    (ppf : ℝ → ℕ → ℝ) (bins : List Bin) (nSigma : ℝ) (m : Method) :
    Except LimErr (WithTop ℝ) := do
  let phi ← computeFluxes kind mx t integral bins
  match m, t.dOmega with
  | .oneBin, some dw => constrainOneBin dw phi bins nSigma
  | .chi2, some dw => return constrainChiSquared dw phi bins (ppf nSigma phi.length)
  | .other, _ => .error .notImplemented
  | _, none => .error .typeError

/-! ## Unbinned limit -/

/-- The pairs `(e_low, e_high)` visited by the double loop,
`_theory_gamma_ray_limits.py:583-586`. -/
def windows : List ℝ → List (ℝ × ℝ)
  | [] => []
  | e :: rest => (rest.map fun h => (e, h)) ++ windows rest

/-- `I_S_val / np.sqrt(I_B_val)`, `_theory_gamma_ray_limits.py:590`, with IEEE results for a
negative or zero background. -/
noncomputable def snr (s b : ℝ) : XReal :=
  if b < 0 then .nan
  else if b = 0 then (if 0 < s then .pinf else if s < 0 then .ninf else .nan)
  else .num (s / Real.sqrt b)

/-- `max` of two values ignoring NaN. -/
noncomputable def nanmax2 : XReal → XReal → XReal
  | .nan, y => y
  | x, .nan => x
  | .pinf, _ => .pinf
  | _, .pinf => .pinf
  | .ninf, y => y
  | x, .ninf => x
  | .num x, .num y => .num (max x y)

/-- `np.nanmax`: NaN if every entry is NaN. -/
noncomputable def nanmax (l : List XReal) : XReal := l.foldr nanmax2 .nan

/-- Division `c / x` of a finite number by a floating-point value. -/
noncomputable def divX (c : ℝ) : XReal → XReal
  | .nan => .nan
  | .pinf => .num 0
  | .ninf => .num 0
  | .num x => if x = 0 then (if 0 < c then .pinf else if c < 0 then .ninf else .nan)
      else .num (c / x)

/-- The prefactor of `unbinned_limit`, `_theory_gamma_ray_limits.py:548-566` (`J` is the J-factor
for annihilation and the D-factor for decay). -/
noncomputable def unbinnedPrefactor (kind : Kind) (mx J dw tObs : ℝ) : ℝ :=
  (match kind with
    | .ann => 2 * 2 * mx ^ 2
    | _ => mx) * (4 * Real.pi / (Real.sqrt (tObs * dw) * J))

/-- `unbinned_limit`, `_theory_gamma_ray_limits.py:479-601`, from the point where the integrands
are known; `iS`/`iB` are the integrals of the signal and background splines over a window. -/
noncomputable def unbinnedLimit (kind : Kind) (mx J dw tObs nSigma : ℝ) (iS iB : ℝ → ℝ → ℝ)
    (grid : List ℝ) : Except LimErr XReal :=
  let ws := windows grid
  if ws.any (fun w => decide (¬ w.1 < w.2)) then .error .assertion
  else if ws.isEmpty then .error .valueError
  else
    let snrs := ws.map fun w => snr (iS w.1 w.2) (iB w.1 w.2)
    .ok (divX (unbinnedPrefactor kind mx J dw tObs * nSigma) (nanmax snrs))

end Hazma.Limits
