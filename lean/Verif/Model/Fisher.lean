import Mathlib.Analysis.SpecialFunctions.Pow.Real
import Mathlib.LinearAlgebra.Matrix.NonsingularInverse
import Verif.Model.Limits

/-!
# Background models and Fisher forecasts

Model of the background models of `hazma/background_model.py:9-70` and
`hazma/gamma_ray_parameters.py:1003-1329`, and of `fisher`, `FisherResults.limit` and `fisher_limit`
(`hazma/theory/_theory_gamma_ray_limits.py:173-376, 603-674`).

Simplifications: arithmetic is exact over `ℝ`; the energy grid is the default one, spanning the range of the
effective area, with splines of degree 1, whose integral is the trapezoidal rule; the convolved spectrum
`dnde` is a parameter (`Verif.Model.Detector`); `norm.ppf(norm.cdf(sigma))` is `sigma`.
-/

namespace Hazma.Fisher

open Hazma.Limits

/-! ## Background models -/

/-- A tabulated or analytic `BackgroundModel`, `background_model.py:9-33`. -/
structure Background where
  eLow : ℝ
  eHigh : ℝ
  flux : ℝ → ℝ

/-- `BackgroundModel.dPhi_dEdOmega`, `background_model.py:35-66`, for one energy: the returned value and
whether a warning is issued.  (`none` would be NaN.) -/
noncomputable def Background.eval (b : Background) (e : ℝ) : Option ℝ × Bool :=
  if e < b.eLow ∨ e > b.eHigh then (some (b.flux e), true) else (some (b.flux e), false)

/-- `gecco_bg_model`, `gamma_ray_parameters.py:33`. -/
noncomputable def geccoBg : Background := ⟨0.2, 4e3, fun e => 2 * 4e-3 / e ^ 2⟩

/-- `default_bg_model`, `gamma_ray_parameters.py:39`. -/
noncomputable def defaultBg : Background := ⟨0, 10.0e3, fun e => 2.74e-3 / e ^ 2⟩

/-- The attributes of `GalacticCenterBackgroundModel`, `gamma_ray_parameters.py:1027-1069`. -/
structure Gc where
  ampG : ℝ
  alphaG : ℝ
  ec : ℝ
  gamma : ℝ
  ampEg : ℝ
  alphaEg : ℝ

/-- The defaults, `gamma_ray_parameters.py:1029-1034`. -/
noncomputable def Gc.default : Gc := ⟨0.013, 1.8, 2, 2, 0.004135, 2.8956⟩

/-- `GalacticCenterBackgroundModel.params`, `gamma_ray_parameters.py:1147-1157`. -/
def Gc.params (g : Gc) : List (String × ℝ) :=
  [("galactic_amplitude", g.ampG),
   ("galactic_power_law_index", g.alphaG),
   ("galactic_exponential_cutoff", g.ec),
   ("galactic_exponential_index", g.ec),
   ("extra_galactic_amplitude", g.ampEg),
   ("extra_galactic_power_law_index", g.alphaEg)]

/-- `GalacticCenterBackgroundModel.dPhi_dEdOmega`, `gamma_ray_parameters.py:1159-1183`. -/
noncomputable def Gc.flux (g : Gc) (e : ℝ) : ℝ :=
  let fg := g.ampG * e ^ (-g.alphaG) * Real.exp (-((e / g.ec) ^ g.gamma))
  let feg := g.ampEg * e ^ (-g.alphaEg)
  fg + feg

/-- `x / y` of NumPy floats in `f / amp`: NaN (`none`) when the amplitude, and with it `f`, is zero. -/
noncomputable def divNan (x y : ℝ) : Option ℝ := if y = 0 then none else some (x / y)

/-- `GalacticCenterBackgroundModel.derivatives`, `gamma_ray_parameters.py:1185-1226`. -/
noncomputable def Gc.derivatives (g : Gc) (e : ℝ) : List (String × Option ℝ) :=
  let eec := e / g.ec
  let fg := g.ampG * e ^ (-g.alphaG) * Real.exp (-(eec ^ g.gamma))
  let feg := g.ampEg * e ^ (-g.alphaEg)
  let dnG := divNan fg g.ampG
  let daG := -fg * Real.log e
  let dgG := -fg * Real.log eec * eec ^ g.gamma
  let decG := fg * eec ^ g.gamma * g.gamma / g.ec
  let dnEg := divNan feg g.ampEg
  let daEg := -feg * Real.log e
  [("galactic_amplitude", dnG),
   ("galactic_power_law_index", some daG),
   ("galactic_exponential_cutoff", some decG),
   ("galactic_exponential_index", some dgG),
   ("extra_galactic_amplitude", dnEg),
   ("extra_galactic_power_law_index", some daEg)]

/-- The attributes of `GeccoBackgroundModel`, `gamma_ray_parameters.py:1234-1250`. -/
structure Gecco where
  amp : ℝ
  alpha : ℝ

/-- The defaults, `gamma_ray_parameters.py:1234`. -/
noncomputable def Gecco.default : Gecco := ⟨2 * 4e-3, 2⟩

/-- `GeccoBackgroundModel.params`, `gamma_ray_parameters.py:1283-1289`. -/
def Gecco.params (g : Gecco) : List (String × ℝ) :=
  [("amplitude", g.amp), ("power_law_index", g.alpha)]

/-- `GeccoBackgroundModel.dPhi_dEdOmega`, `gamma_ray_parameters.py:1291-1307`. -/
noncomputable def Gecco.flux (g : Gecco) (e : ℝ) : ℝ := g.amp * e ^ (-g.alpha)

/-- `GeccoBackgroundModel.derivatives`, `gamma_ray_parameters.py:1309-1328`. -/
noncomputable def Gecco.derivatives (g : Gecco) (e : ℝ) : List (String × Option ℝ) :=
  let dn := e ^ (-g.alpha)
  let da := g.amp * e ^ (-g.alpha) * Real.log e
  [("amplitude", some dn), ("power_law_index", some da)]

/-! ## Fisher matrix -/

/-- The interface `fisher` uses of a parametric background model: `params`, `dPhi_dEdOmega` and
`derivatives(e)[key]` (`background_model.py:69-99`). -/
structure ParamBg where
  params : List (String × ℝ)
  flux : ℝ → ℝ
  deriv : String → ℝ → ℝ

/-- `params` of the result, `_theory_gamma_ray_limits.py:341-343`: the background parameters with
`"rate"` set to zero and moved to the front. -/
def fisherParams (bg : ParamBg) : List (String × ℝ) :=
  ("rate", 0) :: bg.params.filter (fun p => p.1 ≠ "rate")

/-- `dphi[key]`, `_theory_gamma_ray_limits.py:351-355`; `phiS` is the signal flux for unit rate. -/
def dphi (phiS : ℝ → ℝ) (bg : ParamBg) (key : String) : ℝ → ℝ :=
  if key = "rate" then phiS else bg.deriv key

/-- Integral of the degree-1 spline through `(e, f e)` for the energies of `grid` over the range of the
grid. -/
noncomputable def trapz : List ℝ → (ℝ → ℝ) → ℝ
  | x :: y :: rest, f => (y - x) * (f x + f y) / 2 + trapz (y :: rest) f
  | _, _ => 0

/-- `fisher_matrix_element`, `_theory_gamma_ray_limits.py:357-365`. -/
noncomputable def element (grid : List ℝ) (phiS : ℝ → ℝ) (bg : ParamBg) (dOmega : ℝ) (aeff : ℝ → ℝ)
    (tobs : ℝ) (k1 k2 : String) : ℝ :=
  trapz grid fun e =>
    dphi phiS bg k1 e * dphi phiS bg k2 e / (bg.flux e * dOmega) * aeff e * tobs

/-- `FisherResults`, `_theory_gamma_ray_limits.py:242-244`. -/
structure Results where
  params : List (String × ℝ)
  mat : Matrix (Fin params.length) (Fin params.length) ℝ

/-- The matrix, `_theory_gamma_ray_limits.py:367-374`: row `k2`, column `k1`. -/
noncomputable def entries (grid : List ℝ) (phiS : ℝ → ℝ) (bg : ParamBg) (dOmega : ℝ)
    (aeff : ℝ → ℝ) (tobs : ℝ) :
    Matrix (Fin (fisherParams bg).length) (Fin (fisherParams bg).length) ℝ :=
  Matrix.of fun i j => element grid phiS bg dOmega aeff tobs
    ((fisherParams bg).get j).1 ((fisherParams bg).get i).1

/-- The result of `fisher` once the signal flux is known, `_theory_gamma_ray_limits.py:341-376`. -/
noncomputable def fisherMatrix (grid : List ℝ) (phiS : ℝ → ℝ) (bg : ParamBg) (dOmega : ℝ)
    (aeff : ℝ → ℝ) (tobs : ℝ) : Results :=
  ⟨fisherParams bg, entries grid phiS bg dOmega aeff tobs⟩

/-- `fisher`, `_theory_gamma_ray_limits.py:261-376`, with `_differential_signal_flux` (L216-239) inlined:
the signal flux is the prefactor (scale 1, not self-conjugate) times the convolved spectrum. -/
noncomputable def fisher (kind : Kind) (mx : ℝ) (t : Target) (dnde : ℝ → ℝ) (bg : ParamBg)
    (grid : List ℝ) (aeff : ℝ → ℝ) (tobs : ℝ) : Except LimErr Results :=
  match signalFluxPrefactor kind mx t false with
  | .error e => .error e
  | .ok pref =>
    match t.dOmega with
    | none => .error .assertion
    | some dw => .ok (fisherMatrix grid (fun e => pref * dnde e) bg dw aeff tobs)

/-- Outcome of `FisherResults.limit`: a `KeyError`, NaN, or a number. -/
inductive LimitOut where
  | keyError
  | nan
  | value (x : ℝ)

/-- The diagonal entry `idx` of the inverse; NaN for a singular matrix or a negative entry
(`np.sqrt`). -/
noncomputable def limitAt {n : ℕ} (m : Matrix (Fin n) (Fin n) ℝ) (sigma : ℝ) (i : Fin n) : LimitOut :=
  if m.det = 0 then .nan
  else if m⁻¹ i i < 0 then .nan
  else .value (sigma * Real.sqrt (m⁻¹ i i))

/-- Position of a key in `params.keys()`, `_theory_gamma_ray_limits.py:248`. -/
def keyIndex (params : List (String × ℝ)) (key : String) : Option (Fin params.length) :=
  params.findFinIdx? (fun p => p.1 == key)

/-- `FisherResults.limit`, `_theory_gamma_ray_limits.py:246-258`, from its two fields. -/
noncomputable def limitKey (params : List (String × ℝ))
    (m : Matrix (Fin params.length) (Fin params.length) ℝ) (sigma : ℝ) (key : String) : LimitOut :=
  match keyIndex params key with
  | none => .keyError
  | some i => limitAt m sigma i

/-- `FisherResults.limit`, `_theory_gamma_ray_limits.py:246-258`. -/
noncomputable def Results.limit (r : Results) (sigma : ℝ) (key : String) : LimitOut :=
  limitKey r.params r.mat sigma key

/-- `fisher_limit`, `_theory_gamma_ray_limits.py:603-674`. -/
noncomputable def fisherLimit (kind : Kind) (mx : ℝ) (t : Target) (dnde : ℝ → ℝ) (bg : ParamBg)
    (grid : List ℝ) (aeff : ℝ → ℝ) (tobs : ℝ) (sigmas : List ℝ) : Except LimErr (List LimitOut) :=
  match fisher kind mx t dnde bg grid aeff tobs with
  | .error e => .error e
  | .ok r => .ok (sigmas.map fun s => r.limit s "rate")

end Hazma.Fisher
