import Mathlib.Analysis.SpecialFunctions.Pow.Real
import Mathlib.Analysis.SpecialFunctions.Trigonometric.Basic
import Mathlib.Analysis.Real.Sqrt
import Mathlib.Algebra.Order.Floor.Defs

/-!
# Convolution of a spectrum with a detector response

Model of `hazma/parameters.py:354-541`: unit conversion of `<sigma v>`, the energy resolution
callback, the Gaussian response, the grid of true energies and `convolved_spectrum_fn`.

Simplifications: arithmetic is exact over `ℝ`; `np.geomspace` is the exact geometric progression; the
continuum `spec_fn` is a function of one energy applied elementwise and does not raise.  The returned
SciPy spline of degree 1 is represented by its knots and values.
-/

namespace Hazma.Detector

/-- `hbar2_c3`, `parameters.py:371`. -/
noncomputable def hbar2c3 : ℝ := (3.0e10 : ℝ) ^ 3 * (6.58e-22 : ℝ) ^ 2

/-- `convert_sigmav`, `parameters.py:354-376`; `none` is Python's `None`, returned when no branch
matches. -/
noncomputable def convertSigmav (sv : ℝ) (target : String) : Option ℝ :=
  if target = "cm^3 / s" then some (sv * hbar2c3)
  else if target = "MeV^-2" then some (sv / hbar2c3)
  else none

/-- Exceptions that matter here. -/
inductive Exc where
  | valueError
  | typeError
  | other
  deriving DecidableEq

/-- What a callback may return: one number or a one-dimensional array. -/
inductive Ret where
  | scalar (x : ℝ)
  | array (xs : List ℝ)

/-- The user's `energy_res`, described by what it does when called with an array, with a
zero-dimensional array and with a Python float. -/
structure Callback where
  onArray : List ℝ → Except Exc Ret
  onZeroD : ℝ → Except Exc Ret
  onFloat : ℝ → Except Exc ℝ

/-- `np.vectorize(energy_res, otypes=[float])(e)`: one call per element, in order. -/
def mapFloat (cb : Callback) : List ℝ → Except Exc (List ℝ)
  | [] => .ok []
  | e :: es =>
    match cb.onFloat e with
    | .error x => .error x
    | .ok r =>
      match mapFloat cb es with
      | .error x => .error x
      | .ok rs => .ok (r :: rs)

/-- `res.shape != e.shape` and `np.broadcast_to`, `parameters.py:414-417`, for a one-dimensional
array of `n` energies. -/
def broadcast (n : ℕ) : Ret → Except Exc (List ℝ)
  | .scalar x => .ok (List.replicate n x)
  | .array xs =>
    if xs.length = n then .ok xs
    else
      match xs with
      | [x] => .ok (List.replicate n x)
      | _ => .error .valueError

/-- `_eval_energy_res`, `parameters.py:398-417`, on a one-dimensional array. -/
def evalEnergyRes (cb : Callback) (es : List ℝ) : Except Exc (List ℝ) :=
  match cb.onArray es with
  | .ok r => broadcast es.length r
  | .error .valueError => mapFloat cb es
  | .error .typeError => mapFloat cb es
  | .error .other => .error .other

/-- `_eval_energy_res`, `parameters.py:398-417`, on a single energy (a zero-dimensional array; a
one-dimensional result cannot be broadcast to it). -/
def evalEnergyRes0 (cb : Callback) (e : ℝ) : Except Exc ℝ :=
  match cb.onZeroD e with
  | .ok (.scalar x) => .ok x
  | .ok (.array _) => .error .valueError
  | .error .valueError => cb.onFloat e
  | .error .typeError => cb.onFloat e
  | .error .other => .error .other

/-- The body of `spec_res_fn`, `parameters.py:441-451`, for reconstructed energy `ep`, true energy
`e` and resolution `r = Delta E / E (e)`. -/
noncomputable def response (r ep e : ℝ) : ℝ :=
  let sigma := e * r
  if sigma = 0 then 0
  else 1 / Real.sqrt (2 * Real.pi * sigma ^ 2) * Real.exp (-((ep - e) ^ 2) / (2 * sigma ^ 2))

/-- `spec_res_fn(ep, es, energy_res)` for an array of true energies, `parameters.py:420-451`. -/
noncomputable def specResFn (cb : Callback) (ep : ℝ) (es : List ℝ) : Except Exc (List ℝ) :=
  match evalEnergyRes cb es with
  | .error x => .error x
  | .ok rs => .ok (List.zipWith (fun e r => response r ep e) es rs)

/-- `spec_res_fn(es, e, energy_res)` for an array of reconstructed energies and one true energy,
`parameters.py:420-451`. -/
noncomputable def specResLine (cb : Callback) (eps : List ℝ) (e : ℝ) : Except Exc (List ℝ) :=
  match evalEnergyRes0 cb e with
  | .error x => .error x
  | .ok r => .ok (eps.map fun ep => response r ep e)

/-- `np.geomspace(lo, hi, n)`. -/
noncomputable def geomspace (lo hi : ℝ) (n : ℕ) : List ℝ :=
  (List.range n).map fun i : ℕ => lo * (hi / lo) ^ ((i : ℝ) / ((n : ℝ) - 1))

/-- `_MAX_CONV_PTS`, `parameters.py:456`. -/
def maxConvPts : ℕ := 200000

/-- `np.min` of a non-empty list. -/
noncomputable def listMin : List ℝ → ℝ
  | [] => 0
  | x :: xs => xs.foldl min x

/-- `_true_energy_grid`, `parameters.py:459-476`; `np.clip(a, lo, hi)` is `min(max(a, lo), hi)`. -/
noncomputable def trueEnergyGrid (lo hi : ℝ) (cb : Callback) (n : ℕ) : Except Exc (List ℝ) :=
  match evalEnergyRes cb (geomspace lo hi n) with
  | .error x => .error x
  | .ok rs =>
    match rs.filter (fun r => 0 < r) with
    | [] => .ok (geomspace lo hi n)
    | r :: rest =>
      let needed : ℤ := ⌈4 * Real.log (hi / lo) / listMin (r :: rest)⌉
      .ok (geomspace lo hi (min (max needed (n : ℤ)) (maxConvPts : ℤ)).toNat)

/-- `scipy.integrate.trapezoid(ys, xs)`. -/
noncomputable def trapezoid : List ℝ → List ℝ → ℝ
  | x :: x' :: xs, y :: y' :: ys => (x' - x) * (y + y') / 2 + trapezoid (x' :: xs) (y' :: ys)
  | _, _ => 0

/-- `integral(e)`, `parameters.py:517-527`. -/
noncomputable def continuumAt (cb : Callback) (grid src : List ℝ) (e : ℝ) : Except Exc ℝ :=
  match specResFn cb e grid with
  | .error x => .error x
  | .ok resp => .ok (trapezoid grid (List.zipWith (· * ·) src resp))

/-- `np.vectorize(integral)(es)`: one call per element. -/
noncomputable def continuumList (cb : Callback) (grid src : List ℝ) :
    List ℝ → Except Exc (List ℝ)
  | [] => .ok []
  | e :: es =>
    match continuumAt cb grid src e with
    | .error x => .error x
    | .ok v =>
      match continuumList cb grid src es with
      | .error x => .error x
      | .ok vs => .ok (v :: vs)

/-- An entry of the `lines` dictionary: channel, energy and branching fraction. -/
structure Line where
  channel : String
  energy : ℝ
  bf : ℝ

/-- The factor of `parameters.py:537`. -/
noncomputable def multiplicity (ch : String) : ℝ := if ch = "g g" then 2 else 1

/-- The loop over lines, `parameters.py:532-538`, adding to `acc`. -/
noncomputable def addLines (cb : Callback) (es : List ℝ) :
    List Line → List ℝ → Except Exc (List ℝ)
  | [], acc => .ok acc
  | l :: ls, acc =>
    match specResLine cb es l.energy with
    | .error x => .error x
    | .ok rs =>
      addLines cb es ls (List.zipWith (fun a r => a + l.bf * r * multiplicity l.channel) acc rs)

/-- The continuum part, `parameters.py:508-529`. -/
noncomputable def addContinuum (eMin eMax : ℝ) (cb : Callback) (spec : Option (ℝ → ℝ)) (n : ℕ)
    (es : List ℝ) : Except Exc (List ℝ) :=
  match spec with
  | none => .ok (es.map fun _ => 0)
  | some f =>
    match trueEnergyGrid (0.1 * eMin) (10 * eMax) cb n with
    | .error x => .error x
    | .ok grid =>
      let src := grid.map f
      if ∀ y ∈ src, y = 0 then .ok (es.map fun _ => 0)
      else continuumList cb grid src es

/-- `convolved_spectrum_fn`, `parameters.py:479-541`: the knots and values of the returned spline.
The spline constructor raises `ValueError` for fewer than two knots or knots that do not increase
strictly. -/
noncomputable def convolvedSpectrum (eMin eMax : ℝ) (cb : Callback) (spec : Option (ℝ → ℝ))
    (lines : Option (List Line)) (n : ℕ) : Except Exc (List ℝ × List ℝ) :=
  let es := geomspace eMin eMax n
  match addContinuum eMin eMax cb spec n es with
  | .error x => .error x
  | .ok cont =>
    match addLines cb es (lines.getD []) cont with
    | .error x => .error x
    | .ok vals => if 2 ≤ n ∧ eMin < eMax then .ok (es, vals) else .error .valueError

end Hazma.Detector
