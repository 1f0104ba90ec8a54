import Verif.Model.Boost
import Mathlib.MeasureTheory.Integral.IntervalIntegral.Basic

/-!
# Tabulated positron and neutrino spectra of mesons

Model of `hazma/spectra/_positron/_utils.py` and `hazma/spectra/_neutrino/_utils.py`, through which
every meson function of `hazma/spectra/_positron/__init__.py:101-361` and
`hazma/spectra/_neutrino/__init__.py:132-466` goes.  The CSV files are parameters (rows of
numbers); the names of their columns and the last two rows of one of them are transcribed.
Not modelled: rounding, and the construction of the quadratic spline of the neutrino tables, which
is an arbitrary function here.
-/

namespace Hazma.LeptonTables

open MeasureTheory

/-- `scipy.interpolate.InterpolatedUnivariateSpline` with the default `ext = 0`: calling it
evaluates the polynomial pieces, the outer ones also beyond the table. -/
structure Spline where
  lo : ℝ
  hi : ℝ
  eval : ℝ → ℝ

/-- `spline.integral(a, b)`: SciPy takes the spline to be zero outside the data. -/
noncomputable def Spline.integral (s : Spline) (a b : ℝ) : ℝ :=
  ∫ x in a..b, (Set.Icc s.lo s.hi).indicator s.eval x

/-- The straight line through two points. -/
noncomputable def segment (p q : ℝ × ℝ) (x : ℝ) : ℝ :=
  p.2 + (q.2 - p.2) / (q.1 - p.1) * (x - p.1)

/-- The value of the `k = 1` spline through a list of points, extrapolated on both sides. -/
noncomputable def linEval : List (ℝ × ℝ) → ℝ → ℝ
  | p :: q :: r :: rest, x => if x ≤ q.1 then segment p q x else linEval (q :: r :: rest) x
  | [p, q], x => segment p q x
  | _, _ => 0

/-- One row of a table file: the energy and the columns of the decay modes. -/
abbrev Row := ℝ × List ℝ

/-- A point of `load_interp` (`_positron/_utils.py:19-21`): the summed columns, divided by the
momentum. -/
noncomputable def positronPoint (me : ℝ) (row : Row) : ℝ × ℝ :=
  (row.1, row.2.sum / Real.sqrt (row.1 ^ 2 - me ^ 2))

/-- `load_interp` (`_positron/_utils.py:13-28`). -/
noncomputable def loadPositron (me : ℝ) (rows : List Row) : Spline where
  lo := (rows.headD (0, [])).1
  hi := (rows.getLastD (0, [])).1
  eval := linEval (rows.map (positronPoint me))

/-- The velocity and Lorentz factor of the parent (`_positron/_utils.py:46-47`,
`_neutrino/_utils.py:43-44`). -/
noncomputable def gammaOf (parentEnergy parentMass : ℝ) : ℝ := parentEnergy / parentMass

@[inherit_doc gammaOf]
noncomputable def betaOf (parentEnergy parentMass : ℝ) : ℝ :=
  Real.sqrt (1 - (gammaOf parentEnergy parentMass ^ 2)⁻¹)

/-- The in-flight branch (`_positron/_utils.py:46-55`; with `mass = 0`, where the momentum is the
energy itself, `_neutrino/_utils.py:43-50`). -/
noncomputable def inFlight (s : Spline) (k e parentEnergy parentMass : ℝ) : ℝ :=
  let gamma := gammaOf parentEnergy parentMass
  let beta := betaOf parentEnergy parentMass
  s.integral (gamma * (e - beta * k)) (gamma * (e + beta * k)) / (2 * beta * gamma)

/-- `_dnde_positron_point` (`_positron/_utils.py:31-55`). -/
noncomputable def positronPointwise (me eps : ℝ) (s : Spline)
    (e parentEnergy parentMass : ℝ) : ℝ :=
  if parentEnergy < parentMass ∨ e < me then 0
  else if parentEnergy - parentMass < eps then s.eval e * Real.sqrt (e ^ 2 - me ^ 2)
  else inFlight s (Real.sqrt (e ^ 2 - me ^ 2)) e parentEnergy parentMass

/-- `x * np.sqrt(y)`: `none` is NaN, for negative `y`. -/
noncomputable def timesSqrt (x y : ℝ) : Option ℝ := if y < 0 then none else some (x * Real.sqrt y)

/-- `_dnde_positron_array` (`_positron/_utils.py:58-83`); `none` is NaN. -/
noncomputable def positronArray (me eps : ℝ) (s : Spline) (es : List ℝ)
    (parentEnergy parentMass : ℝ) : List (Option ℝ) :=
  if parentEnergy < parentMass then es.map fun _ => some 0
  else if parentEnergy - parentMass < eps then
    es.map fun e => timesSqrt (s.eval e) (e ^ 2 - me ^ 2)
  else es.map fun e => some (positronPointwise me eps s e parentEnergy parentMass)

/-- What the caller passes as an energy: a Python (or NumPy) float, another scalar such as a
Python integer, or an array. -/
inductive Arg where
  | float (e : ℝ)
  | otherScalar (e : ℝ)
  | array (es : List ℝ)

/-- What `dnde_positron` hands back, or the `AssertionError` of line 103. -/
inductive Res where
  | scalar (v : ℝ)
  | array (vs : List (Option ℝ))
  | assertion

/-- `np.zeros_like(positron_energy)`; of a scalar it is a zero-dimensional array. -/
noncomputable def zerosLike : Arg → Res
  | .float _ => .scalar 0
  | .otherScalar _ => .scalar 0
  | .array es => .array (es.map fun _ => some 0)

/-- `dnde_positron` (`_positron/_utils.py:86-111`). -/
noncomputable def dndePositron (me eps : ℝ) (s : Spline) (arg : Arg)
    (parentEnergy parentMass : ℝ) : Res :=
  if parentEnergy < parentMass then zerosLike arg
  else
    match arg with
    | .float e => .scalar (positronPointwise me eps s e parentEnergy parentMass)
    | .otherScalar _ => .assertion
    | .array es => .array (positronArray me eps s es parentEnergy parentMass)

/-- `_dnde_neutrino` on one entry of the array (`_neutrino/_utils.py:53-79` with
`_neutrino/_utils.py:29-50`); the point function repeats both tests of the array function. -/
noncomputable def neutrinoPointwise (eps : ℝ) (s : Spline) (e parentEnergy parentMass : ℝ) : ℝ :=
  if parentEnergy < parentMass then 0
  else if parentEnergy - parentMass < eps then s.eval e * e
  else inFlight s e e parentEnergy parentMass

/-- What `dnde_neutrino` hands back: one number per flavour, a two-dimensional array given by its
rows, or a one-dimensional array. -/
inductive NuRes where
  | flavours (e mu tau : ℝ)
  | rows (e mu tau : List ℝ)
  | row (vs : List ℝ)

/-- `np.atleast_1d(neutrino_energy)` (`_neutrino/_utils.py:93`). -/
def Arg.atleast1d : Arg → List ℝ
  | .float e => [e]
  | .otherScalar e => [e]
  | .array es => es

/-- `np.isscalar(neutrino_energy)` (`_neutrino/_utils.py:92`). -/
def Arg.isScalar : Arg → Bool
  | .float _ => true
  | .otherScalar _ => true
  | .array _ => false

/-- `not flavor or flavor == flav` (`_neutrino/_utils.py:100`). -/
def wants (flavor : Option String) (flav : String) : Prop :=
  flavor = none ∨ flavor = some "" ∨ flavor = some flav

instance (flavor : Option String) (flav : String) : Decidable (wants flavor flav) := by
  unfold wants; infer_instance

/-- `dnde[..., 0]` for a scalar, the table otherwise (`_neutrino/_utils.py:113-117`). -/
noncomputable def finish (scalar : Bool) (e mu tau : List ℝ) : NuRes :=
  if scalar = true then .flavours (e.getD 0 0) (mu.getD 0 0) (tau.getD 0 0) else .rows e mu tau

/-- `dnde_neutrino` (`_neutrino/_utils.py:82-117`). -/
noncomputable def dndeNeutrino (eps : ℝ) (interpE interpMu : Spline) (arg : Arg)
    (parentEnergy parentMass : ℝ) (flavor : Option String) : NuRes :=
  let enu := arg.atleast1d
  let zeros := enu.map fun _ => (0 : ℝ)
  let rowE := enu.map fun e => neutrinoPointwise eps interpE e parentEnergy parentMass
  let rowMu := enu.map fun e => neutrinoPointwise eps interpMu e parentEnergy parentMass
  if flavor = some "tau" then .row zeros
  else if flavor = some "e" then .row rowE
  else if flavor = some "mu" then .row rowMu
  else
    finish arg.isScalar (if wants flavor "e" then rowE else zeros)
      (if wants flavor "mu" then rowMu else zeros) zeros

/-- Number of elementary charges, up to sign, of the particles named in the tables' columns. -/
def charge : String → ℕ
  | "pi" | "k" | "e" | "mu" | "rho" => 1
  | _ => 0

/-- A table file: the parent's charge and the columns, every column a decay mode. -/
structure TableFile where
  name : String
  parentCharge : ℕ
  modes : List (List String)

/-- The headers of `hazma/spectra/_neutrino/data/*.csv` and of the positron tables
`hazma/spectra/_positron/data/*.csv` that name their columns; the parents are those of the
functions which load them (`_neutrino/__init__.py:17-34`, `_positron/__init__.py:18-25`). -/
def tableFiles : List TableFile :=
  let kaonNu : List (List String) :=
    [["mu", "vm"], ["pi", "pi0"], ["pi", "pi", "pi"], ["pi0", "e", "ve"], ["pi0", "mu", "vm"],
      ["pi", "pi0", "pi0"]]
  let etaModes : List (List String) := [["pi", "pi", "pi0"], ["pi", "pi", "a"], ["mu", "mu"]]
  let klNu : List (List String) :=
    [["pi", "pi", "pi0"], ["pi", "e", "ve"], ["pi", "mu", "vm"], ["pi", "pi"]]
  [⟨"charged_kaon_neutrino_e.csv", 1, kaonNu⟩,
   ⟨"charged_kaon_neutrino_mu.csv", 1, kaonNu⟩,
   ⟨"charged_rho_neutrino_e.csv", 1, [["pi", "pi"]]⟩,
   ⟨"charged_rho_neutrino_mu.csv", 1, [["pi", "pi"]]⟩,
   ⟨"eta_neutrino_e.csv", 0, etaModes⟩,
   ⟨"eta_neutrino_mu.csv", 0, etaModes⟩,
   ⟨"eta_prime_neutrino_e.csv", 0, [["pi", "pi", "eta"], ["pi", "rho"]]⟩,
   ⟨"eta_prime_neutrino_mu.csv", 0, [["pi", "pi", "eta"], ["pi", "rho"]]⟩,
   ⟨"long_kaon_neutrino_e.csv", 0, klNu⟩,
   ⟨"long_kaon_neutrino_mu.csv", 0, klNu⟩,
   ⟨"neutral_rho_neutrino_e.csv", 0, [["pi", "pi0"]]⟩,
   ⟨"neutral_rho_neutrino_mu.csv", 0, [["pi", "pi0"]]⟩,
   ⟨"omega_neutrino_e.csv", 0, [["pi", "pi", "pi0"], ["pi", "pi"], ["mu", "mu"]]⟩,
   ⟨"omega_neutrino_mu.csv", 0, [["pi", "pi", "pi0"], ["pi", "pi"], ["mu", "mu"]]⟩,
   ⟨"phi_neutrino_e.csv", 0, [["pi", "pi", "pi0"], ["mu", "mu"], ["pi", "pi"]]⟩,
   ⟨"phi_neutrino_mu.csv", 0, [["pi", "pi", "pi0"], ["mu", "mu"], ["pi", "pi"]]⟩,
   ⟨"short_kaon_neutrino_e.csv", 0, [["pi", "pi"]]⟩,
   ⟨"short_kaon_neutrino_mu.csv", 0, [["pi", "pi"]]⟩,
   ⟨"charged_kaon_positron.csv", 1,
    [["mu", "nu"], ["pi", "pi0"], ["pi", "pi", "pi"], ["pi0", "e", "nu"], ["pi0", "mu", "nu"],
      ["pi", "pi0", "pi0"], ["e", "nu"]]⟩,
   ⟨"eta_positron.csv", 0, etaModes⟩,
   ⟨"eta_prime_positron.csv", 0,
    [["pi", "pi", "eta"], ["rho0", "a"], ["pi0", "pi0", "eta"], ["omega", "a"], ["a", "a"],
      ["pi", "rho"]]⟩,
   ⟨"long_kaon_positron.csv", 0,
    [["pi0", "pi0", "pi0"], ["pi", "pi", "pi0"], ["pi", "e", "nu"], ["pi", "mu", "nu"],
      ["pi", "pi"]]⟩,
   ⟨"omega_positron.csv", 0,
    [["pi", "pi", "pi0"], ["pi0", "a"], ["pi", "pi"], ["eta", "a"], ["e", "e"], ["mu", "mu"]]⟩,
   ⟨"phi_positron.csv", 0,
    [["k", "k"], ["kS", "kL"], ["pi", "pi", "pi0"], ["eta", "a"], ["pi0", "a"], ["e", "e"],
      ["mu", "mu"], ["pi", "pi"], ["omega", "pi0"], ["etap", "a"]]⟩,
   ⟨"short_kaon_positron.csv", 0, [["pi", "pi"], ["pi0", "pi0"]]⟩]

/-- The last two rows of `hazma/spectra/_positron/data/charged_kaon_positron.csv:500-501`
in MeV and 1/MeV. -/
noncomputable def kaonEnd : List Row :=
  [(243.8005155768861, [6.681661832042426e-5, 0, 0, 0, 0, 0, 0]),
   (246.8387644643389, [0, 0, 0, 0, 0, 0, 0])]

end Hazma.LeptonTables
