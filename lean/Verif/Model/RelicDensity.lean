import Mathlib.MeasureTheory.Integral.IntervalIntegral.Basic
import Mathlib.Analysis.SpecialFunctions.Log.Basic
import Mathlib.Analysis.SpecialFunctions.Trigonometric.Basic

/-!
# Relic density

Models `hazma/relic_density`.  The splines of the Standard Model degrees of freedom, the root finder
and the ODE solver are parameters; `scipy.special.kn` and `k1` are the modified Bessel functions,
defined by their integral representation; `scipy.integrate.quad` is the exact integral.  Array
arguments act elementwise and are modelled by their scalar case.
-/

namespace Hazma.Relic

open MeasureTheory

/-- `scipy.special.kn(n, z)` for positive `z` (DLMF 10.32.9). -/
noncomputable def besselK (n : ℕ) (z : ℝ) : ℝ :=
  ∫ t in Set.Ioi (0 : ℝ), Real.exp (-(z * Real.cosh t)) * Real.cosh (n * t)

/-- The splines built from `smdof.dat` (`_thermal_functions.py:11-24`). -/
structure Sm where
  sqrtGstar : ℝ → ℝ
  heff : ℝ → ℝ
  heffDeriv : ℝ → ℝ

/-- `sm_entropy_density` (`_thermal_functions.py:82-96`). -/
noncomputable def entropy (sm : Sm) (T : ℝ) : ℝ := 2 * Real.pi ^ 2 / 45 * sm.heff T * T ^ 3

/-- `sm_entropy_density_deriv` (`_thermal_functions.py:107-128`). -/
noncomputable def entropyDeriv (sm : Sm) (T : ℝ) : ℝ :=
  2 * Real.pi ^ 2 / 45 * (sm.heffDeriv T * T + 3 * sm.heff T) * T ^ 2

/-- `eta = -1 if is_fermion else 1`. -/
def eta (fermion : Bool) : ℝ := if fermion then -1 else 1

/-- The massless constants (`_thermal_functions.py:172`, `229`). -/
noncomputable def masslessNbar (fermion : Bool) : ℝ :=
  if fermion then 0.0913453711751798 else 0.121793828233573

/-- `nbar` of a massive particle (`_thermal_functions.py:176-188`). -/
noncomputable def nbar (fermion : Bool) (x : ℝ) : ℝ :=
  x ^ 2 * ((List.range' 1 5).map fun n => eta fermion ^ (n + 1) / n * besselK 2 (n * x)).sum
    / (2 * Real.pi ^ 2)

/-- `dnbar` of a massive particle (`_thermal_functions.py:233-242`). -/
noncomputable def dnbar (fermion : Bool) (x : ℝ) : ℝ :=
  x ^ 2 * ((List.range' 1 5).map fun n => eta fermion ^ n * besselK 1 (n * x)).sum / (2 * Real.pi ^ 2)

/-- `neq` (`_thermal_functions.py:141-189`). -/
noncomputable def neq (T mass g : ℝ) (fermion : Bool) : ℝ :=
  let nb := if mass = 0 then masslessNbar fermion else nbar fermion (mass / T)
  g * nb * T ^ 3

/-- `neq_deriv` (`_thermal_functions.py:203-249`). -/
noncomputable def neqDeriv (T mass g : ℝ) (fermion : Bool) : ℝ :=
  let dnb := if mass = 0 then 0 else dnbar fermion (mass / T)
  let nb := if mass = 0 then masslessNbar fermion else nbar fermion (mass / T)
  g * T * (3 * T * nb - mass * dnb)

/-- `yeq` (`_thermal_functions.py:262-288`). -/
noncomputable def yeq (sm : Sm) (T mass g : ℝ) (fermion : Bool) : ℝ := neq T mass g fermion / entropy sm T

/-- `yeq_deriv` (`_thermal_functions.py:303-330`). -/
noncomputable def yeqDeriv (sm : Sm) (T mass g : ℝ) (fermion : Bool) : ℝ :=
  let s := entropy sm T
  let ds := entropyDeriv sm T
  (neqDeriv T mass g fermion * s - ds * neq T mass g fermion) / s ^ 2

/-- `yeq_derivx` (`_thermal_functions.py:345-369`). -/
noncomputable def yeqDerivX (sm : Sm) (x mass g : ℝ) (fermion : Bool) : ℝ :=
  -mass * yeqDeriv sm (mass / x) mass g fermion / x ^ 2

/-- `weq` (`_thermal_functions.py:382-410`); `none` stands for `-np.inf`. -/
noncomputable def weq (sm : Sm) (T mass g : ℝ) (fermion : Bool) : Option ℝ :=
  if 0 < neq T mass g fermion then some (Real.log (neq T mass g fermion / entropy sm T)) else none

/-- What the code uses of a dark-matter model: `mx`, its own `thermal_cross_section` if it has one, and
`annihilation_cross_sections(e)["total"]`. -/
structure Dm where
  mx : ℝ
  own : Option (ℝ → ℝ)
  total : ℝ → ℝ

/-- `thermal_cross_section_integrand` (`_thermal_functions.py:413-435`). -/
noncomputable def tcsIntegrand (sigma : ℝ → ℝ) (mx x z : ℝ) : ℝ :=
  sigma (mx * z) * (z ^ 2 * (z ^ 2 - 4) * besselK 1 (x * z))

/-- The body shared by the generic `thermal_cross_section` (`_thermal_functions.py:460-485`) and the one
inside the GeV vector model (`vector_mediator/_gev/thermal_cross_section.py:132-143`). -/
noncomputable def genericTcs (sigma : ℝ → ℝ) (mx x : ℝ) : ℝ :=
  if x > 300 then 0
  else x / (2 * besselK 2 x) ^ 2 * ∫ z in (2 : ℝ)..(50 / x), tcsIntegrand sigma mx x z

/-- `thermal_cross_section` (`_thermal_functions.py:438-485`). -/
noncomputable def tcs (d : Dm) (x : ℝ) : ℝ :=
  match d.own with
  | some f => f x
  | none => genericTcs d.total d.mx x

/-- The scalar mediator's `thermal_cross_section` (`rust/src/kernels/scalar_xs.rs:895-961`) for a real
total cross section. -/
noncomputable def scalarTcs (sigma : ℝ → ℝ) (mx x : ℝ) : ℝ :=
  if x > 300 then 0
  else x / (2 * besselK 2 x) ^ 2
    * ∫ z in (2 : ℝ)..(if 100 > 50 / x then 100 else 50 / x), tcsIntegrand sigma mx x z

/-- The vector mediator's `thermal_cross_section` (`rust/src/kernels/vector_xs.rs:413-483`). -/
noncomputable def vectorTcs (sigma : ℝ → ℝ) (mx x : ℝ) : ℝ :=
  let xn := if x < 300 then x else 300
  xn / (2 * besselK 2 xn) ^ 2
    * ∫ z in (2 : ℝ)..(if 150 > 50 / xn then 150 else 50 / xn), tcsIntegrand sigma mx xn z

/-- Final states of the GeV vector model counted in the relic density
(`_gev/thermal_cross_section.py:8-36`). -/
def gevTwoBody : List String :=
  ["e e", "mu mu", "ve ve", "vt vt", "vm vm", "pi pi", "k0 k0", "k k", "pi0 gamma", "eta gamma",
    "pi0 phi", "eta phi", "eta omega"]

/-- See `gevTwoBody`. -/
def gevThreeBody : List String :=
  ["pi0 pi0 gamma", "pi pi pi0", "pi pi eta", "pi pi etap", "pi pi omega", "pi0 pi0 omega",
    "pi0 k0 k0", "pi0 k k", "pi k k0"]

/-- See `gevTwoBody`. -/
def gevFourBody : List String := ["pi pi pi pi", "pi pi pi0 pi0"]

/-- `_make_final_states` (`_gev/thermal_cross_section.py:48-54`). -/
def gevFinalStates (three four : Bool) : List String :=
  gevTwoBody ++ (if three then gevThreeBody else []) ++ (if four then gevFourBody else [])

/-- The total cross section `acs` of the GeV model's relic density
(`_gev/thermal_cross_section.py:116-125`). -/
noncomputable def gevTotal (funcs : List (String × (ℝ → ℝ))) (three four : Bool) (e : ℝ) : ℝ :=
  ((funcs.filter fun p => (gevFinalStates three four).contains p.1).map fun p => p.2 e).sum

/-- `pf` of the Boltzmann equation (`_diffeq.py:45`, `77`). -/
noncomputable def boltzmannPf (sm : Sm) (mpl mx x : ℝ) : ℝ :=
  -Real.sqrt (Real.pi / 45) * mpl * mx * sm.sqrtGstar (mx / x) / x

/-- `np.exp(2.0 * _weq - w)`. -/
noncomputable def expTwice (we : Option ℝ) (w : ℝ) : ℝ :=
  match we with
  | some a => Real.exp (2 * a - w)
  | none => 0

/-- `boltzmann_eqn` (`_diffeq.py:20-49`). -/
noncomputable def boltzmannEqn (sm : Sm) (mpl : ℝ) (d : Dm) (logx w : ℝ) : ℝ :=
  let x := Real.exp logx
  boltzmannPf sm mpl d.mx x * tcs d x
    * (Real.exp w - expTwice (weq sm (d.mx / x) d.mx 2 true) w)

/-- `jacobian_boltzmann_eqn` (`_diffeq.py:52-81`). -/
noncomputable def boltzmannJac (sm : Sm) (mpl : ℝ) (d : Dm) (logx w : ℝ) : ℝ :=
  let x := Real.exp logx
  boltzmannPf sm mpl d.mx x * tcs d x
    * (Real.exp w + expTwice (weq sm (d.mx / x) d.mx 2 true) w)

/-- The initial condition and integration range of `solve_boltzmann` (`_diffeq.py:124-129`). -/
noncomputable def solveSpan (sm : Sm) (d : Dm) (x0 : ℝ) (xf : Option ℝ) : Option ℝ × ℝ × ℝ :=
  (weq sm (d.mx / x0) d.mx 2 true, Real.log x0,
    match xf with
    | none => Real.log x0 + 7
    | some xf => Real.log xf)

/-- `deltabar` (`_approx.py:46`). -/
noncomputable def deltabar (delta : Option ℝ) : ℝ :=
  match delta with
  | none => 1
  | some d => d * (2 + d) / (1 + d)

/-- `xstar_root_eqn` (`_approx.py:19-52`). -/
noncomputable def xstarRootEqn (sm : Sm) (mpl : ℝ) (d : Dm) (delta : Option ℝ) (xstar : ℝ) : ℝ :=
  let T := d.mx / xstar
  let lam := Real.sqrt (Real.pi / 45) * d.mx * mpl * sm.sqrtGstar T
  xstar ^ 2 * yeqDerivX sm xstar d.mx 2 true
    + lam * deltabar delta * tcs d xstar * yeq sm T d.mx 2 true ^ 2

/-- `compute_alpha` (`_approx.py:79-99`), for the upper end `b` of the integral; the code uses
`b = 100 xstar`. -/
noncomputable def alphaTo (sm : Sm) (mpl : ℝ) (d : Dm) (xstar b : ℝ) : ℝ :=
  Real.sqrt (Real.pi / 45) * d.mx * mpl
    * ∫ x in xstar..b, sm.sqrtGstar (d.mx / x) * tcs d x / x ^ 2

/-- `compute_alpha`. -/
noncomputable def computeAlpha (sm : Sm) (mpl : ℝ) (d : Dm) (xstar : ℝ) : ℝ :=
  alphaTo sm mpl d xstar (100 * xstar)

/-- The constants used by `relic_density`. -/
structure Consts where
  mpl : ℝ
  s0 : ℝ
  rhoCrit : ℝ

/-- `relic_density` (`_rd.py:13-89`).  `rootScalar f lo hi` is scipy's bracketing root finder
(`compute_xstar`, `_approx.py:55-76`); `solver w0 logx0 logxf rhs jac` is the last value of scipy's
`solve_ivp`. -/
noncomputable def relicDensity (sm : Sm) (k : Consts) (d : Dm) (semi : Bool) (delta : Option ℝ)
    (x0 : ℝ) (xf : Option ℝ) (rootScalar : (ℝ → ℝ) → ℝ → ℝ → ℝ)
    (solver : Option ℝ → ℝ → ℝ → (ℝ → ℝ → ℝ) → (ℝ → ℝ → ℝ) → ℝ) : ℝ :=
  let y0 :=
    if semi then
      let xstar := rootScalar (xstarRootEqn sm k.mpl d delta) 0.01 100
      let alpha := computeAlpha sm k.mpl d xstar
      let ystar := yeq sm (d.mx / xstar) d.mx 2 true
      ystar / (1 + ystar * alpha)
    else
      let sp := solveSpan sm d x0 xf
      Real.exp (solver sp.1 sp.2.1 sp.2.2 (boltzmannEqn sm k.mpl d) (boltzmannJac sm k.mpl d))
  y0 * d.mx * k.s0 / k.rhoCrit

end Hazma.Relic
