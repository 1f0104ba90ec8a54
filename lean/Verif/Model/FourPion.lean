import Mathlib.Analysis.Complex.Basic
import Mathlib.Analysis.Real.Sqrt
import Mathlib.LinearAlgebra.Matrix.Notation
import Verif.Model.Rambo

/-!
# Four-pion vector form factors

Models `hazma/form_factors/vector/_pi_pi_pi_pi.py` and `ldot`, `lnorm_sqr` of `hazma/utils.py`.
Arrays of shape `(4, n)` hold one four-vector per event; every operation on them is event by event,
so the model is written for one event and lifted by `List.map`.  Rounding is not modelled.
-/

namespace Hazma.FourPion

/-- A real four-vector, time component first. -/
abbrev V := Fin 4 → ℝ

/-- A complex four-vector. -/
abbrev CV := Fin 4 → ℂ

/-- `ldot` (`hazma/utils.py:191-212`). -/
def ldot {R : Type} [CommRing R] (u v : Fin 4 → R) : R :=
  u 0 * v 0 - u 1 * v 1 - u 2 * v 2 - u 3 * v 3

/-- `lnorm_sqr` (`hazma/utils.py:242-261`). -/
def lnormSqr (u : V) : ℝ := u 0 ^ 2 - u 1 ^ 2 - u 2 ^ 2 - u 3 ^ 2

/-- Conversion of a real array to a complex one, done by numpy when a real array meets a complex
one. -/
def up (u : V) : CV := fun i => (u i : ℂ)

/-! ### Constants (`_pi_pi_pi_pi.py:17-34`) -/

noncomputable def mPi : ℝ := 0.13957061
noncomputable def mPi0 : ℝ := 0.1349770
noncomputable def mRho : ℝ := 0.7755
noncomputable def gRho : ℝ := 0.1494
noncomputable def mRho1 : ℝ := 1.459
noncomputable def gRho1 : ℝ := 0.4
noncomputable def mRho2 : ℝ := 1.72
noncomputable def gRho2 : ℝ := 0.25
noncomputable def mA1 : ℝ := 1.23
noncomputable def gA1 : ℝ := 0.2
noncomputable def mF0 : ℝ := 1.35
noncomputable def gF0 : ℝ := 0.2
noncomputable def mOmega : ℝ := 0.78265
noncomputable def gOmega : ℝ := 0.00849

/-- The keyword arguments of the constructors (`_pi_pi_pi_pi.py:116-142`). -/
structure Args where
  massRhoBars : ℝ × ℝ × ℝ
  widthRhoBars : ℝ × ℝ × ℝ
  betaA1s : ℝ × ℝ × ℝ
  betaF0s : ℝ × ℝ × ℝ
  betaOmegas : ℝ × ℝ × ℝ
  betaBRhos : ℝ × ℝ × ℝ
  couplingF0 : ℝ
  couplingA1 : ℝ
  couplingRho : ℝ
  couplingOmega : ℝ
  couplingRhoGamma : ℝ
  couplingRhoPiPi : ℝ
  couplingOmegaPiRho : ℝ

/-- The default arguments (`_pi_pi_pi_pi.py:116-142`). -/
noncomputable def defaultArgs : Args where
  massRhoBars := (1.437, 1.738, 2.12)
  widthRhoBars := (0.6784824438511003, 0.8049287553822373, 0.20919646790795576)
  betaA1s := (-0.051871563361440096, -0.041610293030827125, -0.0018934309483457441)
  betaF0s := (73860.28659732222, -26182.725634782986, 333.6314358023821)
  betaOmegas := (-0.36687866443745953, 0.036253295280213906, -0.004717302695776386)
  betaBRhos := (-0.145, 0.08, -0.0075)
  couplingF0 := 124.10534971287902
  couplingA1 := -201.79098091602876
  couplingRho := -2.3089567893904537
  couplingOmega := -1.5791482789120541
  couplingRhoGamma := 0.1212
  couplingRhoPiPi := 5.997
  couplingOmegaPiRho := 42.3

/-- `VectorFormFactorPiPiPiPiFitData` (`_pi_pi_pi_pi.py:74-106`); the triples of masses, widths and
betas that are stored component by component are kept together. -/
structure Fit where
  massRhoBar : ℝ × ℝ × ℝ
  widthRhoBar : ℝ × ℝ × ℝ
  betaA1 : ℝ × ℝ × ℝ
  betaF0 : ℝ × ℝ × ℝ
  betaOmega : ℝ × ℝ × ℝ
  betaBRho : ℝ
  betaTRho1 : ℝ
  betaTRho2 : ℝ
  couplingF0 : ℝ
  couplingA1 : ℝ
  couplingRho : ℝ
  couplingOmega : ℝ
  couplingRhoGamma : ℝ
  couplingRhoPiPi : ℝ
  couplingOmegaPiRho : ℝ

/-- `__post_init__` (`_pi_pi_pi_pi.py:144-194`): note `beta_t_rho2=beta_b_rhos[1]`. -/
def mkFit (a : Args) : Fit where
  massRhoBar := a.massRhoBars
  widthRhoBar := a.widthRhoBars
  betaA1 := a.betaA1s
  betaF0 := a.betaF0s
  betaOmega := a.betaOmegas
  betaBRho := a.betaBRhos.1
  betaTRho1 := a.betaBRhos.2.1
  betaTRho2 := a.betaBRhos.2.1
  couplingF0 := a.couplingF0
  couplingA1 := a.couplingA1
  couplingRho := a.couplingRho
  couplingOmega := a.couplingOmega
  couplingRhoGamma := a.couplingRhoGamma
  couplingRhoPiPi := a.couplingRhoPiPi
  couplingOmegaPiRho := a.couplingOmegaPiRho

/-- `_imode`: 0 is π⁺π⁻π⁰π⁰, 1 is π⁺π⁻π⁺π⁻ (`_pi_pi_pi_pi.py:955-970`). -/
inductive Mode where
  | neutral
  | charged
  deriving DecidableEq

/-- `_fsp_masses`, in GeV (`_pi_pi_pi_pi.py:160-166`). -/
noncomputable def fspMasses : Mode → List ℝ
  | .neutral => [mPi, mPi, mPi0, mPi0]
  | .charged => [mPi, mPi, mPi, mPi]

/-! ### Propagators -/

/-- `_breit_wigner` (`_pi_pi_pi_pi.py:200-205`). -/
noncomputable def bw (s mass width : ℝ) : ℂ :=
  ((mass ^ 2 : ℝ) : ℂ) / (((mass ^ 2 - s : ℝ) : ℂ) - Complex.I * ((mass * width : ℝ) : ℂ))

/-- `_clip_pos` (`_pi_pi_pi_pi.py:207-212`). -/
noncomputable def clipPos (x : ℝ) : ℝ := max x 0

/-- The running-width function `g` of `_propagator_a1` (`_pi_pi_pi_pi.py:224-234`). -/
noncomputable def a1G (x : ℝ) : ℝ :=
  let y := x - 9 * mPi ^ 2
  if 0.838968432668 < x then 1.623 * x + 10.38 + -9.32 / x + 0.65 / x ^ 2
  else 4.1 * y ^ 3 * (1 + -3.3 * y + 5.8 * y ^ 2)

/-- `_propagator_a1` (`_pi_pi_pi_pi.py:214-236`). -/
noncomputable def propA1 (s : ℝ) : ℂ := bw s mA1 (gA1 * a1G s / a1G (mA1 ^ 2))

/-- `_propagator_f0` (`_pi_pi_pi_pi.py:238-255`). -/
noncomputable def propF0 (s : ℝ) : ℂ :=
  let mu := 4 * mPi ^ 2
  bw s mF0 (gF0 * √(clipPos (mF0 ^ 2 / s * (s - mu) / (mF0 ^ 2 - mu))))

/-- `_propagator_omega` (`_pi_pi_pi_pi.py:257-267`). -/
noncomputable def propOmega (s : ℝ) : ℂ := bw s mOmega gOmega

/-- `_breit_wigner3` (`_pi_pi_pi_pi.py:325-347`). -/
noncomputable def bw3 (s mass width : ℝ) : ℂ :=
  let m2 := mass ^ 2
  let mu := 4 * mPi ^ 2
  let gt := clipPos (m2 / s * ((s - mu) / (m2 - mu)) ^ 3)
  let gt' := (if 0 < gt then 1 else -1) * √|gt|
  bw s mass (width * gt')

/-- `_propagator_rho_double` (`_pi_pi_pi_pi.py:282-299`). -/
noncomputable def propRhoDouble (s : ℝ) : ℂ :=
  bw3 s mRho gRho / ((mRho ^ 2 : ℝ) : ℂ) - bw3 s mRho1 gRho1 / ((mRho1 ^ 2 : ℝ) : ℂ)

/-- `_propagator_rho_g` (`_pi_pi_pi_pi.py:269-280`). -/
noncomputable def propRhoG (q1 q2 q3 q4 : V) : CV :=
  let prop13 := propRhoDouble (lnormSqr (q1 + q3))
  let prop24 := propRhoDouble (lnormSqr (q2 + q4))
  fun i => (q1 i : ℂ) * prop13 *
    (prop24 * ((ldot (q1 + q2 + (3 : ℝ) • q3 + q4) (q2 - q4) : ℝ) : ℂ) + 2)

/-- `_propagator_rho_f` (`_pi_pi_pi_pi.py:301-323`). -/
noncomputable def propRhoF (f : Fit) (s : ℝ) (b : ℝ × ℝ × ℝ) : ℂ :=
  let prop0 := bw3 s mRho gRho
  let prop1 := bw3 s f.massRhoBar.1 f.widthRhoBar.1
  let prop2 := bw3 s f.massRhoBar.2.1 f.widthRhoBar.2.1
  let prop3 := bw3 s f.massRhoBar.2.2 f.widthRhoBar.2.2
  (prop0 + (b.1 : ℂ) * prop1 + (b.2.1 : ℂ) * prop2 + (b.2.2 : ℂ) * prop3)
    / ((1 + b.1 + b.2.1 + b.2.2 : ℝ) : ℂ)

/-- `_propagator_rho_b` (`_pi_pi_pi_pi.py:349-362`). -/
noncomputable def propRhoB (f : Fit) (s : ℝ) : ℂ :=
  (bw3 s mRho gRho + (f.betaBRho : ℂ) * bw3 s mRho1 gRho1) / ((1 + f.betaBRho : ℝ) : ℂ)

/-- `_propagator_rho_t` (`_pi_pi_pi_pi.py:364-378`). -/
noncomputable def propRhoT (f : Fit) (s : ℝ) : ℂ :=
  (bw3 s mRho gRho + (f.betaTRho1 : ℂ) * bw3 s mRho1 gRho1 + (f.betaTRho2 : ℂ) * bw3 s mRho2 gRho2)
    / ((1 + f.betaTRho1 + f.betaTRho2 : ℝ) : ℂ)

/-- `_propagator_rho_h` (`_pi_pi_pi_pi.py:380-392`). -/
noncomputable def propRhoH (s1 s2 s3 : ℝ) : ℂ :=
  bw3 s1 mRho gRho + bw3 s2 mRho gRho + bw3 s3 mRho gRho

/-! ### Currents -/

/-- `_current_a1_t` (`_pi_pi_pi_pi.py:410-433`). -/
noncomputable def currentA1T (f : Fit) (Q : V) (Q2 : ℝ) (q1 q2 q3 q4 : V) : CV :=
  let r := lnormSqr (Q - q1)
  let prop := propRhoF f Q2 f.betaA1 * propA1 r * propRhoB f (lnormSqr (q3 + q4))
  let qq : V := fun i => (q3 i - q4 i) + q1 i * ldot q2 (q3 - q4) / r
  fun i => (f.couplingA1 : ℂ) * prop * ((qq i - Q i * ldot Q qq / Q2 : ℝ) : ℂ)

/-- `_current_a1` (`_pi_pi_pi_pi.py:398-408`). -/
noncomputable def currentA1 (f : Fit) (Q : V) (Q2 : ℝ) (q1 q2 q3 q4 : V) : CV :=
  currentA1T f Q Q2 q3 q2 q1 q4 + currentA1T f Q Q2 q3 q1 q2 q4
    - currentA1T f Q Q2 q4 q2 q1 q3 - currentA1T f Q Q2 q4 q1 q2 q3

/-- `_current_f0` (`_pi_pi_pi_pi.py:435-455`). -/
noncomputable def currentF0 (f : Fit) (Q : V) (Q2 : ℝ) (q1 q2 q3 q4 : V) : CV :=
  let prop := propRhoF f Q2 f.betaF0 * propRhoT f (lnormSqr (q3 + q4)) * propF0 (lnormSqr (q1 + q2))
  fun i => (f.couplingF0 : ℂ) * prop * (((q3 i - q4 i) - Q i * ldot Q (q3 - q4) / Q2 : ℝ) : ℂ)

/-- `_current_omega_t` (`_pi_pi_pi_pi.py:467-498`). -/
noncomputable def currentOmegaT (f : Fit) (Q : V) (Q2 : ℝ) (q1 q2 q3 q4 : V) : CV :=
  let coupling := 2 * f.couplingOmega * f.couplingOmegaPiRho * f.couplingRhoPiPi
  let prop := propRhoF f Q2 f.betaOmega * propOmega (lnormSqr (Q - q1))
    * propRhoH (lnormSqr (q2 + q3)) (lnormSqr (q2 + q4)) (lnormSqr (q3 + q4))
  fun i => (coupling : ℂ) * prop *
    ((q2 i * (ldot q1 q4 * ldot q3 Q - ldot q1 q3 * ldot q4 Q)
      + q3 i * (ldot q1 q2 * ldot q4 Q - ldot q1 q4 * ldot q2 Q)
      + q4 i * (ldot q1 q3 * ldot q2 Q - ldot q1 q2 * ldot q3 Q) : ℝ) : ℂ)

/-- `_current_omega` (`_pi_pi_pi_pi.py:457-465`). -/
noncomputable def currentOmega (f : Fit) (Q : V) (Q2 : ℝ) (q1 q2 q3 q4 : V) : CV :=
  currentOmegaT f Q Q2 q1 q2 q3 q4 + currentOmegaT f Q Q2 q2 q1 q3 q4

/-- `gnu` of `_current_rho` (`_pi_pi_pi_pi.py:513-523`). -/
noncomputable def rhoGnu (q1 q2 q3 q4 : V) : CV :=
  propRhoG q1 q2 q3 q4 + propRhoG q4 q1 q2 q3 - propRhoG q1 q2 q4 q3 - propRhoG q3 q1 q2 q4
    + propRhoG q2 q1 q3 q4 + propRhoG q4 q2 q1 q3 - propRhoG q2 q1 q4 q3 - propRhoG q3 q2 q1 q4

/-- `_current_rho` (`_pi_pi_pi_pi.py:500-527`). -/
noncomputable def currentRho (f : Fit) (Q : V) (Q2 : ℝ) (q1 q2 q3 q4 : V) : CV :=
  let coupling := f.couplingRho * f.couplingRhoPiPi ^ 3 * f.couplingRhoGamma
  let gnu := rhoGnu q1 q2 q3 q4
  fun i => (coupling : ℂ) * propRhoDouble Q2 *
    (gnu i - (Q i : ℂ) * ldot (up Q) gnu / (Q2 : ℂ))

/-- `_current_neutral` (`_pi_pi_pi_pi.py:529-551`); `q1, q2` are documented as the momenta of the
neutral pions, `q3, q4` as those of the charged ones. -/
noncomputable def currentNeutral (f : Fit) (Q : V) (Q2 : ℝ) (q1 q2 q3 q4 : V) : CV :=
  currentA1 f Q Q2 q1 q2 q3 q4 + currentF0 f Q Q2 q1 q2 q3 q4 + currentOmega f Q Q2 q1 q2 q3 q4
    + currentRho f Q Q2 q1 q2 q3 q4

/-- `_current_charged` (`_pi_pi_pi_pi.py:553-579`). -/
noncomputable def currentCharged (f : Fit) (Q : V) (Q2 : ℝ) (q1 q2 q3 q4 : V) : CV :=
  currentNeutral f Q Q2 q3 q4 q1 q2 + currentNeutral f Q Q2 q1 q4 q3 q2
    + currentNeutral f Q Q2 q3 q2 q1 q4 + currentNeutral f Q Q2 q1 q2 q3 q4

/-- The current of an event, as selected by `_msqrd` (`_pi_pi_pi_pi.py:639-650`): the four momenta
are the particles in the order of `_fsp_masses`. -/
noncomputable def current (f : Fit) (mode : Mode) (p1 p2 p3 p4 : V) : CV :=
  let Q := p1 + p2 + p3 + p4
  let Q2 := lnormSqr Q
  match mode with
  | .neutral => currentNeutral f Q Q2 p1 p2 p3 p4
  | .charged => currentCharged f Q Q2 p1 p2 p3 p4

/-- `_msqrd` (`_pi_pi_pi_pi.py:620-661`). -/
noncomputable def msqrd (f : Fit) (mode : Mode) (gvuu gvdd : ℝ) (p1 p2 p3 p4 : V) : ℝ :=
  let J := current f mode p1 p2 p3 p4
  let j := -(ldot J fun i => (starRingEnd ℂ) (J i)).re
  let w := j / (3 * lnormSqr (p1 + p2 + p3 + p4))
  let c1 := gvuu - gvdd
  (match mode with
    | .neutral => c1 ^ 2 / 2
    | .charged => c1 ^ 2 / 4) * w

/-- The column of the event array that holds particle `i`. -/
def vec (p : Rambo.P4) : V := ![p.e, p.x, p.y, p.z]

/-- `_msqrd` on an event of the generator; events of another size raise `IndexError` at
`momenta[:, 3, :]` or are summed into `Q` without entering the current: not modelled, `none`. -/
noncomputable def msqrdEvent (f : Fit) (mode : Mode) (gvuu gvdd : ℝ) : List Rambo.P4 → Option ℝ
  | [p1, p2, p3, p4] => some (msqrd f mode gvuu gvdd (vec p1) (vec p2) (vec p3) (vec p4))
  | _ => none

/-- `np.nanmean`: the mean of the entries that are not NaN (here `none`); `none` if there are
none. -/
noncomputable def nanmean (xs : List (Option ℝ)) : Option ℝ :=
  let ys := xs.filterMap id
  if ys = [] then none else some (ys.sum / ys.length)

/-- `_integrated_form_factor`, first component (`_pi_pi_pi_pi.py:663-675`); `q` in GeV, the random
numbers are an argument. -/
noncomputable def integratedGeV (f : Fit) (mode : Mode) (gvuu gvdd eps : ℝ)
    (draws : List (List Rambo.Draw)) (q : ℝ) : Option ℝ :=
  if q < (fspMasses mode).sum then some 0
  else
    match Rambo.create q (fspMasses mode) with
    | none => none
    | some st =>
      let evs := Rambo.generate st eps draws
      nanmean (List.zipWith (fun ev w => (msqrdEvent f mode gvuu gvdd ev).map (w * ·)) evs.1 evs.2)

/-- `integrated_form_factor` for one energy in MeV (`_pi_pi_pi_pi.py:696-737`). -/
noncomputable def integrated (f : Fit) (mode : Mode) (g : ℝ × ℝ × ℝ) (eps : ℝ)
    (draws : List (List Rambo.Draw)) (q : ℝ) : Option ℝ :=
  integratedGeV f mode g.1 g.2.1 eps draws (q * 1e-3)

/-- `width` for one mass in MeV (`_pi_pi_pi_pi.py:761-788`). -/
noncomputable def width (f : Fit) (mode : Mode) (g : ℝ × ℝ × ℝ) (eps : ℝ)
    (draws : List (List Rambo.Draw)) (mv : ℝ) : Option ℝ :=
  (integrated f mode g eps draws mv).map (0.5 * mv * ·)

/-- `cross_section` for one energy (`_pi_pi_pi_pi.py:820-871`).  The square root of a negative
number is NaN (`none`). -/
noncomputable def crossSection (f : Fit) (mode : Mode) (g : ℝ × ℝ × ℝ) (eps : ℝ)
    (draws : List (List Rambo.Draw)) (q mx mv gvxx wv : ℝ) : Option ℝ :=
  let s := q ^ 2
  if s - 4 * mx ^ 2 < 0 then none
  else
    let pre := gvxx ^ 2 * (s + 2 * mx ^ 2)
      / (√(s - 4 * mx ^ 2) * ((s - mv ^ 2) ^ 2 + (mv * wv) ^ 2))
    (integrated f mode g eps draws q).map (pre * 0.5 * q * ·)

/-! ### Shapes

`form_factor` (`_pi_pi_pi_pi.py:597-618`) fails on the shapes of its arrays, whatever the numbers.
The part of the computation that decides this is evaluated on shapes. -/

/-- Shape of a numpy array: a list of axis lengths. -/
abbrev Shape := List ℕ

/-- Broadcasting of two shapes, right-aligned (numpy); `none` is the `ValueError`. -/
def broadcast (a b : Shape) : Option Shape :=
  let rec go : List ℕ → List ℕ → Option (List ℕ)
    | [], ys => some ys
    | xs, [] => some xs
    | x :: xs, y :: ys =>
      (go xs ys).bind fun zs =>
        if x = y then some (x :: zs) else if x = 1 then some (y :: zs)
        else if y = 1 then some (x :: zs) else none
  (go a.reverse b.reverse).map List.reverse

/-- `ldot` on shapes (`hazma/utils.py:203-212`): `shape[0]` of a 0-dimensional value raises
`IndexError`, another length than 4 an `AssertionError`; the result drops the first axis. -/
def ldotShape (a b : Shape) : Option Shape :=
  match a, b with
  | 4 :: a', 4 :: b' => broadcast a' b'
  | _, _ => none

/-- `lnorm_sqr` on shapes (`hazma/utils.py:254-261`). -/
def lnormShape : Shape → Option Shape
  | 4 :: a => some a
  | _ => none

/-- `_current_a1_t` on shapes, up to the end of its Lorentz structure
(`_pi_pi_pi_pi.py:416-433`). -/
def a1TShape (Q Q2 q1 q2 q3 q4 : Shape) : Option Shape := do
  let d ← broadcast Q q1
  let r ← lnormShape d
  let s34 ← broadcast q3 q4
  let m ← lnormShape s34
  let pr ← broadcast Q2 r
  let prop ← broadcast pr m
  let l ← ldotShape q2 s34
  let x ← broadcast q1 l
  let y ← broadcast x r
  let qq ← broadcast s34 y
  let dq ← ldotShape Q qq
  let z ← broadcast Q dq
  let z' ← broadcast z Q2
  let lor ← broadcast qq z'
  broadcast prop lor

/-- `_current_omega_t` on shapes, its six-fold Lorentz structure (`_pi_pi_pi_pi.py:492-496`). -/
def omegaTShape (Q q1 q2 q3 q4 : Shape) : Option Shape := do
  let a ← ldotShape q1 q4
  let b ← ldotShape q3 Q
  let c ← ldotShape q1 q3
  let d ← ldotShape q4 Q
  let e ← ldotShape q1 q2
  let g ← ldotShape q2 Q
  let t1 ← (← broadcast a b) |> broadcast q2
  let t2 ← (← broadcast e d) |> broadcast q3
  let t3 ← (← broadcast c g) |> broadcast q4
  broadcast (← broadcast t1 t2) t3

/-- The parts of `_current_neutral` that inspect shapes, in order (`_pi_pi_pi_pi.py:545-549`): the
four terms of the a1 current, then the omega current. -/
def neutralShape (Q Q2 q1 q2 q3 q4 : Shape) : Option Unit := do
  let _ ← a1TShape Q Q2 q3 q2 q1 q4
  let _ ← a1TShape Q Q2 q3 q1 q2 q4
  let _ ← a1TShape Q Q2 q4 q2 q1 q3
  let _ ← a1TShape Q Q2 q4 q1 q2 q3
  let _ ← omegaTShape Q q1 q2 q3 q4
  let _ ← omegaTShape Q q2 q1 q3 q4
  pure ()

/-- `form_factor(momenta)` on an array of shape `(4, 4, n)` (`_pi_pi_pi_pi.py:606-616`): the name
`q2` is reused for the mean total energy, a 0-dimensional number, before the currents are
evaluated.  `none` is an exception. -/
def formFactorShape (mode : Mode) (n : ℕ) : Option Unit :=
  let q1 : Shape := [4, n]
  let q3 : Shape := [4, n]
  let q4 : Shape := [4, n]
  let q : Shape := [4, n]
  let q2 : Shape := []
  match mode with
  | .neutral => neutralShape q q2 q1 q2 q3 q4
  | .charged => do
    neutralShape q q2 q3 q4 q1 q2
    neutralShape q q2 q1 q4 q3 q2
    neutralShape q q2 q3 q2 q1 q4
    neutralShape q q2 q1 q2 q3 q4

end Hazma.FourPion
