import Verif.Model.MesonFF
import Verif.Model.VectorThree

/-!
# Form factors of three mesons

Models `hazma/form_factors/vector/_pi_pi_pi0.py`, `_pi_pi_eta.py`, `_pi_pi_etap.py`,
`_pi_pi_omega.py` and `_pi_k_k.py`, and the container of the results of
`_three_body.py`.  Energies are in MeV and are converted to GeV as in the code.  `none` is
a result that is not a number: a division by zero, a square root or a power `1.5` of a
negative number (the masses of the fit are elements of numpy arrays, so no complex number
appears there); infinite intermediate results are counted with it.  Scalars, except in the section on arrays, where only shapes and the
sum over an axis are modelled.
-/

namespace Hazma.MesonThree

open Hazma.MesonFF (Couplings ci0 ci1 cs mPi0 mPi mEta mK mK0 mOmega)
open Hazma.Resonance (bwFW bwPwave)

/-! ### Masses, `_utils.py:18-35` -/

noncomputable def gPi : ℝ := mPi * 1e-3
noncomputable def gPi0 : ℝ := mPi0 * 1e-3
/-- `parameters.eta_prime_mass`, MeV. -/
noncomputable def mEtap : ℝ := 957.78
/-- `FPI_GEV`, `_utils.py:35`, `parameters.py:312`. -/
noncomputable def gFpi : ℝ := 92.2138 * 1e-3

/-! ### Numbers that may be NaN -/

/-- `x**1.5` of a `float`. -/
noncomputable def pow15 (x : ℝ) : Option ℝ := if x < 0 then none else some (x ^ (3 / 2 : ℝ))

/-- `np.sqrt`. -/
noncomputable def npSqrt (x : ℝ) : Option ℝ := if x < 0 then none else some (√x)

/-- Division of complex numbers. -/
noncomputable def cdiv (a b : ℂ) : Option ℂ := if b = 0 then none else some (a / b)

/-! ### Three pions, `_pi_pi_pi0.py` -/

/-- `VectorFormFactorPiPiPi0FitData`, `_pi_pi_pi0.py:55-68`. -/
structure Fit3 where
  masses : Fin 4 → ℝ
  widths : Fin 4 → ℝ
  couplings : Fin 4 → ℝ
  massesRho0 : Fin 3 → ℝ
  widthsRho0 : Fin 3 → ℝ
  couplingsRho0 : Fin 3 → ℝ
  massesRho1 : Fin 2 → ℝ
  widthsRho1 : Fin 2 → ℝ
  massOmega : ℝ
  widthOmega : ℝ
  couplingPre : ℝ
  couplingPiPi : ℝ
  sigma : ℝ

/-- The default arguments, `_pi_pi_pi0.py:100-119`. -/
noncomputable def fit3Default : Fit3 where
  masses := ![0.7824, 1.01924, 1.375, 1.631]
  widths := ![0.00869, 0.00414, 0.250, 0.245]
  couplings := ![18.20, -0.87, -0.77, -1.12]
  massesRho0 := ![0.77609, 1.465, 1.7]
  widthsRho0 := ![0.14446, 0.31, 0.235]
  couplingsRho0 := ![0, -0.72, -0.59]
  massesRho1 := ![0.77609, 1.7]
  widthsRho1 := ![0.14446, 0.26]
  massOmega := 0.78259
  widthOmega := 0.00849
  couplingPre := 3.768
  couplingPiPi := 0.185
  sigma := -0.1

/-- `__gamma_rho`, `_pi_pi_pi0.py:153-159`. -/
noncomputable def gammaRho (s mass width mj mk : ℝ) : Option ℝ :=
  let m2 := mass ^ 2
  let msum2 := (mj + mk) ^ 2
  if m2 - msum2 = 0 then none
  else
    let rat := (s - msum2) / (m2 - msum2)
    if s = 0 then none else (pow15 rat).map fun r => width * m2 / s * r

/-- `__bw_rho`, `_pi_pi_pi0.py:161-170`. -/
noncomputable def bwRho (Q2 m g mj mk : ℝ) : Option ℂ :=
  (npSqrt Q2).bind fun r =>
    (gammaRho Q2 m g mj mk).bind fun w =>
      cdiv ((m ^ 2 : ℝ) : ℂ) (((Q2 - m ^ 2 : ℝ) : ℂ) + Complex.I * ((r * w : ℝ) : ℂ))

/-- Sum of two numbers that may be NaN. -/
noncomputable def oadd (a b : Option ℂ) : Option ℂ := a.bind fun x => b.map fun y => x + y

/-- `__hrho`, `_pi_pi_pi0.py:172-178`. -/
noncomputable def hrho (s t u m g : ℝ) : Option ℂ :=
  oadd (oadd (bwRho s m g gPi gPi) (bwRho t m g gPi0 gPi)) (bwRho u m g gPi0 gPi)

/-- `breit_wigner_fw`, `_utils.py:354-386`, NaN on a vanishing denominator. -/
noncomputable def bwFW? (s mass width : ℝ) : Option ℂ :=
  cdiv ((mass ^ 2 : ℝ) : ℂ) (((mass ^ 2 - s : ℝ) : ℂ) - Complex.I * ((mass * width : ℝ) : ℂ))

/-- `np.sum` of four numbers that may be NaN. -/
noncomputable def sum4 (f : Fin 4 → Option ℂ) : Option ℂ :=
  oadd (oadd (oadd (f 0) (f 1)) (f 2)) (f 3)

/-- `__iso_spin_zero`, `_pi_pi_pi0.py:180-211`. -/
noncomputable def isoZero (f : Fit3) (q2 s t u c0 cstr : ℝ) : Option ℂ :=
  let coups : Fin 4 → ℝ := fun i => if i = 1 then cstr else c0
  let pre := sum4 fun i =>
    (bwFW? q2 (f.masses i) (f.widths i)).map fun b => ((coups i * f.couplings i : ℝ) : ℂ) * b
  let f0 := pre.bind fun c => (hrho s t u (f.massesRho0 0) (f.widthsRho0 0)).map fun h => c * h
  let f1 := (bwFW? q2 (f.masses 1) (f.widths 1)).bind fun b =>
    (hrho s t u (f.massesRho0 1) (f.widthsRho0 1)).map fun h =>
      ((cstr * f.couplingsRho0 1 : ℝ) : ℂ) * b * h
  let f2 := (bwFW? q2 (f.masses 3) (f.widths 3)).bind fun b =>
    (hrho s t u (f.massesRho0 2) (f.widthsRho0 2)).map fun h =>
      ((c0 * f.couplingsRho0 2 : ℝ) : ℂ) * b * h
  oadd (oadd f0 f1) f2

/-- `__iso_spin_one`, `_pi_pi_pi0.py:213-250`.  The divisions by the squares of the masses
of the `rho` are kept; they are of non-zero numbers whenever the propagators are numbers
different from zero, and the quotient by zero is zero here as in `ℝ`. -/
noncomputable def isoOne (f : Fit3) (q2 s c1 : ℝ) : Option ℂ :=
  if c1 = 0 then some 0
  else
    let a := (bwRho s (f.massesRho1 0) (f.widthsRho1 0) gPi gPi).map fun b =>
      b / ((f.massesRho1 0 ^ 2 : ℝ) : ℂ)
    let b := (bwRho s (f.massesRho1 1) (f.widthsRho1 1) gPi gPi).map fun b =>
      (f.sigma : ℂ) * b / ((f.massesRho1 1 ^ 2 : ℝ) : ℂ)
    let gw := f.couplingPre * f.massesRho1 0 ^ 2 * f.couplingPiPi
    (oadd a b).bind fun z => (bwFW? q2 f.massOmega f.widthOmega).map fun w =>
      z * (((c1 * gw : ℝ) : ℂ) * w / ((f.massOmega ^ 2 : ℝ) : ℂ))

/-- The fourth invariant of `form_factor`, `_pi_pi_pi0.py:311`, in GeV². -/
noncomputable def thirdInvariant (q2 ss tt : ℝ) : ℝ := q2 + gPi0 ^ 2 + 2 * gPi ^ 2 - ss - tt

/-- `VectorFormFactorPiPiPi0.form_factor`, `_pi_pi_pi0.py:252-314`. -/
noncomputable def threePion (f : Fit3) (q s t : ℝ) (g : Couplings) : Option ℂ :=
  let q2 := q ^ 2 * 1e-6
  let ss := s * 1e-6
  let tt := t * 1e-6
  let uu := thirdInvariant q2 ss tt
  (oadd (isoZero f q2 ss tt uu (ci0 g) (cs g)) (isoOne f q2 ss (ci1 g))).map fun z => z * 1e-9

/-! ### Two pions and an eta, `_pi_pi_eta.py`, `_pi_pi_etap.py` -/

/-- `VectorFormFactorPiPiEtaFitData`, `_pi_pi_eta.py:36-39`, `_pi_pi_etap.py:37-46`. -/
structure FitEta where
  masses : Fin 4 → ℝ
  widths : Fin 4 → ℝ
  amps : Fin 4 → ℝ
  phases : Fin 4 → ℝ

/-- Default arguments, `_pi_pi_eta.py:68-71`. -/
noncomputable def fitEtaDefault : FitEta :=
  ⟨![0.77549, 1.54, 1.76, 2.15], ![0.1494, 0.356, 0.113, 0.32], ![1, 0.326, 0.0115, 0],
    ![0, 3.14, 3.14, 0]⟩

/-- Default arguments, `_pi_pi_etap.py:80-83`. -/
noncomputable def fitEtapDefault : FitEta :=
  ⟨![0.77549, 1.54, 1.76, 2.11], ![0.1494, 0.356, 0.113, 0.176], ![1, 0, 0, 0.02],
    ![0, Real.pi, Real.pi, Real.pi]⟩

/-- `__bw0`, `_pi_pi_eta.py:87-96`, `_pi_pi_etap.py:99-108`. -/
noncomputable def etaBw0 (f : FitEta) (s : ℝ) : Option ℂ :=
  let m0 := f.masses 0
  if s = 0 ∨ m0 ^ 2 - 4 * gPi ^ 2 = 0 then none
  else (pow15 ((s - 4 * gPi ^ 2) / (m0 ^ 2 - 4 * gPi ^ 2))).bind fun r =>
    (npSqrt s).bind fun rs =>
      let w := f.widths 0 * m0 ^ 2 / s * r
      cdiv ((m0 ^ 2 : ℝ) : ℂ) (((m0 ^ 2 - s : ℝ) : ℂ) - Complex.I * ((rs * w : ℝ) : ℂ))

/-- `__bw`, `_pi_pi_eta.py:98-104`, `_pi_pi_etap.py:110-116`. -/
noncomputable def etaBw (f : FitEta) (s : ℝ) (i : Fin 4) : Option ℂ :=
  if i = 0 then etaBw0 f s
  else if f.masses i = 0 then none
  else
    let w := f.widths i * s / f.masses i ^ 2
    (npSqrt s).bind fun rs =>
      cdiv ((f.masses i ^ 2 : ℝ) : ℂ)
        (((f.masses i ^ 2 - s : ℝ) : ℂ) - Complex.I * ((rs * w : ℝ) : ℂ))

/-- An amplitude with its phase, `_pi_pi_eta.py:119`. -/
noncomputable def etaAmp (f : FitEta) (i : Fin 4) : ℂ :=
  (f.amps i : ℂ) * Complex.exp (Complex.I * (f.phases i : ℂ))

/-- `_form_factor`, `_pi_pi_eta.py:106-122`, `_pi_pi_etap.py:118-129`; `pre` is the
constant in front, in GeV⁻³. -/
noncomputable def etaCore (pre : ℝ) (f : FitEta) (q s : ℝ) (g : Couplings) : Option ℂ :=
  let c1 := g.u - g.d
  let total := etaAmp f 0 + etaAmp f 1 + etaAmp f 2 + etaAmp f 3
  (etaBw0 f s).bind fun b =>
    (sum4 fun i => (cdiv (etaAmp f i) total).bind fun a => (etaBw f (q ^ 2) i).map fun z => a * z).map
      fun z => ((pre * c1 : ℝ) : ℂ) * b * z

/-- `pre`, `_pi_pi_eta.py:116`. -/
noncomputable def etaPre : ℝ := 1 / (4 * √3 * Real.pi ^ 2 * gFpi ^ 3)

/-- `pre`, `_pi_pi_etap.py:123`. -/
noncomputable def etapPre : ℝ := √2 / (4 * √3 * Real.pi ^ 2 * gFpi ^ 3)

/-- `sum(self.fsp_masses)`, `_pi_pi_eta.py:65`. -/
noncomputable def etaThreshold : ℝ := mEta + mPi + mPi

/-- `sum(self.fsp_masses)`, `_pi_pi_etap.py:72-74`. -/
noncomputable def etapThreshold : ℝ := mEtap + mPi + mPi

/-- `VectorFormFactorPiPiEta.form_factor`, `_pi_pi_eta.py:134-160`. -/
noncomputable def piPiEta (f : FitEta) (q s : ℝ) (g : Couplings) : Option ℂ :=
  if q < etaThreshold then some 0
  else (etaCore etaPre f (q * 1e-3) (s * 1e-6) g).map fun z => z * 1e-9

/-- `VectorFormFactorPiPiEtaPrime.form_factor`, `_pi_pi_etap.py:141-161`. -/
noncomputable def piPiEtap (f : FitEta) (q s : ℝ) (g : Couplings) : Option ℂ :=
  (etaCore etapPre f (q * 1e-3) (s * 1e-6) g).map fun z => z * 1e-9

/-! ### Two pions and an omega, `_pi_pi_omega.py` -/

/-- `VectorFormFactorPiPiOmegaFitData`, `_pi_pi_omega.py:34-37`. -/
structure FitOmega where
  masses : Fin 3 → ℝ
  widths : Fin 3 → ℝ
  amps : Fin 3 → ℝ
  phases : Fin 3 → ℝ

/-- One term of the sum in `_form_factor`, `_pi_pi_omega.py:84-87`. -/
noncomputable def omegaTerm (f : FitOmega) (q : ℝ) (i : Fin 3) : ℂ :=
  (f.amps i : ℂ) * Complex.exp (Complex.I * (f.phases i : ℂ)) * ((f.masses i ^ 2 : ℝ) : ℂ) /
    (((f.masses i ^ 2 - q ^ 2 : ℝ) : ℂ) - Complex.I * ((q * f.widths i : ℝ) : ℂ))

/-- `form_factor` of a scalar, `_pi_pi_omega.py:77-107`.  The denominators vanish only
where a width or the energy is zero; the quotient is zero there. -/
noncomputable def piPiOmega (f : FitOmega) (q : ℝ) (g : Couplings) : ℂ :=
  ((3 * (g.u + g.d) : ℝ) : ℂ) * ∑ i, omegaTerm f (q * 1e-3) i

/-- What a call of `form_factor` returns: a number or an exception.  The declared result
for an array is an array. -/
inductive Returned where
  | scalar (z : ℂ)
  | array (zs : List ℂ)
  | valueError

/-- `form_factor` of a one-dimensional array, `_pi_pi_omega.py:77-107`: the arrays of
length three and the array of energies are broadcast together, and `np.sum` without an
axis adds everything up.  Lengths that cannot be broadcast raise `ValueError`. -/
noncomputable def piPiOmegaArray (f : FitOmega) (qs : List ℝ) (g : Couplings) : Returned :=
  match qs with
  | [q] => .scalar (((3 * (g.u + g.d) : ℝ) : ℂ) * ∑ i, omegaTerm f (q * 1e-3) i)
  | [q0, q1, q2] =>
    .scalar (((3 * (g.u + g.d) : ℝ) : ℂ) *
      (omegaTerm f (q0 * 1e-3) 0 + omegaTerm f (q1 * 1e-3) 1 + omegaTerm f (q2 * 1e-3) 2))
  | _ => .valueError

/-- `_imode`, `_pi_pi_omega.py:64-67`, `:299`, `:328`. -/
inductive OmegaMode where
  | neutral
  | charged

/-- `fsp_masses`, `_pi_pi_omega.py:64-68`. -/
noncomputable def omegaMasses : OmegaMode → ℝ × ℝ × ℝ
  | .neutral => (mOmega, mPi0, mPi0)
  | .charged => (mOmega, mPi, mPi)

/-- `integrated_form_factor`, `_pi_pi_omega.py:119-137`, of a `float`. -/
noncomputable def omegaIntegrated (mode : OmegaMode) (f : FitOmega) (g : Couplings) (q : ℝ) : ℝ :=
  (match mode with
    | .neutral => 0.5
    | .charged => 1.0) *
    VectorThree.ppvIntegrated (omegaMasses mode) (fun q => ‖piPiOmega f q g‖) q

/-! ### A pion and two kaons, `_pi_k_k.py` -/

/-- `VectorFormFactorPiKKFitData`, `_pi_k_k.py:63-73`. -/
structure FitKK where
  scalarMasses : Fin 3 → ℝ
  scalarWidths : Fin 3 → ℝ
  scalarAmps : Fin 3 → ℝ
  scalarPhases : Fin 3 → ℝ
  vectorMasses : Fin 3 → ℝ
  vectorWidths : Fin 3 → ℝ
  vectorAmps : Fin 3 → ℝ
  vectorPhases : Fin 3 → ℝ
  gKs : ℝ

/-- `KS_MASS_GEV`, `KS_WIDTH_GEV`, `_pi_k_k.py:20-21`. -/
noncomputable def ksMass : ℝ := 0.8956
noncomputable def ksWidth : ℝ := 0.047

/-- First amplitude of `_iso_spin_amplitudes`, `_pi_k_k.py:144-150`. -/
noncomputable def isoA0 (f : FitKK) (q : ℝ) (g : Couplings) : ℂ :=
  ∑ i, ((-3 * g.s : ℝ) : ℂ) *
    ((f.scalarAmps i : ℂ) * Complex.exp (Complex.I * (f.scalarPhases i : ℂ))) *
      bwFW (q ^ 2) (f.scalarMasses i) (f.scalarWidths i)

/-- Second amplitude, `_pi_k_k.py:151-157`. -/
noncomputable def isoA1 (f : FitKK) (q : ℝ) (g : Couplings) : ℂ :=
  ∑ i, ((g.u - g.d : ℝ) : ℂ) *
    ((f.vectorAmps i : ℂ) * Complex.exp (Complex.I * (f.vectorPhases i : ℂ))) *
      bwFW (q ^ 2) (f.vectorMasses i) (f.vectorWidths i)

/-- `_kstar_propagator`, `_pi_k_k.py:161-176`. -/
noncomputable def kstar (s m1 m2 : ℝ) : ℂ :=
  bwPwave s ksMass ksWidth m1 m2 / ((ksMass ^ 2 : ℝ) : ℂ)

/-- The three classes, `_pi_k_k.py:563-681`. -/
inductive KKMode where
  /-- `VectorFormFactorPi0K0K0` -/
  | neutral
  /-- `VectorFormFactorPi0KpKm` -/
  | charged
  /-- `VectorFormFactorPiKK0` -/
  | mixed

/-- `fsp_masses` in MeV, `_pi_k_k.py:592`, `:632`, `:672`. -/
noncomputable def kkMasses : KKMode → ℝ × ℝ × ℝ
  | .neutral => (mK0, mK0, mPi0)
  | .charged => (mK, mK, mPi0)
  | .mixed => (mK0, mK, mPi)

/-- `_form_factor` with the masses in GeV as an argument, `_pi_k_k.py:594-600`, `:634-640`,
`:674-681`. -/
noncomputable def kkCore (mode : KKMode) (ms : ℝ × ℝ × ℝ) (f : FitKK) (q s t : ℝ) (g : Couplings) : ℂ :=
  let a0 := isoA0 f q g
  let a1 := isoA1 f q g
  let (m1, m2, m3) := ms
  match mode with
  | .neutral => (a0 + a1) / ((√6 : ℝ) : ℂ) * 2 * (f.gKs : ℂ) * (kstar s m2 m3 + kstar t m1 m3)
  | .charged => (a0 - a1) / ((√6 : ℝ) : ℂ) * 2 * (f.gKs : ℂ) * (kstar s m2 m3 + kstar t m1 m3)
  | .mixed =>
    let c := (a0 + a1) / ((√6 : ℝ) : ℂ) * 2 * (f.gKs : ℂ)
    let d := (a0 - a1) / ((√6 : ℝ) : ℂ) * 2 * (f.gKs : ℂ)
    d * kstar s m2 m3 + c * kstar t m1 m3

/-- The masses in GeV, `_pi_k_k.py:119`. -/
noncomputable def kkGeV (mode : KKMode) : ℝ × ℝ × ℝ :=
  ((kkMasses mode).1 * 1e-3, (kkMasses mode).2.1 * 1e-3, (kkMasses mode).2.2 * 1e-3)

/-- `form_factor` of scalars, `_pi_k_k.py:188-213`. -/
noncomputable def piKK (mode : KKMode) (f : FitKK) (q s t : ℝ) (g : Couplings) : ℂ :=
  kkCore mode (kkGeV mode) f (1e-3 * q) (1e-6 * s) (1e-6 * t) g * 1e-9

/-! ### Arrays that hold the integrated form factors, `_three_body.py` -/

/-- The value of a cell of the array made by `np.zeros_like(np.atleast_1d(q))` after `v`
is assigned to it: `L248-254`, `L571-577`, `L863-869`.  The array has the type of the
energies, so with integers the fractional part is dropped. -/
noncomputable def stored (integer : Bool) (v : ℝ) : ℝ :=
  if integer then (if 0 ≤ v then (⌊v⌋ : ℝ) else (⌈v⌉ : ℝ)) else v

end Hazma.MesonThree
