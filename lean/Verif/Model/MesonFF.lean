import Verif.Model.Resonance
import Verif.Model.GevXs
import Mathlib.Analysis.SpecialFunctions.Trigonometric.Inverse

/-!
# Two-meson vector form factors

Models the classes in `hazma/form_factors/vector/_pi_pi.py`, `_k_k.py`, `_eta_gamma.py`,
`_pi_gamma.py`, `_pi_omega.py`, `_pi_phi.py`, `_eta_omega.py` and `_eta_phi.py`, together
with `_alpha.py`.  Fit parameters are data.  NumPy arrays of energies are lists; the inner
method of each class maps the list of energies above threshold, in GeV, to a list of
complex numbers.  Half-integer powers are real powers of quantities that are positive
above the threshold of the channel.
-/

namespace Hazma.MesonFF

open Hazma.Resonance

/-- `VectorFormFactorCouplings`, `_base.py:68-84`. -/
structure Couplings where
  u : ℝ
  d : ℝ
  s : ℝ

/-- First result of `vector_couplings_to_isospin`, `_base.py:87-92`. -/
def ci0 (g : Couplings) : ℝ := 3 * (g.u + g.d)
/-- Second result. -/
def ci1 (g : Couplings) : ℝ := g.u - g.d
/-- Third result. -/
def cs (g : Couplings) : ℝ := -3 * g.s

/-! ### Masses in MeV, `hazma/parameters.py:56-76` -/

noncomputable def mPi0 : ℝ := 134.9768
noncomputable def mPi : ℝ := 139.57039
noncomputable def mEta : ℝ := 547.862
noncomputable def mK : ℝ := 493.677
noncomputable def mK0 : ℝ := 497.611
noncomputable def mOmega : ℝ := 782.66
noncomputable def mPhi : ℝ := 1019.461

/-! ### `_alpha.py` -/

/-- `real_pi`, `_alpha.py:24-47`; `none` is NaN (a logarithm of a negative number). -/
noncomputable def realPi (r : ℝ) : Option ℝ :=
  if r < 1e-3 then (if 0 < r then some (-1.666666666666667 - Real.log r) else none)
  else if 1e6 < r then
    some (1 / 3 - (1 + 2 * r) * (2 - √(4 * r - 1) * Real.arccos (1 - 1 / (2 * r))))
  else if 1 < 4 * r then some 0
  else
    let b := √(1 - 4 * r)
    some (1 / 3 - (1 + 2 * r) * (2 + b * Real.log |(b - 1) / (b + 1)|))

/-- `hadronic` with the piecewise constants, `_alpha.py:8-21` and `:71-80`. -/
noncomputable def hadronicPi (s : ℝ) : ℝ :=
  if s < 9e-2 then 0 + 0.00835 * Real.log (1 + 1 * s)
  else if s < 9 then 0 + 0.00238 * Real.log (1 + 3.927 * s)
  else if s < 1e4 then 0.00165 + 0.00299 * Real.log (1 + 1 * s)
  else 0.00221 + 0.00293 * Real.log (1 + 1 * s)

/-- The fine structure constant at zero, `_alpha.py:54`. -/
noncomputable def alem : ℝ := 7.2973525698e-3

/-- `alpha_em`, `_alpha.py:50-89`; `none` is NaN.  At `s = 0` the quotients are infinite and
`real_pi` of an infinity is a product of infinity and zero. -/
noncomputable def alphaEm (s : ℝ) : Option ℝ :=
  if s < 1e-6 then
    if s = 0 then none
    else do
      let e ← realPi (0.510998928e-3 ^ 2 / s)
      let m ← realPi (0.1056583715 ^ 2 / s)
      let t ← realPi (1.77682 ^ 2 / s)
      let top ← realPi (173.21 ^ 2 / s)
      let aempi := alem / (3 * Real.pi)
      some (alem / (1 - (aempi * (e + m + t) + hadronicPi s + aempi * top)))
  else some (alem / (1 - 0))

/-! ### Fit data -/

/-- One resonance of a tower: complex coupling, mass and width. -/
structure Res where
  c : ℂ
  m : ℝ
  w : ℝ

/-- The stored parameters of all classes. -/
structure Fit where
  /-- `_pi_pi.py:32-125`. -/
  pipi : List Res
  omegaWeight : ℂ
  omegaMass : ℝ
  omegaWidth : ℝ
  /-- `_k_k.py:191-330`. -/
  kkRho : List Res
  kkOmega : List Res
  kkPhi : List Res
  /-- `_eta_gamma.py:19-34`: the first resonance, the others with the isospin they couple
  to (0: omega, 1: rho, 2: phi). -/
  etaRho : Res
  etaRest : List (Fin 3 × Res)
  /-- `_pi_gamma.py:20-37`. -/
  fpi : ℝ
  a0 : ℝ
  piRho : Res
  piOmega : Res
  piPhi : Res
  /-- `_pi_omega.py:26-36`. -/
  gRhoOmegaPi : ℝ
  frho : ℝ
  poFirst : Res
  poRest : List Res
  /-- `_pi_phi.py:31-43`, with the four-pion branching fractions. -/
  pp : List (Res × ℝ)
  /-- `_eta_omega.py:21-32` and `_eta_phi.py:21-31`. -/
  eo : List Res
  ep : List Res

/-! ### Inner methods at one squared energy -/

/-- Gounaris-Sakurai function of a resonance with its stored constants. -/
noncomputable def gs (r : Res) (s : ℝ) : ℂ :=
  let p := hParams r.m r.w (mPi * 1e-3)
  bwGS s r.m r.w (mPi * 1e-3) (mPi * 1e-3) p.2.2 p.2.1 p.1

/-- `_VectorFormFactorPiPiBase.__form_factor`, `_pi_pi.py:148-184`. -/
noncomputable def piPiAt (f : Fit) (neutral : Bool) (g : Couplings) (s : ℝ) : ℂ :=
  let terms := f.pipi.map fun r => (ci1 g : ℂ) * r.c * gs r s
  let terms := if neutral then terms
    else terms.modify 0 fun t => t * (1 / (1 + f.omegaWeight) *
      (1 + f.omegaWeight * bwFW s f.omegaMass f.omegaWidth))
  if neutral then terms.sum * (√2 : ℝ) else terms.sum

/-- The part of the kaon form factor without the phi, `_k_k.py:400-429`. -/
noncomputable def kkRhoOmega (f : Fit) (neutral : Bool) (g : Couplings) (s : ℝ) : ℂ :=
  (f.kkRho.map fun r => (if neutral then -0.5 else 0.5 : ℂ) * (ci1 g * r.c * gs r s)).sum +
  (f.kkOmega.map fun r => 1 / 6 * (ci0 g : ℂ) * r.c * bwFW s r.m r.w).sum

/-- The phi part, `_k_k.py:431-442`. -/
noncomputable def kkPhiPart (f : Fit) (mk : ℝ) (g : Couplings) (s : ℝ) : ℂ :=
  (f.kkPhi.map fun r => 1 / 3 * (cs g : ℂ) * r.c * bwPwave s r.m r.w mk mk).sum

/-- `_VectorFormFactorKKBase.__form_factor`, `_k_k.py:367-447`.  `phi_terms` has one row
per energy, and `phi_terms[0]` is the row of the first energy. -/
noncomputable def kkInner (f : Fit) (neutral : Bool) (g : Couplings) : List ℝ → List ℂ
  | [] => []
  | s :: ss =>
    let mk := if neutral then mK0 * 1e-3 else mK * 1e-3
    (kkRhoOmega f neutral g s + (if neutral then 1.055 else 1) * kkPhiPart f mk g s) ::
      ss.map fun s => kkRhoOmega f neutral g s + kkPhiPart f mk g s

/-- `VectorFormFactorEtaGamma.__form_factor`, `_eta_gamma.py:82-131`. -/
noncomputable def etaGammaAt (f : Fit) (g : Couplings) (s : ℝ) : ℂ :=
  let iso : Fin 3 → ℝ := fun i => if i = 0 then ci0 g else if i = 1 then ci1 g else cs g
  let w0 := f.etaRho.w * f.etaRho.m ^ 2 / s *
    ((s - 4 * (mPi * 1e-3) ^ 2) / (f.etaRho.m ^ 2 - 4 * (mPi * 1e-3) ^ 2)) ^ (1.5 : ℝ)
  (ci1 g : ℂ) * f.etaRho.c * ((f.etaRho.m ^ 2 : ℝ) : ℂ) /
      (((f.etaRho.m ^ 2 - s : ℝ) : ℂ) - Complex.I * ((√s * w0 : ℝ) : ℂ)) +
  (f.etaRest.map fun p => (iso p.1 : ℂ) * p.2.c * ((p.2.m ^ 2 : ℝ) : ℂ) /
      (((p.2.m ^ 2 - s : ℝ) : ℂ) - Complex.I * ((√s * p.2.w : ℝ) : ℂ))).sum

/-- `VectorFormFactorPi0Gamma.__form_factor`, `_pi_gamma.py:110-154`, as a function of the
energy. -/
noncomputable def pi0GammaAt (f : Fit) (g : Couplings) (q : ℝ) : ℂ :=
  let s := q ^ 2
  let amp : ℝ → Res → ℂ := fun c r =>
    (c : ℂ) / (((s - r.m ^ 2 : ℝ) : ℂ) + Complex.I * ((q * r.w : ℝ) : ℂ))
  let cd := 2 * g.u + g.d
  let amp0 := f.a0 * 4 * √2 * s / (3 * f.fpi)
  let form := (amp0 : ℂ) * (f.piRho.c * amp (ci1 g) f.piRho + f.piOmega.c * amp (ci0 g) f.piOmega +
    f.piPhi.c * amp (cs g) f.piPhi) - ((cd / (4 * Real.pi ^ 2 * f.fpi) : ℝ) : ℂ)
  ((√(4 * Real.pi * (alphaEm s).getD 0) : ℝ) : ℂ) * form

/-- `VectorFormFactorPi0Omega.__form_factor`, `_pi_omega.py:92-151`. -/
noncomputable def pi0OmegaAt (f : Fit) (g : Couplings) (s : ℝ) : ℂ :=
  let mu2p := (mPi0 * 1e-3) ^ 2 / s
  let mu2w := (mOmega * 1e-3) ^ 2 / s
  let mu2r := f.poFirst.m ^ 2 / s
  let p := 0.5 * √s * √((1 - mu2p - mu2w) ^ 2 - 4 * mu2p * mu2w)
  let w0 := f.poFirst.w * mu2r * ((1 - 4 * mu2p) / (mu2r - 4 * mu2p)) ^ (1.5 : ℝ) +
    f.gRhoOmegaPi ^ 2 * p ^ 3 / (12 * Real.pi)
  let amp : Res → ℝ → ℂ := fun r w =>
    r.c * ((r.m ^ 2 : ℝ) : ℂ) / (((r.m ^ 2 - s : ℝ) : ℂ) - Complex.I * ((√s * w : ℝ) : ℂ))
  ((f.gRhoOmegaPi * ci1 g / f.frho : ℝ) : ℂ) *
    (amp f.poFirst w0 + (f.poRest.map fun r => amp r r.w).sum)

/-- `VectorFormFactorPi0Phi.__form_factor`, `_pi_phi.py:99-147`. -/
noncomputable def pi0PhiAt (f : Fit) (g : Couplings) (s : ℝ) : ℂ :=
  (f.pp.map fun p =>
    let r := p.1
    let w := r.w * (1 - p.2 + p.2 * r.m ^ 2 / s *
      ((s - 16 * (mPi0 * 1e-3) ^ 2) / (r.m ^ 2 - 16 * (mPi0 * 1e-3) ^ 2)) ^ (1.5 : ℝ))
    (ci1 g : ℂ) * r.c * ((r.m ^ 2 : ℝ) : ℂ) /
      (((r.m ^ 2 - s : ℝ) : ℂ) - Complex.I * ((√s * w : ℝ) : ℂ))).sum

/-- `VectorFormFactorEtaOmega.__form_factor`, `_eta_omega.py:83-110`. -/
noncomputable def etaOmegaAt (f : Fit) (g : Couplings) (s : ℝ) : ℂ :=
  (ci0 g : ℂ) * (f.eo.map fun r => r.c * bwFW s r.m r.w).sum

/-- `VectorFormFactorEtaPhi.__form_factor`, `_eta_phi.py:79-107`. -/
noncomputable def etaPhiAt (f : Fit) (g : Couplings) (s : ℝ) : ℂ :=
  ((-3 * g.s : ℝ) : ℂ) * (f.ep.map fun r => r.c * bwFW s r.m r.w).sum

/-! ### Public methods -/

/-- The ten classes. -/
inductive Channel
  | piPi | pi0Pi0 | kK | k0K0 | etaGamma | pi0Gamma | pi0Omega | pi0Phi | etaOmega | etaPhi
  deriving DecidableEq

/-- `fsp_masses`. -/
noncomputable def masses : Channel → ℝ × ℝ
  | .piPi => (mPi, mPi)
  | .pi0Pi0 => (mPi0, mPi0)
  | .kK => (mK, mK)
  | .k0K0 => (mK0, mK0)
  | .etaGamma => (mEta, 0)
  | .pi0Gamma => (mPi0, 0)
  | .pi0Omega => (mPi0, mOmega)
  | .pi0Phi => (mPi0, mPhi)
  | .etaOmega => (mEta, mOmega)
  | .etaPhi => (mEta, mPhi)

/-- Threshold used in `form_factor`. -/
noncomputable def threshold (c : Channel) : ℝ := (masses c).1 + (masses c).2

/-- The inner method as called by `form_factor` on the energies above threshold (in GeV):
`_pi_pi.py:221`, `_k_k.py:485-486`, `_eta_gamma.py:169`, `_pi_gamma.py:192`,
`_pi_omega.py:187-189`, `_pi_phi.py:186-188`, `_eta_omega.py:146`, `_eta_phi.py:141`. -/
noncomputable def inner (f : Fit) (g : Couplings) : Channel → List ℝ → List ℂ
  | .piPi, qs => qs.map fun q => piPiAt f false g (q ^ 2)
  | .pi0Pi0, qs => qs.map fun q => piPiAt f true g (q ^ 2)
  | .kK, qs => kkInner f false g (qs.map fun q => q ^ 2)
  | .k0K0, qs => kkInner f true g (qs.map fun q => q ^ 2)
  | .etaGamma, qs => qs.map fun q => 1e-3 * etaGammaAt f g (q ^ 2)
  | .pi0Gamma, qs => qs.map fun q => pi0GammaAt f g q
  | .pi0Omega, qs => qs.map fun q => pi0OmegaAt f g (q ^ 2)
  | .pi0Phi, qs => qs.map fun q => pi0PhiAt f g (q ^ 2)
  | .etaOmega, qs => qs.map fun q => etaOmegaAt f g (q ^ 2)
  | .etaPhi, qs => qs.map fun q => etaPhiAt f g (q ^ 2)

/-- `ff = zeros; ff[mask] = values`. -/
def scatter {α : Type*} [Zero α] : List Bool → List α → List α
  | [], _ => []
  | true :: ms, v :: vs => v :: scatter ms vs
  | true :: ms, [] => 0 :: scatter ms []
  | false :: ms, vs => 0 :: scatter ms vs

/-- The array `ff` just before the `if single` at the end of each `form_factor`. -/
noncomputable def filled (f : Fit) (g : Couplings) (c : Channel) (qs : List ℝ) : List ℂ :=
  let qq := qs.map fun q => q * 1e-3
  scatter (qq.map fun q => decide (q > 1e-3 * threshold c))
    (inner f g c (qq.filter fun q => decide (q > 1e-3 * threshold c)))

/-- Factor applied to arrays after the return of scalars: `_pi_gamma.py:194-197`,
`_pi_omega.py:191-194`, `_pi_phi.py:190-193`, `_eta_omega.py:148-151`,
`_eta_phi.py:143-146`; the other classes have none. -/
noncomputable def arrayFactor : Channel → ℂ
  | .pi0Gamma | .pi0Omega | .pi0Phi | .etaOmega | .etaPhi => 1e-3
  | _ => 1

/-- `form_factor` of an array of energies in MeV. -/
noncomputable def formFactorArray (f : Fit) (g : Couplings) (c : Channel) (qs : List ℝ) : List ℂ :=
  (filled f g c qs).map fun z => z * arrayFactor c

/-- `form_factor` of a scalar. -/
noncomputable def formFactorScalar (f : Fit) (g : Couplings) (c : Channel) (q : ℝ) : ℂ :=
  (filled f g c [q]).getD 0 0

/-- Which current a class uses. -/
def current : Channel → GevXs.Current
  | .piPi | .pi0Pi0 | .kK | .k0K0 => .pp
  | .etaGamma | .pi0Gamma => .pa
  | _ => .pv

/-- `_integrated_form_factor` of an array, `_two_body.py:38-43`. -/
noncomputable def integratedArray (f : Fit) (g : Couplings) (c : Channel) (qs : List ℝ) : List ℝ :=
  List.zipWith (fun q z => ThreeBody.twoBodyPrefactor q (masses c).1 (masses c).2 *
    GevXs.lorentz (current c) (masses c).1 (masses c).2 q * ‖z‖ ^ 2) qs (formFactorArray f g c qs)

/-- `_integrated_form_factor` of a scalar. -/
noncomputable def integratedScalar (f : Fit) (g : Couplings) (c : Channel) (q : ℝ) : ℝ :=
  ThreeBody.twoBodyPrefactor q (masses c).1 (masses c).2 *
    GevXs.lorentz (current c) (masses c).1 (masses c).2 q * ‖formFactorScalar f g c q‖ ^ 2

/-- `_width` of an array of mediator masses, `_base.py:150-161`. -/
noncomputable def widthArray (f : Fit) (g : Couplings) (c : Channel) (mvs : List ℝ) : List ℝ :=
  let go := mvs.filter fun m => decide (m > threshold c)
  let vals := List.zipWith (fun q j => 0.5 * q * j) go (integratedArray f g c go)
  scatter (mvs.map fun m => decide (m > threshold c)) vals

/-- `_width` of a scalar: the array method on one element. -/
noncomputable def widthScalar (f : Fit) (g : Couplings) (c : Channel) (mv : ℝ) : ℝ :=
  (widthArray f g c [mv]).getD 0 0

end Hazma.MesonFF
