import Verif.Model.Theory
import Verif.Model.SmMasses
import Verif.Model.Kinematics
import Mathlib.Analysis.Complex.Norm
import Mathlib.Analysis.SpecialFunctions.Pow.Real
import Mathlib.Analysis.SpecialFunctions.Trigonometric.Basic
import Mathlib.MeasureTheory.Integral.IntervalIntegral.Basic

/-!
# The right-handed-neutrino model (`hazma/rh_neutrino`)

Models `_proto.py`, `_utils.py`, `_configure.py`, `_widths.py`, `_spectra.py` and `_model.py`.

Parameters of the model (`Env`): the pion form factor, the two CKM elements, the loader of spectra
(`hazma.spectra.dnde_*`).  `scipy.integrate.quad` is replaced by the exact integral.  Quadrature
keyword arguments and the keyword arguments `nbins`, `three_body_integrator` do not appear.
Energies are taken one at a time; what remains of the array handling is the shape of the result.
-/

namespace Hazma.RhNeutrino

open Hazma Hazma.Kinematics Hazma.Theory

/-- `Generation`, `_proto.py:5-8`. -/
inductive Gen where
  | fst | snd | trd
  deriving DecidableEq

/-- `Generation.__str__`, `_proto.py:10-15`. -/
def Gen.str : Gen → String
  | .fst => "e" | .snd => "mu" | .trd => "tau"

/-- `_LEP_STRS[gen]`, `_configure.py:16`, `_spectra.py:17`. -/
def lepStr : Gen → String
  | .fst => "e" | .snd => "mu" | .trd => "tau"

/-- `_NU_STRS[gen]`, `_configure.py:17`, `_spectra.py:18`. -/
def nuStr : Gen → String
  | .fst => "ve" | .snd => "vm" | .trd => "vt"

/-- `_lepton_masses[gen]`, `_widths.py:15-19`. -/
noncomputable def lepMass : Gen → ℝ
  | .fst => 0.5109989461 | .snd => 105.6583745 | .trd => 1776.86

/-- `GF`, `alpha_em`, `sin_theta_weak ** 2` (`parameters.py:205, 207, 228`); the meson masses
(`parameters.py:54-78`) and decay constants (`parameters.py:310-316`) used in `_widths.py`. -/
noncomputable def gf : ℝ := 1.1663787e-11
noncomputable def alphaEm : ℝ := 1 / 137.04
noncomputable def sw2 : ℝ := 0.22290
noncomputable def mPi : ℝ := 139.57039
noncomputable def mPi0 : ℝ := 134.9768
noncomputable def mEta : ℝ := 547.862
noncomputable def mK : ℝ := 493.677
noncomputable def mRho : ℝ := 775.26
noncomputable def mOmega : ℝ := 782.66
noncomputable def mPhi : ℝ := 1019.461
noncomputable def fpi0 : ℝ := 91.924
noncomputable def fpi : ℝ := 92.2138
noncomputable def fk : ℝ := 110.379
noncomputable def feta : ℝ := 57.8

/-- What is taken from outside: the modulus squared of the pion form factor at the fixed couplings
`(GVUU, GVDD)` as a function of `q`, and `Vud`, `Vus`. -/
structure Env where
  ff : ℝ → ℂ
  vud : ℂ
  vus : ℂ

/-- The protocol `SingleRhNeutrinoModel`, `_proto.py:18-21`: what widths and spectra read. -/
structure Core where
  mx : ℝ
  theta : ℝ
  gen : Gen

/-- `u = 0.5 * np.tan(2 * model.theta)`. -/
noncomputable def Core.u (c : Core) : ℝ := 0.5 * Real.tan (2 * c.theta)

/-! ## Partial widths (`_widths.py`) -/

/-- `_width_v_hp`, `_widths.py:82-89`. -/
noncomputable def widthVHp (c : Core) (mp fp : ℝ) : ℝ :=
  if c.mx < mp then 0
  else
    let x := mp / c.mx
    c.u ^ 2 * gf ^ 2 * fp ^ 2 * c.mx ^ 3 * (1 - x ^ 2) ^ 2 / (64 * Real.pi)

/-- `_width_l_hp`, `_widths.py:111-126`. -/
noncomputable def widthLHp (c : Core) (ml mh fh : ℝ) (ckm : ℂ) : ℝ :=
  if c.mx < mh + ml then 0
  else
    let xh := mh / c.mx
    let xl := ml / c.mx
    let pre := c.u ^ 2 * gf ^ 2 * ‖ckm‖ ^ 2 * fh ^ 2 * c.mx ^ 3 / (32 * Real.pi)
    pre * ((1 - xl ^ 2) ^ 2 + xh ^ 2 * (1 + xl ^ 2) - 2 * xh ^ 4)
      * Real.sqrt (kallenLambda 1 (xh ^ 2) (xl ^ 2))

/-- `_width_ell_hv`, `_widths.py:152-167`. -/
noncomputable def widthLHv (c : Core) (ml mh gh : ℝ) (ckm : ℂ) : ℝ :=
  if c.mx < mh + ml then 0
  else
    let xh := mh / c.mx
    let xl := ml / c.mx
    let pre := c.u ^ 2 * gf ^ 2 * ‖ckm‖ ^ 2 * gh ^ 2 * c.mx ^ 3 / (16 * Real.pi * mh ^ 2)
    pre * ((1 - xl ^ 2) ^ 2 + xh ^ 2 * (1 + xl ^ 2) - 2 * xh ^ 4)
      * Real.sqrt (kallenLambda 1 (xh ^ 2) (xl ^ 2))

/-- `_width_v_hv`, `_widths.py:185-194`. -/
noncomputable def widthVHv (c : Core) (mh kh gr : ℝ) : ℝ :=
  if c.mx < mh then 0
  else
    let xh := mh / c.mx
    let pre := (gf * kh * gr * c.u / mh) ^ 2 * c.mx ^ 3 / (32 * Real.pi)
    pre * (1 + 2 * xh ^ 2) * (1 - xh ^ 2) ^ 2

/-- `msqrd_l_pi0_pi`, `_widths.py:229-261`. -/
noncomputable def msqrdLPi0Pi (env : Env) (c : Core) (s t : ℝ) : ℝ :=
  let ml := lepMass c.gen
  2 * ‖env.vud‖ ^ 2 * c.u ^ 2 * gf ^ 2
    * (4 * mPi ^ 4 + (ml ^ 2 + c.mx ^ 2) * (ml ^ 2 + c.mx ^ 2 - s)
        - 4 * (ml ^ 2 + c.mx ^ 2 + 2 * mPi ^ 2 - s) * t + 4 * t ^ 2)
    * ‖env.ff (Real.sqrt s)‖ ^ 2

/-- The integrand of `width_l_pi0_pi`, `_widths.py:318-324`. -/
noncomputable def integrandLPi0Pi (env : Env) (c : Core) (s : ℝ) : ℝ :=
  let xl2 := (lepMass c.gen / c.mx) ^ 2
  let z := s / c.mx ^ 2
  let poly := (1 - xl2) ^ 2 + z * (1 + xl2) - 2 * z ^ 2
  let beta := (1 - 4 * mPi ^ 2 / s) ^ (1.5 : ℝ)
  let p := Real.sqrt (kallenLambda 1 z xl2)
  poly * ‖env.ff (Real.sqrt s)‖ ^ 2 * p * beta

/-- `width_l_pi0_pi`, `_widths.py:292-328`. -/
noncomputable def widthLPi0Pi (env : Env) (c : Core) : ℝ :=
  let ml := lepMass c.gen
  if c.mx < ml + 2 * mPi then 0
  else
    let pre := c.u ^ 2 * ‖env.vud‖ ^ 2 * gf ^ 2 * c.mx ^ 3 / (384 * Real.pi ^ 3)
    pre * ∫ s in (4 * mPi ^ 2)..((c.mx - ml) ^ 2), integrandLPi0Pi env c s

/-- `msqrd_v_pi_pi`, `_widths.py:336-360`. -/
noncomputable def msqrdVPiPi (env : Env) (c : Core) (s t : ℝ) : ℝ :=
  c.u ^ 2 * gf ^ 2 * (1 - 2 * sw2) ^ 2
    * (c.mx ^ 4 + 4 * mPi ^ 4 + 4 * t * (-2 * mPi ^ 2 + s + t) - c.mx ^ 2 * (s + 4 * t))
    * ‖env.ff (Real.sqrt s)‖ ^ 2

/-- The integrand of `width_v_pi_pi`, `_widths.py:413-418`. -/
noncomputable def integrandVPiPi (env : Env) (c : Core) (s : ℝ) : ℝ :=
  let z := s / c.mx ^ 2
  let beta := (1 - 4 * mPi ^ 2 / s) ^ (1.5 : ℝ)
  let poly := (1 - z) ^ 2 * (1 + 2 * z)
  ‖env.ff (Real.sqrt s)‖ ^ 2 * beta * poly

/-- `width_v_pi_pi`, `_widths.py:389-422`. -/
noncomputable def widthVPiPi (env : Env) (c : Core) : ℝ :=
  if c.mx < 2 * mPi then 0
  else
    let pre := c.u ^ 2 * gf ^ 2 * c.mx ^ 3 * (1 - 2 * sw2) ^ 2 / (768 * Real.pi ^ 3)
    pre * ∫ s in (4 * mPi ^ 2)..(c.mx ^ 2), integrandVPiPi env c s

/-- `_msqrd_l_u_d`, `_widths.py:436-450`, at `ckm = 1`. -/
noncomputable def msqrdLUD (c : Core) (mu md ml s t : ℝ) : ℝ :=
  16 * gf ^ 2 * (ml ^ 2 + c.mx ^ 2 - s - t) * (s + t - mu ^ 2 - md ^ 2) * c.u ^ 2

/-- The integrand of `_width_l_u_d`, `_widths.py:470-477`. -/
noncomputable def integrandLUD (xu xd xl x : ℝ) : ℝ :=
  12 / x * (x - xl ^ 2 - xd ^ 2) * (1 + xu ^ 2 - x)
    * Real.sqrt (kallenLambda x (xl ^ 2) (xd ^ 2) * kallenLambda 1 x (xu ^ 2))

/-- `_width_l_u_d`, `_widths.py:453-483`, at `nw = 1`. -/
noncomputable def widthLUD (c : Core) (mu md ml : ℝ) : ℝ :=
  if c.mx < ml + mu + md then 0
  else
    let pre := gf ^ 2 * c.mx ^ 5 / (192 * Real.pi ^ 3) * c.u ^ 2
    let xl := ml / c.mx
    let xu := mu / c.mx
    let xd := md / c.mx
    pre * ∫ x in ((xd + xl) ^ 2)..((1 - xu) ^ 2), integrandLUD xu xd xl x

/-- `_msqrd_v_f_f` and `_msqrd_v_l_l`, `_widths.py:492-510, 545-561`; they differ in the sign `sg`
of `4 * SW**2` only. -/
noncomputable def msqrdVFF (sg : ℝ) (c : Core) (mf s t : ℝ) : ℝ :=
  let k := 1 + sg * 4 * sw2 + 8 * sw2 ^ 2
  (-2 : ℝ) * c.u ^ 2 * gf ^ 2
    * (2 * mf ^ 4 * k + 2 * mf ^ 2 * (c.mx ^ 2 - s - 2 * k * t)
        + k * (s ^ 2 + 2 * s * t + 2 * t ^ 2 - c.mx ^ 2 * (s + 2 * t)))

/-- The function `L` of `_width_v_f_f` with its small-mass branch, `_widths.py:524-529`. -/
noncomputable def lx (x : ℝ) : ℝ :=
  let sx := Real.sqrt (1 - 4 * x ^ 2)
  let num := 1 - 3 * x ^ 2 - (1 - x ^ 2) * sx
  if num < 1e-10 then 4 * Real.log x + 4 * x ^ 2 + 6 * x ^ 4
  else Real.log (num / (x ^ 2 * (1 + sx)))

/-- `t1` and `t2` of `_width_v_f_f`, `_widths.py:531-536`. -/
noncomputable def t1 (x : ℝ) : ℝ :=
  (1 - 14 * x ^ 2 - 2 * x ^ 4 - 12 * x ^ 6) * Real.sqrt (1 - 4 * x ^ 2)
    + 12 * x ^ 4 * (x ^ 4 - 1) * lx x
noncomputable def t2 (x : ℝ) : ℝ :=
  x ^ 2 * (2 + 10 * x ^ 2 - 12 * x ^ 4) * Real.sqrt (1 - 4 * x ^ 2)
    + 6 * x ^ 4 * (1 - 2 * x ^ 2 + 2 * x ^ 4) * lx x

/-- `_width_v_f_f`, `_widths.py:513-538`, at `nc = 1`. -/
noncomputable def widthVFF (c : Core) (mf c1f c2f : ℝ) : ℝ :=
  if c.mx < 2 * mf then 0
  else
    let pre := gf ^ 2 * c.mx ^ 5 / (192 * Real.pi ^ 3) * c.u ^ 2
    let x := mf / c.mx
    pre * (c1f * t1 x + 4 * c2f * t2 x)

/-- `_width_v_l_l`, `_widths.py:564-576`. -/
noncomputable def widthVLLsame (c : Core) (genl : Gen) : ℝ :=
  if c.gen = genl then
    widthVFF c (lepMass genl) (0.25 * (1 + 4 * sw2 + 8 * sw2 ^ 2)) (0.5 * sw2 * (2 * sw2 + 1))
  else
    widthVFF c (lepMass genl) (0.25 * (1 - 4 * sw2 + 8 * sw2 ^ 2)) (0.5 * sw2 * (2 * sw2 - 1))

/-- `_make_msqrd_and_masses_v_l_l`, `_widths.py:582-625`: the matrix element and the masses it is
written for. -/
noncomputable def msqrdVLL (c : Core) (genv g1 g2 : Gen) : (ℝ → ℝ → ℝ) × List ℝ :=
  let ml1 := lepMass g1
  let ml2 := lepMass g2
  if c.gen = genv ∧ genv = g1 ∧ g1 = g2 then (msqrdVFF 1 c ml1, [0, ml1, ml1])
  else if c.gen = genv ∧ g1 = g2 then (msqrdVFF (-1) c ml1, [0, ml1, ml1])
  else if c.gen = g1 ∧ genv = g2 then (msqrdLUD c 0 ml2 ml1, [0, ml2, ml1])
  else if c.gen = g2 ∧ genv = g1 then (msqrdLUD c 0 ml1 ml2, [0, ml1, ml2])
  else (fun _ _ => 0, [0, ml1, ml2])

/-- `width_v_l_l`, `_widths.py:698-734`. -/
noncomputable def widthVLL (c : Core) (genv g1 g2 : Gen) : ℝ :=
  if c.gen = genv then widthVLLsame c g1
  else
    let md := lepMass g2
    let ml := lepMass g1
    if c.gen = g1 ∧ genv = g2 then widthLUD c 0 md ml
    else if c.gen = g2 ∧ genv = g1 then widthLUD c 0 ml md
    else 0

/-- `msqrd_v_v_v`, `_widths.py:742-746`. -/
noncomputable def msqrdVVV (c : Core) (g : Gen) (s t : ℝ) : ℝ :=
  let pre : ℝ := if g = c.gen then 2 else 1
  (-pre) * 16 * gf ^ 2 * (s ^ 2 + s * t + t ^ 2 - c.mx ^ 2 * (s + t)) * c.u

/-- `width_v_v_v`, `_widths.py:815-836`. -/
noncomputable def widthVVV (c : Core) (genv : Gen) : ℝ :=
  let w := gf ^ 2 * c.mx ^ 5 / (768 * Real.pi ^ 3) * c.u ^ 2
  let pre : ℝ := if genv = c.gen then 2 else 1
  pre * w

/-- `width_v_a`, `_widths.py:844-860`. -/
noncomputable def widthVA (c : Core) : ℝ :=
  9 * alphaEm * gf ^ 2 / (256 * Real.pi ^ 4) * c.mx ^ 5 * c.u ^ 2

/-! ## Spectra (`_spectra.py`) -/

/-- What a `dnde` function does: zeros of the shape of the energies, zeros with a leading axis of
length three, a call of `spectra.dnde_<product>` at `cme = mx`, or a `ValueError`. -/
inductive Act where
  | zeros
  | zeros3
  | call (product : String) (cme : ℝ) (states : List String) (msqrd : Option (ℝ → ℝ → ℝ))
  | valueError

/-- The spectra loader that a product selects, `_spectra.py:43-60, 75-108`. -/
def productFn (product : String) : Option String :=
  if product = "photon" then some "photon"
  else if product = "positron" then some "positron"
  else if product ∈ ["neutrino", "ve", "vm", "vt"] then some "neutrino"
  else none

/-- `sum(sm_masses[s] for s in states)`; every name used below is in the table. -/
noncomputable def massSum (states : List String) : ℝ :=
  (states.map fun s => (smMasses.get? s).getD 0).sum

/-- `_dnde_two_body` and `_dnde_three_body`, `_spectra.py:25-60, 63-108`. -/
noncomputable def dnde (states : List String) (msqrd : Core → Option (ℝ → ℝ → ℝ)) (c : Core)
    (product : String) : Act :=
  if c.mx < massSum states then .zeros
  else match productFn product with
    | some fn => .call fn c.mx states (msqrd c)
    | none => .valueError

/-- `mk_dnde_zero`, `_configure.py:44-58`. -/
def dndeZero (_ : Core) (product : String) : Act :=
  if product = "neutrino" then .zeros3 else .zeros

/-- `mk_dnde_2body(fn)`, `_configure.py:60-66`, for the functions `dnde_v_*`, `dnde_l_*` of
`_spectra.py:111-302`, which differ in the final state only. -/
noncomputable def dnde2 (states : Gen → List String) (c : Core) (product : String) : Act :=
  dnde (states c.gen) (fun _ => none) c product

/-! ## Final states (`_configure.py`) -/

/-- `RHNFinalStateAttrs`, `_configure.py:30-34`. -/
structure Attrs where
  dnde : Core → String → Act
  width : Core → ℝ
  selfConj : Bool
  masses : List ℝ

/-- The two generations other than `g`.  In Python, the iteration order of a set of small integers
(`_utils.py:6`). -/
def others : Gen → Gen × Gen
  | .fst => (.snd, .trd) | .snd => (.fst, .trd) | .trd => (.fst, .snd)

/-- `three_lepton_fs_generations`, `_utils.py:4-19`. -/
def threeLepton (g : Gen) (unique : Bool) : List (Gen × Gen × Gen) :=
  let g2 := (others g).1
  let g3 := (others g).2
  let gens := [(g, g, g), (g, g2, g2), (g, g3, g3)]
  if unique then gens else gens ++ [(g2, g, g2), (g2, g2, g), (g3, g, g3), (g3, g3, g)]

/-- One pass of the loop `_configure.py:166-175`. -/
noncomputable def lepEntry (t : Gen × Gen × Gen) : String × Attrs :=
  (nuStr t.1 ++ " " ++ lepStr t.2.1 ++ " " ++ lepStr t.2.2,
    { dnde := fun c product => dnde [nuStr t.1, lepStr t.2.1, lepStr t.2.2]
        (fun c => some (msqrdVLL c t.1 t.2.1 t.2.2).1) c product
      width := fun c => widthVLL c t.1 t.2.1 t.2.2
      selfConj := t.2.1 = t.2.2
      masses := [0, lepMass t.2.1, lepMass t.2.2] })

/-- One pass of the loop `_configure.py:178-186`. -/
noncomputable def nuEntry (g genv : Gen) : String × Attrs :=
  (nuStr g ++ " " ++ nuStr genv ++ " " ++ nuStr genv,
    { dnde := fun c product => dnde [nuStr c.gen, nuStr genv, nuStr genv]
        (fun c => some (msqrdVVV c genv)) c product
      width := fun c => widthVVV c genv
      selfConj := true
      masses := [0, 0, 0] })

/-- The entries written one by one, `_configure.py:92-162`. -/
noncomputable def mesonEntries (env : Env) (g : Gen) : Dict Attrs :=
  let ll := lepStr g
  let vv := nuStr g
  [(vv ++ " a", ⟨dndeZero, widthVA, true, [0, 0]⟩),
   (vv ++ " pi0", ⟨dnde2 fun g => [nuStr g, "pi0"], fun c => widthVHp c mPi0 fpi0, true, [0, mPi0]⟩),
   (vv ++ " eta", ⟨dnde2 fun g => [nuStr g, "pi0"], fun c => widthVHp c mEta feta, true, [0, mEta]⟩),
   (vv ++ " rho", ⟨dnde2 fun g => [nuStr g, "rho0"],
      fun c => widthVHv c mRho (1 - 2 * sw2) 0.162e6, true, [0, mRho]⟩),
   (vv ++ " omega", ⟨dnde2 fun g => [nuStr g, "omega"],
      fun c => widthVHv c mOmega (4 / 3 * sw2) 0.153e6, true, [0, mOmega]⟩),
   (vv ++ " phi", ⟨dnde2 fun g => [nuStr g, "phi"],
      fun c => widthVHv c mPhi (4 / 3 * sw2 - 1) 0.234e6, true, [0, mPhi]⟩),
   (ll ++ " k", ⟨dnde2 fun g => [lepStr g, "k"],
      fun c => widthLHp c (lepMass c.gen) mK fk env.vus, false, [lepMass g, mK]⟩),
   (ll ++ " pi", ⟨dnde2 fun g => [lepStr g, "pi"],
      fun c => widthLHp c (lepMass c.gen) mPi fpi env.vud, false, [lepMass g, mPi]⟩),
   (ll ++ " rho", ⟨dnde2 fun g => [lepStr g, "k"],
      fun c => widthLHv c (lepMass c.gen) mRho 0.162e6 env.vud, false, [lepMass g, mRho]⟩),
   (vv ++ " pi pi", ⟨fun c product => dnde [nuStr c.gen, "pi", "pi"]
        (fun c => some (msqrdVPiPi env c)) c product,
      widthVPiPi env, true, [0, mPi, mPi]⟩),
   (ll ++ " pi pi0", ⟨fun c product => dnde [c.gen.str, "pi0", "pi"]
        (fun c => some (msqrdLPi0Pi env c)) c product,
      widthLPi0Pi env, false, [lepMass g, mPi, mPi0]⟩)]

/-- `configure`, `_configure.py:37-188`: assignments `fns[key] = ...` in order. -/
noncomputable def configure (env : Env) (g : Gen) : Dict Attrs :=
  (mesonEntries env g ++ (threeLepton g false).map lepEntry
    ++ [Gen.fst, .snd, .trd].map (nuEntry g)).foldl (fun d e => d.set e.1 e.2) []

/-! ## The model object (`_model.py`) -/

/-- The attributes of an `RHNeutrino` object. -/
structure Model extends Core where
  flavor : String
  vstr : String
  lstr : String
  ml : ℝ
  config : Dict Attrs

/-- `RHNeutrino.__init__`, `_model.py:35-70`; `none` is the `ValueError`. -/
noncomputable def init (env : Env) (mx theta : ℝ) (flavor : String) : Option Model :=
  if flavor = "e" then
    some ⟨⟨mx, theta, .fst⟩, flavor, "ve", flavor, (smMasses.get? flavor).getD 0,
      configure env .fst⟩
  else if flavor = "mu" then
    some ⟨⟨mx, theta, .snd⟩, flavor, "vm", flavor, (smMasses.get? flavor).getD 0,
      configure env .snd⟩
  else if flavor = "tau" then
    some ⟨⟨mx, theta, .trd⟩, flavor, "vt", flavor, (smMasses.get? flavor).getD 0,
      configure env .trd⟩
  else none

/-- The `mx` and `theta` setters, `_model.py:79-81, 90-92`. -/
def setMx (m : Model) (v : ℝ) : Model := { m with mx := v }
def setTheta (m : Model) (v : ℝ) : Model := { m with theta := v }

/-- The `flavor` setter, `_model.py:102-119`; `none` is the `ValueError`. -/
noncomputable def setFlavor (env : Env) (m : Model) (val : String) : Option Model :=
  if val = "e" then
    some ⟨⟨m.mx, m.theta, .fst⟩, val, "ve", val, (smMasses.get? val).getD 0, configure env .fst⟩
  else if val = "mu" then
    some ⟨⟨m.mx, m.theta, .snd⟩, val, "vmu", val, (smMasses.get? val).getD 0, configure env .snd⟩
  else if val = "tau" then
    some ⟨⟨m.mx, m.theta, .snd⟩, val, "vmu", val, (smMasses.get? val).getD 0, configure env .snd⟩
  else none

/-- `list_decay_final_states`, `_model.py:133-135`. -/
def Model.finalStates (m : Model) : List String := m.config.keys

/-- `pre(self_conjugate)`, `_model.py:144, 152-153`. -/
def pre (selfConj : Bool) : ℝ := if selfConj then 1 else 2

/-- `_decay_widths`, `_model.py:147-158`. -/
noncomputable def Model.partialWidths (m : Model) : Dict ℝ :=
  m.config.mapVals fun _ a => pre a.selfConj * a.width m.toCore

/-- `decay_widths`, `_model.py:181-191`. -/
noncomputable def Model.decayWidths (m : Model) : Dict ℝ := Theory.decayWidths m.partialWidths

/-- The argument of `decay_width`: a string or a sequence of strings. -/
inductive StatesArg where
  | str (s : String)
  | seq (l : List String)

/-- `for fs in final_states`: a string is iterated over its characters. -/
def StatesArg.iter : StatesArg → List String
  | .str s => s.toList.map String.singleton
  | .seq l => l

/-- `_decay_width`, `_model.py:137-145`. -/
noncomputable def Model.decayWidth1 (m : Model) (fs : String) : Except Err ℝ :=
  match m.config.get? fs with
  | none => .error (.keyError fs)
  | some a => .ok (pre a.selfConj * a.width m.toCore)

/-- `decay_width`, `_model.py:160-179`. -/
noncomputable def Model.decayWidth (m : Model) (arg : StatesArg) : Except Err (Dict ℝ) :=
  buildDict (fun fs (_ : Unit) => m.decayWidth1 fs) (arg.iter.map fun s => (s, ())) []

/-- The factor of `__spectrum_funcs`, `_model.py:198-202`. -/
def specPre (product : String) (selfConj : Bool) : ℝ :=
  if selfConj then 1 else if product = "positron" then 1 else 2

/-- The value at one energy of what a `dnde` function returns; `load` is `spectra.dnde_*`. -/
def runAct (load : String → ℝ → List String → Option (ℝ → ℝ → ℝ) → ℝ → Except Err ℝ) (a : Act)
    (e : ℝ) : Except Err ℝ :=
  match a with
  | .zeros => .ok 0
  | .zeros3 => .ok 0
  | .call fn cme states msqrd => load fn cme states msqrd e
  | .valueError => .error (.user "ValueError")

/-- `__spectrum_funcs`, `_model.py:193-215`, for the scalar-valued products. -/
noncomputable def Model.spectrumFuncs
    (load : String → ℝ → List String → Option (ℝ → ℝ → ℝ) → ℝ → Except Err ℝ) (m : Model)
    (product : String) : Dict DecFn :=
  m.config.mapVals fun _ a => fun e => do
    let v ← runAct load (a.dnde m.toCore product) e
    return specPre product a.selfConj * v

/-- `_gamma_ray_line_energies`, `_model.py:224-229`. -/
noncomputable def Model.gammaLines (m : Model) : Dict ℝ := [("nu g", m.mx / 2)]

/-- `_positron_line_energies`, `_model.py:238-246`. -/
noncomputable def Model.positronLines (m : Model) : Dict ℝ :=
  if m.flavor = "e" then
    [("pi l", (m.mx ^ 2 + m.ml ^ 2 - mPi ^ 2) / (2 * m.mx)),
     ("k l", (m.mx ^ 2 + m.ml ^ 2 - mK ^ 2) / (2 * m.mx))]
  else []

/-- `_neutrino_line_energies`, `_model.py:255-267`. -/
noncomputable def Model.neutrinoLines (m : Model) : Dict ℝ :=
  let l0 : Dict ℝ := []
  let l1 := if mPi0 < m.mx then l0.set (m.vstr ++ " pi0") ((m.mx ^ 2 - mPi0 ^ 2) / (2 * m.mx)) else l0
  let l2 := if mEta < m.mx then l1.set (m.vstr ++ " pi0") ((m.mx ^ 2 - mEta ^ 2) / (2 * m.mx)) else l1
  l2.set (m.vstr ++ " a") (0.5 * m.mx)

/-- `TheoryDec.gamma_ray_lines`, `positron_lines` on this model
(`hazma/theory/__init__.py:573-580, 637-644`). -/
noncomputable def Model.gammaRayLines (m : Model) : Except Err (Dict (ℝ × ℝ)) :=
  linesDec m.partialWidths m.gammaLines
noncomputable def Model.positronLinesOf (m : Model) : Except Err (Dict (ℝ × ℝ)) :=
  linesDec m.partialWidths m.positronLines

end Hazma.RhNeutrino
