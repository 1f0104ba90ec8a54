import Verif.Model.VectorModel
import Mathlib.Analysis.SpecialFunctions.Trigonometric.Arctan

/-!
# Dark-matter cross sections of the scalar and vector mediator models

Models the kernels of `rust/src/kernels/scalar_xs.rs` and `vector_xs.rs` and the Python methods that
call them.  Fused multiply-adds are exact.  A division by zero in a kernel that returns a plain
`f64` (infinity or NaN in the code) is Lean's zero and is excluded by the theorems; the two
complex-valued kernels raise there, which is modelled.
-/

namespace Hazma.Xs

open Hazma

/-- `NonRealResult` (`soft_complex.rs:149-190`), surfaced to Python as a `TypeError`. -/
inductive Err where
  | nonReal
  | assertion
  deriving DecidableEq

/-- `complex_quotient_real_denominator` (`soft_complex.rs:149-190`): raises exactly when the
denominator is zero. -/
noncomputable def quotient (a c : ℝ) : Except Err ℝ := if c = 0 then .error .nonReal else .ok (a / c)

/-- The Breit-Wigner denominator (`vector_xs.rs:361-364`; spelled inline in `scalar_xs.rs`). -/
def propagator (m e w : ℝ) : ℝ := m ^ 2 * w ^ 2 + (m ^ 2 - e ^ 2) ^ 2

/-! ### Constants -/

/-- The constants of `hazma/parameters.py:50-87, 205-209, 318`, used by the widths. -/
noncomputable def pythonConsts : ScalarModel.Consts where
  alpha := 1 / 137.04
  vh := 246227.95
  b0 := ((134.9768 + 139.57039) / 2) ^ 2 / (2.16 + 4.67)
  muq := 2.16
  mdq := 4.67
  mpi := 139.57039
  mpi0 := 134.9768
  me := 0.5109989461
  mmu := 105.6583745

/-- The constants compiled into the scalar kernels (`scalar_xs.rs:98-116`). -/
noncomputable def kernelConsts : ScalarModel.Consts where
  alpha := 1 / 137.04
  vh := 246227.95
  b0 := 2654.082197477761
  muq := 2.3
  mdq := 4.8
  mpi := 139.57018
  mpi0 := 134.9766
  me := 0.510998928
  mmu := 105.6583715

/-! ### Scalar mediator -/

/-- `sigma_xx_to_s_to_ff` (`scalar_xs.rs:171-194`). -/
noncomputable def scalarFF (vh e mx ms gsxx gsff w mf : ℝ) : Except Err ℝ :=
  if e < 2 * mf ∨ e < 2 * mx then .ok 0
  else quotient (gsff ^ 2 * gsxx ^ 2 * mf ^ 2 * (-4 * mf ^ 2 + e ^ 2) ^ (3 / 2 : ℝ)
      * Real.sqrt (-4 * mx ^ 2 + e ^ 2))
    (16 * Real.pi * e ^ 2 * vh ^ 2 * propagator ms e w)

/-- The Python method `sigma_xx_to_s_to_ff`
(`_scalar_mediator_cross_sections.py:36-69`), which takes the lepton masses from `parameters.py`. -/
noncomputable def sigmaScalarFF (c k : ScalarModel.Consts) (s : ScalarModel.Base) (e : ℝ) (f : String) :
    Except Err ℝ :=
  if f = "e" ∨ f = "mu" then
    scalarFF k.vh e s.mx s.ms s.gsxx s.gsff s.width (if f = "e" then c.me else c.mmu)
  else .error .assertion

/-- `sigma_xx_to_s_to_gg` (`scalar_xs.rs:201-220`). -/
noncomputable def scalarGG (k : ScalarModel.Consts) (s : ScalarModel.Base) (e : ℝ) : ℝ :=
  if e < 2 * s.mx then 0
  else k.alpha ^ 2 * s.gsFF ^ 2 * s.gsxx ^ 2 * e ^ 3 * Real.sqrt (-4 * s.mx ^ 2 + e ^ 2)
    / (128 * s.lam ^ 2 * Real.pi ^ 3 * propagator s.ms e s.width)

/-- `sigma_xx_to_s_to_pi0pi0` and `sigma_xx_to_s_to_pipi` (`scalar_xs.rs:228-265`, `272-309`), which
differ in the pion mass `m` and the numerical factor `norm` (419904 and 209952). -/
noncomputable def scalarPi (k : ScalarModel.Consts) (m norm : ℝ) (s : ScalarModel.Base) (e : ℝ) : ℝ :=
  if e < 2 * m ∨ e < 2 * s.mx then 0
  else s.gsxx ^ 2 * Real.sqrt ((-4 * m ^ 2 + e ^ 2) * (-4 * s.mx ^ 2 + e ^ 2))
    * (162 * s.gsGG * s.lam ^ 3 * (2 * m ^ 2 - e ^ 2) * k.vh ^ 2
      + k.b0 * (k.mdq + k.muq) * (9 * s.lam + 4 * s.gsGG * s.vs)
        * (2 * s.gsGG * k.vh * s.vs + (-3 * s.lam * k.vh + 3 * s.gsff * s.lam * s.vs))
        * (2 * s.gsGG * k.vh * (9 * s.lam - 4 * s.gsGG * s.vs)
          + 9 * s.gsff * s.lam * (3 * s.lam + 4 * s.gsGG * s.vs))) ^ 2
    / (norm * s.lam ^ 6 * Real.pi * e ^ 2 * k.vh ^ 4 * (9 * s.lam + 4 * s.gsGG * s.vs) ^ 2
      * propagator s.ms e s.width)

/-- `sigma_xx_to_s_to_pi0pi0` (`scalar_xs.rs:228-265`). -/
noncomputable def scalarPi0Pi0 (k : ScalarModel.Consts) (s : ScalarModel.Base) (e : ℝ) : ℝ :=
  scalarPi k k.mpi0 419904 s e

/-- `sigma_xx_to_s_to_pipi` (`scalar_xs.rs:272-309`). -/
noncomputable def scalarPiPi (k : ScalarModel.Consts) (s : ScalarModel.Base) (e : ℝ) : ℝ :=
  scalarPi k k.mpi 209952 s e

/-- `sigma_xx_to_ss` (`scalar_xs.rs:316-344`). -/
noncomputable def scalarSS (e mx ms g : ℝ) : ℝ :=
  if e < 2 * ms ∨ e < 2 * mx then 0
  else
    let root := Real.sqrt ((-4 * ms ^ 2 + e ^ 2) * (-4 * mx ^ 2 + e ^ 2))
    g ^ 4
      * (-(root * (2 * mx ^ 2 * (8 * mx ^ 2 + e ^ 2) + (3 * ms ^ 4 - 16 * ms ^ 2 * mx ^ 2))
          / (mx ^ 2 * e ^ 2 + (-(4 * ms ^ 2) * mx ^ 2 + ms ^ 4)))
        + (-(4 * ms ^ 2) * (4 * mx ^ 2 + e ^ 2)
            + (16 * mx ^ 2 * e ^ 2 + (6 * ms ^ 4 - 32 * mx ^ 4) + e ^ 4))
          * Real.log ((-2 * ms ^ 2 + e ^ 2 + root) / (-2 * ms ^ 2 + e ^ 2 - root))
          / (-2 * ms ^ 2 + e ^ 2))
      / (32 * Real.pi * e ^ 2 * (-4 * mx ^ 2 + e ^ 2))

/-- `sigma_ss_to_xx` (`scalar_xs.rs:353-386`). -/
noncomputable def scalarSSXX (e mx ms g : ℝ) : ℝ :=
  if e < 2 * mx ∨ e < 2 * ms then 0
  else
    let rs := ms / e
    let rx := mx / e
    let root := Real.sqrt ((-4 * rs ^ 2 + 1) * (-4 * rx ^ 2 + 1))
    g ^ 4
      * (-2 * root * (16 * rx ^ 4 + (3 * rs ^ 4 + 2 * (-8 * rs ^ 2 + 1) * rx ^ 2))
          / (-(4 * rs ^ 2) * rx ^ 2 + (rs ^ 4 + rx ^ 2))
        + (-(4 * rs ^ 2) * (4 * rx ^ 2 + 1) + (-32 * rx ^ 4 + (16 * rx ^ 2 + (6 * rs ^ 4 + 1)))) * 2
          * (Real.log (-2 * rs ^ 2 + 1 + root) - Real.log (-2 * rs ^ 2 + 1 - root))
          / (-2 * rs ^ 2 + 1))
      / (8 * e ^ 2 * Real.pi * (-4 * rs ^ 2 + 1))

/-- `sigma_xl_to_xl` (`scalar_xs.rs:397-440`). -/
noncomputable def scalarXL (e mx ms gsxx gsff w ml : ℝ) : ℝ :=
  if e < mx + ml then 0
  else
    let s := e ^ 2
    2 * ((gsff * ml) ^ 2 * gsxx ^ 2
      * ((-4 * ml ^ 2 * (-4 * mx ^ 2 + ms ^ 2) + ms ^ 2 * (-4 * mx ^ 2 + ms ^ 2 - w ^ 2))
            * Real.arctan (ms / w)
          + (4 * ml ^ 2 * (-4 * mx ^ 2 + ms ^ 2) + ms ^ 2 * (4 * mx ^ 2 - ms ^ 2 + w ^ 2))
            * Real.arctan ((-4 * mx ^ 2 + ms ^ 2 + s) / (ms * w))
        + ms * w
          * (4 * mx ^ 2 - s + ms ^ 2 * Real.log 4 - ml ^ 2 * Real.log 16 - mx ^ 2 * Real.log 16
            + (2 * mx ^ 2 + (2 * ml ^ 2 - ms ^ 2)) * Real.log (4 * ms ^ 2 * (ms ^ 2 + w ^ 2))
            + (-2 * mx ^ 2 + (-2 * ml ^ 2 + ms ^ 2))
              * Real.log (ms ^ 2 * (-8 * mx ^ 2 + 2 * s + w ^ 2) + (ms ^ 4 + (-4 * mx ^ 2 + s) ^ 2))))
      / (32 * ms * Real.pi * e ^ 2 * (4 * mx ^ 2 - s) * w))

/-- The squared matrix element of `sigma_xx_to_s_to_xx`
(`_scalar_mediator_cross_sections.py:219-261`). -/
noncomputable def scalarSelfMsq (rx rs rw g z : ℝ) : ℝ :=
  g ^ 4
    * (3 * (-1 + z) ^ 2 + 256 * rx ^ 8 * (-1 + z) ^ 2 - 64 * rx ^ 6 * (5 - 8 * z + 3 * z ^ 2)
      + 32 * rx ^ 4 * (5 - 6 * z + 3 * z ^ 2) - 4 * rx ^ 2 * (5 - 12 * z + 7 * z ^ 2)
      + rs ^ 4 * (3 + z ^ 2 - 8 * rx ^ 2 * (1 + z ^ 2) + 16 * rx ^ 4 * (3 + z ^ 2))
      + rs ^ 2
        * (3 - 3 * z ^ 2 - 64 * rx ^ 6 * (3 - 4 * z + z ^ 2) - 16 * rx ^ 4 * (-9 + 12 * z + z ^ 2)
          + 4 * rx ^ 2 * (-17 + 8 * z + 5 * z ^ 2)
          + rw ^ 2 * (3 + z ^ 2 - 8 * rx ^ 2 * (1 + z ^ 2) + 16 * rx ^ 4 * (3 + z ^ 2))))
    / ((1 + rs ^ 4 + rs ^ 2 * (-2 + rw ^ 2))
      * (4 * rs ^ 4 + 4 * rs ^ 2 * (rw ^ 2 + (-1 + 4 * rx ^ 2) * (-1 + z))
        + (1 - 4 * rx ^ 2) ^ 2 * (-1 + z) ^ 2))

/-- `sigma_xx_to_s_to_xx` (`_scalar_mediator_cross_sections.py:188-270`); the quadrature rule
`leggauss(10)` is a parameter, a list of nodes and weights. -/
noncomputable def scalarSelf (rule : List (ℝ × ℝ)) (e mx ms g w : ℝ) : ℝ :=
  if e > 2 * mx then
    (rule.map fun p => p.2 * scalarSelfMsq (mx / e) (ms / e) (w / e) g p.1).sum / (32 * Real.pi * e)
  else 0

/-! ### Vector mediator -/

/-- `sigma_xx_to_v_to_ff` (`vector_xs.rs:160-186`). -/
noncomputable def vectorFF (e mx mv gvxx gvll w mf : ℝ) : ℝ :=
  if e < 2 * mf ∨ e < 2 * mx then 0
  else gvll ^ 2 * gvxx ^ 2 * (2 * mf ^ 2 + e ^ 2)
      * Real.sqrt ((-4 * mf ^ 2 + e ^ 2) / (-4 * mx ^ 2 + e ^ 2)) * (2 * mx ^ 2 + e ^ 2)
    / (12 * Real.pi * e ^ 2 * propagator mv e w)

/-- `sigma_xx_to_v_to_pipi` (`vector_xs.rs:198-226`). -/
noncomputable def vectorPiPi (k : VectorModel.Consts) (e mx mv gvxx gvuu gvdd w : ℝ) : Except Err ℝ :=
  if e < 2 * mx ∨ e < 2 * k.mpi then .ok 0
  else quotient (gvxx ^ 2 * (gvdd - gvuu) ^ 2 * (-4 * k.mpi ^ 2 + e ^ 2) ^ (3 / 2 : ℝ)
      * (2 * mx ^ 2 + e ^ 2))
    (48 * Real.pi * e ^ 2 * Real.sqrt (-4 * mx ^ 2 + e ^ 2) * propagator mv e w)

/-- `sigma_xx_to_v_to_pi0g` (`vector_xs.rs:234-266`). -/
noncomputable def vectorPi0G (k : VectorModel.Consts) (e mx mv gvxx gvuu gvdd w : ℝ) : ℝ :=
  if e < k.mpi0 ∨ e < 2 * mx then 0
  else (e ^ 2 - k.mpi0 ^ 2) ^ 3 * (gvxx ^ 2 * (k.alpha * (2 * gvuu + gvdd) ^ 2)) * (2 * mx ^ 2 + e ^ 2)
    / (k.fpi ^ 2 * 3456 * Real.pi ^ 4 * e ^ 3 * Real.sqrt (-4 * mx ^ 2 + e ^ 2) * propagator mv e w)

/-- `sigma_xx_to_v_to_pi0v` (`vector_xs.rs:280-320`). -/
noncomputable def vectorPi0V (k : VectorModel.Consts) (e mx mv gvxx gvuu gvdd w : ℝ) : Except Err ℝ :=
  if e < k.mpi0 + mv ∨ e < 2 * mx then .ok 0
  else
    let kallen := (k.mpi0 - mv - e) * (mv + k.mpi0 - e) * (e + (k.mpi0 - mv)) * (e + (mv + k.mpi0))
    quotient (gvxx ^ 2 * ((gvdd - gvuu) ^ 2 * (gvuu + gvdd) ^ 2) * kallen ^ (3 / 2 : ℝ)
        * (2 * mx ^ 2 + e ^ 2))
      (k.fpi ^ 2 * 1536 * Real.pi ^ 5 * e ^ 3 * Real.sqrt (-4 * mx ^ 2 + e ^ 2) * propagator mv e w)

/-- `sigma_xx_to_vv` (`vector_xs.rs:317-352`). -/
noncomputable def vectorVV (e mx mv g : ℝ) : ℝ :=
  if e < 2 * mv ∨ e < 2 * mx then 0
  else
    let rootV := Real.sqrt (-4 * mv ^ 2 + e ^ 2)
    let rootX := Real.sqrt (-4 * mx ^ 2 + e ^ 2)
    let tChannel := (mx ^ 2 * e ^ 2 + (2 * mv ^ 4 + mx ^ 4 * 4)) * (rootX * (rootV + rootV))
      / (mx ^ 2 * e ^ 2 + (-4 * mv ^ 2 * mx ^ 2 + mv ^ 4))
    let p := 4 * mx ^ 2 * e ^ 2 + (-8 * mx ^ 4 + (4 * mv ^ 4 + mv ^ 2 * -8 * mx ^ 2)) + e ^ 4
    let shifted := -2 * mv ^ 2 + e ^ 2
    let ratio := (rootV * rootX + shifted) / (-rootV * rootX + shifted)
    g ^ 4 * ((p + p) * Real.log ratio / shifted - tChannel) / (16 * Real.pi * e ^ 2 * (-4 * mx ^ 2 + e ^ 2))

/-- The squared matrix element of `sigma_xx_to_v_to_xx`
(`_vector_mediator_cross_sections.py:207-249`). -/
noncomputable def vectorSelfMsq (rx rv rw g z : ℝ) : ℝ :=
  g ^ 4
    * (9 - 56 * rx ^ 2
      + 2 * (9 * rv ^ 2 * (-1 + rv ^ 2 + rw ^ 2) + 4 * rv ^ 2 * (11 + 2 * rv ^ 2 + 2 * rw ^ 2) * rx ^ 2
        + 8 * (7 + 6 * rv ^ 2 * (-4 + rv ^ 2 + rw ^ 2)) * rx ^ 4 + 64 * rx ^ 6)
      - 2 * (-1 + 4 * rx ^ 2)
        * (3 * rv ^ 2 * (-3 + 2 * rv ^ 2 + 2 * rw ^ 2)
          + 4 * (3 + 6 * rv ^ 4 + 2 * rv ^ 2 * (-7 + 3 * rw ^ 2)) * rx ^ 2
          - 32 * (-2 + rv ^ 2) * rx ^ 4) * z
      + 2 * (3 * rv ^ 2 - 4 * rx ^ 2) * (-1 + 4 * rx ^ 2) ^ 3 * z ^ 3
      + (1 - 4 * rx ^ 2) ^ 4 * z ^ 4
      + 2 * (3 + 5 * rv ^ 4 + 12 * rx ^ 2 + 8 * rx ^ 4 + rv ^ 2 * (-3 + 5 * rw ^ 2 - 20 * rx ^ 2))
        * (z - 4 * rx ^ 2 * z) ^ 2)
    / ((1 + rv ^ 4 + rv ^ 2 * (-2 + rw ^ 2))
      * (4 * rv ^ 4 + 4 * rv ^ 2 * (rw ^ 2 + (-1 + 4 * rx ^ 2) * (-1 + z))
        + (1 - 4 * rx ^ 2) ^ 2 * (-1 + z) ^ 2))

/-- `sigma_xx_to_v_to_xx` (`_vector_mediator_cross_sections.py:183-258`). -/
noncomputable def vectorSelf (rule : List (ℝ × ℝ)) (e mx mv g w : ℝ) : ℝ :=
  if e > 2 * mx then
    (rule.map fun p => p.2 * vectorSelfMsq (mx / e) (mv / e) (w / e) g p.1).sum / (32 * Real.pi * e)
  else 0

end Hazma.Xs
