import Verif.Model.CrossSections

/-!
# Elastic scattering off pions, photons and mediators in the scalar model

Models the remaining elastic kernels of `rust/src/kernels/scalar_xs.rs` and the Python methods
`_scalar_mediator_cross_sections.py:273-423, 483-491` that call them.  Fused multiply-adds are
exact.  `none` stands for a division by zero (infinity or NaN in the code).
-/

namespace Hazma.Xs

open Hazma

/-- A quotient of the kernels: `none` if the denominator is zero. -/
noncomputable def checkedDiv (a b : ℝ) : Option ℝ := if b = 0 then none else some (a / b)

/-- `sigma_xl_to_xl` (`scalar_xs.rs:397-440`) with its division checked. -/
noncomputable def scalarXLChecked (e mx ms gsxx gsff w ml : ℝ) : Option ℝ :=
  if e < mx + ml then some 0
  else if 32 * ms * Real.pi * e ^ 2 * (4 * mx ^ 2 - e ^ 2) * w = 0 then none
  else some (scalarXL e mx ms gsxx gsff w ml)

/-- `atan_prefactor` of the pion kernels (`scalar_xs.rs:465-478`, `601-614`). -/
noncomputable def atanPrefactor (k : ScalarModel.Consts) (s : ScalarModel.Base) : ℝ :=
  s.gsff * (-81 * s.lam ^ 3 * k.vh + 48 * s.gsGG ^ 2 * s.lam * k.vh * s.vs ^ 2)
    + (27 * s.gsff ^ 2 * s.lam ^ 2 * s.vs * (3 * s.lam + 4 * s.gsGG * s.vs)
      + -(2 * s.gsGG * k.vh ^ 2 * (8 * s.gsGG ^ 2 * s.vs ^ 2
        + (27 * s.lam ^ 2 + -(30 * s.gsGG * s.lam * s.vs)))))

/-- `coupling_combination_sq` (`scalar_xs.rs:482-502`, `618-638`). -/
noncomputable def couplingSq (k : ScalarModel.Consts) (m : ℝ) (s : ScalarModel.Base) : ℝ :=
  26244 * s.gsGG ^ 2 * s.lam ^ 6 * k.vh ^ 4
      * (s.ms ^ 2 * (3 * s.ms ^ 2 + -(8 * s.mx ^ 2) - s.width ^ 2)
        + (4 * m ^ 4 + -(8 * m ^ 2 * (-2 * s.mx ^ 2 + s.ms ^ 2))))
    + (648 * k.b0 * s.gsGG * s.lam ^ 3 * (k.mdq + k.muq) * (2 * s.mx ^ 2 + (m ^ 2 - s.ms ^ 2))
        * k.vh ^ 2 * (9 * s.lam + 4 * s.gsGG * s.vs) * atanPrefactor k s
      + k.b0 ^ 2 * (k.mdq + k.muq) ^ 2 * (9 * s.lam + 4 * s.gsGG * s.vs) ^ 2
        * atanPrefactor k s ^ 2)

/-- `coupling_combination` (`scalar_xs.rs:504-539`, `640-675`). -/
noncomputable def couplingLin (k : ScalarModel.Consts) (m : ℝ) (s : ScalarModel.Base) : ℝ :=
  2 * (26244 * s.gsGG ^ 2 * s.lam ^ 6 * k.vh ^ 4
      * (-s.ms ^ 4 * (4 * s.mx ^ 2 + 3 * s.width ^ 2)
        + (-(4 * m ^ 2 * s.ms ^ 2) * (-4 * s.mx ^ 2 + s.ms ^ 2 - s.width ^ 2)
          + (4 * s.ms ^ 2 * s.mx ^ 2 * s.width ^ 2
            + (4 * m ^ 4 * (-4 * s.mx ^ 2 + s.ms ^ 2) + s.ms ^ 6))))
    + (k.b0 ^ 2 * (k.mdq + k.muq) ^ 2 * (-4 * s.mx ^ 2 + s.ms ^ 2)
        * (9 * s.lam + 4 * s.gsGG * s.vs) ^ 2 * atanPrefactor k s ^ 2
      + 324 * k.b0 * s.gsGG * s.lam ^ 3 * (k.mdq + k.muq) * k.vh ^ 2
        * (9 * s.lam + 4 * s.gsGG * s.vs) * atanPrefactor k s
        * (2 * m ^ 2 * (-4 * s.mx ^ 2 + s.ms ^ 2)
          + s.ms ^ 2 * (4 * s.mx ^ 2 + -s.ms ^ 2 + s.width ^ 2))))

/-- The numerator of the pion kernels (`scalar_xs.rs:541-567`, `677-703`). -/
noncomputable def xpiNum (k : ScalarModel.Consts) (m : ℝ) (s : ScalarModel.Base) (e : ℝ) : ℝ :=
  s.gsxx ^ 2
    * (s.ms * s.width
        * (couplingSq k m s
            * Real.log (s.ms ^ 2 * (-8 * s.mx ^ 2 + 2 * e ^ 2 + s.width ^ 2)
              + (s.ms ^ 4 + (-4 * s.mx ^ 2 + e ^ 2) ^ 2))
          + (-324 * s.gsGG * s.lam ^ 3 * (4 * s.mx ^ 2 + -e ^ 2) * k.vh ^ 2
              * (81 * s.gsGG * s.lam ^ 3
                  * (4 * s.mx ^ 2 + (8 * m ^ 2 + -(4 * s.ms ^ 2)) + e ^ 2) * k.vh ^ 2
                + 2 * k.b0 * (k.mdq + k.muq) * (9 * s.lam + 4 * s.gsGG * s.vs)
                  * atanPrefactor k s)
            + -(couplingSq k m s * Real.log (s.ms ^ 2 * (s.ms ^ 2 + s.width ^ 2)))))
      + (couplingLin k m s * Real.arctan (s.ms / s.width)
        + -(couplingLin k m s
          * Real.arctan ((-4 * s.mx ^ 2 + s.ms ^ 2 + e ^ 2) / (s.ms * s.width)))))

/-- The denominator of the pion kernels (`scalar_xs.rs:568-577`, `704-713`). -/
noncomputable def xpiDen (k : ScalarModel.Consts) (s : ScalarModel.Base) (e : ℝ) : ℝ :=
  419904 * s.lam ^ 6 * s.ms * Real.pi * e ^ 2 * (-4 * s.mx ^ 2 + e ^ 2) * k.vh ^ 4
    * (9 * s.lam + 4 * s.gsGG * s.vs) ^ 2 * s.width

/-- `sigma_xpi0_to_xpi0` (`scalar_xs.rs:586-714`). -/
noncomputable def scalarXPi0 (k : ScalarModel.Consts) (s : ScalarModel.Base) (e : ℝ) : Option ℝ :=
  if e < s.mx + k.mpi0 then some 0 else checkedDiv (xpiNum k k.mpi0 s e) (xpiDen k s e)

/-- `sigma_xpi_to_xpi` (`scalar_xs.rs:450-578`): the same for the charged pion, doubled. -/
noncomputable def scalarXPi (k : ScalarModel.Consts) (s : ScalarModel.Base) (e : ℝ) : Option ℝ :=
  if e < s.mx + k.mpi then some 0
  else (checkedDiv (xpiNum k k.mpi s e) (xpiDen k s e)).map fun x => 2 * x

/-- `sigma_xg_to_xg` (`scalar_xs.rs:726-775`). -/
noncomputable def scalarXG (k : ScalarModel.Consts) (s : ScalarModel.Base) (e : ℝ) : Option ℝ :=
  if e < s.mx ∨ e = 2 * s.mx then some 0
  else checkedDiv
    (k.alpha ^ 2 * s.gsFF ^ 2 * s.gsxx ^ 2
      * (-s.width
          * (s.ms ^ 2 * (3 * s.ms ^ 2 + -(8 * s.mx ^ 2) - s.width ^ 2)
              * Real.log (s.ms ^ 2 * (-8 * s.mx ^ 2 + 2 * e ^ 2 + s.width ^ 2)
                + (s.ms ^ 4 + (-4 * s.mx ^ 2 + e ^ 2) ^ 2))
            + ((4 * s.ms ^ 2 + -(4 * s.mx ^ 2) - e ^ 2) * (4 * s.mx ^ 2 + -e ^ 2)
              + s.ms ^ 2 * (-3 * s.ms ^ 2 + 8 * s.mx ^ 2 + s.width ^ 2)
                * Real.log (s.ms ^ 2 * (s.ms ^ 2 + s.width ^ 2))))
        + (-2 * (-s.ms ^ 3 * (4 * s.mx ^ 2 + 3 * s.width ^ 2)
              + (4 * s.ms * s.mx ^ 2 * s.width ^ 2 + s.ms ^ 5)) * Real.arctan (s.ms / s.width)
          + 2 * (-s.ms ^ 3 * (4 * s.mx ^ 2 + 3 * s.width ^ 2)
              + (4 * s.ms * s.mx ^ 2 * s.width ^ 2 + s.ms ^ 5))
            * Real.arctan ((-4 * s.mx ^ 2 + s.ms ^ 2 + e ^ 2) / (s.ms * s.width)))))
    (128 * s.lam ^ 2 * Real.pi ^ 3 * (4 * s.mx ^ 2 + -e ^ 2) * e ^ 2 * s.width)

/-- `sigma_xs_to_xs` (`scalar_xs.rs:784-840`). -/
noncomputable def scalarXS (e mx ms g : ℝ) : Option ℝ :=
  if e < mx + ms then some 0
  else if e = 2 * mx then
    checkedDiv (g ^ 4 * (9 * mx ^ 4 + (-(10 * ms ^ 2) * mx ^ 2 + ms ^ 4)) ^ 2)
      (36 * mx ^ 4 * (2 * ms ^ 2 + -(3 * mx ^ 2)) ^ 2 * Real.pi * e ^ 2)
  else
    let s := e ^ 2
    let a := 2 * ms ^ 2 + -(3 * mx ^ 2)
    let b := 2 * ms ^ 2 + mx ^ 2 - s
    let d := 4 * mx ^ 2 + -s
    if a = 0 ∨ b = 0 ∨ d = 0 ∨ 64 * Real.pi * e ^ 2 * (mx ^ 2 - s) ^ 2 = 0 then none
    else some (g ^ 4
      * (10 * s ^ 2 + (50 * mx ^ 2 * s + (-(8 * ms ^ 2) * s
          + (4 * mx ^ 4 + (4 * ms ^ 4 + -(24 * ms ^ 2 * mx ^ 2))
            + 4 * (-4 * mx ^ 2 + ms ^ 2) ^ 2 * (mx ^ 2 - s) ^ 2 / (a * d)
            - 4 * (-4 * mx ^ 2 + ms ^ 2) ^ 2 * (mx ^ 2 - s) ^ 2 / (b * d))))
        + 4 * (mx ^ 2 - s) * (18 * mx ^ 2 * s + (15 * mx ^ 4 + (-2 * ms ^ 4
            + -(16 * ms ^ 2 * mx ^ 2))) - s ^ 2)
          * Real.log |a / b| / d)
      / (64 * Real.pi * e ^ 2 * (mx ^ 2 - s) ^ 2))

/-- `elastic_scattering_cross_sections` (`_scalar_mediator_cross_sections.py:483-491`): the channels
in the order of the dictionary; the lepton masses are those of `parameters.py` (`c`). -/
noncomputable def elasticCrossSections (c k : ScalarModel.Consts) (s : ScalarModel.Base) (e : ℝ) :
    List (String × Option ℝ) :=
  [("pi", scalarXPi k s e), ("pi0", scalarXPi0 k s e),
   ("e", scalarXLChecked e s.mx s.ms s.gsxx s.gsff s.width c.me),
   ("mu", scalarXLChecked e s.mx s.ms s.gsxx s.gsff s.width c.mmu),
   ("g", scalarXG k s e), ("s", scalarXS e s.mx s.ms s.gsxx)]

end Hazma.Xs
