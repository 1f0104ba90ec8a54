import Verif.Model.Dict
import Mathlib.MeasureTheory.Integral.IntervalIntegral.Basic

/-!
# CMB limits (`hazma/theory/_theory_cmb.py`, `hazma/cmb.py`, `hazma/limits/_cmb.py`)

`quad` is the exact integral.  The efficiency tables are interpolators that raise outside their range; the
integration nodes lie between the end points, so an integral raises unless both end points are in range.
-/

namespace Hazma.Cmb

open Hazma

/-- Exceptions. -/
inductive Err where
  /-- `ValueError` of an interpolator outside its range. -/
  | range
  /-- `UnboundLocalError` of a name assigned on no branch. -/
  | unbound
  /-- `AttributeError`. -/
  | attribute
  deriving DecidableEq

/-- An interpolator of `hazma/cmb.py:15-23`: its first and last abscissa and its values in between. -/
structure Table where
  lo : ℝ
  hi : ℝ
  f : ℝ → ℝ

/-- `f_eff_base(energy)`. -/
noncomputable def Table.eval (t : Table) (e : ℝ) : Except Err ℝ :=
  if t.lo ≤ e ∧ e ≤ t.hi then .ok (t.f e) else .error .range

/-- What the CMB code reads from a theory. -/
structure Model where
  mx : ℝ
  /-- `gamma_ray_lines(e_cm)`: energy and branching fraction of each line. -/
  gammaLines : ℝ → Dict (ℝ × ℝ)
  positronLines : ℝ → Dict (ℝ × ℝ)
  /-- `total_spectrum(e, e_cm)`. -/
  spectrum : ℝ → ℝ → ℝ
  positronSpectrum : ℝ → ℝ → ℝ

/-- `temp_cmb_formation` (`hazma/parameters.py:213`). -/
noncomputable def tempCmb : ℝ := 0.235e-6

/-- `vx_cmb` (`hazma/cmb.py:36-53`, the same in `hazma/limits/_cmb.py:63-81`). -/
noncomputable def vxCmb (mx xkd : ℝ) : ℝ := 2.0e-4 * 10e6 * tempCmb / mx * Real.sqrt (1.0e-4 / xkd)

/-- `e_cm` of `TheoryCMB._f_eff_helper` (`_theory_cmb.py:68`). -/
noncomputable def ecmTheory (mx xkd : ℝ) : ℝ := 2 * mx * (1 + 0.5 * vxCmb mx xkd ^ 2)

/-- `e_cm` of `CMBLimit._f_eff_helper` (`limits/_cmb.py:134-135`). -/
noncomputable def ecmLimit (mx xkd : ℝ) : ℝ :=
  let vx := vxCmb mx xkd ^ 2
  2 * mx * (1 + 0.5 * vx ^ 2)

/-- The loop over lines (`_theory_cmb.py:107-122`). -/
noncomputable def lineLoop (t : Table) (fs : String) (ecm : ℝ) : ℝ → Dict (ℝ × ℝ) → Except Err ℝ
  | acc, [] => .ok acc
  | acc, (ch, energy, bf) :: rest =>
    if t.lo < energy then
      match t.eval energy with
      | .error e => .error e
      | .ok v => lineLoop t fs ecm (acc + energy * bf * v * (if ch = fs then 2 else 1) / ecm) rest
    else lineLoop t fs ecm acc rest

/-- The continuum integral (`_theory_cmb.py:99-105`). -/
noncomputable def continuum (t : Table) (spec : ℝ → ℝ) (ecm : ℝ) : Except Err ℝ :=
  if t.lo ≤ ecm / 2 ∧ ecm / 2 ≤ t.hi then .ok ((∫ e in t.lo..ecm / 2, e * spec e * t.f e) / ecm)
  else .error .range

/-- `_f_eff_helper` with `mode = "quad"` and given `e_cm` (`_theory_cmb.py:70-124`, `limits/_cmb.py:137-195`).
Any other final state leaves `f_eff_base` unbound. -/
noncomputable def helper (g ep : Table) (m : Model) (fs : String) (ecm : ℝ) : Except Err ℝ :=
  if fs = "g g" then do
    let c ← continuum g (fun e => m.spectrum e ecm) ecm
    let l ← lineLoop g fs ecm 0 (m.gammaLines ecm)
    return c + l
  else if fs = "e e" then do
    let c ← continuum ep (fun e => 2 * m.positronSpectrum e ecm) ecm
    let l ← lineLoop ep fs ecm 0 (m.positronLines ecm)
    return c + l
  else .error .unbound

/-- `f_eff_g`, `f_eff_ep` and `f_eff` (`_theory_cmb.py:126-138`). -/
noncomputable def fEffG (g ep : Table) (m : Model) (xkd : ℝ) : Except Err ℝ :=
  helper g ep m "g g" (ecmTheory m.mx xkd)
noncomputable def fEffEp (g ep : Table) (m : Model) (xkd : ℝ) : Except Err ℝ :=
  helper g ep m "e e" (ecmTheory m.mx xkd)
noncomputable def fEff (g ep : Table) (m : Model) (xkd : ℝ) : Except Err ℝ := do
  let a ← fEffEp g ep m xkd
  let b ← fEffG g ep m xkd
  return a + b

/-- `cmb_limit` (`_theory_cmb.py:9-44`).  `f_eff` is a NumPy float, so a vanishing one gives infinity, `⊤`
(for positive `p_ann` and mass). -/
noncomputable def cmbLimit (g ep : Table) (m : Model) (xkd pann : ℝ) : Except Err (WithTop ℝ) := do
  let f ← fEff g ep m xkd
  if f = 0 then return ⊤ else return ((pann * m.mx / f : ℝ) : WithTop ℝ)

/-! ## `CMBLimit` -/

/-- The argument of a method: a theory or a float. -/
inductive Arg where
  | theory (m : Model)
  | float (x : ℝ)

/-- `CMBLimit._f_eff_helper` (`limits/_cmb.py:113-195`): `model.mx` of a float raises. -/
noncomputable def limitHelper (g ep : Table) (xkd : ℝ) (fs : String) : Arg → Except Err ℝ
  | .float _ => .error .attribute
  | .theory m => helper g ep m fs (ecmLimit m.mx xkd)

/-- `CMBLimit.f_eff` (`limits/_cmb.py:203-209`). -/
noncomputable def limitFEff (g ep : Table) (xkd : ℝ) (a : Arg) : Except Err ℝ := do
  let x ← limitHelper g ep xkd "e e" a
  let y ← limitHelper g ep xkd "g g" a
  return x + y

/-- `CMBLimit._constrain` (`limits/_cmb.py:83-111`): passes `self.x_kd` where `f_eff` expects the model. -/
noncomputable def limitConstrain (g ep : Table) (xkd pann : ℝ) (m : Model) : Except Err (WithTop ℝ) := do
  let f ← limitFEff g ep xkd (.float xkd)
  if f = 0 then return ⊤ else return ((pann * m.mx / f : ℝ) : WithTop ℝ)

/-- `AbstractLimit.constrain` (`limits/_abstract.py:26-45`) over a list of models. -/
noncomputable def limitConstrainAll (g ep : Table) (xkd pann : ℝ) : List Model → Except Err (List (WithTop ℝ))
  | [] => .ok []
  | m :: ms => do
    let v ← limitConstrain g ep xkd pann m
    let r ← limitConstrainAll g ep xkd pann ms
    return v :: r

end Hazma.Cmb
