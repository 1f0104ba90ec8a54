import Verif.Model.ScalarModel
import Mathlib.Analysis.SpecialFunctions.Exp

/-!
# Laboratory constraints on the scalar mediator

Model of `hazma/scalar_mediator/_scalar_mediator_constraints.py` and the windows in
`hazma/constraint_parameters.py`.  A value `none` stands for NaN (or the `ZeroDivisionError` raised when the
division by a zero width happens between Python floats).  Products of constants (CKM elements, quark masses,
`GF`) in the production widths are collected in one non-negative parameter per decay.
-/

namespace Hazma.ScalarConstraints

open Hazma Hazma.ScalarModel

/-- Masses (`hazma/parameters.py:52, 56, 58, 64, 68, 78, 93`). -/
noncomputable def mB : ℝ := 5279.29
noncomputable def mk : ℝ := 493.677
noncomputable def mpi : ℝ := 139.57039
noncomputable def mkl : ℝ := 497.611
noncomputable def mpi0 : ℝ := 134.9768
noncomputable def mmu : ℝ := 105.6583745
noncomputable def mbq : ℝ := 4.18e3

/-- Constant factors of the four production widths. -/
structure Flavour where
  kB : ℝ
  kK : ℝ
  kKl : ℝ
  kXs : ℝ

/-- `kallen_lambda(a**2, b**2, c**2)` (`hazma/utils.py:75-88`). -/
noncomputable def kallenSq (a b c : ℝ) : ℝ :=
  a ^ 4 + b ^ 4 + c ^ 4 - 2 * a ^ 2 * b ^ 2 - 2 * b ^ 2 * c ^ 2 - 2 * a ^ 2 * c ^ 2

/-- `width_B_k_s` (`_scalar_mediator_constraints.py:37-62`). -/
noncomputable def widthBK (f : Flavour) (s : Base) : ℝ :=
  if s.ms ≤ mB - mk then
    f.kB * (0.33 / (1 - s.ms ^ 2 / 38e3 ^ 2)) ^ 2 * s.gsff ^ 2 * Real.sqrt (kallenSq mB mk s.ms)
  else 0

/-- `width_k_pi_s` (`_scalar_mediator_constraints.py:140-163`). -/
noncomputable def widthKPi (f : Flavour) (s : Base) : ℝ :=
  if s.ms < mk - mpi then f.kK * s.gsff ^ 2 * Real.sqrt (kallenSq mk mpi s.ms) else 0

/-- `width_kl_pi0_s` (`_scalar_mediator_constraints.py:192-215`). -/
noncomputable def widthKlPi0 (f : Flavour) (s : Base) : ℝ :=
  if s.ms < mkl - mpi0 then f.kKl * s.gsff ^ 2 * Real.sqrt (kallenSq mkl mpi0 s.ms) else 0

/-- `width_B_xs_s` (`_scalar_mediator_constraints.py:271-296`). -/
noncomputable def widthBXs (f : Flavour) (s : Base) : ℝ :=
  if s.ms ≤ mB - mk then f.kXs * (mbq ^ 2 - s.ms ^ 2) ^ 2 * s.gsff ^ 2 else 0

/-- The six rare-decay constraints. -/
inductive Chan where
  | bkInvis | bkMuMu | bkEE | kPiInvis | klMuMu | klEE
  deriving DecidableEq

/-- Parent and daughter masses used for the momentum of the scalar. -/
noncomputable def Chan.masses : Chan → ℝ × ℝ
  | .bkInvis => (mB, mk)
  | .bkMuMu => (mB, mk)
  | .bkEE => (mB, mk)
  | .kPiInvis => (mk, mpi)
  | .klMuMu => (mkl, mpi0)
  | .klEE => (mkl, mpi0)

/-- The production width each constraint uses. -/
noncomputable def Chan.prod (f : Flavour) (s : Base) : Chan → ℝ
  | .bkInvis => widthBK f s
  | .bkMuMu => widthBK f s
  | .bkEE => widthBK f s
  | .kPiInvis => widthKPi f s
  | .klMuMu => widthKlPi0 f s
  | .klEE => widthKlPi0 f s

/-- The visible final state; `none` for the invisible channels. -/
def Chan.final : Chan → Option String
  | .bkInvis => none
  | .bkMuMu => some "mu mu"
  | .bkEE => some "e e"
  | .kPiInvis => none
  | .klMuMu => some "mu mu"
  | .klEE => some "e e"

/-- `max(mk**2 + mpi**2 - 2 mk sqrt(mpi**2 + p**2), 0)` (`constraint_parameters.py:73`). -/
noncomputable def sOfP (p : ℝ) : ℝ := max (mk ^ 2 + mpi ^ 2 - 2 * mk * Real.sqrt (mpi ^ 2 + p ^ 2)) 0

/-- `s_bounds` (`constraint_parameters.py:61, 72-75, 85, 95, 105, 115`). -/
noncomputable def Chan.bounds : Chan → List (ℝ × ℝ)
  | .bkInvis => [(0, 0.3 * mB ^ 2)]
  | .bkMuMu => [(4 * mmu ^ 2, 8.68e6), (10.09e6, 12.86e6), (14.18e6, (mB - mk) ^ 2)]
  | .bkEE => [(8.11e6, 10.03e6), (12.15e6, 14.11e6)]
  | .kPiInvis => [(sOfP 229, sOfP 211), (sOfP 195, sOfP 140)]
  | .klMuMu => [(0, 350 ^ 2)]
  | .klEE => [(140 ^ 2, 362.7 ^ 2)]

/-- `np.any([s[0] <= ms**2 <= s[1] for s in ...s_bounds])`. -/
def inWindow (ch : Chan) (ms : ℝ) : Prop := ∃ b ∈ ch.bounds, b.1 ≤ ms ^ 2 ∧ ms ^ 2 ≤ b.2

/-- `ps` (`_scalar_mediator_constraints.py:77-79` and the same in the other five). -/
noncomputable def momentumOf (M d ms : ℝ) : Option ℝ :=
  let rad := (M - d - ms) * (M + d - ms) * (M - d + ms) * (M + d + ms)
  if rad < 0 then none else some (Real.sqrt rad / (2 * M))

/-- `np.exp(-r_max * cm_to_inv_MeV * width_s * ms / ps)`; the argument is minus infinity for `ps = 0`. -/
noncomputable def survive (r width ms ps : ℝ) : Option ℝ :=
  if ps = 0 then (if 0 < r * width * ms then some 0 else none)
  else some (Real.exp (-r * width * ms / ps))

/-- The contribution to the width inside the window (`_scalar_mediator_constraints.py:72-86, 98-112, 124-135, 173-187,
225-241, 253-266`); `r` is `r_max * cm_to_inv_MeV`. -/
noncomputable def contribution (ch : Chan) (f : Flavour) (r : ℝ) (s : Base) (d : Dict ℝ) : Option ℝ := do
  let width ← d.get? "total"
  let ps ← momentumOf ch.masses.1 ch.masses.2 s.ms
  let pr ← survive r width s.ms ps
  if width = 0 then none
  else
    match ch.final with
    | none =>
      let xx ← d.get? "x x"
      some (ch.prod f s * (xx + pr * (width - xx)) / width)
    | some fs =>
      let w ← d.get? fs
      some (ch.prod f s * w / width * (1 - pr))

/-- The six constraint functions (`_scalar_mediator_constraints.py:65-88, 91-114, 117-137, 166-189, 218-243,
246-268`). -/
noncomputable def rareDecay (c : Consts) (ch : Chan) (f : Flavour) (r bound : ℝ) (s : Base) :
    Except Err (Option ℝ) :=
  open Classical in
  if inWindow ch s.ms then
    match partialWidths c s with
    | .error e => .error e
    | .ok d => .ok ((contribution ch f r s d).map fun x => bound - x)
  else .ok (some bound)

/-! ## Beam dumps and the Higgs -/

/-- `BeamDumpParams` (`constraint_parameters.py:141-153`), lengths already converted to inverse MeV
(`_scalar_mediator_constraints.py:316-318`). -/
structure BeamDump where
  brK : ℝ
  brB : ℝ
  energy : ℝ
  dist : ℝ
  length : ℝ
  visible : List String
  nPot : ℝ
  nDec : ℝ

/-- `bd_charm.visible_fss` (`constraint_parameters.py:163`). -/
def charmVisible : List String := ["g g", "e e", "mu mu"]

/-- `br_pN_s` (`_scalar_mediator_constraints.py:300-313`), widths of K, K_L and B given. -/
noncomputable def brPNS (b : BeamDump) (f : Flavour) (wK wKl wB : ℝ) (s : Base) : ℝ :=
  b.brK * (0.5 * (widthKPi f s / wK) + 0.25 * (widthKlPi0 f s / wKl)) + b.brB * (widthBXs f s / wB)

/-- `constrain_beam_dump` (`_scalar_mediator_constraints.py:299-344`).  A scalar heavier than the beam energy
makes `gamma_beta` NaN, a stable one `br_visible`; both trip the assert.  A massless one divides by zero.  `gamma_beta = 0` sends the
exponents to minus infinity. -/
noncomputable def beamDump (c : Consts) (b : BeamDump) (f : Flavour) (wK wKl wB : ℝ) (s : Base) :
    Except Err ℝ :=
  if s.ms = 0 then .error .zeroDivision
  else if widthKPi f s / wK < 0 ∨ widthKlPi0 f s / wKl < 0 ∨ widthBXs f s / wB < 0 then .error .assertion
  else
    match partialWidths c s with
    | .error e => .error e
    | .ok d =>
      if (b.energy / s.ms) ^ 2 - 1 < 0 ∨ s.width = 0 then .error .assertion
      else
        let gb := Real.sqrt ((b.energy / s.ms) ^ 2 - 1)
        let pr := if gb = 0 then 0
          else Real.exp (-b.dist * s.width / gb) * (1 - Real.exp (-b.length * s.width / gb))
        let vis := ((d.filter fun p => p.1 ∈ b.visible).map Prod.snd).sum / s.width
        let n := b.nPot * brPNS b f wK wKl wB s * pr * vis
        if 0 ≤ n then .ok (b.nDec - n) else .error .assertion

/-- `width_h_invis` (`_scalar_mediator_constraints.py:347-364`).  `stheta` is the attribute of that name, which
only `HiggsPortal` has (`hazma/scalar_mediator/__init__.py:286-352`): the base class and `HeavyQuark` have
`none`.  The result `⊤` is an infinite width: `np.sqrt` returns a NumPy float, so `stheta = 1` divides to
infinity, and to NaN for a zero coupling. -/
noncomputable def widthHiggsInvis (mh : ℝ) (stheta : Option ℝ) (s : Base) : Except Err (WithTop ℝ) :=
  if mh > 2 * s.mx then
    match stheta with
    | none => .error .attribute
    | some t =>
      if 1 - t ^ 2 < 0 then .error .assertion
      else if 1 - t ^ 2 = 0 then (if s.gsxx = 0 then .error .assertion else .ok ⊤)
      else
        let val := (s.gsxx * t / Real.sqrt (1 - t ^ 2)) ^ 2 * (mh ^ 2 - 4 * s.mx ^ 2) ^ (3 / 2 : ℝ)
          / (8 * mh ^ 2 * Real.pi)
        if 0 ≤ val then .ok (val : ℝ) else .error .assertion
  else .ok (0 : ℝ)

/-- `constraint_higgs_invis` (`_scalar_mediator_constraints.py:367-368`); `none` is minus infinity. -/
noncomputable def higgsInvis (mh budget : ℝ) (stheta : Option ℝ) (s : Base) : Except Err (Option ℝ) :=
  match widthHiggsInvis mh stheta s with
  | .error e => .error e
  | .ok ⊤ => .ok none
  | .ok (some w) => .ok (some (budget - w))

/-- Names and evaluations of `constraints()` (`_scalar_mediator_constraints.py:371-381`), in order; `none` is a
value that is not a finite number. -/
noncomputable def constraints (c : Consts) (f : Flavour) (r bound : Chan → ℝ) (mh budget : ℝ) (b : BeamDump)
    (wK wKl wB : ℝ) (stheta : Option ℝ) (s : Base) : List (String × Except Err (Option ℝ)) :=
  [("B -> k invis", rareDecay c .bkInvis f (r .bkInvis) (bound .bkInvis) s),
   ("B -> k mu mu", rareDecay c .bkMuMu f (r .bkMuMu) (bound .bkMuMu) s),
   ("k -> pi invis", rareDecay c .kPiInvis f (r .kPiInvis) (bound .kPiInvis) s),
   ("kl -> pi0 mu mu", rareDecay c .klMuMu f (r .klMuMu) (bound .klMuMu) s),
   ("kl -> pi0 e e", rareDecay c .klEE f (r .klEE) (bound .klEE) s),
   ("higgs -> invis", higgsInvis mh budget stheta s),
   ("CHARM", match beamDump c b f wK wKl wB s with
      | .ok v => .ok (some v)
      | .error e => .error e)]

end Hazma.ScalarConstraints
