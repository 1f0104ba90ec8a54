import Verif.Model.Dict
import Mathlib.Analysis.SpecialFunctions.Pow.Real
import Mathlib.Analysis.Real.Pi.Bounds

/-!
# Scalar-mediator models: state and partial widths

Models the constructors, setters and partial widths of `hazma/scalar_mediator`.  Physical constants
are a parameter.  The code computes with complex roots and keeps the real part; `Real.sqrt` and
real powers are these real parts (both are zero for a negative base and exponent 3/2).
-/

namespace Hazma.ScalarModel

open Hazma

/-- The constants of `hazma/parameters.py` used by the widths. -/
structure Consts where
  alpha : ℝ
  vh : ℝ
  b0 : ℝ
  muq : ℝ
  mdq : ℝ
  mpi : ℝ
  mpi0 : ℝ
  me : ℝ
  mmu : ℝ

/-- Exceptions raised by the code. -/
inductive Err where
  | zeroDivision
  | assertion
  | attribute
  | value
  deriving DecidableEq

/-- Attributes of a `ScalarMediator` (`scalar_mediator/__init__.py:113-123`). -/
@[ext] structure Base where
  mx : ℝ
  ms : ℝ
  gsxx : ℝ
  gsff : ℝ
  gsGG : ℝ
  gsFF : ℝ
  lam : ℝ
  vs : ℝ
  width : ℝ

/-- `assert val >= 0; return val`. -/
noncomputable def checked (v : ℝ) : Except Err ℝ := if 0 ≤ v then .ok v else .error .assertion

/-- Python's division. -/
noncomputable def pydiv (a b : ℝ) : Except Err ℝ := if b = 0 then .error .zeroDivision else .ok (a / b)

/-- `width_s_to_gg` (`_scalar_mediator_widths.py:13-17`). -/
noncomputable def widthGG (c : Consts) (s : Base) : Except Err ℝ :=
  pydiv (c.alpha ^ 2 * s.gsFF ^ 2 * s.ms ^ 3) (64 * s.lam ^ 2 * Real.pi ^ 3)

/-- `width_s_to_pi0pi0` and `width_s_to_pipi` (`_scalar_mediator_widths.py:20-56`, `59-95`), which
differ in the pion mass and the numerical factor. -/
noncomputable def widthPi (c : Consts) (m norm : ℝ) (s : Base) : Except Err ℝ :=
  if s.ms > 2 * m then
    match pydiv (Real.sqrt (-4 * m ^ 2 + s.ms ^ 2)
        * (-162 * s.gsGG * s.lam ^ 3 * (-2 * m ^ 2 + s.ms ^ 2) * c.vh ^ 2
          + c.b0 * (c.mdq + c.muq) * (9 * s.lam + 4 * s.gsGG * s.vs)
            * (-3 * s.lam * c.vh + 3 * s.gsff * s.lam * s.vs + 2 * s.gsGG * c.vh * s.vs)
            * (2 * s.gsGG * c.vh * (9 * s.lam - 4 * s.gsGG * s.vs)
              + 9 * s.gsff * s.lam * (3 * s.lam + 4 * s.gsGG * s.vs))) ^ 2)
      (norm * s.lam ^ 6 * s.ms ^ 2 * Real.pi * c.vh ^ 4 * (9 * s.lam + 4 * s.gsGG * s.vs) ^ 2) with
    | .ok v => checked v
    | .error e => .error e
  else .ok 0

/-- `width_s_to_xx` (`_scalar_mediator_widths.py:98-115`). -/
noncomputable def widthXX (s : Base) : Except Err ℝ :=
  if s.ms > 2 * s.mx then
    match pydiv (s.gsxx ^ 2 * (s.ms ^ 2 - 4 * s.mx ^ 2) ^ (3 / 2 : ℝ)) (8 * s.ms ^ 2 * Real.pi) with
    | .ok v => checked v
    | .error e => .error e
  else .ok 0

/-- `width_s_to_ff` (`_scalar_mediator_widths.py:118-147`). -/
noncomputable def widthFF (c : Consts) (s : Base) (f : String) : Except Err ℝ :=
  if f = "e" ∨ f = "mu" then
    let mf := if f = "e" then c.me else c.mmu
    if s.ms > 2 * mf then
      match pydiv (s.gsff ^ 2 * mf ^ 2 * (-4 * mf ^ 2 + s.ms ^ 2) ^ (3 / 2 : ℝ))
          (8 * s.ms ^ 2 * Real.pi * c.vh ^ 2) with
      | .ok v => checked v
      | .error e => .error e
    else .ok 0
  else .error .value

/-- `partial_widths` (`_scalar_mediator_widths.py:150-183`). -/
noncomputable def partialWidths (c : Consts) (s : Base) : Except Err (Dict ℝ) := do
  let wgg ← widthGG c s
  let wpi0 ← widthPi c c.mpi0 209952 s
  let wpi ← widthPi c c.mpi 104976 s
  let wxx ← widthXX s
  let wee ← widthFF c s "e"
  let wmumu ← widthFF c s "mu"
  let total := wgg + wpi0 + wpi + wxx + wee + wmumu
  return [("g g", wgg), ("pi0 pi0", wpi0), ("pi pi", wpi), ("x x", wxx), ("e e", wee),
    ("mu mu", wmumu), ("total", total)]

/-- `self.partial_widths()["total"]` (`__init__.py:242-244`). -/
noncomputable def totalWidth (c : Consts) (s : Base) : Except Err ℝ := do
  let d ← partialWidths c s
  match d.get? "total" with
  | some w => return w
  | none => .error .value

/-- `compute_vs` (`__init__.py:208-240`): zero on both branches. -/
noncomputable def computeVs (s : Base) : ℝ := if 3 * s.gsff + 2 * s.gsGG = 0 then 0 else 0

/-- `compute_width_s` (`__init__.py:242-244`) as a statement: the state afterwards and whether it
raised; when the widths raise, the old width stays. -/
noncomputable def computeWidth (c : Consts) (s : Base) : Base × Option Err :=
  match totalWidth c s with
  | .ok w => ({ s with width := w }, none)
  | .error e => (s, some e)

/-- `ScalarMediator.__init__` (`__init__.py:113-123`). -/
noncomputable def create (c : Consts) (mx ms gsxx gsff gsGG gsFF lam : ℝ) : Except Err Base :=
  let s : Base := ⟨mx, ms, gsxx, gsff, gsGG, gsFF, lam, 0, 0⟩
  let s := { s with vs := computeVs s }
  match computeWidth c s with
  | (s, none) => .ok s
  | (_, some e) => .error e

/-- The settable attributes. -/
inductive Attr where
  | mx | ms | gsxx | gsff | gsGG | gsFF | lam
  deriving DecidableEq

/-- Reading an attribute. -/
def get (s : Base) : Attr → ℝ
  | .mx => s.mx | .ms => s.ms | .gsxx => s.gsxx | .gsff => s.gsff
  | .gsGG => s.gsGG | .gsFF => s.gsFF | .lam => s.lam

/-- The assignment `self._a = v` and `self.vs = self.compute_vs()` in each setter of
`ScalarMediator` (`__init__.py:142-206`). -/
noncomputable def store (s : Base) (a : Attr) (v : ℝ) : Base :=
  let s' : Base := match a with
    | .mx => { s with mx := v }
    | .ms => { s with ms := v }
    | .gsxx => { s with gsxx := v }
    | .gsff => { s with gsff := v }
    | .gsGG => { s with gsGG := v }
    | .gsFF => { s with gsFF := v }
    | .lam => { s with lam := v }
  { s' with vs := computeVs s' }

/-- The setters of `ScalarMediator` (`__init__.py:142-206`). -/
noncomputable def setAttr (c : Consts) (s : Base) (a : Attr) (v : ℝ) : Base × Option Err :=
  computeWidth c (store s a v)

/-- `HiggsPortal` (`__init__.py:286-352`). -/
@[ext] structure Higgs where
  base : Base
  stheta : ℝ

/-- `HiggsPortal.__init__` (`__init__.py:311-316`). -/
noncomputable def createHiggs (c : Consts) (mx ms gsxx stheta : ℝ) : Except Err Higgs :=
  match create c mx ms gsxx stheta (3 * stheta) (-5 * stheta / 6) c.vh with
  | .ok b => .ok ⟨b, stheta⟩
  | .error e => .error e

/-- Assignable names of the subclasses: an inherited attribute or one of the new ones. -/
inductive HiggsAttr where
  | base (a : Attr)
  | stheta

/-- The setters of `HiggsPortal` (`__init__.py:331-352`); `lam` is inherited unchanged, and the
result of `compute_vs()` is dropped. -/
noncomputable def setHiggs (c : Consts) (h : Higgs) (a : HiggsAttr) (v : ℝ) : Higgs × Option Err :=
  match a with
  | .base .gsff => (h, some .attribute)
  | .base .gsGG => (h, some .attribute)
  | .base .gsFF => (h, some .attribute)
  | .base a => let r := setAttr c h.base a v; ({ h with base := r.1 }, r.2)
  | .stheta =>
    let b := { h.base with gsff := v, gsGG := 3 * v, gsFF := -5 * v / 6 }
    let r := computeWidth c b
    (⟨r.1, v⟩, r.2)

/-- `HeavyQuark` (`__init__.py:355-453`). -/
@[ext] structure Heavy where
  base : Base
  gsQ : ℝ
  mQ : ℝ
  QQ : ℝ

/-- `HeavyQuark.__init__` (`__init__.py:386-391`). -/
noncomputable def createHeavy (c : Consts) (mx ms gsxx gsQ mQ QQ : ℝ) : Except Err Heavy :=
  match create c mx ms gsxx 0 gsQ (2 * gsQ * QQ ^ 2) mQ with
  | .ok b => .ok ⟨b, gsQ, mQ, QQ⟩
  | .error e => .error e

/-- Assignable names of `HeavyQuark`. -/
inductive HeavyAttr where
  | base (a : Attr)
  | gsQ | mQ | QQ

/-- The setters of `HeavyQuark` (`__init__.py:412-453`). -/
noncomputable def setHeavy (c : Consts) (h : Heavy) (a : HeavyAttr) (v : ℝ) : Heavy × Option Err :=
  match a with
  | .base .gsff => (h, some .attribute)
  | .base .gsGG => (h, some .attribute)
  | .base .gsFF => (h, some .attribute)
  | .base a => let r := setAttr c h.base a v; ({ h with base := r.1 }, r.2)
  | .gsQ =>
    let r := computeWidth c { h.base with gsGG := v, gsFF := 2 * v * h.QQ ^ 2 }
    ({ h with base := r.1, gsQ := v }, r.2)
  | .mQ =>
    let r := computeWidth c { h.base with lam := v }
    ({ h with base := r.1, mQ := v }, r.2)
  | .QQ =>
    let r := computeWidth c { h.base with gsFF := 2 * h.gsQ * v ^ 2 }
    ({ h with base := r.1, QQ := v }, r.2)

/-- Run a history of assignments, ignoring (catching) the exceptions. -/
def run {S A : Type} (step : S → A → ℝ → S × Option Err) (s : S) (hist : List (A × ℝ)) : S :=
  hist.foldl (fun s p => (step s p.1 p.2).1) s

end Hazma.ScalarModel
