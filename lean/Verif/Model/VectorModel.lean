import Verif.Model.ScalarModel

/-!
# Vector-mediator models: state and partial widths

Models the constructors, setters and partial widths of `hazma/vector_mediator` (`__init__.py` and
`_vector_mediator_widths.py`).  Conventions as in `Verif.Model.ScalarModel`.
-/

namespace Hazma.VectorModel

open Hazma
open Hazma.ScalarModel (Err checked pydiv)

/-- The constants of `hazma/parameters.py` used by the vector widths. -/
structure Consts where
  alpha : ℝ
  qe : ℝ
  fpi : ℝ
  mpi : ℝ
  mpi0 : ℝ
  me : ℝ
  mmu : ℝ

/-- Electric charges `Qu`, `Qd`, `Qe` (`parameters.py:235-239`). -/
noncomputable def Qu : ℝ := 2 / 3
noncomputable def Qd : ℝ := -1 / 3
noncomputable def Qe : ℝ := -1

/-- Attributes of a `VectorMediator` (`vector_mediator/__init__.py:63-72`). -/
@[ext] structure Base where
  mx : ℝ
  mv : ℝ
  gvxx : ℝ
  gvuu : ℝ
  gvdd : ℝ
  gvss : ℝ
  gvee : ℝ
  gvmumu : ℝ
  width : ℝ

/-- `width_v_to_pipi` (`_vector_mediator_widths.py:16-26`). -/
noncomputable def widthPiPi (c : Consts) (s : Base) : Except Err ℝ :=
  if s.mv > 2 * c.mpi then do
    let g2 := (s.gvdd - s.gvuu) ^ 2
    let b ← pydiv c.mpi s.mv
    let v ← pydiv (s.mv * g2 * (1 - 4 * b ^ 2) ^ (3 / 2 : ℝ)) (48 * Real.pi)
    checked v
  else .ok 0

/-- `width_v_to_pi0g` (`_vector_mediator_widths.py:28-43`). -/
noncomputable def widthPi0G (c : Consts) (s : Base) : Except Err ℝ :=
  if s.mv > c.mpi0 then do
    let r ← pydiv c.mpi0 s.mv
    let v ← pydiv (s.mv ^ 3 * c.alpha * (s.gvdd + 2 * s.gvuu) ^ 2 * (1 - r ^ 2) ^ 3)
      (384 * c.fpi ^ 2 * Real.pi ^ 4)
    checked v
  else .ok 0

/-- `width_v_to_xx` (`_vector_mediator_widths.py:45-60`). -/
noncomputable def widthXX (s : Base) : Except Err ℝ :=
  if s.mv > 2 * s.mx then do
    let v ← pydiv (s.gvxx ^ 2 * Real.sqrt (s.mv ^ 2 - 4 * s.mx ^ 2) * (s.mv ^ 2 + 2 * s.mx ^ 2))
      (12 * s.mv ^ 2 * Real.pi)
    checked v
  else .ok 0

/-- `width_v_to_ff` (`_vector_mediator_widths.py:62-84`); an unknown fermion gives zero. -/
noncomputable def widthFF (c : Consts) (s : Base) (f : String) : Except Err ℝ :=
  if f = "e" ∨ f = "mu" then
    let mf := if f = "e" then c.me else c.mmu
    let g := if f = "e" then s.gvee else s.gvmumu
    if s.mv > 2 * mf then do
      let v ← pydiv (g ^ 2 * Real.sqrt (-4 * mf ^ 2 + s.mv ^ 2) * (2 * mf ^ 2 + s.mv ^ 2))
        (12 * s.mv ^ 2 * Real.pi)
      checked v
    else .ok 0
  else .ok 0

/-- `partial_widths` (`_vector_mediator_widths.py:86-101`). -/
noncomputable def partialWidths (c : Consts) (s : Base) : Except Err (Dict ℝ) := do
  let wpipi ← widthPiPi c s
  let wpi0g ← widthPi0G c s
  let wxx ← widthXX s
  let wee ← widthFF c s "e"
  let wmumu ← widthFF c s "mu"
  let total := wpipi + wpi0g + wxx + wee + wmumu
  return [("pi pi", wpipi), ("pi0 g", wpi0g), ("x x", wxx), ("e e", wee), ("mu mu", wmumu),
    ("total", total)]

/-- `self.partial_widths()["total"]`. -/
noncomputable def totalWidth (c : Consts) (s : Base) : Except Err ℝ := do
  let d ← partialWidths c s
  match d.get? "total" with
  | some w => return w
  | none => .error .value

/-- `compute_width_v` (`__init__.py:160-162`): the state afterwards and the exception, if any. -/
noncomputable def computeWidth (c : Consts) (s : Base) : Base × Option Err :=
  match totalWidth c s with
  | .ok w => ({ s with width := w }, none)
  | .error e => (s, some e)

/-- `VectorMediator.__init__` (`__init__.py:52-72`). -/
noncomputable def create (c : Consts) (mx mv gvxx gvuu gvdd gvss gvee gvmumu : ℝ) : Except Err Base :=
  match computeWidth c ⟨mx, mv, gvxx, gvuu, gvdd, gvss, gvee, gvmumu, 0⟩ with
  | (s, none) => .ok s
  | (_, some e) => .error e

/-- The settable attributes. -/
inductive Attr where
  | mx | mv | gvxx | gvuu | gvdd | gvss | gvee | gvmumu
  deriving DecidableEq

/-- Reading an attribute. -/
def get (s : Base) : Attr → ℝ
  | .mx => s.mx | .mv => s.mv | .gvxx => s.gvxx | .gvuu => s.gvuu
  | .gvdd => s.gvdd | .gvss => s.gvss | .gvee => s.gvee | .gvmumu => s.gvmumu

/-- `self._a = v`. -/
def store (s : Base) (a : Attr) (v : ℝ) : Base :=
  match a with
  | .mx => { s with mx := v }
  | .mv => { s with mv := v }
  | .gvxx => { s with gvxx := v }
  | .gvuu => { s with gvuu := v }
  | .gvdd => { s with gvdd := v }
  | .gvss => { s with gvss := v }
  | .gvee => { s with gvee := v }
  | .gvmumu => { s with gvmumu := v }

/-- The setters of `VectorMediator` (`__init__.py:88-158`). -/
noncomputable def setAttr (c : Consts) (s : Base) (a : Attr) (v : ℝ) : Base × Option Err :=
  computeWidth c (store s a v)

/-- `KineticMixing` (`__init__.py:184-268`). -/
@[ext] structure Kinetic where
  base : Base
  eps : ℝ

/-- `KineticMixing.__init__` (`__init__.py:212-225`). -/
noncomputable def createKinetic (c : Consts) (mx mv gvxx eps : ℝ) : Except Err Kinetic :=
  match create c mx mv gvxx (-Qu * eps * c.qe) (-Qd * eps * c.qe) (-Qd * eps * c.qe)
      (-Qe * eps * c.qe) (-Qe * eps * c.qe) with
  | .ok b => .ok ⟨b, eps⟩
  | .error e => .error e

/-- Assignable names of `KineticMixing`. -/
inductive KineticAttr where
  | base (a : Attr)
  | eps

/-- The setters of `KineticMixing` (`__init__.py:236-268`). -/
noncomputable def setKinetic (c : Consts) (k : Kinetic) (a : KineticAttr) (v : ℝ) :
    Kinetic × Option Err :=
  match a with
  | .base .gvuu => (k, some .attribute)
  | .base .gvdd => (k, some .attribute)
  | .base .gvss => (k, some .attribute)
  | .base .gvee => (k, some .attribute)
  | .base .gvmumu => (k, some .attribute)
  | .base a => let r := setAttr c k.base a v; ({ k with base := r.1 }, r.2)
  | .eps =>
    let r := computeWidth c { k.base with
      gvuu := -Qu * v * c.qe, gvdd := -Qd * v * c.qe, gvss := -Qd * v * c.qe,
      gvee := -Qe * v * c.qe, gvmumu := -Qe * v * c.qe }
    (⟨r.1, v⟩, r.2)

/-- `QuarksOnly.__init__` (`__init__.py:291-294`). -/
noncomputable def createQuarks (c : Consts) (mx mv gvxx gvuu gvdd gvss : ℝ) : Except Err Base :=
  create c mx mv gvxx gvuu gvdd gvss 0 0

/-- The setters of `QuarksOnly` (`__init__.py:311-318`). -/
noncomputable def setQuarks (c : Consts) (s : Base) (a : Attr) (v : ℝ) : Base × Option Err :=
  match a with
  | .gvee => (s, some .attribute)
  | .gvmumu => (s, some .attribute)
  | a => setAttr c s a v

/-- Run a history of assignments, ignoring (catching) the exceptions. -/
def run {S A : Type} (step : S → A → ℝ → S × Option Err) (s : S) (hist : List (A × ℝ)) : S :=
  hist.foldl (fun s p => (step s p.1 p.2).1) s

end Hazma.VectorModel
