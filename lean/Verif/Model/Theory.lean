import Verif.Model.Dict
import Mathlib.Data.Real.Basic

/-!
# Channel aggregation (`hazma/theory/__init__.py`)

A model is given by its dictionary of per-channel functions.  Arrays of energies
are handled element by element by NumPy, so everything is stated at one energy.
Spectrum functions may raise, which is how "is never evaluated" is observable.
-/

namespace Hazma.Theory

open Hazma

/-- Exceptions that the aggregation code can raise or propagate. -/
inductive Err where
  /-- `KeyError` from `d[k]`. -/
  | keyError (k : String)
  /-- whatever a user-supplied function raises. -/
  | user (msg : String)
  deriving DecidableEq

/-- `d[k]` as an expression. -/
def index {β : Type} (d : Dict β) (k : String) : Except Err β :=
  match d.get? k with
  | some v => .ok v
  | none => .error (.keyError k)

/-- A spectrum function of an annihilation channel, `(e, e_cm) ↦ dN/dE`. -/
abbrev SpecFn := ℝ → ℝ → Except Err ℝ

/-- `for k, v in d.items(): out[k] = body(k, v)` starting from an empty `out`, when the body
may raise. -/
def buildDict {β γ : Type} (body : String → β → Except Err γ) :
    Dict β → Dict γ → Except Err (Dict γ)
  | [], acc => .ok acc
  | (k, v) :: d, acc =>
    match body k v with
    | .error e => .error e
    | .ok w => buildDict body d (acc.set k w)

/-! ## Annihilating models -/

/-- `TheoryAnn.annihilation_cross_sections`, `hazma/theory/__init__.py:53-73`. -/
def annihilationCrossSections (funcs : Dict (ℝ → ℝ)) (ecm : ℝ) : Dict ℝ :=
  let sigmas := funcs.mapVals fun _ f => f ecm
  sigmas.set "total" sigmas.values.sum

/-- `TheoryAnn.annihilation_branching_fractions`, `hazma/theory/__init__.py:75-96`. -/
noncomputable def annihilationBranchingFractions (funcs : Dict (ℝ → ℝ)) (ecm : ℝ) :
    Except Err (Dict ℝ) := do
  let cs := annihilationCrossSections funcs ecm
  let total ← index cs "total"
  if total = 0 then
    return (cs.erase "total").mapVals fun _ _ => 0
  else
    return (cs.erase "total").mapVals fun _ s => s / total

/-- `TheoryAnn.spectrum_funcs`, `hazma/theory/__init__.py:131-150` (and
`positron_spectrum_funcs`, lines 304-321): the wrapper returns zeros for a channel whose cross
section is not positive. -/
noncomputable def wrapAnn (funcs : Dict (ℝ → ℝ)) (specFuncs : Dict SpecFn) : Dict SpecFn :=
  funcs.mapVals fun fs _ => fun e ecm => do
    let sigma ← index funcs fs
    if 0 < sigma ecm then
      let f ← index specFuncs fs
      f e ecm
    else
      return 0

/-- `TheoryAnn.spectra`, `hazma/theory/__init__.py:152-188`, for a given dictionary of (wrapped or
overridden) spectrum functions. -/
noncomputable def spectraAnn (funcs : Dict (ℝ → ℝ)) (specs : Dict SpecFn) (e ecm : ℝ) :
    Except Err (Dict ℝ) := do
  let bfs ← annihilationBranchingFractions funcs ecm
  let out ← buildDict (fun fs f => do
    let bf ← index bfs fs
    if bf ≠ 0 then
      let v ← f e ecm
      return bf * v
    else
      return 0) specs []
  return out.set "total" out.values.sum

/-- `TheoryAnn.total_spectrum`, `hazma/theory/__init__.py:190-209`. -/
noncomputable def totalSpectrumAnn (funcs : Dict (ℝ → ℝ)) (specs : Dict SpecFn) (e ecm : ℝ) :
    Except Err ℝ := do
  let d ← spectraAnn funcs specs e ecm
  index d "total"

/-- `TheoryAnn.positron_spectra`, `hazma/theory/__init__.py:323-352` (no accessibility test
around the product, unlike `spectra`). -/
noncomputable def positronSpectraAnn (funcs : Dict (ℝ → ℝ)) (specs : Dict SpecFn) (e ecm : ℝ) :
    Except Err (Dict ℝ) := do
  let bfs ← annihilationBranchingFractions funcs ecm
  let out ← buildDict (fun fs f => do
    let bf ← index bfs fs
    let v ← f e ecm
    return bf * v) specs []
  return out.set "total" out.values.sum

/-- `TheoryAnn.gamma_ray_lines`/`positron_lines`, `hazma/theory/__init__.py:231-245, 395-409`:
energy and branching fraction of each monochromatic channel. -/
noncomputable def linesAnn (funcs : Dict (ℝ → ℝ)) (lineEnergies : Dict ℝ) (ecm : ℝ) :
    Except Err (Dict (ℝ × ℝ)) := do
  let bfs ← annihilationBranchingFractions funcs ecm
  buildDict (fun fs e => do
    let bf ← index bfs fs
    return (e, bf)) lineEnergies []

/-! ## Decaying models -/

/-- `TheoryDec.decay_widths`, `hazma/theory/__init__.py:474-480`. -/
def decayWidths (w : Dict ℝ) : Dict ℝ :=
  let widths := w.mapVals fun _ x => x
  widths.set "total" widths.values.sum

/-- `TheoryDec.decay_branching_fractions`, `hazma/theory/__init__.py:482-492`. -/
noncomputable def decayBranchingFractions (w : Dict ℝ) : Except Err (Dict ℝ) := do
  let widths := decayWidths w
  let total ← index widths "total"
  if total = 0 then
    return (widths.erase "total").mapVals fun _ _ => 0
  else
    return (widths.erase "total").mapVals fun _ x => x / total

/-- A spectrum function of a decay channel. -/
abbrev DecFn := ℝ → Except Err ℝ

/-- `TheoryDec.spectrum_funcs`, `hazma/theory/__init__.py:502-518`. -/
noncomputable def spectrumFuncsDec (w : Dict ℝ) (fns : Dict DecFn) : Except Err (Dict DecFn) :=
  let widths := decayWidths w
  buildDict (fun fs dnde => do
    let wd ← index widths fs
    if 0 < wd then return dnde else return fun _ => .ok 0) fns []

/-- `TheoryDec.spectra`, `hazma/theory/__init__.py:520-543`. -/
noncomputable def spectraDec (w : Dict ℝ) (fns : Dict DecFn) (e : ℝ) : Except Err (Dict ℝ) := do
  let bfs ← decayBranchingFractions w
  let fs ← spectrumFuncsDec w fns
  let out ← buildDict (fun k f => do
    let bf ← index bfs k
    let v ← f e
    return bf * v) fs []
  return out.set "total" out.values.sum

/-- The loop variables `fs` and `dnde` of `TheoryDec.positron_spectrum_funcs`.  In Python these
are cells of the enclosing function: every closure created in the loop body shares them. -/
abbrev Cell := Option (String × DecFn)

/-- The body of the closure `dnde_wrapped`, `hazma/theory/__init__.py:606-610`: it reads `fs` and
`dnde` from the shared cell when it is called. -/
noncomputable def closureBody (widths : Dict ℝ) (cell : Cell) : DecFn := fun eps =>
  match cell with
  | none => .error (.user "NameError")
  | some (fs, dnde) => do
    let wd ← index widths fs
    if 0 < wd then dnde eps else return 0

/-- The loop of `TheoryDec.positron_spectrum_funcs`, `hazma/theory/__init__.py:604-612`: each
iteration rebinds the shared cell and stores a closure that will read the cell when it is
called. -/
noncomputable def positronLoop (widths : Dict ℝ) :
    Dict DecFn → Cell → Dict (Cell → DecFn) → Cell × Dict (Cell → DecFn)
  | [], cell, acc => (cell, acc)
  | (fs, dnde) :: rest, _, acc =>
    positronLoop widths rest (some (fs, dnde)) (acc.set fs (closureBody widths))

/-- `TheoryDec.positron_spectrum_funcs`, `hazma/theory/__init__.py:600-614`. -/
noncomputable def positronSpectrumFuncsDec (w : Dict ℝ) (fns : Dict DecFn) : Dict DecFn :=
  let r := positronLoop (decayWidths w) fns none []
  r.2.mapVals fun _ clo => clo r.1

/-- `TheoryDec.positron_spectra`, `hazma/theory/__init__.py:616-625`. -/
noncomputable def positronSpectraDec (w : Dict ℝ) (fns : Dict DecFn) (e : ℝ) :
    Except Err (Dict ℝ) := do
  let bfs ← decayBranchingFractions w
  let out ← buildDict (fun k f => do
    let bf ← index bfs k
    let v ← f e
    return bf * v) (positronSpectrumFuncsDec w fns) []
  return out.set "total" out.values.sum

/-- `TheoryDec.gamma_ray_lines`/`positron_lines`, `hazma/theory/__init__.py:573-580, 637-644`. -/
noncomputable def linesDec (w : Dict ℝ) (lineEnergies : Dict ℝ) : Except Err (Dict (ℝ × ℝ)) := do
  let bfs ← decayBranchingFractions w
  buildDict (fun fs e => do
    let bf ← index bfs fs
    return (e, bf)) lineEnergies []

end Hazma.Theory
