import Verif.Model.Theory
import Mathlib.Analysis.SpecialFunctions.Pow.Real

/-!
# Primordial black holes (`hazma/pbh.py`)

`PBH` is a `TheoryDec` with one channel `"all"`, whose spectrum is a column of a
table.  A file is its header (mantissa and exponent of every mass in grams,
`pbh.py:66-72`, `80-83`) and its rows (photon energy in GeV and one rate per mass,
`pbh.py:74-76`, `84-86`).  Setters raise by returning an error next to the object
they leave behind.
-/

namespace Hazma.Pbh

open Hazma.Theory

/-- Exceptions. -/
inductive Exc
  | valueError
  | indexError
  | runtimeError
  | attributeError
  deriving DecidableEq

/-- A parsed table file. -/
structure File where
  header : List (ℝ × ℝ)
  rows : List (ℝ × List ℝ)

/-- The three files in `hazma/pbh_data`. -/
structure Files where
  primaryBh : File
  secondaryBh : File
  secondary : File

/-- A `PBH` object.  `curve` is what the closure `_spectrum_funcs` holds: energies
and the column of the table, as pairs. -/
structure Obj where
  f : ℝ
  kind : String
  bhSecondary : Bool
  mxs : List ℝ
  eGams : List ℝ
  d2n : List (List ℝ)
  mx : ℝ
  curve : List (ℝ × ℝ)

/-- The file to read (`pbh.py:55-64`). -/
def fileOf (fs : Files) (kind : String) (bhSecondary : Bool) : Except Exc File :=
  if kind = "primary" then .ok fs.primaryBh
  else if kind = "secondary" ∧ bhSecondary = true then .ok fs.secondaryBh
  else if kind = "secondary" then .ok fs.secondary
  else .error .valueError

/-- `self._mxs` (`pbh.py:66-72`, `83`, `88`): `float("1e15.05")` fails, so the
mass is the mantissa times a power of ten, converted to MeV. -/
noncomputable def massesOf (gToMeV : ℝ) (t : File) : List ℝ :=
  t.header.map fun h => h.1 * 10 ^ h.2 * gToMeV

/-- `np.where(self._mxs == mx)[0][0]` (`pbh.py:115`). -/
noncomputable def indexOf (mxs : List ℝ) (mx : ℝ) : Option ℕ :=
  mxs.findIdx? fun m => decide (m = mx)

/-- `self._d2n_dedt[:, idx]` paired with `self._e_gams` (`pbh.py:116-118`). -/
noncomputable def column (eGams : List ℝ) (d2n : List (List ℝ)) (idx : ℕ) : List (ℝ × ℝ) :=
  eGams.zip (d2n.map fun row => row.getD idx 0)

/-- The `mx` setter (`pbh.py:111-120`): the attribute is assigned before the mass
is looked up. -/
noncomputable def setMx (o : Obj) (mx : ℝ) : Except Exc Unit × Obj :=
  let o := { o with mx := mx }
  match indexOf o.mxs mx with
  | none => (.error .indexError, o)
  | some i => (.ok (), { o with curve := column o.eGams o.d2n i })

/-- The constructor (`pbh.py:15-44`) with `_load_spec_data` (`pbh.py:49-93`); an
exception leaves no object. -/
noncomputable def construct (gToMeV : ℝ) (fs : Files) (mx f : ℝ) (kind : String)
    (bhSecondary : Bool) : Except Exc Obj :=
  match fileOf fs kind bhSecondary with
  | .error e => .error e
  | .ok t =>
    let o : Obj := ⟨f, kind, bhSecondary, massesOf gToMeV t, t.rows.map fun r => r.1 * 1e3,
      t.rows.map fun r => r.2.map fun x => x * 1e-3, 0, []⟩
    match setMx o mx with
    | (.error e, _) => .error e
    | (.ok _, o) => .ok o

/-- `interp1d(x, y, bounds_error=False, fill_value=0)` for increasing `x`
(`pbh.py:116-118`): zero outside the table, piecewise linear inside. -/
noncomputable def interp1d : List (ℝ × ℝ) → ℝ → ℝ
  | a :: b :: rest, e =>
    if a.1 ≤ e ∧ e ≤ b.1 then a.2 + (b.2 - a.2) / (b.1 - a.1) * (e - a.1)
    else interp1d (b :: rest) e
  | _, _ => 0

/-- `_decay_widths` (`pbh.py:126-127`). -/
def widths (o : Obj) : Dict ℝ := [("all", o.f)]

/-- `_spectrum_funcs` (`pbh.py:120`). -/
noncomputable def spectrumFuncs (o : Obj) : Dict DecFn := [("all", fun e => .ok (interp1d o.curve e))]

/-- `spectra(e)` inherited from `TheoryDec` (`theory/__init__.py:520-543`). -/
noncomputable def spectra (o : Obj) (e : ℝ) : Except Theory.Err (Dict ℝ) :=
  spectraDec (widths o) (spectrumFuncs o) e

/-- `total_spectrum(e)` (`theory/__init__.py:545-562`). -/
noncomputable def totalSpectrum (o : Obj) (e : ℝ) : Except Theory.Err ℝ :=
  match spectra o e with
  | .error x => .error x
  | .ok d => index d "total"

/-- `gamma_ray_lines()` with `_gamma_ray_line_energies` (`pbh.py:129-130`). -/
noncomputable def gammaRayLines (o : Obj) : Except Theory.Err (Dict (ℝ × ℝ)) := linesDec (widths o) []

/-- `list_decay_final_states()`: not overridden, since the class spells it
`list_final_decay_states` (`pbh.py:122-124`); the base method returns `None`
(`theory/__init__.py:458-465`). -/
def listDecayFinalStates (_ : Obj) : Option (List String) := none

/-- `list_final_decay_states()` (`pbh.py:122-124`). -/
def listFinalDecayStates : List String := ["all"]

/-- The positron methods: `_positron_spectrum_funcs` and `_positron_line_energies`
are not overridden (the old `__metaclass__` does not enforce it), and `None` has no
`items` (`theory/__init__.py:592-600`, `633-640`). -/
def positronSpectra (_ : Obj) (_ : ℝ) : Except Exc (Dict ℝ) := .error .attributeError

/-- See `positronSpectra`. -/
def positronLines (_ : Obj) : Except Exc (Dict (ℝ × ℝ)) := .error .attributeError

/-- Assignments to a `PBH` object. -/
inductive Act
  | mx (v : ℝ)
  | f (v : ℝ)
  | kind (s : String)
  | bhSecondary (b : Bool)

/-- One assignment (`pbh.py:95-120`). -/
noncomputable def act (o : Obj) : Act → Except Exc Unit × Obj
  | .mx v => setMx o v
  | .f v => (.ok (), { o with f := v })
  | .kind _ => (.error .runtimeError, o)
  | .bhSecondary _ => (.error .runtimeError, o)

/-- A history of assignments whose exceptions are caught by the caller. -/
noncomputable def run (o : Obj) (h : List Act) : Obj := h.foldl (fun o a => (act o a).2) o

end Hazma.Pbh
