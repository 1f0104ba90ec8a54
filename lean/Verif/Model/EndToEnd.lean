import Verif.Model.ThermalTotal
import Verif.Model.MediatorSpectra
import Verif.Model.CythonKernels
import Verif.Model.Fsr

/-!
# The photon and positron spectra of the mediator models, put together

`spectra` of a `ScalarMediator` and of a `VectorMediator` with every part filled in: the
compiled cross sections in the branching fractions, the compiled particle spectra, the radiation
formulas, the partial widths and the decays of moving mediators.  Each part is the definition of
its own module; this one only connects them as the Python code does.

Simplifications: the widths are those of an object that was created without an error, so they are passed
as a dictionary.  An exception inside a radiation formula is given the value zero; by the theorems of
`Fsr` there is none for photon energies above zero.
-/

namespace Hazma.EndToEnd

open Hazma
open Hazma.MediatorSpectra (ScalarKernels VectorKernels Energies Out)
open Hazma.ThermalTotal (Leptons pyLeptons crossSections)

/-- The number returned by a radiation formula. -/
def fsrValue : Except ScalarModel.Err ℝ → ℝ
  | .ok v => v
  | .error _ => 0

/-- `pws[name]`. -/
def width (w : Dict ℝ) (name : String) : ℝ := (w.get? name).getD 0

/-- `annihilation_branching_fractions` (`theory/__init__.py:75-96`). -/
noncomputable def branching (funcs : Dict (ℝ → Except Xs.Err ℝ)) (ecm : ℝ) : Except Xs.Err (Dict ℝ) := do
  let cs ← crossSections funcs ecm
  let total := (cs.get? "total").getD 0
  if total = 0 then return (cs.erase "total").mapVals fun _ _ => 0
  else return (cs.erase "total").mapVals fun _ s => s / total

/-- `bfs[fs]`. -/
def bfOf (bfs : Dict ℝ) (fs : String) : ℝ := (bfs.get? fs).getD 0

/-! ### Scalar mediator -/

/-- `pws_array` of `dnde_ss` (`_scalar_mediator_spectra.py:74-80`): `e e`, `mu mu`, `pi0 pi0`, `pi pi`,
`g g`, divided by the total. -/
noncomputable def scalarPws (w : Dict ℝ) (i : Fin 5) : ℝ :=
  (match i with
    | 0 => width w "e e"
    | 1 => width w "mu mu"
    | 2 => width w "pi0 pi0"
    | 3 => width w "pi pi"
    | 4 => width w "g g") / width w "total"

/-- The functions called by the `dnde_*` methods (`_scalar_mediator_spectra.py:14-83`): radiation with the
masses of `parameters.py`, the compiled spectra of `hazma.spectra`, and the mediator's decay. -/
noncomputable def scalarKernels (s : ScalarModel.Base) (w : Dict ℝ) : ScalarKernels where
  fsrE e Q := fsrValue (Fsr.scalarFF Xs.pythonConsts.alpha s.mx e Q Xs.pythonConsts.me)
  fsrMu e Q := fsrValue (Fsr.scalarFF Xs.pythonConsts.alpha s.mx e Q Xs.pythonConsts.mmu)
  fsrPi e Q := fsrValue (Fsr.scalarPiPi Xs.pythonConsts.alpha Xs.pythonConsts.mpi s.mx e Q)
  mu := Spectra.dndePhotonMuon
  pi := Spectra.dndePhotonChargedPion
  pi0 := Spectra.dndePhotonNeutralPion
  med b e E := CythonKernels.scalarDecayPhotons (scalarPws w) b e E s.ms
  total := width w "total"

/-- The branching fractions of the scalar model. -/
noncomputable def scalarBranching (s : ScalarModel.Base) (ecm : ℝ) : Except Xs.Err (Dict ℝ) :=
  branching (ThermalTotal.scalarFuncs pyLeptons Xs.kernelConsts s) ecm

/-- `ScalarMediator.spectra` (`theory/__init__.py:152-188`), `bfs` being the branching fractions. -/
noncomputable def scalarSpectra (s : ScalarModel.Base) (w bfs : Dict ℝ) (E : Energies) (ecm : ℝ) :
    Except MediatorSpectra.Err (List (String × Out)) :=
  MediatorSpectra.spectra (bfOf bfs) E fun E => MediatorSpectra.scalarFuncs (scalarKernels s w) E ecm

/-! ### Vector mediator -/

/-- The constants of `parameters.py` in the vector widths (`parameters.py:50-87, 205-211`). -/
noncomputable def pyVector : VectorModel.Consts where
  alpha := 1 / 137.04
  qe := Real.sqrt (4 * Real.pi / 137.04)
  fpi := 92.2138
  mpi := 139.57039
  mpi0 := 134.9768
  me := 0.5109989461
  mmu := 105.6583745

/-- `pw_array` of `__dnde_v` (`_vector_mediator_spectra.py:86-97`): `e e`, `mu mu`, `pi0 g`, `pi pi`, and a
fifth entry that stays zero. -/
noncomputable def vectorPws (w : Dict ℝ) (i : Fin 5) : ℝ :=
  match i with
  | 0 => width w "e e" / width w "total"
  | 1 => width w "mu mu" / width w "total"
  | 2 => width w "pi0 g" / width w "total"
  | 3 => width w "pi pi" / width w "total"
  | 4 => 0

/-- The mode named by a string; only `"total"` is used by `spectrum_funcs`. -/
def vmode (fs : String) : Mediator.VMode := if fs = "total" then .total else .other

/-- The functions called by the `dnde_*` methods (`_vector_mediator_spectra.py:14-115`). -/
noncomputable def vectorKernels (s : VectorModel.Base) (w : Dict ℝ) : VectorKernels where
  fsrE e Q := fsrValue (Fsr.vectorFF pyVector.alpha s.mx e Q pyVector.me)
  fsrMu e Q := fsrValue (Fsr.vectorFF pyVector.alpha s.mx e Q pyVector.mmu)
  fsrPi e Q := fsrValue (Fsr.vectorPiPi pyVector.alpha pyVector.mpi s.mx e Q)
  mu := Spectra.dndePhotonMuon
  pi := Spectra.dndePhotonChargedPion
  pi0 := Spectra.dndePhotonNeutralPion
  med fs e E := CythonKernels.vectorDecayPhotons (vectorPws w) (vmode fs) e E s.mv
  total := width w "total"
  mv := s.mv
  mpi0 := pyVector.mpi0

/-- The branching fractions of the vector model, `k` being the constants of the compiled kernels. -/
noncomputable def vectorBranching (k : VectorModel.Consts) (s : VectorModel.Base) (ecm : ℝ) :
    Except Xs.Err (Dict ℝ) :=
  branching (ThermalTotal.vectorFuncs pyLeptons k s) ecm

/-- `VectorMediator.spectra` (`theory/__init__.py:152-188`). -/
noncomputable def vectorSpectra (s : VectorModel.Base) (w bfs : Dict ℝ) (E : Energies) (ecm : ℝ) :
    Except MediatorSpectra.Err (List (String × Out)) :=
  MediatorSpectra.spectra (bfOf bfs) E fun E => MediatorSpectra.vectorFuncs (vectorKernels s w) E ecm

/-! ### Positrons of the scalar mediator -/

/-- `pw_array` of `dnde_pos_ss` (`_scalar_mediator_positron_spectra.py:68-70`). -/
noncomputable def scalarPosPws (w : Dict ℝ) (i : Fin 3) : ℝ :=
  (match i with
    | 0 => width w "e e"
    | 1 => width w "mu mu"
    | 2 => width w "pi pi") / width w "total"

/-- `positron_spectrum_funcs()` of the scalar mediator (`_scalar_mediator_positron_spectra.py:8-88`) at one
positron energy, the tables of the mediator's decay being those of its mass. -/
noncomputable def scalarPositronFuncs (s : ScalarModel.Base) (w : Dict ℝ) (e ecm : ℝ) : Dict ℝ :=
  [("mu mu", Mediator.scalarPosMuMu Spectra.dndePositronMuon e ecm),
   ("pi pi", Spectra.dndePositronChargedPion e (ecm / 2)),
   ("s s", if width w "total" ≠ 0 then
      2 * CythonKernels.decayPositrons (scalarPosPws w) .total e (ecm / 2) s.ms else 0)]

/-- `positron_spectra` (`theory/__init__.py:323-352`) for one positron energy; the method of the model
replaces the wrapper of `theory/__init__.py:304-321`. -/
noncomputable def scalarPositronSpectra (s : ScalarModel.Base) (w bfs : Dict ℝ) (e ecm : ℝ) : Dict ℝ :=
  let specs := (scalarPositronFuncs s w e ecm).mapVals fun fs v => bfOf bfs fs * v
  specs.set "total" specs.values.sum

end Hazma.EndToEnd
