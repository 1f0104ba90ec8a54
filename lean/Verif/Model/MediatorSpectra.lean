import Verif.Model.MediatorDecay

/-!
# Photon spectra of the mediator models by channel

Models the functions `dnde_*` and `spectrum_funcs` of
`hazma/scalar_mediator/_scalar_mediator_spectra.py` and
`hazma/vector_mediator/_vector_mediator_spectra.py`, and `TheoryAnn.spectra` and `total_spectrum`
(`hazma/theory/__init__.py:152-209`) on them: which kinds of argument they accept, which exceptions
they raise and how the parts are put together.  The spectra of single particles, the radiation and
the decay of the mediator are functions of one energy given by the caller; that the compiled ones
act element by element is the subject of `Dispatch`.  Assertions inside the radiation formulas
(`Fsr`) are not modelled here.  Lists and arrays hold
floats; integers are not modelled.
-/

namespace Hazma.MediatorSpectra

open Hazma.Mediator (Modes modesOf)

/-- What a caller may pass as photon energies. -/
inductive Energies where
  | pyFloat (e : ℝ)
  | npFloat (e : ℝ)
  | pyList (es : List ℝ)
  | ndarray (es : List ℝ)

/-- A number (Python or numpy, also of dimension 0) or a one-dimensional array. -/
inductive Out where
  | scalar (v : ℝ)
  | array (vs : List ℝ)

inductive Err where
  | typeError
  | valueError
  | attributeError
  deriving DecidableEq

/-- Apply a function of one energy to what was passed. -/
noncomputable def Energies.map (f : ℝ → ℝ) : Energies → Out
  | .pyFloat e => .scalar (f e)
  | .npFloat e => .scalar (f e)
  | .pyList es => .array (es.map f)
  | .ndarray es => .array (es.map f)

/-- `np.array([0.0 for _ in range(len(e_gams))])`. -/
def Energies.zerosLen : Energies → Except Err Out
  | .pyList es => .ok (.array (es.map fun _ => 0))
  | .ndarray es => .ok (.array (es.map fun _ => 0))
  | _ => .error .typeError

/-- `np.vectorize(f)(e_gams, …)`: raises `ValueError` on an input of size zero. -/
noncomputable def Energies.vectorize (f : ℝ → ℝ) : Energies → Except Err Out
  | .pyList [] => .error .valueError
  | .ndarray [] => .error .valueError
  | E => .ok (E.map f)

/-- `a + b` of results for the same energies. -/
def Out.add : Out → Out → Out
  | .scalar a, .scalar b => .scalar (a + b)
  | .scalar a, .array bs => .array (bs.map fun b => a + b)
  | .array as, .scalar b => .array (as.map fun a => a + b)
  | .array as, .array bs => .array (List.zipWith (· + ·) as bs)

/-- `c * a`. -/
def Out.scale (c : ℝ) : Out → Out
  | .scalar a => .scalar (c * a)
  | .array as => .array (as.map fun a => c * a)

/-- `spectrum_type`. -/
inductive Kind where
  | all
  | fsr
  | decay
  | other
  deriving DecidableEq

/-- The common shape of the functions `dnde_ee`, …: `all` is evaluated as `fsr` plus `decay`. -/
def split (fsr decay : Except Err Out) : Kind → Except Err Out
  | .all => fsr.bind fun a => decay.map fun b => a.add b
  | .fsr => fsr
  | .decay => decay
  | .other => .error .valueError

/-- Spectra of one photon energy for the scalar mediator: radiation at centre-of-mass energy `Q`,
decays of particles of energy `E`, and decay of the mediator, `modes` being the channels. -/
structure ScalarKernels where
  fsrE : ℝ → ℝ → ℝ
  fsrMu : ℝ → ℝ → ℝ
  fsrPi : ℝ → ℝ → ℝ
  mu : ℝ → ℝ → ℝ
  pi : ℝ → ℝ → ℝ
  pi0 : ℝ → ℝ → ℝ
  med : Modes → ℝ → ℝ → ℝ
  /-- `self.partial_widths()["total"]` -/
  total : ℝ

/-- `dnde_ee` (`_scalar_mediator_spectra.py:14-23`). -/
noncomputable def sEE (k : ScalarKernels) (E : Energies) (ecm : ℝ) : Kind → Except Err Out :=
  split (.ok (E.map fun e => k.fsrE e ecm)) E.zerosLen

/-- `dnde_mumu` (`_scalar_mediator_spectra.py:26-37`). -/
noncomputable def sMuMu (k : ScalarKernels) (E : Energies) (ecm : ℝ) : Kind → Except Err Out :=
  split (.ok (E.map fun e => k.fsrMu e ecm)) (.ok ((E.map fun e => k.mu e (ecm / 2)).scale 2))

/-- `dnde_pi0pi0` (`_scalar_mediator_spectra.py:40-51`). -/
noncomputable def sPi0Pi0 (k : ScalarKernels) (E : Energies) (ecm : ℝ) : Kind → Except Err Out :=
  split E.zerosLen (.ok ((E.map fun e => k.pi0 e (ecm / 2)).scale 2))

/-- `dnde_pipi` (`_scalar_mediator_spectra.py:54-65`). -/
noncomputable def sPiPi (k : ScalarKernels) (E : Energies) (ecm : ℝ) : Kind → Except Err Out :=
  split (.ok (E.map fun e => k.fsrPi e ecm)) (.ok ((E.map fun e => k.pi e (ecm / 2)).scale 2))

/-- `SM_DECAY_MODES` (`_scalar_mediator_spectra.py:11`). -/
def smDecayModes : List String :=
  ["pi pi", "mu mu", "pi0 pi0", "g g", "e e g", "pi pi g", "mu mu g"]

/-- `sub in s` for strings: `sub` occurs in `s`. -/
def occurs (sub s : String) : Bool := decide (sub.toList <:+: s.toList)

/-- The flags when `modes` is one string: `"pi pi" in modes` looks for a substring
(`scalar_mediator_decay_spectrum.pyx:253-266`). -/
def modesOfString (s : String) : Modes :=
  ⟨occurs "pi pi" s, occurs "mu mu" s, occurs "pi0 pi0" s, occurs "g g" s, occurs "e e g" s,
    occurs "pi pi g" s, occurs "mu mu g" s⟩

/-- The argument `modes` of `dnde_ss`. -/
inductive ModesArg where
  | list (l : List String)
  | str (s : String)

def ModesArg.flags : ModesArg → Modes
  | .list l => modesOf l
  | .str s => modesOfString s

/-- `dnde_ss` (`_scalar_mediator_spectra.py:68-83`). -/
noncomputable def sSS (k : ScalarKernels) (E : Energies) (ecm : ℝ) (modes : ModesArg) :
    Except Err Out :=
  if k.total ≠ 0 then .ok ((E.map fun e => k.med modes.flags e (ecm / 2)).scale 2)
  else .ok (E.map fun _ => 0)

/-- `spectrum_funcs()` of the scalar mediator (`_scalar_mediator_spectra.py:86-102`), called with
two arguments. -/
noncomputable def scalarFuncs (k : ScalarKernels) (E : Energies) (ecm : ℝ) :
    List (String × Except Err Out) :=
  [("mu mu", sMuMu k E ecm .all), ("e e", sEE k E ecm .all), ("pi0 pi0", sPi0Pi0 k E ecm .all),
    ("pi pi", sPiPi k E ecm .all), ("s s", sSS k E ecm (.list smDecayModes))]

/-- The same for the vector mediator; `med` takes the name of the mode. -/
structure VectorKernels where
  fsrE : ℝ → ℝ → ℝ
  fsrMu : ℝ → ℝ → ℝ
  fsrPi : ℝ → ℝ → ℝ
  mu : ℝ → ℝ → ℝ
  pi : ℝ → ℝ → ℝ
  pi0 : ℝ → ℝ → ℝ
  med : String → ℝ → ℝ → ℝ
  total : ℝ
  mv : ℝ
  mpi0 : ℝ

/-- `dnde_ee` (`_vector_mediator_spectra.py:14-28`). -/
noncomputable def vEE (k : VectorKernels) (E : Energies) (ecm : ℝ) : Kind → Except Err Out :=
  split (E.vectorize fun e => k.fsrE e ecm) E.zerosLen

/-- `dnde_mumu` (`_vector_mediator_spectra.py:30-46`). -/
noncomputable def vMuMu (k : VectorKernels) (E : Energies) (ecm : ℝ) : Kind → Except Err Out :=
  split (E.vectorize fun e => k.fsrMu e ecm)
    ((E.vectorize fun e => k.mu e (ecm / 2)).map fun a => a.scale 2)

/-- `dnde_pi0g` (`_vector_mediator_spectra.py:48-63`). -/
noncomputable def vPi0G (k : VectorKernels) (E : Energies) (ecm : ℝ) : Kind → Except Err Out :=
  split E.zerosLen (.ok (E.map fun e => k.pi0 e ((ecm ^ 2 + k.mpi0 ^ 2) / (2 * ecm))))

/-- `dnde_pipi` (`_vector_mediator_spectra.py:65-77`). -/
noncomputable def vPiPi (k : VectorKernels) (E : Energies) (ecm : ℝ) : Kind → Except Err Out :=
  split (.ok (E.map fun e => k.fsrPi e ecm)) (.ok ((E.map fun e => k.pi e (ecm / 2)).scale 2))

/-- `__dnde_v` (`_vector_mediator_spectra.py:79-102`): `dnde_decay_v` is declared with an argument
of type `np.ndarray`, so a list raises `TypeError`. -/
noncomputable def vDecay (k : VectorKernels) (E : Energies) (ev : ℝ) (fs : String) :
    Except Err Out :=
  if k.total = 0 then .ok (E.map fun _ => 0)
  else match E with
    | .pyList _ => .error .typeError
    | E => .ok (E.map fun e => k.med fs e ev)

/-- `dnde_pi0v` (`_vector_mediator_spectra.py:104-111`). -/
noncomputable def vPi0V (k : VectorKernels) (E : Energies) (ecm : ℝ) : Except Err Out :=
  (vDecay k E ((ecm ^ 2 - k.mpi0 ^ 2 + k.mv ^ 2) / (2 * ecm)) "total").map fun v =>
    (E.map fun e => k.pi0 e ((ecm ^ 2 + k.mpi0 ^ 2 - k.mv ^ 2) / (2 * ecm))).add v

/-- `dnde_vv` (`_vector_mediator_spectra.py:113-115`). -/
noncomputable def vVV (k : VectorKernels) (E : Energies) (ecm : ℝ) (fs : String) : Except Err Out :=
  (vDecay k E (ecm / 2) fs).map fun a => a.scale 2

/-- `spectrum_funcs()` of the vector mediator (`_vector_mediator_spectra.py:117-140`). -/
noncomputable def vectorFuncs (k : VectorKernels) (E : Energies) (ecm : ℝ) :
    List (String × Except Err Out) :=
  [("mu mu", vMuMu k E ecm .all), ("e e", vEE k E ecm .all), ("pi pi", vPiPi k E ecm .all),
    ("pi0 g", vPi0G k E ecm .all), ("pi0 v", vPi0V k E ecm), ("v v", vVV k E ecm "total")]

/-- The entry of a channel that is closed (`theory/__init__.py:181-184`): only the type `float`
itself is recognised, everything else must have a `shape`. -/
def closed : Energies → Except Err Out
  | .pyFloat _ => .ok (.scalar 0)
  | .npFloat _ => .ok (.scalar 0)
  | .pyList _ => .error .attributeError
  | .ndarray es => .ok (.array (es.map fun _ => 0))

/-- The loop of `TheoryAnn.spectra` (`theory/__init__.py:173-184`). -/
noncomputable def spectraLoop (bf : String → ℝ) (E : Energies) :
    List (String × Except Err Out) → Except Err (List (String × Out))
  | [] => .ok []
  | (fs, f) :: rest =>
    (if bf fs ≠ 0 then f.map fun a => a.scale (bf fs) else closed E).bind fun v =>
      (spectraLoop bf E rest).map fun r => (fs, v) :: r

/-- `sum(specs.values())`. -/
def total (specs : List (String × Out)) : Out := specs.foldl (fun acc p => acc.add p.2) (.scalar 0)

/-- `TheoryAnn.spectra` (`theory/__init__.py:172-188`), with the entry `total` last; `bf` are the
branching fractions and `funcs` the functions of the model at the same energies. -/
noncomputable def spectra (bf : String → ℝ) (E : Energies)
    (funcs : Energies → List (String × Except Err Out)) : Except Err (List (String × Out)) :=
  (spectraLoop bf E (funcs E)).map fun s => s ++ [("total", total s)]

/-- `TheoryAnn.total_spectrum` (`theory/__init__.py:190-209`). -/
noncomputable def totalSpectrum (bf : String → ℝ) (E : Energies)
    (funcs : Energies → List (String × Except Err Out)) : Except Err Out :=
  let E' : Energies := match E with
    | .pyFloat e => .ndarray [e]
    | .npFloat e => .ndarray [e]
    | E => E
  (spectraLoop bf E' (funcs E')).map total

end Hazma.MediatorSpectra
