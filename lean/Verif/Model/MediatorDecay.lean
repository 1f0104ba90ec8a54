import Mathlib.MeasureTheory.Integral.IntervalIntegral.Basic
import Mathlib.Analysis.SpecialFunctions.Pow.Real

/-!
# Spectra from decaying mediators

Models `hazma/scalar_mediator/scalar_mediator_decay_spectrum.pyx`,
`hazma/vector_mediator/vector_mediator_decay_spectrum.pyx`, the two `*_positron_spec.pyx` files and the
Python functions that call them.  `quad` is the exact integral.  The rest-frame radiation and decay spectra
(modelled elsewhere) and the interpolation through tables are parameters.  A mediator exactly at rest, for
which the code divides by its velocity, is modelled in `Model/MediatorRest.lean`; theorems about the functions here
assume `m < E`.
-/

namespace Hazma.Mediator

/-- `sqrt(1 - (m/E)**2)` (`scalar_mediator_decay_spectrum.pyx:137,177` and the other three files). -/
noncomputable def beta (E m : ℝ) : ℝ := Real.sqrt (1 - (m / E) ^ 2)

/-- `E / m`. -/
noncomputable def gamma (E m : ℝ) : ℝ := E / m

/-! ## Photons -/

/-- Rest-frame photon spectra of one decay product: radiation from `e e`, `mu mu`, `pi pi`, and decay of a
charged pion, a neutral pion and a muon of the energy they have in the mediator's rest frame. -/
structure RestPhoton where
  fsrE : ℝ → ℝ
  fsrMu : ℝ → ℝ
  fsrPi : ℝ → ℝ
  pi : ℝ → ℝ
  pi0 : ℝ → ℝ
  mu : ℝ → ℝ

/-- The bit flags (`scalar_mediator_decay_spectrum.pyx:16-22, 253-266`). -/
structure Modes where
  pp : Bool
  mm : Bool
  p0p0 : Bool
  gg : Bool
  eeg : Bool
  ppg : Bool
  mmg : Bool

/-- `modes` as a list of strings to flags (`scalar_mediator_decay_spectrum.pyx:246-266`). -/
def modesOf (l : List String) : Modes :=
  ⟨"pi pi" ∈ l, "mu mu" ∈ l, "pi0 pi0" ∈ l, "g g" ∈ l, "e e g" ∈ l, "pi pi g" ∈ l, "mu mu g" ∈ l⟩

/-- The sum in `integrand` (`scalar_mediator_decay_spectrum.pyx:142-153`) as a function of the rest-frame
energy; `pws` are the branching fractions into `e e`, `mu mu`, `pi0 pi0`, `pi pi`, `g g`. -/
def scalarRest (r : RestPhoton) (pws : Fin 5 → ℝ) (b : Modes) (e : ℝ) : ℝ :=
  (if b.eeg then pws 0 * r.fsrE e else 0)
  + (if b.ppg then pws 3 * r.fsrPi e else 0)
  + (if b.pp then 2 * pws 3 * r.pi e else 0)
  + (if b.p0p0 then 2 * pws 2 * r.pi0 e else 0)
  + (if b.mmg then pws 1 * r.fsrMu e else 0)
  + (if b.mm then 2 * pws 1 * r.mu e else 0)

/-- `integrand` (`scalar_mediator_decay_spectrum.pyx:123-155`) and `__integrand`
(`vector_mediator_decay_spectrum.pyx:115-179`) for a rest-frame spectrum. -/
noncomputable def photonIntegrand (rest : ℝ → ℝ) (E m e cl : ℝ) : ℝ :=
  1 / (2 * gamma E m * |1 - beta E m * cl|) * rest (e * gamma E m * (1 - beta E m * cl))

/-- The box of a two-photon or photon-pion decay (`scalar_mediator_decay_spectrum.pyx:180-189`,
`vector_mediator_decay_spectrum.pyx:212-217`). -/
noncomputable def photonBox (bf E m e : ℝ) : ℝ :=
  if E * (1 - beta E m) / 2 ≤ e ∧ e ≤ E * (1 + beta E m) / 2 then bf / (E * beta E m) else 0

/-- `c_scalar_mediator_decay_spectrum_point` (`scalar_mediator_decay_spectrum.pyx:166-191`). -/
noncomputable def scalarPoint (r : RestPhoton) (pws : Fin 5 → ℝ) (b : Modes) (e E m : ℝ) : ℝ :=
  if E < m then 0
  else (∫ cl in (-1 : ℝ)..1, photonIntegrand (scalarRest r pws b) E m e cl)
    + if b.gg then photonBox (pws 4) E m e else 0

/-- The mode strings of the vector mediator. -/
inductive VMode where
  | total | eeg | ppg | pp | p0g | mmg | mm | other
  deriving DecidableEq

/-- The rest-frame spectrum selected by the mode (`vector_mediator_decay_spectrum.pyx:150-179`); `pws` are
the branching fractions into `e e`, `mu mu`, `pi0 g`, `pi pi`.  An unknown mode falls off the end of a C
function and gives 0. -/
def vectorRest (r : RestPhoton) (pws : Fin 5 → ℝ) (mode : VMode) (e : ℝ) : ℝ :=
  match mode with
  | .total => pws 0 * r.fsrE e + pws 1 * r.fsrMu e + pws 3 * r.fsrPi e + 2 * pws 3 * r.pi e
      + pws 2 * r.pi0 e + 2 * pws 1 * r.mu e
  | .eeg => pws 0 * r.fsrE e
  | .ppg => pws 3 * r.fsrPi e
  | .pp => 2 * pws 3 * r.pi e
  | .p0g => pws 2 * r.pi0 e
  | .mmg => pws 1 * r.fsrMu e
  | .mm => 2 * pws 1 * r.mu e
  | .other => 0

/-- `__dnde_decay_v` for photons (`vector_mediator_decay_spectrum.pyx:184-227`). -/
noncomputable def vectorPoint (r : RestPhoton) (pws : Fin 5 → ℝ) (mode : VMode) (e E m : ℝ) : ℝ :=
  if E < m then 0
  else (∫ cl in (-1 : ℝ)..1, photonIntegrand (vectorRest r pws mode) E m e cl)
    + if mode = .p0g ∨ mode = .total then photonBox (pws 2) E m e else 0

/-! ## Positrons (both mediators; `scalar_mediator_positron_spec.pyx` is cited) -/

/-- The `fs` strings. -/
inductive PMode where
  | total | pp | mm | ee | other
  deriving DecidableEq

/-- The rest-frame positron spectrum selected by `fs` (`scalar_mediator_positron_spec.pyx:147-161`); `pws`
are the branching fractions into `e e`, `mu mu`, `pi pi`. -/
def positronRest (pi mu : ℝ → ℝ) (pws : Fin 3 → ℝ) (fs : PMode) (e : ℝ) : ℝ :=
  match fs with
  | .total => pws 2 * pi e + pws 1 * mu e
  | .pp => pws 2 * pi e
  | .mm => pws 1 * mu e
  | .ee => 0
  | .other => 0

/-- `__integrand` (`scalar_mediator_positron_spec.pyx:106-161`). -/
noncomputable def positronIntegrand (rest : ℝ → ℝ) (me E m e cl : ℝ) : ℝ :=
  if e < me then 0
  else
    let p := Real.sqrt (e * e - me * me)
    let b := beta E m
    let jac := p / (2 * Real.sqrt ((1 + (b * cl) ^ 2) * e * e
      - (1 + b * b * (-1 + cl * cl)) * me * me - 2 * b * cl * e * p) * gamma E m)
    jac * rest (gamma E m * (e - p * b * cl))

/-- `lines_contrib` (`scalar_mediator_positron_spec.pyx:197-203`).  Below `2 me` the root is NaN and the
comparison false. -/
noncomputable def positronBox (bf me E m e : ℝ) : ℝ :=
  if 1 - 4 * me * me / (m * m) < 0 then 0
  else
    let r := Real.sqrt (1 - 4 * me * me / (m * m))
    if E * (1 - r * beta E m) / 2 ≤ e ∧ e ≤ E * (1 + r * beta E m) / 2 then bf / (E * beta E m) else 0

/-- `__dnde_decay_s` (`scalar_mediator_positron_spec.pyx:166-215`, `vector_mediator_positron_spec.pyx:167-216`)
with the tables giving `pi` and `mu`. -/
noncomputable def positronPoint (pi mu : ℝ → ℝ) (pws : Fin 3 → ℝ) (fs : PMode) (me e E m : ℝ) : ℝ :=
  if E < m then 0
  else if fs = .ee then positronBox (pws 0) me E m e
  else if fs = .total ∨ fs = .pp ∨ fs = .mm then
    (∫ cl in (-1 : ℝ)..1, positronIntegrand (positronRest pi mu pws fs) me E m e cl)
      + positronBox (pws 0) me E m e
  else 0

/-! ### The module-level tables -/

/-- The globals: `cache_ms`, `cache_pws` and the mass for which the tables were made
(`scalar_mediator_positron_spec.pyx:19-29`); `none` is the initial table of zeros. -/
structure Cache where
  ms : ℝ
  pws : Fin 3 → ℝ
  table : Option ℝ

/-- At import (`scalar_mediator_positron_spec.pyx:21-29`). -/
def Cache.initial : Cache := ⟨-1, fun _ => -1, none⟩

/-- `__recompute_rf_spectra` (`scalar_mediator_positron_spec.pyx:31-55`). -/
noncomputable def recompute (c : Cache) (ms : ℝ) (pws : Fin 3 → ℝ) : Bool :=
  open Classical in
  if ms ≠ c.ms ∨ pws 0 ≠ c.pws 0 ∨ pws 1 ≠ c.pws 1 ∨ pws 2 ≠ c.pws 2 then true else false

/-- `__set_spectra` (`scalar_mediator_positron_spec.pyx:57-74`): the tables change, the cached mass and
widths do not. -/
def setSpectra (c : Cache) (ms : ℝ) : Cache := { c with table := some ms }

/-- The entry points (`scalar_mediator_positron_spec.pyx:243-245, 273-283`): globals after the call, and the
mass whose tables the returned value was computed with. -/
noncomputable def call (c : Cache) (ms : ℝ) (pws : Fin 3 → ℝ) : Cache × Option ℝ :=
  let c := if recompute c ms pws then setSpectra c ms else c
  (c, c.table)

/-! ## The Python side -/

/-- `dnde_ss` / `dnde_vv` (`_scalar_mediator_spectra.py:68-83`, `_vector_mediator_spectra.py:79-115`) and
`dnde_pos_ss` / `dnde_pos_vv` (`_scalar_mediator_positron_spectra.py:65-80`,
`_vector_mediator_positron_spectra.py:15-29`): twice the spectrum of a mediator with half the energy,
with widths divided by their total, or zero for a stable mediator. -/
noncomputable def pairOf {n : ℕ} (point : (Fin n → ℝ) → ℝ → ℝ) (widths : Fin n → ℝ) (total ecm : ℝ) : ℝ :=
  if total ≠ 0 then 2 * point (fun i => widths i / total) (ecm / 2) else 0

/-- Scalar `dnde_pos_mumu` (`_scalar_mediator_positron_spectra.py:25-42`). -/
noncomputable def scalarPosMuMu (posMu : ℝ → ℝ → ℝ) (e ecm : ℝ) : ℝ := posMu e (ecm / 2)

/-- Vector `dnde_pos_mumu` (`_vector_mediator_positron_spectra.py:11-12`): calls the photon spectrum. -/
noncomputable def vectorPosMuMu (photonMu : ℝ → ℝ → ℝ) (e ecm : ℝ) : ℝ := photonMu e (ecm / 2)

/-- `e_pi0` in `dnde_pi0g` (`_vector_mediator_spectra.py:57`). -/
noncomputable def pi0gPion (mpi0 ecm : ℝ) : ℝ := (ecm ^ 2 + mpi0 ^ 2) / (2 * ecm)

/-- The line of `gamma_ray_lines` (`_vector_mediator_spectra.py:145`). -/
noncomputable def pi0gLine (mpi0 ecm : ℝ) : ℝ := (ecm ^ 2 - mpi0 ^ 2) / (2 * ecm)

/-- `e_pi0` in `dnde_pi0v` (`_vector_mediator_spectra.py:105`). -/
noncomputable def pi0vPion (mpi0 mv ecm : ℝ) : ℝ := (ecm ^ 2 + mpi0 ^ 2 - mv ^ 2) / (2 * ecm)

/-- `e_v` in `dnde_pi0v` (`_vector_mediator_spectra.py:108`). -/
noncomputable def pi0vVector (mpi0 mv ecm : ℝ) : ℝ := (ecm ^ 2 - mpi0 ^ 2 + mv ^ 2) / (2 * ecm)

/-- `e_pi0` in the decay of the vector (`vector_mediator_decay_spectrum.pyx:158`). -/
noncomputable def decayPion (mpi0 mv : ℝ) : ℝ := (mpi0 ^ 2 + mv ^ 2) / (2 * mv)

end Hazma.Mediator
