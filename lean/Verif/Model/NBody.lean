import Verif.Model.SmMasses
import Verif.Model.PhaseSpace
import Mathlib.Data.Fintype.BigOperators

/-!
# Spectra of n-body final states (`hazma/spectra/_nbody.py`)

Everything is stated at one product energy (NumPy works element by element).  The spectra of the decaying
particles, `np.interp` and the phase-space distributions are parameters.
-/

namespace Hazma.NBody

open Hazma Hazma.PhaseSpace

/-- The exceptions that can be raised. -/
inductive Err where
  | valueError
  | keyError
  | assertionError
  deriving DecidableEq

/-- A binned distribution: `bin_centers` and `probabilities`. -/
structure Dist where
  centers : List ℝ
  probs : List ℝ

/-- The spectra of the decaying particles, at (product energy, parent energy), the radiation spectra at
(photon energy, invariant mass), and `np.interp(e, bin_centers, probabilities, left=0, right=0)`. -/
structure Env where
  photon : String → ℝ → ℝ → ℝ
  positron : String → ℝ → ℝ → ℝ
  nu : String → Fin 3 → ℝ → ℝ → ℝ
  fsr : String → ℝ → ℝ → ℝ
  direct : Dist → ℝ → ℝ

/-- The product asked for: `photon`, `positron`, row `r` of `neutrino`, or one flavour (`ve`, `vm`,
`vt`), as chosen by `dnde_photon`, `dnde_positron` and `dnde_neutrino` (`_nbody.py:686,773,861-868`). -/
inductive Product where
  | photon
  | positron
  | nuRow (r : Fin 3)
  | nuFlavour (r : Fin 3)
  deriving DecidableEq

/-- The neutrino names. -/
def nuName (r : Fin 3) : String := if r = 0 then "ve" else if r = 1 then "vm" else "vt"

/-- The string `product`. -/
def Product.name : Product → String
  | .photon => "photon"
  | .positron => "positron"
  | .nuRow _ => "neutrino"
  | .nuFlavour r => nuName r

/-- The common keys of the decay tables (`_nbody.py:57-74, 85-102, 104-121`). -/
def decayKeys : List String :=
  ["e", "ve", "vm", "vt", "mu", "pi", "pi0", "k", "kl", "ks", "eta", "etap", "rho", "rho0", "omega", "phi"]

/-- The keys of the radiation table (`_nbody.py:77-82`). -/
def fsrKeys : List String := ["e", "mu", "pi", "k"]

/-- Names with a null photon spectrum (`_nbody.py:58-61`). -/
def stable : List String := ["e", "ve", "vm", "vt"]

/-- Names with null positron and neutrino spectra (`_nbody.py:86-99, 105-118`). -/
def noLepton : List String := ["e", "ve", "vm", "vt", "pi0", "rho0"]

/-- `_spectra_dict[product][state](e, parent)` for a state in the table (`_nbody.py:36-144`). -/
def spec (env : Env) (p : Product) (s : String) (e parent : ℝ) : ℝ :=
  match p with
  | .photon => if s ∈ stable then 0 else env.photon s e parent
  | .positron => if s ∈ noLepton then 0 else env.positron s e parent
  | .nuRow r => if s ∈ noLepton then 0 else env.nu s r e parent
  | .nuFlavour r => if s ∈ noLepton then 0 else env.nu s r e parent

/-- `_get_masses` (`_nbody.py:147-167`). -/
noncomputable def getMasses : List String → Except Err (List ℝ)
  | [] => .ok []
  | s :: l =>
    match smMasses.get? s with
    | none => .error .valueError
    | some m =>
      match getMasses l with
      | .error e => .error e
      | .ok ms => .ok (m :: ms)

/-- The trapezoid convolution of `_conv_dnde_dist` (`_nbody.py:294-301`). -/
noncomputable def convolve (f : ℝ → ℝ) (d : Dist) : ℝ :=
  trapezoid d.centers (List.zipWith (fun p x => p * f x) d.probs d.centers)

/-- `_conv_dnde_dist` with its assertions (`_nbody.py:289-303`). -/
noncomputable def convDnde (env : Env) (e : ℝ) (d : Dist) (s : String) (p : Product) : Except Err ℝ :=
  if s ∈ decayKeys then .ok (convolve (spec env p s e) d) else .error .assertionError

/-! ## Radiation -/

/-- The state of the loop over pairs: `counts` and `dndes`. -/
structure FsrState where
  counts : String → ℕ
  dndes : String → ℝ

/-- One pass of the inner loop (`_nbody.py:376-387`): species `s` with convolved spectrum `v`. -/
noncomputable def fsrStep (average : Bool) (st : FsrState) (ev : String × ℝ) : FsrState :=
  if ev.1 ∈ fsrKeys then
    if average = true ∨ st.counts ev.1 = 0 then
      ⟨fun s => if s = ev.1 then st.counts s + 1 else st.counts s,
       fun s => if s = ev.1 then st.dndes s + ev.2 else st.dndes s⟩
    else st
  else st

/-- The pairs `(i, j)` in the order of `itertools.combinations`. -/
def pairs (n : ℕ) : List (Fin n × Fin n) :=
  (List.finRange n).flatMap fun i => ((List.finRange n).filter fun j => i < j).map fun j => (i, j)

/-- The passes of the two loops (`_nbody.py:375-376`) for final states `fs` and invariant-mass
distributions `inv`: species and convolved spectrum. -/
noncomputable def fsrEvents (env : Env) (e : ℝ) {n : ℕ} (fs : Fin n → String) (inv : Fin n × Fin n → Dist) :
    List (String × ℝ) :=
  (pairs n).flatMap fun ij =>
    [(fs ij.1, convolve (env.fsr (fs ij.1) e) (inv ij)), (fs ij.2, convolve (env.fsr (fs ij.2) e) (inv ij))]

/-- `_dnde_photon_fsr` (`_nbody.py:306-392`); the sum over the keys of `dndes`, which are the different
charged species.  The shared `has_fsr` guard only avoids building the distributions. -/
noncomputable def photonFsr (env : Env) (e : ℝ) {n : ℕ} (fs : Fin n → String) (inv : Fin n × Fin n → Dist)
    (average : Bool) : ℝ :=
  let st := (fsrEvents env e fs inv).foldl (fsrStep average) ⟨fun _ => 0, fun _ => 0⟩
  (((List.ofFn fs).filter fun s => s ∈ fsrKeys).dedup.map fun s => st.dndes s / (st.counts s : ℝ)).sum

/-! ## Assembly -/

/-- Energies of a two-body state (`_nbody.py:427-428`). -/
noncomputable def energy1 (cme m1 m2 : ℝ) : ℝ := (cme ^ 2 + m1 ^ 2 - m2 ^ 2) / (2 * cme)

@[inherit_doc energy1]
noncomputable def energy2 (cme m1 m2 : ℝ) : ℝ := (cme ^ 2 - m1 ^ 2 + m2 ^ 2) / (2 * cme)

/-- `_dnde_two_body` (`_nbody.py:395-445`). -/
noncomputable def twoBody (env : Env) (e cme : ℝ) (s1 s2 : String) (p : Product) (fsr : Bool) :
    Except Err ℝ :=
  match getMasses [s1, s2] with
  | .ok [m1, m2] => .ok (
      (if s1 ∈ decayKeys then spec env p s1 e (energy1 cme m1 m2) else 0)
      + (if s2 ∈ decayKeys then spec env p s2 e (energy2 cme m1 m2) else 0)
      + (if p = .photon ∧ fsr = true then
          (if s1 ∈ fsrKeys then env.fsr s1 e cme else 0) + (if s2 ∈ fsrKeys then env.fsr s2 e cme else 0)
        else 0))
  | .ok _ => .error .valueError
  | .error x => .error x

/-- The condition under which a final state is itself the product (`_nbody.py:499-501`). -/
def isProduct (s : String) (p : Product) : Bool :=
  s = p.name || (s = "e" && p.name = "positron")
    || ((s = "ve" || s = "vm" || s = "vt") && p.name = "neutrino")

/-- The loop of `_dnde_multi_particle` over distributions and states (`_nbody.py:495-509`). -/
noncomputable def decayLoop (env : Env) (e : ℝ) (p : Product) : List (Dist × String) → ℝ → Except Err ℝ
  | [], acc => .ok acc
  | (d, s) :: rest, acc =>
    match convDnde env e d s p with
    | .error x => .error x
    | .ok c => decayLoop env e p rest (acc + c + if isProduct s p then env.direct d e else 0)

/-- `_dnde_multi_particle` (`_nbody.py:448-524`) for energy distributions `ed` and invariant-mass
distributions `inv` of the given state. -/
noncomputable def multi (env : Env) (e : ℝ) (fs : List String) (p : Product) (ed : Fin fs.length → Dist)
    (inv : Fin fs.length × Fin fs.length → Dist) (fsr average : Bool) : Except Err ℝ :=
  match decayLoop env e p (List.ofFn fun i => (ed i, fs.get i)) 0 with
  | .error x => .error x
  | .ok v => .ok (v + if p = .photon ∧ fsr = true then photonFsr env e fs.get inv average else 0)

/-- `_dnde_nbody` for a sequence of names (`_nbody.py:527-589`). -/
noncomputable def nbody (env : Env) (e cme : ℝ) (fs : List String) (p : Product) (ed : Fin fs.length → Dist)
    (inv : Fin fs.length × Fin fs.length → Dist) (fsr average : Bool) : Except Err ℝ :=
  match getMasses fs with
  | .error x => .error x
  | .ok ms =>
    if cme < ms.sum then .error .valueError
    else
      match fs, ed, inv with
      | [s], _, _ => if s ∈ decayKeys then .ok (spec env p s e cme) else .error .keyError
      | [s1, s2], _, _ => twoBody env e cme s1 s2 p fsr
      | fs, ed, inv => multi env e fs p ed inv fsr average

end Hazma.NBody
