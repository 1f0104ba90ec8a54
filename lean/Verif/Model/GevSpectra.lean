import Verif.Model.NBody
import Verif.Model.Boost

/-!
# Spectra of the GeV vector mediator

Models `hazma/vector_mediator/_gev/spectra.py`, `positron.py` and `neutrino.py`, and the line energies
and neutrino methods of `_gev/model.py`.  Everything is stated at one product energy (NumPy works element
by element).  The spectra of the decaying particles (`hazma.spectra.dnde_*`), the Altarelli-Parisi
functions, the form factors' distributions and the boost of a table are parameters.  For neutrinos one
flavour is fixed.
-/

namespace Hazma.GevSpectra

open Hazma.NBody (Dist convolve)

/-- The particles that occur in the final states. -/
inductive P where
  | e | mu | gamma | pi | pi0 | k | k0 | kL | kS | eta | etap | omega | phi
  deriving DecidableEq

/-- Masses in MeV, `hazma/parameters.py:50-76`. -/
noncomputable def P.mass : P → ℝ
  | .e => 0.5109989461
  | .mu => 105.6583745
  | .gamma => 0
  | .pi => 139.57039
  | .pi0 => 134.9768
  | .k => 493.677
  | .k0 => 497.611
  | .kL => 497.611
  | .kS => 497.611
  | .eta => 547.862
  | .etap => 957.78
  | .omega => 782.66
  | .phi => 1019.461

/-- The spectra of one product: `D p E e` is the spectrum at product energy `E` from a particle `p` of
energy `e`; the Altarelli-Parisi functions at photon energy, squared energy and mass. -/
structure Env where
  D : P → ℝ → ℝ → ℝ
  apFermion : ℝ → ℝ → ℝ → ℝ
  apScalar : ℝ → ℝ → ℝ → ℝ

/-! ### Two-body final states -/

/-- The two-body final states with a spectrum function. -/
inductive Two where
  | ee | mumu | pipi | k0k0 | kk | pi0gamma | etagamma | pi0phi | etaphi | etaomega
  deriving DecidableEq

/-- `_dnde_photon_two_body`, `spectra.py:91-96`; the same in `positron.py:84-89` and `neutrino.py:91-99`. -/
noncomputable def twoBody (q m1 m2 : ℝ) (d1 d2 : ℝ → ℝ → ℝ) (E : ℝ) : ℝ :=
  if q < m1 + m2 then 0
  else
    let e1 := (q ^ 2 + m1 ^ 2 - m2 ^ 2) / (2 * q)
    let e2 := (q ^ 2 - m1 ^ 2 + m2 ^ 2) / (2 * q)
    d1 E e1 + d2 E e2

/-- `_dnde_photon_m_gamma`, `spectra.py:235-239`; `positron.py:238-242`, `neutrino.py:270-274`. -/
noncomputable def mesonGamma (q m : ℝ) (d : ℝ → ℝ → ℝ) (E : ℝ) : ℝ :=
  if q < m then 0 else d E ((q ^ 2 + m ^ 2) / (2 * q))

/-- `_dnde_photon_m_phi`, `spectra.py:285-291`; `positron.py:296-302`, `neutrino.py:335-347`. -/
noncomputable def mesonPhi (env : Env) (q m : ℝ) (d : ℝ → ℝ → ℝ) (E : ℝ) : ℝ :=
  if q < m + P.phi.mass then 0 else twoBody q m P.phi.mass d (env.D .phi) E

/-- The photon functions of the two-body final states, `spectra.py:104-361`. -/
noncomputable def photonTwo (env : Env) (c : Two) (q E : ℝ) : ℝ :=
  match c with
  | .ee => if q < 2 * P.e.mass then 0 else 2 * env.apFermion E (q ^ 2) P.e.mass
  | .mumu => if q < 2 * P.mu.mass then 0
      else 2 * env.apFermion E (q ^ 2) P.mu.mass + 2 * env.D .mu E (q / 2)
  | .pipi => if q < 2 * P.pi.mass then 0
      else 2 * env.apScalar E (q ^ 2) P.pi.mass + 2 * env.D .pi E (q / 2)
  | .k0k0 => if q < 2 * P.k0.mass then 0 else env.D .kL E (q / 2) + env.D .kS E (q / 2)
  | .kk => if q < 2 * P.k.mass then 0
      else 2 * env.apScalar E (q ^ 2) P.k.mass + 2 * env.D .k E (q / 2)
  | .pi0gamma => mesonGamma q P.pi0.mass (env.D .pi0) E
  | .etagamma => mesonGamma q P.eta.mass (env.D .eta) E
  | .pi0phi => mesonPhi env q P.pi0.mass (env.D .pi0) E
  | .etaphi => mesonPhi env q P.eta.mass (env.D .eta) E
  | .etaomega => if q < P.eta.mass + P.omega.mass then 0
      else twoBody q P.eta.mass P.omega.mass (env.D .eta) (env.D .omega) E

/-- The positron functions, `positron.py:101-382`, and the neutrino functions, `neutrino.py:112-447`,
which have the same form. -/
noncomputable def leptonTwo (env : Env) (c : Two) (q E : ℝ) : ℝ :=
  match c with
  | .ee => 0
  | .mumu => if q < 2 * P.mu.mass then 0 else 2 * env.D .mu E (q / 2)
  | .pipi => if q < 2 * P.pi.mass then 0 else 2 * env.D .pi E (q / 2)
  | .k0k0 => if q < 2 * P.k0.mass then 0 else env.D .kL E (q / 2) + env.D .kS E (q / 2)
  | .kk => if q < 2 * P.k.mass then 0 else env.D .k E (q / 2)
  | .pi0gamma => 0
  | .etagamma => mesonGamma q P.eta.mass (env.D .eta) E
  | .pi0phi => mesonPhi env q P.pi0.mass (fun _ _ => 0) E
  | .etaphi => mesonPhi env q P.eta.mass (env.D .eta) E
  | .etaomega => if q < P.eta.mass + P.omega.mass then 0
      else twoBody q P.eta.mass P.omega.mass (env.D .eta) (env.D .omega) E

/-! ### Two neutral pions and a photon -/

/-- `dnde_photon_pi0_pi0_gamma`, `spectra.py:368-419`. -/
noncomputable def photonPi0Pi0Gamma (env : Env) (q E : ℝ) : ℝ :=
  let m := P.pi0.mass
  let mw := P.omega.mass
  if q < m + mw then 0
  else
    let epi1 := (q ^ 2 + m ^ 2 - mw ^ 2) / (2 * q)
    let eomega := (q ^ 2 - m ^ 2 + mw ^ 2) / (2 * q)
    let br : ℝ := 8.34e-2
    let gamma2 := eomega / mw
    let beta2 := √(1 - (gamma2 ^ 2)⁻¹)
    let gamma1 := (mw ^ 2 + m ^ 2) / (2 * mw * m)
    let beta1 := √(1 - (gamma1 ^ 2)⁻¹)
    let e0 := (mw ^ 2 - m ^ 2) / (2 * mw)
    env.D .pi0 E epi1 + br * Boost.boostDeltaPy E e0 0 beta2 +
      2 * br * 98.823e-2 * Boost.doubleBoostDelta E (m / 2) 0 beta1 beta2

/-! ### Final states with three and four mesons -/

/-- The final states averaged over distributions of a form factor. -/
inductive Many where
  | piPiPi0 | piPiEta | piPiEtap | piPiOmega | pi0Pi0Omega | pi0K0K0 | pi0KK | piKK0 | piPiPiPi | piPiPi0Pi0
  deriving DecidableEq

/-- The particles in the order of `fsp_masses` of the form factor, which is the order of its
distributions: `_pi_pi_pi0.py:97`, `_pi_pi_eta.py:65`, `_pi_pi_etap.py:72-76`, `_pi_pi_omega.py:64-68`,
`_pi_k_k.py:592,632,672`, `_pi_pi_pi_pi.py:160-166`.  A pair of neutral kaons is a long and a short one. -/
def listed : Many → List P
  | .piPiPi0 => [.pi0, .pi, .pi]
  | .piPiEta => [.eta, .pi, .pi]
  | .piPiEtap => [.etap, .pi, .pi]
  | .piPiOmega => [.omega, .pi, .pi]
  | .pi0Pi0Omega => [.omega, .pi0, .pi0]
  | .pi0K0K0 => [.kL, .kS, .pi0]
  | .pi0KK => [.k, .k, .pi0]
  | .piKK0 => [.k0, .k, .pi]
  | .piPiPiPi => [.pi, .pi, .pi, .pi]
  | .piPiPi0Pi0 => [.pi, .pi, .pi0, .pi0]

/-- The lists `dnde_decays` of the photon functions, `spectra.py:422-753`. -/
def photonDecays : Many → List (Option P)
  | .piPiPi0 => [some .pi, some .pi, some .pi0]
  | .piPiEta => [some .pi, some .pi, some .eta]
  | .piPiEtap => [some .pi, some .pi, some .etap]
  | .piPiOmega => [some .pi, some .pi, some .omega]
  | .pi0Pi0Omega => [some .pi0, some .pi0, some .omega]
  | .pi0K0K0 => [some .pi0, some .kL, some .kS]
  | .pi0KK => [some .pi0, some .k, some .k]
  | .piKK0 => [some .pi0, some .k, some .k]
  | .piPiPiPi => [some .k, some .k, some .pi, some .pi]
  | .piPiPi0Pi0 => [some .pi, some .pi, some .pi0, some .pi0]

/-- The same lists in `positron.py:413-848` and `neutrino.py:481-948`; `none` stands for the function that
returns zeros. -/
def leptonDecays : Many → List (Option P)
  | .piPiPi0 => [some .pi, some .pi, none]
  | .piPiEta => [some .pi, some .pi, some .eta]
  | .piPiEtap => [some .pi, some .pi, some .etap]
  | .piPiOmega => [some .pi, some .pi, some .omega]
  | .pi0Pi0Omega => [none, none, some .omega]
  | .pi0K0K0 => [none, some .kL, some .kS]
  | .pi0KK => [none, some .k, some .k]
  | .piKK0 => [none, some .k, some .k]
  | .piPiPiPi => [some .k, some .k, some .pi, some .pi]
  | .piPiPi0Pi0 => [some .k, some .k, none, none]

/-- The thresholds tested at the beginning of each function. -/
noncomputable def threshold : Many → ℝ
  | .piPiPi0 => 2 * P.pi.mass + P.pi0.mass
  | .piPiEta => 2 * P.pi.mass + P.eta.mass
  | .piPiEtap => 2 * P.pi.mass + P.etap.mass
  | .piPiOmega => 2 * P.pi.mass + P.omega.mass
  | .pi0Pi0Omega => 2 * P.pi0.mass + P.omega.mass
  | .pi0K0K0 => P.pi0.mass + 2 * P.k0.mass
  | .pi0KK => P.pi0.mass + 2 * P.k.mass
  | .piKK0 => P.pi.mass + P.k.mass + P.k0.mass
  | .piPiPiPi => 4 * P.pi.mass
  | .piPiPi0Pi0 => 2 * P.pi.mass + 2 * P.pi0.mass

/-- One entry of `dnde_decays`. -/
def slot (env : Env) : Option P → ℝ → ℝ → ℝ
  | some p => env.D p
  | none => fun _ _ => 0

/-- `_make_spectrum_n_body_decay`, `spectra.py:74-88`, `positron.py:67-81`, `neutrino.py:73-89`. -/
noncomputable def nBodyDecay (env : Env) (decays : List (Option P)) (dists : List Dist) (E : ℝ) : ℝ :=
  (List.zipWith (fun s d => convolve (slot env s E) d) decays dists).sum

/-- The radiation off a pair of charged pions averaged over an invariant-mass distribution,
`spectra.py:455-464, 699-709, 741-751`. -/
noncomputable def pairRadiation (env : Env) (d : Dist) (E : ℝ) : ℝ :=
  convolve (fun m => 2 * env.apScalar E (m ^ 2) P.pi.mass) d

/-- The photon functions of the final states with three and four mesons.  `dists` are the energy
distributions of the form factor and `inv i j` its invariant-mass distributions. -/
noncomputable def photonMany (env : Env) (c : Many) (q : ℝ) (dists : List Dist) (inv : ℕ → ℕ → Dist) (E : ℝ) : ℝ :=
  if q < threshold c then 0
  else
    nBodyDecay env (photonDecays c) dists E +
      match c with
      | .piPiPi0 => pairRadiation env (inv 0 1) E
      | .piPiPiPi => 0.5 * pairRadiation env (inv 0 1) E + 0.5 * pairRadiation env (inv 1 2) E +
          0.5 * pairRadiation env (inv 2 3) E
      | .piPiPi0Pi0 => pairRadiation env (inv 0 1) E
      | _ => 0

/-- The positron and neutrino functions. -/
noncomputable def leptonMany (env : Env) (c : Many) (q : ℝ) (dists : List Dist) (E : ℝ) : ℝ :=
  if q < threshold c then 0 else nBodyDecay env (leptonDecays c) dists E

/-! ### Two mediators -/

/-- `dnde_photon_v_v`, `spectra.py:818-845`, at one photon energy: `boosted` is what
`boost.dnde_boost_array` makes of the rest-frame spectrum for velocity `beta`. -/
noncomputable def photonVV (boosted : ℝ → ℝ) (mv q E : ℝ) : ℝ :=
  let gamma := 0.5 * q / mv
  if gamma < 1 then 0
  else
    let beta := √(1 - (gamma ^ 2)⁻¹)
    boosted beta + 2 * Boost.boostDeltaPy E (0.5 * (mv - P.pi.mass ^ 2 / mv)) 0 beta +
      2 * Boost.boostDeltaPy E (0.5 * (mv - P.eta.mass ^ 2 / mv)) 0 beta

/-- `dnde_positron_v_v`, `positron.py:851-911`, and `dnde_neutrino_v_v`, `neutrino.py:951-1012`:
`boosted q beta` is the boost of the sum of the spectra of all final states at energy `q`. -/
noncomputable def leptonVV (boosted : ℝ → ℝ → ℝ) (mv q : ℝ) : ℝ :=
  let gamma := 2 * mv / q
  if gamma < 1 then 0 else boosted q √(1 - (gamma ^ 2)⁻¹)

/-! ### Lines and neutrino totals -/

/-- `_gamma_ray_line_energies`, `model.py:965-972`. -/
noncomputable def gammaLines (q : ℝ) : List (String × ℝ) :=
  [("pi0 gamma", 0.5 * (q - P.pi0.mass * (P.pi0.mass / q))), ("eta gamma", 0.5 * (q - P.eta.mass * (P.eta.mass / q)))]

/-- `_neutrino_line_energies`, `model.py:985-992`; `none` is the `ValueError`. -/
noncomputable def neutrinoLines (q : ℝ) (flavor : String) : Option (List (String × ℝ)) :=
  if flavor = "e" then some [("ve ve", q / 2)]
  else if flavor = "mu" then some [("vm vm", q / 2)]
  else if flavor = "tau" then some [("vt vt", q / 2)]
  else none

/-- A value returned to the caller: a number (one element of an array) or a dictionary. -/
inductive Value where
  | number (x : ℝ)
  | dict (d : List (String × ℝ))

/-- `neutrino_spectra`, `model.py:1028-1059`: for each final state (in the order of the cross sections)
its branching fraction times its spectrum, and the total. -/
def neutrinoSpectra (states : List String) (bf spec : String → ℝ) : List (String × ℝ) :=
  let specs := states.map fun fs => (fs, bf fs * spec fs)
  specs ++ [("total", (specs.map Prod.snd).sum)]

/-- `total_neutrino_spectrum`, `model.py:1061-1081`. -/
def totalNeutrinoSpectrum (states : List String) (bf spec : String → ℝ) : Value :=
  .dict (neutrinoSpectra states bf spec)

end Hazma.GevSpectra
