import Verif.Model.Boost
import Verif.Model.BoostTable
import Verif.Model.Interp

/-!
# Tabulated photon spectra of kaons, η, η′, ω and φ

Model of `rust/src/kernels/photon_tables.rs` and of the entry points of `rust/src/photon.rs` that
use it, for a real photon energy different from zero.  The CSV files are parameters: a table is the
list of its data rows, already split into numbers; the names of their columns are transcribed.  The
fused multiply-add of the line terms is exact here.
-/

namespace Hazma.PhotonTables

open Hazma.BoostTable

/-- What can go wrong: the `ValueError` of `rust/src/photon.rs:53-54`, or a panic. -/
inductive TableError where
  | betaOutOfRange
  | panic
  deriving DecidableEq

/-- `struct Table`, `rust/src/kernels/photon_tables.rs:165-171`. -/
structure Table where
  energies : List ℝ
  dnde : List ℝ

/-- The row loop of `Table::parse`, `rust/src/kernels/photon_tables.rs:194-215`: the energy, and the
pairwise sum of the other columns; a row without further columns panics. -/
noncomputable def parseRows : List (List ℝ) → Except TableError Table
  | [] => .ok ⟨[], []⟩
  | row :: rows =>
    match row with
    | [] => .error .panic
    | energy :: components =>
      if components = [] then .error .panic
      else
        match parseRows rows with
        | .error e => .error e
        | .ok t => .ok ⟨energy :: t.energies,
            PairwiseSum.pairwiseSum components :: t.dnde⟩

/-- `Table::parse`, `rust/src/kernels/photon_tables.rs:189-218`. -/
noncomputable def parse (rows : List (List ℝ)) : Except TableError Table :=
  match parseRows rows with
  | .error e => .error e
  | .ok t => if t.energies = [] then .error .panic else .ok t

/-- `Table::emin`, `rust/src/kernels/photon_tables.rs:221-223`. -/
noncomputable def emin (t : Table) : ℝ := at' t.energies 0

/-- `Table::emax`, `rust/src/kernels/photon_tables.rs:226-228`. -/
noncomputable def emax (t : Table) : ℝ := at' t.energies (t.energies.length - 1)

/-- `Table::rest_frame`, `rust/src/kernels/photon_tables.rs:237-245`. -/
noncomputable def restFrame (t : Table) (photonEnergy : ℝ) : Except TableError ℝ :=
  if photonEnergy > emax t then .ok 0
  else if photonEnergy < emin t then .ok (at' t.dnde 0 * emin t / photonEnergy)
  else
    match Interp.interp photonEnergy t.energies t.dnde with
    | none => .error .panic
    | some v => .ok v

/-- `struct Line`, `rust/src/kernels/photon_tables.rs:249-255`. -/
structure Line where
  energy : ℝ
  weight : ℝ

/-- `struct Spectrum`, `rust/src/kernels/photon_tables.rs:259-265`. -/
structure Spectrum where
  table : Table
  mass : ℝ
  lines : List Line

/-- `enum Branch`, `rust/src/kernels/photon_tables.rs:377-393`. -/
inductive Branch where
  | belowThreshold
  | restFrame
  | inFlight (beta : ℝ)

/-- `branch`, `rust/src/kernels/photon_tables.rs:419-431`; `f64::EPSILON` is `2⁻⁵²`. -/
noncomputable def branch (parentEnergy mass : ℝ) : Except TableError Branch :=
  if parentEnergy < mass then .ok .belowThreshold
  else if parentEnergy - mass < (2 : ℝ)⁻¹ ^ 52 then .ok .restFrame
  else
    let beta := Boost.boostBeta parentEnergy mass
    if ¬ (0 < beta ∧ beta < 1) then .error .betaOutOfRange
    else .ok (.inFlight beta)

/-- The line loop of `dnde`, `rust/src/kernels/photon_tables.rs:460-467`. -/
noncomputable def addLines (photonEnergy beta : ℝ) (result : ℝ) (lines : List Line) : ℝ :=
  lines.foldl (fun acc line =>
    Boost.boostDeltaRust line.energy photonEnergy 0 beta * line.weight + acc) result

/-- `dnde`, `rust/src/kernels/photon_tables.rs:447-471`. -/
noncomputable def dnde (photonEnergy : ℝ) (b : Branch) (spectrum : Spectrum) :
    Except TableError ℝ :=
  match b with
  | .belowThreshold => .ok 0
  | .restFrame => restFrame spectrum.table photonEnergy
  | .inFlight beta =>
    match boostIntegrate photonEnergy beta spectrum.table.energies spectrum.table.dnde with
    | .error _ => .error .panic
    | .ok result => .ok (addLines photonEnergy beta result spectrum.lines)

/-- `dnde_tabulated`, `rust/src/photon.rs:47-60`, at one photon energy. -/
noncomputable def dndeTabulated (photonEnergy parentEnergy : ℝ) (spectrum : Spectrum) :
    Except TableError ℝ :=
  match branch parentEnergy spectrum.mass with
  | .error e => .error e
  | .ok b => dnde photonEnergy b spectrum

/-! ## Constants (`rust/src/constants.rs:75-85`, `112-375`) -/

/-- `MASS_PI0`. -/
noncomputable def massPi0 : ℝ := 134.9768
/-- `MASS_ETA`. -/
noncomputable def massEta : ℝ := 547.862
/-- `MASS_ETAP`. -/
noncomputable def massEtap : ℝ := 957.78
/-- `MASS_K`. -/
noncomputable def massK : ℝ := 493.677
/-- `MASS_K0`. -/
noncomputable def massK0 : ℝ := 497.611
/-- `MASS_OMEGA`. -/
noncomputable def massOmega : ℝ := 782.66
/-- `MASS_PHI`. -/
noncomputable def massPhi : ℝ := 1019.461
/-- `BR_ETA_TO_A_A`. -/
noncomputable def brEtaAA : ℝ := 39.41e-2
/-- `BR_KL_TO_A_A`. -/
noncomputable def brKlAA : ℝ := 5.47e-4
/-- `BR_KS_TO_A_A`. -/
noncomputable def brKsAA : ℝ := 2.63e-6
/-- `BR_ETAP_TO_A_A`. -/
noncomputable def brEtapAA : ℝ := 2.307e-2
/-- `BR_OMEGA_TO_PI0_A`. -/
noncomputable def brOmegaPi0A : ℝ := 8.34e-2
/-- `BR_OMEGA_TO_ETA_A`. -/
noncomputable def brOmegaEtaA : ℝ := 4.5e-4
/-- `BR_PHI_TO_ETA_A`. -/
noncomputable def brPhiEtaA : ℝ := 1.303e-2
/-- `BR_PHI_TO_ETAP_A`. -/
noncomputable def brPhiEtapA : ℝ := 6.22e-5

/-! ## The lines, `rust/src/kernels/photon_tables.rs:90-135` -/

/-- `ETA_TO_A_A_ENERGY`, `ETA_TO_A_A_WEIGHT`. -/
noncomputable def etaLine : Line := ⟨massEta / 2, 2 * brEtaAA⟩
/-- `ETAP_TO_A_A_ENERGY`, `ETAP_TO_A_A_WEIGHT`. -/
noncomputable def etapLine : Line := ⟨massEtap / 2, brEtapAA⟩
/-- `K0_TO_A_A_ENERGY`, `KL_TO_A_A_WEIGHT`. -/
noncomputable def klLine : Line := ⟨massK0 / 2, 2 * brKlAA⟩
/-- `K0_TO_A_A_ENERGY`, `KS_TO_A_A_WEIGHT`. -/
noncomputable def ksLine : Line := ⟨massK0 / 2, 2 * brKsAA⟩
/-- `OMEGA_TO_PI0_A_ENERGY`, `BR_OMEGA_TO_PI0_A`. -/
noncomputable def omegaPi0Line : Line :=
  ⟨(massOmega * massOmega - massPi0 * massPi0) / (2 * massOmega), brOmegaPi0A⟩
/-- `OMEGA_TO_ETA_A_ENERGY`, `BR_OMEGA_TO_ETA_A`. -/
noncomputable def omegaEtaLine : Line :=
  ⟨(massOmega * massOmega - massEta * massEta) / (2 * massOmega), brOmegaEtaA⟩
/-- `PHI_TO_ETA_A_ENERGY`, `BR_PHI_TO_ETA_A`. -/
noncomputable def phiEtaLine : Line :=
  ⟨(massPhi * massPhi + massEta * massEta) / (2 * massPhi), brPhiEtaA⟩
/-- `PHI_TO_ETAP_A_ENERGY`, `BR_PHI_TO_ETAP_A`. -/
noncomputable def phiEtapLine : Line :=
  ⟨(massPhi * massPhi + massEtap * massEtap) / (2 * massPhi), brPhiEtapA⟩

/-! ## The seven spectra, `rust/src/kernels/photon_tables.rs:279-363`, for any table -/

/-- `CHARGED_KAON`. -/
noncomputable def chargedKaon (t : Table) : Spectrum := ⟨t, massK, []⟩
/-- `LONG_KAON`. -/
noncomputable def longKaon (t : Table) : Spectrum := ⟨t, massK0, [klLine]⟩
/-- `SHORT_KAON`. -/
noncomputable def shortKaon (t : Table) : Spectrum := ⟨t, massK0, [ksLine]⟩
/-- `ETA`. -/
noncomputable def eta (t : Table) : Spectrum := ⟨t, massEta, [etaLine]⟩
/-- `ETA_PRIME`. -/
noncomputable def etaPrime (t : Table) : Spectrum := ⟨t, massEtap, [etapLine]⟩
/-- `OMEGA`. -/
noncomputable def omega (t : Table) : Spectrum := ⟨t, massOmega, [omegaPi0Line, omegaEtaLine]⟩
/-- `PHI`. -/
noncomputable def phi (t : Table) : Spectrum := ⟨t, massPhi, [phiEtaLine, phiEtapLine]⟩

/-! ## The columns of the tables, line 1 of `hazma/spectra/_photon/data/*_photon.csv` -/

/-- Final states of the columns with a photon, and of the lines: the daughter next to the photon;
`photon` for two photons. -/
inductive Daughter where
  | photon | pi0 | eta | etap | omega | rho
  deriving DecidableEq

/-- Mass of the daughter, from the same constants (`MASS_RHO` is `775.26`,
`rust/src/constants.rs:83`). -/
noncomputable def daughterMass : Daughter → ℝ
  | .photon => 0
  | .pi0 => massPi0
  | .eta => massEta
  | .etap => massEtap
  | .omega => massOmega
  | .rho => 775.26

/-- The seven parents. -/
inductive Parent where
  | chargedKaon | longKaon | shortKaon | eta | etaPrime | omega | phi
  deriving DecidableEq

/-- The spectrum of a parent. -/
noncomputable def spectrumOf : Parent → Table → Spectrum
  | .chargedKaon => PhotonTables.chargedKaon
  | .longKaon => PhotonTables.longKaon
  | .shortKaon => PhotonTables.shortKaon
  | .eta => PhotonTables.eta
  | .etaPrime => PhotonTables.etaPrime
  | .omega => PhotonTables.omega
  | .phi => PhotonTables.phi

/-- The two-body columns with a photon: `a_a` (`eta`, `eta_prime`), `rho0_a`, `omega_a`
(`eta_prime`), `pi0_a`, `eta_a` (`omega`, `phi`), `etap_a` (`phi`); for the neutral kaons, whose
tables have no such column, the mode of the line. -/
def photonModes : Parent → List Daughter
  | .chargedKaon => []
  | .longKaon => [.photon]
  | .shortKaon => [.photon]
  | .eta => [.photon]
  | .etaPrime => [.rho, .omega, .photon]
  | .omega => [.pi0, .eta]
  | .phi => [.eta, .pi0, .etap]

/-- The mode each line is written for (the names of the constants of
`rust/src/kernels/photon_tables.rs:90-135`). -/
noncomputable def lineModes : Parent → List (Daughter × Line)
  | .chargedKaon => []
  | .longKaon => [(.photon, klLine)]
  | .shortKaon => [(.photon, ksLine)]
  | .eta => [(.photon, etaLine)]
  | .etaPrime => [(.photon, etapLine)]
  | .omega => [(.pi0, omegaPi0Line), (.eta, omegaEtaLine)]
  | .phi => [(.eta, phiEtaLine), (.etap, phiEtapLine)]

/-- The branching ratio constant of a line (`rust/src/constants.rs:112-375`). -/
noncomputable def branchingRatio : Parent → Daughter → ℝ
  | .longKaon, .photon => brKlAA
  | .shortKaon, .photon => brKsAA
  | .eta, .photon => brEtaAA
  | .etaPrime, .photon => brEtapAA
  | .omega, .pi0 => brOmegaPi0A
  | .omega, .eta => brOmegaEtaA
  | .phi, .eta => brPhiEtaA
  | .phi, .etap => brPhiEtapA
  | _, _ => 0

end Hazma.PhotonTables
