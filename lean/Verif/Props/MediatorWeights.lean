import Verif.Props.EndToEnd
import Mathlib.Tactic

/-!
# Decay products of a mediator are weighted with its branching fractions (C303)
-/

namespace Hazma.MediatorWeights

open Hazma.EndToEnd Hazma.MediatorSpectra Hazma.CythonKernels

/-- The photon spectrum of a particle of energy `E` and mass `m` whose decay at rest gives `rest`. -/
noncomputable def inFlight (rest : ℝ → ℝ) (E m e : ℝ) : ℝ :=
  ∫ c in (-1 : ℝ)..1, 1 / (2 * (E / m) * |1 - Real.sqrt (1 - (m / E) ^ 2) * c|) * rest (e * (E / m) * (1 - Real.sqrt (1 - (m / E) ^ 2) * c))

open Classical in
/-- A box of weight `b`: a photon of energy `m / 2` from a particle of energy `E` and mass `m`. -/
noncomputable def line (b E m e : ℝ) : ℝ :=
  if E * (1 - Real.sqrt (1 - (m / E) ^ 2)) / 2 ≤ e ∧ e ≤ E * (1 + Real.sqrt (1 - (m / E) ^ 2)) / 2
  then b / (E * Real.sqrt (1 - (m / E) ^ 2)) else 0

/-- **C303, scalar mediator.** The entry `"s s"` of `spectra` holds two mediators of half of the energy, each decaying into each final
state with the partial width of that state over the total width. -/
theorem scalar_pair (s : ScalarModel.Base) (w bfs : Dict ℝ) (ecm : ℝ) (es : List ℝ) {ge gmu gp0 gp gg G : ℝ}
    (he : w.get? "e e" = some ge) (hmu : w.get? "mu mu" = some gmu) (hp0 : w.get? "pi0 pi0" = some gp0)
    (hp : w.get? "pi pi" = some gp) (hg : w.get? "g g" = some gg) (hG : w.get? "total" = some G) (hG0 : G ≠ 0)
    (hopen : 2 * s.ms ≤ ecm) :
    ∃ d, scalarSpectra s w bfs (.ndarray es) ecm = .ok d ∧
      ("s s", Out.array (es.map fun e => (bfs.get? "s s").getD 0 * (2 *
        (inFlight (fun e' => ge / G * Fsr.scalarLepRest legacyQe legacyE e' s.ms
            + gmu / G * (Fsr.scalarLepRest legacyQe legacyMu e' s.ms + 2 * Spectra.dndePhotonMuon e' (s.ms / 2))
            + gp / G * (Fsr.scalarPiRest legacyQe legacyPi e' s.ms + 2 * photonTable Spectra.dndePhotonChargedPion s.ms e')
            + gp0 / G * (2 * Spectra.dndePhotonNeutralPion e' (s.ms / 2))) (ecm / 2) s.ms e
          + line (gg / G) (ecm / 2) s.ms e)))) ∈ d := by
  refine ⟨_, MediatorSpectra.scalar_spectra_array _ _ _ _, ?_⟩
  refine List.mem_append_left _ (List.mem_map.mpr ⟨"s s", by simp [scalarChannels], ?_⟩)
  simp only [Prod.mk.injEq, Out.array.injEq, true_and]
  refine List.map_congr_left fun e _ => ?_
  have hk : photonTable cPhotonChargedPion s.ms = photonTable Spectra.dndePhotonChargedPion s.ms := by
    congr 1; funext a b; exact photonChargedPion_eq a b
  have hpt : scalarPt (scalarKernels s w) ecm "s s" e
      = 2 * scalarDecayPhotons (scalarPws w) ⟨true, true, true, true, true, true, true⟩ e (ecm / 2) s.ms := by
    have : (scalarKernels s w).total ≠ 0 := by simp [scalarKernels, width, hG, hG0]
    unfold scalarPt
    rw [if_neg (by decide), if_neg (by decide), if_neg (by decide), if_neg (by decide), if_neg this]
    rfl
  rw [hpt]
  unfold bfOf scalarDecayPhotons Mediator.scalarPoint
  rw [if_neg (not_lt.mpr (by linarith : s.ms ≤ ecm / 2)), if_pos rfl]
  congr 3
  · unfold inFlight Mediator.photonIntegrand
    congr 1
    funext c
    unfold Mediator.gamma Mediator.beta Mediator.scalarRest
    simp only [if_true, scalarRestPhoton, hk, scalarPws, width, he, hmu, hp0, hp, hG, Option.getD_some, photonNeutralPion_eq, photonMuon_eq]
    ring
  · unfold Mediator.photonBox line Mediator.beta
    simp only [scalarPws, width, hg, hG, Option.getD_some]

/-- A vector mediator of energy `E` that decays into every final state with the partial width over the total width. -/
noncomputable def vectorDecay (ge gmu gp0g gp G m E e : ℝ) : ℝ :=
  inFlight (fun e' => ge / G * Fsr.vectorLepRest legacyQe legacyE e' m
      + gmu / G * (Fsr.vectorLepRest legacyQe legacyMu e' m + 2 * photonTable Spectra.dndePhotonMuon m e')
      + gp / G * (Fsr.vectorPiRest legacyQe legacyPi e' m + 2 * photonTable Spectra.dndePhotonChargedPion m e')
      + gp0g / G * Spectra.dndePhotonNeutralPion e' ((legacyPi0 ^ 2 + m ^ 2) / (2 * m))) E m e
    + line (gp0g / G) E m e

theorem vector_med (s : VectorModel.Base) (w : Dict ℝ) {ge gmu gp0g gp G : ℝ}
    (he : w.get? "e e" = some ge) (hmu : w.get? "mu mu" = some gmu) (hp0 : w.get? "pi0 g" = some gp0g)
    (hp : w.get? "pi pi" = some gp) (hG : w.get? "total" = some G) {E : ℝ} (hE : s.mv ≤ E) (e : ℝ) :
    (vectorKernels s w).med "total" e E = vectorDecay ge gmu gp0g gp G s.mv E e := by
  have hk : photonTable cPhotonChargedPion s.mv = photonTable Spectra.dndePhotonChargedPion s.mv := by
    congr 1; funext a b; exact photonChargedPion_eq a b
  have hk2 : photonTable cPhotonMuon s.mv = photonTable Spectra.dndePhotonMuon s.mv := by
    congr 1; funext a b; exact photonMuon_eq a b
  have hpe : vectorPi0Energy s.mv = (legacyPi0 ^ 2 + s.mv ^ 2) / (2 * s.mv) := by unfold vectorPi0Energy; rw [div_mul_eq_div_div]; ring
  show vectorDecayPhotons (vectorPws w) (vmode "total") e E s.mv = _
  unfold vectorDecayPhotons Mediator.vectorPoint vectorDecay vmode
  rw [if_neg (not_lt.mpr hE), if_pos rfl, if_pos (Or.inr rfl)]
  congr 1
  · unfold inFlight Mediator.photonIntegrand
    congr 1
    funext c
    unfold Mediator.gamma Mediator.beta Mediator.vectorRest
    simp only [vectorRestPhoton, hk, hk2, hpe, vectorPws, width, he, hmu, hp0, hp, hG, Option.getD_some, photonNeutralPion_eq]
    ring
  · unfold Mediator.photonBox line Mediator.beta
    simp only [vectorPws, width, hp0, hG, Option.getD_some]

/-- **C303, vector mediator.** The entries `"v v"` and `"pi0 v"` of `spectra` hold two mediators of half of the energy, and one mediator
and one neutral pion with the energies of a two-body state; each mediator decays with its branching fractions. -/
theorem vector_pair (s : VectorModel.Base) (w bfs : Dict ℝ) (ecm : ℝ) {es : List ℝ} (hes : es ≠ []) {ge gmu gp0g gp G : ℝ}
    (he : w.get? "e e" = some ge) (hmu : w.get? "mu mu" = some gmu) (hp0 : w.get? "pi0 g" = some gp0g)
    (hp : w.get? "pi pi" = some gp) (hG : w.get? "total" = some G) (hG0 : G ≠ 0) :
    ∃ d, vectorSpectra s w bfs (.ndarray es) ecm = .ok d ∧
      (2 * s.mv ≤ ecm → ("v v", Out.array (es.map fun e => (bfs.get? "v v").getD 0 *
        (2 * vectorDecay ge gmu gp0g gp G s.mv (ecm / 2) e))) ∈ d) ∧
      (0 ≤ s.mv → pyVector.mpi0 + s.mv ≤ ecm → ("pi0 v", Out.array (es.map fun e => (bfs.get? "pi0 v").getD 0 *
        (Spectra.dndePhotonNeutralPion e ((ecm ^ 2 + pyVector.mpi0 ^ 2 - s.mv ^ 2) / (2 * ecm))
          + vectorDecay ge gmu gp0g gp G s.mv ((ecm ^ 2 - pyVector.mpi0 ^ 2 + s.mv ^ 2) / (2 * ecm)) e))) ∈ d) := by
  have ht : (vectorKernels s w).total ≠ 0 := by simp [vectorKernels, width, hG, hG0]
  refine ⟨_, MediatorSpectra.vector_spectra_array_partial _ _ _ _ hes, fun hopen => ?_, fun hmv hopen => ?_⟩
  · refine List.mem_append_left _ (List.mem_map.mpr ⟨"v v", by simp [vectorChannels], ?_⟩)
    simp only [Prod.mk.injEq, Out.array.injEq, true_and]
    refine List.map_congr_left fun e _ => ?_
    rw [← vector_med s w he hmu hp0 hp hG (by linarith : s.mv ≤ ecm / 2)]
    unfold bfOf vectorPt
    rw [if_neg (by decide), if_neg (by decide), if_neg (by decide), if_neg (by decide), if_neg (by decide), if_neg ht]
  · refine List.mem_append_left _ (List.mem_map.mpr ⟨"pi0 v", by simp [vectorChannels], ?_⟩)
    simp only [Prod.mk.injEq, Out.array.injEq, true_and]
    refine List.map_congr_left fun e _ => ?_
    have hpi : (0 : ℝ) < pyVector.mpi0 := by norm_num [pyVector]
    have hE : s.mv ≤ (ecm ^ 2 - pyVector.mpi0 ^ 2 + s.mv ^ 2) / (2 * ecm) := by
      have h0 : 0 < ecm := by linarith
      rw [le_div_iff₀ (by linarith)]
      nlinarith
    rw [← vector_med s w he hmu hp0 hp hG hE]
    unfold bfOf vectorPt
    rw [if_neg (by decide), if_neg (by decide), if_neg (by decide), if_neg (by decide), if_pos rfl, if_neg ht]
    rfl

/-- A scalar of 400 MeV that decays into neutral pions three times out of four and into photons otherwise, made in pairs at 1 GeV: only
neutral pions and the line contribute. -/
example (s : ScalarModel.Base) (hs : s.ms = 400) :
    ∃ d, scalarSpectra s [("e e", 0), ("mu mu", 0), ("pi0 pi0", 3), ("pi pi", 0), ("g g", 1), ("total", 4)] [("s s", 1)]
        (.ndarray [100]) 1000 = .ok d ∧
      ("s s", Out.array [2 * (inFlight (fun e' => 3 / 4 * (2 * Spectra.dndePhotonNeutralPion e' 200)) 500 400 100
        + line (1 / 4) 500 400 100)]) ∈ d := by
  obtain ⟨d, h1, h2⟩ := scalar_pair s [("e e", 0), ("mu mu", 0), ("pi0 pi0", 3), ("pi pi", 0), ("g g", 1), ("total", 4)] [("s s", 1)] 1000 [100]
    (ge := 0) (gmu := 0) (gp0 := 3) (gp := 0) (gg := 1) (G := 4) rfl rfl rfl rfl rfl rfl (by norm_num) (by rw [hs]; norm_num)
  refine ⟨d, h1, ?_⟩
  convert h2 using 3
  simp only [List.map_cons, List.map_nil]
  have hb : (Dict.get? ([("s s", 1)] : Dict ℝ) "s s").getD 0 = 1 := rfl
  rw [hb, hs]
  norm_num

end Hazma.MediatorWeights
