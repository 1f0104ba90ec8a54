import Verif.Model.MediatorLines
import Verif.Model.CrossSections
import Verif.Model.Cmb
import Verif.Lemmas.Theory
import Mathlib.Tactic

/-! # C315: lines of the mediator models -/

namespace Hazma.MediatorLines

open Hazma Hazma.Theory

/-- The sum of the cross sections of the scalar model. -/
def scalarTotal (σ : String → ℝ → ℝ) (e : ℝ) : ℝ :=
  σ "mu mu" e + σ "e e" e + σ "g g" e + σ "pi0 pi0" e + σ "pi pi" e + σ "s s" e

/-- The sum of the cross sections of the vector model. -/
def vectorTotal (σ : String → ℝ → ℝ) (e : ℝ) : ℝ :=
  σ "mu mu" e + σ "e e" e + σ "pi pi" e + σ "pi0 g" e + σ "pi0 v" e + σ "v v" e

theorem scalar_sum (σ : String → ℝ → ℝ) (e : ℝ) :
    ((scalarFuncs σ).map fun kv => kv.2 e).sum = scalarTotal σ e := by
  simp [scalarFuncs, scalarTotal]; ring

theorem vector_sum (σ : String → ℝ → ℝ) (e : ℝ) :
    ((vectorFuncs σ).map fun kv => kv.2 e).sum = vectorTotal σ e := by
  simp [vectorFuncs, vectorTotal]; ring

/-- **C315.** The scalar model has one photon line, from `g g`, and one positron line, from `e e`, each at half the
energy and with the share of its channel in the total cross section (zero if nothing is open). -/
theorem scalar_lines (σ : String → ℝ → ℝ) (ecm : ℝ) :
    scalarGammaLines σ ecm = .ok [("g g", (ecm / 2, σ "g g" ecm / scalarTotal σ ecm))] ∧
    scalarPositronLines σ ecm = .ok [("e e", (ecm / 2, σ "e e" ecm / scalarTotal σ ecm))] := by
  have ht : "total" ∉ (scalarFuncs σ).keys := by simp [scalarFuncs, Dict.keys]
  constructor
  · unfold scalarGammaLines
    rw [annBf_eq _ ht, scalar_sum]
    simp [scalarFuncs, Dict.mapVals, index, Dict.get?, bind, Except.bind, pure, Except.pure]
  · unfold scalarPositronLines
    rw [annBf_eq _ ht, scalar_sum]
    simp [scalarFuncs, Dict.mapVals, index, Dict.get?, bind, Except.bind, pure, Except.pure]

/-- **C315.** The vector model has one photon line, from `pi0 g`, at the energy of a photon recoiling against a neutral
pion, and one positron line. -/
theorem vector_lines (mpi0 : ℝ) (σ : String → ℝ → ℝ) (ecm : ℝ) :
    vectorGammaLines mpi0 σ ecm
      = .ok [("pi0 g", ((ecm ^ 2 - mpi0 ^ 2) / (2 * ecm), σ "pi0 g" ecm / vectorTotal σ ecm))] ∧
    vectorPositronLines σ ecm = .ok [("e e", (ecm / 2, σ "e e" ecm / vectorTotal σ ecm))] := by
  have ht : "total" ∉ (vectorFuncs σ).keys := by simp [vectorFuncs, Dict.keys]
  constructor
  · unfold vectorGammaLines
    rw [annBf_eq _ ht, vector_sum]
    simp [vectorFuncs, Dict.mapVals, index, Dict.get?, bind, Except.bind, pure, Except.pure, Mediator.pi0gLine]
  · unfold vectorPositronLines
    rw [annBf_eq _ ht, vector_sum]
    simp [vectorFuncs, Dict.mapVals, index, Dict.get?, bind, Except.bind, pure, Except.pure]

/-- **C315.** The photon line of the vector model is where two-body kinematics puts it: the photon and the pion, with
opposite momenta, have the whole energy, if that is at least the pion mass used by the line. -/
theorem line_energies_partial {mpi0 ecm E bf : ℝ} (σ : String → ℝ → ℝ) (hm : 0 < mpi0) (he : mpi0 ≤ ecm)
    (h : vectorGammaLines mpi0 σ ecm = .ok [("pi0 g", (E, bf))]) :
    0 ≤ E ∧ E + Real.sqrt (E ^ 2 + mpi0 ^ 2) = ecm ∧ (0 < E ↔ mpi0 < ecm) := by
  rw [(vector_lines mpi0 σ ecm).1] at h
  simp only [Except.ok.injEq, List.cons.injEq, Prod.mk.injEq, and_true, true_and] at h
  obtain ⟨hE, -⟩ := h
  have h0 : 0 < ecm := by linarith
  refine ⟨?_, ?_, ?_⟩
  · rw [← hE]
    exact div_nonneg (by nlinarith) (by linarith)
  · rw [show E ^ 2 + mpi0 ^ 2 = ((ecm ^ 2 + mpi0 ^ 2) / (2 * ecm)) ^ 2 by rw [← hE]; field_simp; ring,
      Real.sqrt_sq (by positivity), ← hE]
    field_simp
    ring
  · rw [← hE, div_pos_iff_of_pos_right (by linarith), sub_pos]
    exact sq_lt_sq₀ hm.le h0.le

/-- **C315.** Branching fractions of the lines lie between zero and one. -/
theorem line_fractions (σ : String → ℝ → ℝ) (ecm : ℝ) (hσ : ∀ n, 0 ≤ σ n ecm) :
    (∀ n E bf, scalarGammaLines σ ecm = .ok [(n, (E, bf))] → 0 ≤ bf ∧ bf ≤ 1) ∧
    (∀ n E bf, scalarPositronLines σ ecm = .ok [(n, (E, bf))] → 0 ≤ bf ∧ bf ≤ 1) ∧
    (∀ mpi0 n E bf, vectorGammaLines mpi0 σ ecm = .ok [(n, (E, bf))] → 0 ≤ bf ∧ bf ≤ 1) ∧
    (∀ n E bf, vectorPositronLines σ ecm = .ok [(n, (E, bf))] → 0 ≤ bf ∧ bf ≤ 1) := by
  have key : ∀ a t : ℝ, 0 ≤ a → a ≤ t → 0 ≤ a / t ∧ a / t ≤ 1 := fun a t h1 h2 =>
    ⟨div_nonneg h1 (h1.trans h2), div_le_one_of_le₀ h2 (h1.trans h2)⟩
  have c := hσ "mu mu"; have c := hσ "e e"; have c := hσ "g g"; have c := hσ "pi0 pi0"
  have c := hσ "pi pi"; have c := hσ "s s"; have c := hσ "pi0 g"; have c := hσ "pi0 v"; have c := hσ "v v"
  refine ⟨fun n E bf h => ?_, fun n E bf h => ?_, fun mpi0 n E bf h => ?_, fun n E bf h => ?_⟩
  · rw [(scalar_lines σ ecm).1] at h
    simp only [Except.ok.injEq, List.cons.injEq, Prod.mk.injEq, and_true] at h
    rw [← h.2.2]; exact key _ _ (hσ _) (by unfold scalarTotal; linarith)
  · rw [(scalar_lines σ ecm).2] at h
    simp only [Except.ok.injEq, List.cons.injEq, Prod.mk.injEq, and_true] at h
    rw [← h.2.2]; exact key _ _ (hσ _) (by unfold scalarTotal; linarith)
  · rw [(vector_lines mpi0 σ ecm).1] at h
    simp only [Except.ok.injEq, List.cons.injEq, Prod.mk.injEq, and_true] at h
    rw [← h.2.2]; exact key _ _ (hσ _) (by unfold vectorTotal; linarith)
  · rw [(vector_lines 1 σ ecm).2] at h
    simp only [Except.ok.injEq, List.cons.injEq, Prod.mk.injEq, and_true] at h
    rw [← h.2.2]; exact key _ _ (hσ _) (by unfold vectorTotal; linarith)

/-- **C315.** In the CMB efficiency a line counts with its branching fraction, the efficiency at its energy and the
fraction of the energy that is in photons (or electrons and positrons): all of it for `g g` and `e e`, and the
photon's part for `pi0 g`. -/
theorem line_efficiency (t : Cmb.Table) {ecm E bf : ℝ} (he : 0 < ecm) (h1 : t.lo < E) (h2 : E ≤ t.hi) (fs : String) :
    (E = ecm / 2 → Cmb.lineLoop t fs ecm 0 [(fs, (E, bf))] = .ok (bf * t.f E)) ∧
    (∀ ch, ch ≠ fs → Cmb.lineLoop t fs ecm 0 [(ch, (E, bf))] = .ok (E / ecm * bf * t.f E)) := by
  have hev : t.eval E = .ok (t.f E) := by rw [Cmb.Table.eval, if_pos ⟨h1.le, h2⟩]
  constructor
  · intro hE
    simp only [Cmb.lineLoop, if_pos h1, hev, if_true]
    rw [hE]
    congr 1
    field_simp
    ring
  · intro ch hc
    simp only [Cmb.lineLoop, if_pos h1, hev, if_neg hc]
    congr 1
    field_simp
    ring

/-- **C315.** The cross section and the line of the vector model use different pion masses.  In between, the channel
is open and its photons have negative energy. -/
theorem negative_photon_energy (k : VectorModel.Consts) (hk : k.mpi0 = 134.9766) (hα : 0 < k.alpha) (hf : k.fpi ≠ 0)
    {ecm mx mv gvxx gvuu gvdd w : ℝ} (h1 : 134.9766 < ecm) (h2 : ecm < 134.9768) (hx : 2 * mx < ecm) (hx0 : 0 ≤ mx)
    (hg : gvxx ≠ 0) (hq : 2 * gvuu + gvdd ≠ 0) (hmv : mv ≠ 0) (hw : w ≠ 0) :
    0 < Xs.vectorPi0G k ecm mx mv gvxx gvuu gvdd w ∧
    ∀ σ, ∃ E bf, vectorGammaLines 134.9768 σ ecm = .ok [("pi0 g", (E, bf))] ∧ E < 0 := by
  constructor
  · unfold Xs.vectorPi0G
    rw [hk, if_neg (by rintro (h | h) <;> linarith)]
    have a : 0 < ecm ^ 2 - 134.9766 ^ 2 := by nlinarith
    have b : 0 < Real.sqrt (-4 * mx ^ 2 + ecm ^ 2) := Real.sqrt_pos.2 (by nlinarith)
    have c : 0 < Xs.propagator mv ecm w := by unfold Xs.propagator; positivity
    have d : 0 < ecm := by linarith
    have e : 0 < gvxx ^ 2 := by positivity
    have f : 0 < (2 * gvuu + gvdd) ^ 2 := by positivity
    have g : 0 < k.fpi ^ 2 := by positivity
    positivity
  · intro σ
    refine ⟨_, _, (vector_lines _ σ ecm).1, ?_⟩
    exact div_neg_of_neg_of_pos (by nlinarith) (by linarith)

/-- A concrete case: at 300 MeV with three units into two photons and one into electrons. -/
example : scalarGammaLines (fun n _ => if n = "g g" then 3 else if n = "e e" then 1 else 0) 300
    = .ok [("g g", (150, 3 / 4))] := by
  rw [(scalar_lines _ _).1]
  have h : ∀ a b : String, a ≠ b → (a = b) = False := fun a b h => eq_false h
  norm_num [scalarTotal, h "mu mu" "g g" (by decide), h "mu mu" "e e" (by decide), h "e e" "g g" (by decide),
    h "pi0 pi0" "g g" (by decide), h "pi0 pi0" "e e" (by decide), h "pi pi" "g g" (by decide),
    h "pi pi" "e e" (by decide), h "s s" "g g" (by decide), h "s s" "e e" (by decide)]

/-- A concrete case: at 300 MeV the photon recoiling against the pion has 119.6 MeV. -/
example : ∃ E bf, vectorGammaLines 134.9768 (fun _ _ => 1) 300 = .ok [("pi0 g", (E, bf))] ∧ bf = 1 / 6 ∧
    119.6 < E ∧ E < 119.7 := by
  refine ⟨_, _, (vector_lines _ _ _).1, ?_, ?_, ?_⟩ <;> norm_num [vectorTotal]

end Hazma.MediatorLines
