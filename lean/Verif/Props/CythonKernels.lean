import Verif.Model.CythonKernels
import Verif.Props.PionSpectra
import Verif.Props.MediatorPositron
import Mathlib.Tactic

/-!
# The kernels behind the mediator decays agree with `hazma.spectra`
-/

namespace Hazma.CythonKernels

theorem k_massE : massE = Spectra.massE := rfl
theorem k_massMu : massMu = Spectra.massMu := rfl
theorem k_massPi : massPi = Spectra.massPi := rfl
theorem k_massPi0 : massPi0 = Spectra.massPi0 := rfl
theorem k_eps : dblEps = Spectra.f64eps := rfl
theorem k_rr : rr = Spectra.rr := rfl
theorem k_r2 : r2 = Spectra.rr ^ 2 := by rw [r2, k_rr]; ring
theorem k_beta (E m : ℝ) : cBoostBeta E m = Boost.boostBeta E m := by
  simp only [cBoostBeta, Boost.boostBeta, sq]
theorem k_gamma (E m : ℝ) : cBoostGamma E m = Boost.boostGamma E m := rfl
theorem k_spence : spence = Spectra.spence := rfl
theorem k_engMu : engMuPiRf = Spectra.engMuPiRf := by
  simp only [engMuPiRf, Spectra.engMuPiRf, k_massPi, k_massMu]; norm_num; ring
theorem k_engE : engEPiRf = Spectra.engEPiRf := rfl

theorem photonMuonRest_eq (e : ℝ) : cPhotonMuonRest e = Spectra.photonMuonRest e := by
  simp only [cPhotonMuonRest, Spectra.photonMuonRest, show alphaEM = Spectra.alphaEM from rfl, k_massMu,
    k_massE, show Spectra.massE / Spectra.massMu = Spectra.rr from rfl]
  split_ifs
  · rfl
  · ring

theorem photonMuon_eq (e E : ℝ) : cPhotonMuon e E = Spectra.dndePhotonMuon e E := by
  have hb : Real.sqrt (1 - (Spectra.massMu / E) ^ 2) = Boost.boostBeta E Spectra.massMu := by
    simp only [Boost.boostBeta, sq]
  simp only [cPhotonMuon, Spectra.dndePhotonMuon, show alphaEM = Spectra.alphaEM from rfl, k_massMu,
    k_massE, show Spectra.massE / Spectra.massMu = Spectra.rr from rfl, k_eps, photonMuonRest_eq,
    k_spence, hb, show E / Spectra.massMu = Boost.boostGamma E Spectra.massMu from rfl]
  split_ifs
  · rfl
  · rfl
  · rfl
  · ring
  · ring

theorem piLNuG_eq (e ml : ℝ) : cPiLNuG e ml = Spectra.dndePiLNuG e ml := by
  simp only [cPiLNuG, Spectra.dndePiLNuG, fpi, show alphaEM = Spectra.alphaEM from rfl, k_massPi,
    show decayConstPi = Spectra.decayConstPi from rfl, show fAPi = Spectra.fAPi from rfl,
    show fVPi = Spectra.fVPi from rfl, show fVPiSlope = Spectra.fVPiSlope from rfl]
  split_ifs
  · rfl
  · congr 1
    · ring
    · ring

theorem pionIntegrand_eq (cl e E : ℝ) :
    cPionIntegrand cl e E = Spectra.chargedPionPhotonIntegrand cl e E := by
  simp only [cPionIntegrand, Spectra.chargedPionPhotonIntegrand, k_massPi, k_massMu, k_massE,
    photonMuon_eq, piLNuG_eq, show brPiMuNu = Spectra.brPiMuNu from rfl,
    show brPiENu = Spectra.brPiENu from rfl, show engMuPirf = Spectra.engMuPirf from rfl, k_beta,
    k_gamma]
  rw [show 1 - Boost.boostBeta E Spectra.massPi * cl = -Boost.boostBeta E Spectra.massPi * cl + 1 by ring,
    show 2 * Boost.boostGamma E Spectra.massPi
      = Boost.boostGamma E Spectra.massPi + Boost.boostGamma E Spectra.massPi by ring]
  ring

theorem photonChargedPion_eq (e E : ℝ) :
    cPhotonChargedPion e E = Spectra.dndePhotonChargedPion e E := by
  simp only [cPhotonChargedPion, Spectra.dndePhotonChargedPion, k_massPi, pionIntegrand_eq]

theorem photonNeutralPion_eq (e E : ℝ) :
    cPhotonNeutralPion e E = Spectra.dndePhotonNeutralPion e E := by
  simp only [cPhotonNeutralPion, Spectra.dndePhotonNeutralPion, k_massPi0,
    show brPi0AA = Spectra.brPi0AA from rfl, sq]
  rw [show E * (1 - Real.sqrt (1 - Spectra.massPi0 / E * (Spectra.massPi0 / E))) / 2
      = E * (1 - Real.sqrt (1 - Spectra.massPi0 / E * (Spectra.massPi0 / E))) * 0.5 by norm_num; ring,
    show E * (1 + Real.sqrt (1 - Spectra.massPi0 / E * (Spectra.massPi0 / E))) / 2
      = E * (1 + Real.sqrt (1 - Spectra.massPi0 / E * (Spectra.massPi0 / E))) * 0.5 by norm_num; ring]

theorem positronMuonRest_eq (x : ℝ) : cPositronMuonRest x = Spectra.positronMuonRest x := by
  simp only [cPositronMuonRest, Spectra.positronMuonRest, k_rr, k_r2,
    show rFactor = Spectra.rFactor from rfl, sq x]
  split_ifs
  · rfl
  · ring

theorem positronMuonX_eq (x b : ℝ) : cPositronMuonX x b = Spectra.positronMuonX x b := by
  simp only [cPositronMuonX, Spectra.positronMuonX, k_rr, k_r2, k_eps, positronMuonRest_eq,
    show rFactor = Spectra.rFactor from rfl, sq x, sq b, gt_iff_lt, or_self]
  have h1 : ∀ s : ℝ, x - b * s = -b * s + x := fun s => by ring
  have h2 : ∀ s : ℝ, x + b * s = b * s + x := fun s => by ring
  simp only [h1, h2]
  split_ifs
  · rfl
  · rfl
  · rfl
  · ring

theorem positronMuon_eq (e E : ℝ) : cPositronMuon e E = Spectra.dndePositronMuon e E := by
  simp only [cPositronMuon, Spectra.dndePositronMuon, k_massMu, k_massE, k_eps, positronMuonRest_eq,
    positronMuonX_eq, k_beta]

theorem boostDelta_eq (e0 e m b : ℝ) : cBoostDelta e0 e m b = Boost.boostDeltaRust e0 e m b := by
  simp only [cBoostDelta, Boost.boostDeltaRust]
  by_cases h : b > 1 ∨ b ≤ 0 ∨ e < m
  · rw [if_pos h, if_pos h]
  rw [if_neg h, if_neg h]
  by_cases h1 : b = 1
  · subst h1
    rw [if_pos rfl, if_neg]
    norm_num
    intro h; exact h.le
  · rw [if_neg h1, show 1 - b * b = -b * b + 1 by ring, show e * e - m * m = e * e + -(m * m) by ring,
      show e0 * e0 - m * m = e0 * e0 + -(m * m) by ring, add_comm e (b * _),
      show e - b * Real.sqrt (e * e + -(m * m)) = -b * Real.sqrt (e * e + -(m * m)) + e by ring]

open MeasureTheory in
theorem integral_cut {f : ℝ → ℝ} {a u v : ℝ} (huv : u ≤ v) (hf : ∀ x, u < x → f x = 0) :
    ∫ x in a..u, f x = ∫ x in a..v, f x := by
  have hz : ∀ s t, u ≤ s → s ≤ t → ∫ x in s..t, f x = 0 := fun s t hs hst => by
    rw [intervalIntegral.integral_of_le hst]
    exact setIntegral_eq_zero_of_forall_eq_zero fun x hx => hf x (lt_of_le_of_lt hs hx.1)
  by_cases h : a ≤ u
  · rw [intervalIntegral.integral_of_le h, intervalIntegral.integral_of_le (h.trans huv)]
    refine (setIntegral_eq_of_subset_of_forall_sdiff_eq_zero measurableSet_Ioc
      (Set.Ioc_subset_Ioc_right huv) ?_).symm
    rintro x ⟨hx, hn⟩
    exact hf x (by by_contra hc; exact hn ⟨hx.1, not_lt.mp hc⟩)
  · push Not at h
    rw [intervalIntegral.integral_symm, hz u a le_rfl h.le]
    rcases le_total a v with h2 | h2
    · rw [hz a v h.le h2, neg_zero]
    · rw [intervalIntegral.integral_symm, hz v a huv h2]

/-- The computed end point is the electron energy of the two-body decay. -/
theorem emaxPiRf_eq : emaxPiRf = Spectra.engEPiRf := by
  have h1 : betaMu = (massPi ^ 2 - massMu ^ 2) / (massPi ^ 2 + massMu ^ 2) := by
    rw [betaMu, show 1 - (massMu / engMuPiRf) ^ 2 = ((massPi ^ 2 - massMu ^ 2) / (massPi ^ 2 + massMu ^ 2)) ^ 2 by
      unfold engMuPiRf massPi massMu; norm_num]
    exact Real.sqrt_sq (by unfold massPi massMu; norm_num)
  have h2 : Real.sqrt (1 - (massE / emaxMuRf) ^ 2)
      = (massMu ^ 2 - massE ^ 2) / (massMu ^ 2 + massE ^ 2) := by
    rw [show 1 - (massE / emaxMuRf) ^ 2 = ((massMu ^ 2 - massE ^ 2) / (massMu ^ 2 + massE ^ 2)) ^ 2 by
      unfold emaxMuRf massE massMu; norm_num]
    exact Real.sqrt_sq (by unfold massE massMu; norm_num)
  rw [emaxPiRf, h1, h2]
  unfold gammaMu engMuPiRf emaxMuRf Spectra.engEPiRf massPi massMu massE Spectra.massPi Spectra.massE
  norm_num

open Spectra Boost in
theorem positron_zero_above {e : ℝ} (h : Spectra.engEPiRf < e) :
    Spectra.dndePositronMuon e Spectra.engMuPiRf = 0 := by
  have hlt : Spectra.massMu < Spectra.engMuPiRf := by
    unfold Spectra.massMu Spectra.engMuPiRf Spectra.massPi Spectra.massMu; norm_num
  obtain ⟨hb0, hb1, hg, hb⟩ := parent_boost massMu_pos hlt
  have he : Spectra.massE < e := lt_trans (by unfold Spectra.massE Spectra.engEPiRf Spectra.massPi Spectra.massE; norm_num) h
  rw [positron_muon_is_boost e _ he engMu_eps]
  refine boosted_support (hi := Spectra.massMu / 2 * (1 + Spectra.rr ^ 2)) hb0 hb1 massE_pos.le emax_mu ?_ ?_
  · intro x hx; exact positronRestE_zero' (Or.inr hx.le)
  · rw [muon_endpoint_in_pion]; linarith

theorem positronPionIntegrand_eq (e : ℝ) : cPositronPionIntegrand e = Spectra.positronPionIntegrand e := by
  simp only [cPositronPionIntegrand, Spectra.positronPionIntegrand, positronMuon_eq, k_engMu, k_massE, sq]

theorem positronChargedPion_eq (e E : ℝ) :
    cPositronChargedPion e E = Spectra.dndePositronChargedPion e E := by
  have hi : ∀ a b : ℝ, ∫ x in a..(min b Spectra.engEPiRf), Spectra.positronPionIntegrand x
      = ∫ x in a..(min b Spectra.emaxPiRf), Spectra.positronPionIntegrand x := by
    intro a b
    have hE : Spectra.engEPiRf ≤ Spectra.emaxPiRf := by
      unfold Spectra.engEPiRf Spectra.emaxPiRf Spectra.massPi Spectra.massE; norm_num
    by_cases hb : b ≤ Spectra.engEPiRf
    · rw [min_eq_left hb, min_eq_left (hb.trans hE)]
    · push Not at hb
      refine integral_cut (min_le_min_left _ hE) fun x hx => ?_
      rw [min_eq_right hb.le] at hx
      rw [Spectra.positronPionIntegrand, positron_zero_above hx, zero_div]
  simp only [cPositronChargedPion, Spectra.dndePositronChargedPion, k_massPi, k_massE, k_eps, k_beta, k_gamma,
    emaxPiRf_eq, positronPionIntegrand_eq, boostDelta_eq, k_engE, show brPiMuNu = Spectra.brPiMuNu from rfl,
    show brPiENu = Spectra.brPiENu from rfl, hi, sq]
  have h1 : ∀ b s : ℝ, e - b * s = -b * s + e := fun b s => by ring
  have h2 : ∀ b s : ℝ, e + b * s = b * s + e := fun b s => by ring
  simp only [h1, h2]

/-- C255: every kernel that the mediators' decay spectra use equals the kernel of `hazma.spectra` for
all energies. -/
theorem kernels_agree (e E : ℝ) :
    cPhotonMuon e E = Spectra.dndePhotonMuon e E
    ∧ cPhotonChargedPion e E = Spectra.dndePhotonChargedPion e E
    ∧ cPhotonNeutralPion e E = Spectra.dndePhotonNeutralPion e E
    ∧ cPositronMuon e E = Spectra.dndePositronMuon e E
    ∧ cPositronChargedPion e E = Spectra.dndePositronChargedPion e E :=
  ⟨photonMuon_eq e E, photonChargedPion_eq e E, photonNeutralPion_eq e E, positronMuon_eq e E,
    positronChargedPion_eq e E⟩

/-! ### Tables -/

theorem logspace_zero (a b : ℝ) : logspace a b 0 = 10 ^ a := by simp [logspace]

theorem logspace_last (a b : ℝ) : logspace a b 499 = 10 ^ b := by
  unfold logspace; congr 1; push_cast; ring

theorem ten_log10 {x : ℝ} (hx : 0 < x) : (10 : ℝ) ^ log10 x = x := by
  rw [log10, Real.rpow_def_of_pos (by norm_num),
    mul_div_cancel₀ _ (Real.log_pos (by norm_num)).ne', Real.exp_log hx]

theorem logspace_mono {a b : ℝ} (h : a < b) : StrictMono (logspace a b) := by
  intro i j hij
  unfold logspace
  refine Real.rpow_lt_rpow_of_exponent_lt (by norm_num) ?_
  have : (i : ℝ) < j := by exact_mod_cast hij
  have h2 : 0 < (b - a) / 499 := by apply div_pos <;> linarith
  nlinarith

/-- At a point of an increasing table the interpolation returns the tabulated value. -/
theorem npInterp_node {xs ys : ℕ → ℝ} (hx : StrictMono xs) {k : ℕ} (hk : k ≤ 499) :
    npInterp xs ys (xs k) = ys k := by
  classical
  have hj : Nat.findGreatest (fun j => xs j ≤ xs k) 499 = k := by
    rw [Nat.findGreatest_eq_iff]
    refine ⟨hk, fun _ => le_rfl, fun n hn _ => ?_⟩
    exact not_le.mpr (hx hn)
  unfold npInterp
  rw [if_neg (not_lt.mpr (hx.monotone (Nat.zero_le k))), if_neg (not_lt.mpr (hx.monotone hk))]
  simp only
  have hj' : Nat.findGreatest (fun j => xs j ≤ xs k) 499 = k := hj
  simp only [hj']
  split_ifs with h
  · rw [h]
  · rw [sub_self, mul_zero, zero_add]

/-- Between the end points the interpolation lies on the chord of the cell that contains the
argument. -/
theorem npInterp_chord {xs ys : ℕ → ℝ} (hx : StrictMono xs) {x : ℝ} (h0 : xs 0 ≤ x) (h1 : x < xs 499) :
    ∃ j < 499, xs j ≤ x ∧ x < xs (j + 1) ∧ ∃ t, 0 ≤ t ∧ t < 1
      ∧ x = (1 - t) * xs j + t * xs (j + 1) ∧ npInterp xs ys x = (1 - t) * ys j + t * ys (j + 1) := by
  classical
  obtain ⟨j, hj⟩ : ∃ j, j = Nat.findGreatest (fun j => xs j ≤ x) 499 := ⟨_, rfl⟩
  have hs := (Nat.findGreatest_eq_iff (P := fun j => xs j ≤ x)).mp hj.symm
  have hle : xs j ≤ x := by
    by_cases h : j = 0
    · rw [h]; exact h0
    · exact hs.2.1 h
  have hlt : j < 499 := by
    refine lt_of_le_of_ne hs.1 fun h => ?_
    rw [h] at hle; linarith
  have hnx : x < xs (j + 1) := not_le.mp (hs.2.2 (Nat.lt_succ_self j) hlt)
  have hd : 0 < xs (j + 1) - xs j := by linarith
  refine ⟨j, hlt, hle, hnx, (x - xs j) / (xs (j + 1) - xs j), div_nonneg (by linarith) hd.le, ?_, ?_, ?_⟩
  · rw [div_lt_one hd]; linarith
  · field_simp; ring
  · unfold npInterp
    rw [if_neg (not_lt.mpr h0), if_neg (not_lt.mpr h1.le)]
    simp only [← hj, if_neg hlt.ne]
    field_simp; ring

theorem npInterp_above {xs ys : ℕ → ℝ} (hx : StrictMono xs) {x : ℝ} (h : xs 499 ≤ x) :
    npInterp xs ys x = ys 499 := by
  rcases h.eq_or_lt with h | h
  · rw [← h]; exact npInterp_node hx le_rfl
  · unfold npInterp
    rw [if_neg (not_lt.mpr ((hx.monotone (Nat.zero_le 499)).trans h.le)), if_pos h]

theorem npInterp_below {xs ys : ℕ → ℝ} (hx : StrictMono xs) {x : ℝ} (h : x ≤ xs 0) :
    npInterp xs ys x = ys 0 := by
  rcases h.eq_or_lt with h | h
  · rw [h]; exact npInterp_node hx (Nat.zero_le _)
  · unfold npInterp; rw [if_pos h]

theorem npInterp_zero {xs ys : ℕ → ℝ} (h : ∀ i, ys i = 0) (x : ℝ) : npInterp xs ys x = 0 := by
  unfold npInterp; simp [h]

theorem photonNode_zero (m : ℝ) : photonNode m 0 = 0.1 := by
  rw [photonNode, logspace_zero, Real.rpow_neg_one]; norm_num

theorem photonNode_last {m : ℝ} (hm : 0 < m) : photonNode m 499 = m / 2 := by
  rw [photonNode, logspace_last, ten_log10 (by linarith)]

theorem log10_tenth : log10 0.1 = -1 := by
  rw [log10, show (0.1 : ℝ) = 10⁻¹ by norm_num, Real.log_inv, neg_div, div_self]
  exact (Real.log_pos (by norm_num)).ne'

theorem log10_lt {x y : ℝ} (hx : 0 < x) (h : x < y) : log10 x < log10 y :=
  div_lt_div_of_pos_right (Real.log_lt_log hx h) (Real.log_pos (by norm_num))

theorem photonNode_mono {m : ℝ} (hm : 0.2 < m) : StrictMono (photonNode m) := by
  refine logspace_mono ?_
  rw [← log10_tenth]
  exact log10_lt (by norm_num) (by linarith)

theorem positronNode_zero (m : ℝ) : positronNode m 0 = legacyE := by
  rw [positronNode, logspace_zero, ten_log10 (by unfold legacyE; norm_num)]

theorem positronNode_last {m : ℝ} (hm : 0 < m) : positronNode m 499 = m / 2 := by
  rw [positronNode, logspace_last, ten_log10 (by linarith)]

theorem positronNode_mono {m : ℝ} (hm : 2 * legacyE < m) : StrictMono (positronNode m) :=
  logspace_mono (log10_lt (by unfold legacyE; norm_num) (by linarith))

/-! ### End points of the kernels at half of the mediator's mass -/

theorem beta_le_one (E m : ℝ) : Boost.boostBeta E m ≤ 1 := by
  unfold Boost.boostBeta
  exact Real.sqrt_le_one.mpr (by nlinarith [mul_self_nonneg (m / E)])

theorem chargedPion_above {E e : ℝ} (h : E ≤ e) : cPhotonChargedPion e E = 0 := by
  rw [photonChargedPion_eq]
  have hp := Spectra.massPi_pos
  rcases lt_trichotomy E Spectra.massPi with hE | hE | hE
  · exact ((Spectra.kernels_below_threshold e E).2.1 hE).1
  · exact (Spectra.kernels_at_rest_endpoint e E).2.2.1 hE (by linarith)
  · refine (Spectra.kernels_above_endpoint e E).2.2.1 hE ?_
    nlinarith [beta_le_one E Spectra.massPi]

theorem photonMuon_above {E e : ℝ} (h : E ≤ e) : cPhotonMuon e E = 0 := by
  rw [photonMuon_eq]
  have hp := Spectra.massMu_pos
  have hr := Spectra.rr_pos
  by_cases hE : E < Spectra.massMu
  · exact ((Spectra.kernels_below_threshold e E).1 hE).1
  push Not at hE
  by_cases h2 : E - Spectra.massMu < Spectra.f64eps
  · refine (Spectra.kernels_at_rest_endpoint e E).1 hE h2 ?_
    nlinarith [mul_pos hp (pow_pos hr 2)]
  · push Not at h2
    refine (Spectra.kernels_above_endpoint e E).1 h2 ?_
    have hb := beta_le_one E Spectra.massMu
    have hb0 : 0 ≤ Boost.boostBeta E Spectra.massMu := Real.sqrt_nonneg _
    have h3 : E * (1 + Boost.boostBeta E Spectra.massMu) / 2 ≤ E := by nlinarith
    have h4 : 0 ≤ E * (1 + Boost.boostBeta E Spectra.massMu) / 2 := by
      have : 0 ≤ E := by linarith
      positivity
    nlinarith [mul_nonneg h4 (pow_pos hr 2).le]

theorem neutralPion_above {E e : ℝ} (h : E < e) : cPhotonNeutralPion e E = 0 := by
  unfold cPhotonNeutralPion
  split_ifs with h1
  · rfl
  · simp only
    rw [if_neg]
    rintro ⟨-, h2⟩
    have hb : Real.sqrt (1 - (massPi0 / E) ^ 2) ≤ 1 := Real.sqrt_le_one.mpr (by nlinarith [sq_nonneg (massPi0 / E)])
    have : 0 < E := by push Not at h1; exact lt_of_lt_of_le (by unfold massPi0; norm_num) h1
    nlinarith

/-- Above half of the mediator's mass a photon table vanishes. -/
theorem photonTable_above {kernel : ℝ → ℝ → ℝ} {mass : ℝ} (hmass : 0.1 < mass)
    (hlow : ∀ e E, E < mass → kernel e E = 0) (hend : ∀ e E, E ≤ e → kernel e E = 0) {m e : ℝ}
    (hm : 0 < m) (h : m / 2 ≤ e) : photonTable kernel m e = 0 := by
  unfold photonTable
  by_cases hM : m / 2 < mass
  · rw [hlow _ _ hM, zero_mul, zero_div, npInterp_zero fun i => hlow _ _ hM, ite_self]
  · push Not at hM
    rw [if_neg (by linarith), npInterp_above (photonNode_mono (by linarith)) (by rw [photonNode_last hm]; exact h)]
    exact hend _ _ (photonNode_last hm).ge

theorem pion_low (e E : ℝ) (h : E < massPi) : cPhotonChargedPion e E = 0 := by
  unfold cPhotonChargedPion; rw [if_pos h]

theorem muon_low (e E : ℝ) (h : E < massMu) : cPhotonMuon e E = 0 := by
  unfold cPhotonMuon; rw [if_pos h]

theorem pionTable_above {m e : ℝ} (hm : 0 < m) (h : m / 2 ≤ e) : photonTable cPhotonChargedPion m e = 0 :=
  photonTable_above (by unfold massPi; norm_num) pion_low (fun _ _ => chargedPion_above) hm h

theorem muonTable_above {m e : ℝ} (hm : 0 < m) (h : m / 2 ≤ e) : photonTable cPhotonMuon m e = 0 :=
  photonTable_above (by unfold massMu; norm_num) muon_low (fun _ _ => photonMuon_above) hm h

/-- C256: the tabulated spectrum of a charged pion or muon in a mediator's decay is the spectrum of
`hazma.spectra` at the points of the table, lies on the chord of neighbouring values in between,
falls like `1/E` below the first point (0.1 MeV) and vanishes from half of the mediator's mass on. -/
theorem photon_tables {m : ℝ} (hm : 0.2 < m) :
    photonNode m 0 = 0.1 ∧ photonNode m 499 = m / 2 ∧ StrictMono (photonNode m)
    ∧ ∀ p ∈ [(cPhotonChargedPion, Spectra.dndePhotonChargedPion), (cPhotonMuon, Spectra.dndePhotonMuon)],
      (∀ k ≤ 499, photonTable p.1 m (photonNode m k) = p.2 (photonNode m k) (m / 2))
      ∧ (∀ e, 0.1 ≤ e → e < m / 2 → ∃ j < 499, photonNode m j ≤ e ∧ e < photonNode m (j + 1)
          ∧ ∃ t, 0 ≤ t ∧ t < 1 ∧ e = (1 - t) * photonNode m j + t * photonNode m (j + 1)
            ∧ photonTable p.1 m e
              = (1 - t) * p.2 (photonNode m j) (m / 2) + t * p.2 (photonNode m (j + 1)) (m / 2))
      ∧ (∀ e, e < 0.1 → photonTable p.1 m e = p.2 0.1 (m / 2) * 0.1 / e)
      ∧ (∀ e, m / 2 ≤ e → photonTable p.1 m e = 0) := by
  have hm0 : 0 < m := by linarith
  have hmono := photonNode_mono hm
  refine ⟨photonNode_zero m, photonNode_last hm0, hmono, ?_⟩
  have hk : ∀ p ∈ [(cPhotonChargedPion, Spectra.dndePhotonChargedPion), (cPhotonMuon, Spectra.dndePhotonMuon)],
      p.1 = p.2 := by
    intro p hp
    simp only [List.mem_cons, List.not_mem_nil, or_false] at hp
    rcases hp with rfl | rfl
    · funext e E; exact photonChargedPion_eq e E
    · funext e E; exact photonMuon_eq e E
  intro p hp
  have hpe := hk p hp
  refine ⟨?_, ?_, ?_, ?_⟩
  · intro k hk
    have : ¬ photonNode m k < 0.1 := by
      rw [← photonNode_zero m]; exact not_lt.mpr (hmono.monotone (Nat.zero_le k))
    rw [photonTable, if_neg this, npInterp_node hmono hk, hpe]
  · intro e h1 h2
    obtain ⟨j, hj, ha, hb, t, ht⟩ := npInterp_chord (ys := fun i => p.1 (photonNode m i) (m / 2)) (x := e) hmono
      (by rw [photonNode_zero]; exact h1) (by rw [photonNode_last hm0]; exact h2)
    refine ⟨j, hj, ha, hb, t, ht.1, ht.2.1, ht.2.2.1, ?_⟩
    rw [photonTable, if_neg (not_lt.mpr h1), ht.2.2.2, hpe]
  · intro e he
    rw [photonTable, if_pos he, photonNode_zero, hpe]
  · intro e he
    simp only [List.mem_cons, List.not_mem_nil, or_false] at hp
    rcases hp with rfl | rfl
    · exact pionTable_above hm0 he
    · exact muonTable_above hm0 he

/-! ### Photons of a moving mediator -/

open Hazma.Mediator Hazma.Spectra Hazma.Boost

theorem lab_max {E m : ℝ} (hm : 0 < m) (h : m < E) :
    labEnergy (m / 2) 0 (Mediator.beta E m) 1 = E * (1 + Mediator.beta E m) / 2 := by
  obtain ⟨h0, h1, hg, hb⟩ := beta_facts hm h
  unfold labEnergy
  rw [momentum_zero (by linarith), hg, Mediator.gamma]
  field_simp

theorem fsr_above {m e ml : ℝ} (hm : 0 < m) (h : m / 2 < e) :
    Fsr.scalarLepRest legacyQe ml e m = 0 ∧ Fsr.scalarPiRest legacyQe ml e m = 0
    ∧ Fsr.vectorLepRest legacyQe ml e m = 0 ∧ Fsr.vectorPiRest legacyQe ml e m = 0 := by
  have hx : 2 * e / m < 0 ∨ 2 * e / m > 1 - 4 * (ml / m) ^ 2 := by
    right
    have : 1 < 2 * e / m := by rw [lt_div_iff₀ hm]; linarith
    nlinarith [sq_nonneg (ml / m)]
  refine ⟨?_, ?_, ?_, ?_⟩ <;>
    simp only [Fsr.scalarLepRest, Fsr.scalarPiRest, Fsr.vectorLepRest, Fsr.vectorPiRest, if_pos hx]

theorem scalar_rest_above {m e : ℝ} (hm : 0 < m) (h : m / 2 < e) (pws : Fin 5 → ℝ) (b : Modes) :
    scalarRest (scalarRestPhoton m) pws b e = 0 := by
  have h1 := fsr_above (ml := legacyE) hm h
  have h2 := fsr_above (ml := legacyMu) hm h
  have h3 := fsr_above (ml := legacyPi) hm h
  simp only [scalarRest, scalarRestPhoton, h1.1, h2.1, h3.2.1, pionTable_above hm h.le,
    neutralPion_above h, photonMuon_above h.le, mul_zero, ite_self, add_zero]

theorem photonBox_above {bf E m e : ℝ} (h : E * (1 + Mediator.beta E m) / 2 < e) : photonBox bf E m e = 0 := by
  unfold photonBox
  rw [if_neg (fun hc => absurd hc.2 (not_le.mpr h))]

/-- The pion of `v → pi0 gamma` does not radiate above half of the mediator's mass. -/
theorem vectorPi0_above {m e : ℝ} (hm : legacyPi0 ≤ m) (h : m / 2 < e) :
    cPhotonNeutralPion e (vectorPi0Energy m) = 0 := by
  have hl : (0 : ℝ) < legacyPi0 := by unfold legacyPi0; norm_num
  have hm0 : 0 < m := by linarith
  unfold cPhotonNeutralPion
  split_ifs with h1
  · rfl
  simp only
  push Not at h1
  rw [if_neg]
  rintro ⟨-, h2⟩
  have hM : (0 : ℝ) < CythonKernels.massPi0 := by unfold CythonKernels.massPi0; norm_num
  have hE : 0 < vectorPi0Energy m := lt_of_lt_of_le hM h1
  have hEe : vectorPi0Energy m = (legacyPi0 ^ 2 + m ^ 2) / (2 * m) := by
    unfold vectorPi0Energy; norm_num; field_simp
  have hp : vectorPi0Energy m * Real.sqrt (1 - (CythonKernels.massPi0 / vectorPi0Energy m) ^ 2)
      ≤ (m ^ 2 - legacyPi0 ^ 2) / (2 * m) := by
    have hr : 0 ≤ (m ^ 2 - legacyPi0 ^ 2) / (2 * m) := div_nonneg (by nlinarith) (by linarith)
    have e1 : vectorPi0Energy m * Real.sqrt (1 - (CythonKernels.massPi0 / vectorPi0Energy m) ^ 2)
        = Real.sqrt (vectorPi0Energy m ^ 2 - CythonKernels.massPi0 ^ 2) := by
      rw [show vectorPi0Energy m ^ 2 - CythonKernels.massPi0 ^ 2
          = vectorPi0Energy m ^ 2 * (1 - (CythonKernels.massPi0 / vectorPi0Energy m) ^ 2) by field_simp,
        Real.sqrt_mul (sq_nonneg _), Real.sqrt_sq hE.le]
    rw [e1]
    refine Real.sqrt_le_iff.mpr ⟨hr, ?_⟩
    have e2 : ((m ^ 2 - legacyPi0 ^ 2) / (2 * m)) ^ 2 = vectorPi0Energy m ^ 2 - legacyPi0 ^ 2 := by
      rw [hEe]; field_simp; ring
    rw [e2]
    have : legacyPi0 ^ 2 ≤ CythonKernels.massPi0 ^ 2 := by
      unfold legacyPi0 CythonKernels.massPi0; norm_num
    linarith
  have e3 : (legacyPi0 ^ 2 + m ^ 2) / (2 * m) + (m ^ 2 - legacyPi0 ^ 2) / (2 * m) = m := by field_simp; ring
  rw [mul_add, mul_one] at h2
  linarith

theorem vector_rest_above {m e : ℝ} (hm : 0 < m) (h : m / 2 < e) (pws : Fin 5 → ℝ) (mode : VMode)
    (hp : legacyPi0 ≤ m ∨ pws 2 = 0) : vectorRest (vectorRestPhoton m) pws mode e = 0 := by
  have h1 := fsr_above (ml := legacyE) hm h
  have h2 := fsr_above (ml := legacyMu) hm h
  have h3 := fsr_above (ml := legacyPi) hm h
  have h4 : pws 2 * cPhotonNeutralPion e (vectorPi0Energy m) = 0 := by
    rcases hp with hp | hp
    · rw [vectorPi0_above hp h, mul_zero]
    · rw [hp, zero_mul]
  cases mode <;>
  simp only [vectorRest, vectorRestPhoton, h1.2.2.1, h2.2.2.1, h3.2.2.2, pionTable_above hm h.le,
    muonTable_above hm h.le, h4, mul_zero, add_zero]

/-- C257: a moving mediator emits no photon above the largest energy that a massless particle can
have in its decay. -/
theorem photon_endpoint (pws : Fin 5 → ℝ) {E m e : ℝ} (hm : 0 < m) (h : m < E)
    (he : E * (1 + Real.sqrt (1 - (m / E) ^ 2)) / 2 < e) :
    (∀ b, scalarDecayPhotons pws b e E m = 0)
    ∧ (legacyPi0 ≤ m ∨ pws 2 = 0 → ∀ mode, vectorDecayPhotons pws mode e E m = 0) := by
  change E * (1 + Mediator.beta E m) / 2 < e at he
  obtain ⟨h0, h1, hg, hb⟩ := beta_facts hm h
  have hE : 0 < E := hm.trans h
  have hepos : 0 < e := lt_trans (by positivity) he
  have hz : ∀ f : ℝ → ℝ, (∀ x, m / 2 < x → f x = 0) →
      ∫ cl in (-1 : ℝ)..1, photonIntegrand f E m e cl = 0 := fun f hf => by
    rw [photon_integral_is_boost f hm h hepos]
    exact boosted_support h0 h1 le_rfl (hi := m / 2) (by linarith) hf (by rw [lab_max hm h]; exact he.le)
  refine ⟨fun b => ?_, fun hp mode => ?_⟩
  · rw [scalarDecayPhotons, scalarPoint, if_neg (not_lt.mpr h.le),
      hz _ fun x hx => scalar_rest_above hm hx pws b, photonBox_above he, ite_self, add_zero]
  · rw [vectorDecayPhotons, vectorPoint, if_neg (not_lt.mpr h.le),
      hz _ fun x hx => vector_rest_above hm hx pws mode hp, photonBox_above he, ite_self, add_zero]

/-- C258: the muons and neutral pions of a decaying scalar mediator radiate as `hazma.spectra` says for
particles of half the mediator's mass, boosted to the laboratory. -/
theorem scalar_decay_uses_spectra (pws : Fin 5 → ℝ) {E m e : ℝ} (hm : 0 < m) (h : m < E) (he : 0 < e) :
    scalarDecayPhotons pws (modesOf ["mu mu"]) e E m
        = boosted (fun x => 2 * pws 1 * dndePhotonMuon x (m / 2)) 0 (boostBeta E m) e
    ∧ scalarDecayPhotons pws (modesOf ["pi0 pi0"]) e E m
        = boosted (fun x => 2 * pws 2 * dndePhotonNeutralPion x (m / 2)) 0 (boostBeta E m) e
    ∧ scalarDecayPhotons pws (modesOf ["pi pi"]) e E m
        = boosted (fun x => 2 * pws 3 * photonTable dndePhotonChargedPion m x) 0 (boostBeta E m) e := by
  have eb : Mediator.beta E m = boostBeta E m := by simp only [Mediator.beta, boostBeta, sq]
  have hk : cPhotonChargedPion = dndePhotonChargedPion := by funext x y; exact photonChargedPion_eq x y
  refine ⟨?_, ?_, ?_⟩ <;>
  · rw [scalarDecayPhotons, scalarPoint, if_neg (not_lt.mpr h.le), photon_integral_is_boost _ hm h he, eb]
    simp only [modesOf, scalarRestPhoton, photonMuon_eq, photonNeutralPion_eq, hk]
    simp only [List.mem_cons, List.not_mem_nil, or_false, String.reduceEq, decide_false, decide_true,
      Bool.false_eq_true, if_false, add_zero]
    congr 1
    funext x
    simp [scalarRest]

/-- C259 fails: a vector mediator whose mass is above the neutral pion's but close to it decays into a
pion and a photon, but the photons of the pion are missing at every energy. -/
theorem vector_pi0_window {m : ℝ} (hm : legacyPi0 ≤ m)
    (h : (m - legacyPi0) ^ 2 < 2 * m * (CythonKernels.massPi0 - legacyPi0)) (pws : Fin 5 → ℝ) (e E : ℝ)
    (hE : m < E) :
    (∀ x, cPhotonNeutralPion x (vectorPi0Energy m) = 0)
    ∧ vectorDecayPhotons pws .p0g e E m = photonBox (pws 2) E m e := by
  have hm0 : 0 < m := lt_of_lt_of_le (by unfold legacyPi0; norm_num) hm
  have hEe : vectorPi0Energy m = (legacyPi0 ^ 2 + m ^ 2) / (2 * m) := by
    unfold vectorPi0Energy; norm_num; field_simp
  have hlt : vectorPi0Energy m < CythonKernels.massPi0 := by
    rw [hEe, div_lt_iff₀ (by linarith)]; nlinarith
  have hz : ∀ x, cPhotonNeutralPion x (vectorPi0Energy m) = 0 := fun x => by
    unfold cPhotonNeutralPion; rw [if_pos hlt]
  refine ⟨hz, ?_⟩
  rw [vectorDecayPhotons, vectorPoint, if_neg (not_lt.mpr hE.le)]
  simp [vectorRest, vectorRestPhoton, hz, photonIntegrand]

/-- C259: everywhere else the pion's photons are those of `hazma.spectra`: two of them (times the
branching fraction), with the energy of the pion. -/
theorem vector_pi0_photons_partial {m : ℝ} (hm : legacyPi0 ≤ m)
    (h : 2 * m * (CythonKernels.massPi0 - legacyPi0) < (m - legacyPi0) ^ 2) (pws : Fin 5 → ℝ) {e E : ℝ}
    (hE : m < E) (he : 0 < e) :
    vectorDecayPhotons pws .p0g e E m
        = boosted (fun x => pws 2 * dndePhotonNeutralPion x (vectorPi0Energy m)) 0 (boostBeta E m) e
          + photonBox (pws 2) E m e
    ∧ ∫ x, dndePhotonNeutralPion x (vectorPi0Energy m) = 2 * Spectra.brPi0AA
    ∧ ∫ x, x * dndePhotonNeutralPion x (vectorPi0Energy m)
        = 2 * Spectra.brPi0AA * ((legacyPi0 ^ 2 + m ^ 2) / (2 * m) / 2) := by
  have hm0 : 0 < m := lt_of_lt_of_le (by unfold legacyPi0; norm_num) hm
  have eb : Mediator.beta E m = boostBeta E m := by simp only [Mediator.beta, boostBeta, sq]
  have hEe : vectorPi0Energy m = (legacyPi0 ^ 2 + m ^ 2) / (2 * m) := by
    unfold vectorPi0Energy; norm_num; field_simp
  have hlt : Spectra.massPi0 < vectorPi0Energy m := by
    rw [hEe, lt_div_iff₀ (by linarith), ← k_massPi0]; nlinarith
  have hbox := neutral_pion_box _ hlt
  refine ⟨?_, hbox.1, ?_⟩
  · rw [vectorDecayPhotons, vectorPoint, if_neg (not_lt.mpr hE.le), photon_integral_is_boost _ hm0 hE he, eb]
    simp only [vectorRestPhoton, photonNeutralPion_eq, true_or, if_true]
    rfl
  · rw [← hEe]; exact hbox.2.1

/-- The window reaches 0.23 MeV above the threshold. -/
theorem window_size {m : ℝ} (h1 : CythonKernels.massPi0 < m) (h2 : m ≤ 135.2) :
    legacyPi0 ≤ m ∧ (m - legacyPi0) ^ 2 < 2 * m * (CythonKernels.massPi0 - legacyPi0) := by
  unfold legacyPi0 CythonKernels.massPi0 at *
  norm_num at *
  constructor
  · linarith
  · nlinarith

/-! ### Positrons -/

theorem lab_two_body {M s E : ℝ} (hM : 0 < M) (hs0 : 0 ≤ s) (hs : s ≤ 1) (h : M < E) :
    labEnergy (M / 2 * (1 + s ^ 2)) (s * M) (boostBeta E M) 1
      = E / 2 * ((1 + boostBeta E M) + s ^ 2 * (1 - boostBeta E M)) := by
  obtain ⟨hb0, hb1, hg, hb⟩ := parent_boost hM h
  have hmom : momentum (M / 2 * (1 + s ^ 2)) (s * M) = M / 2 * (1 - s ^ 2) := by
    unfold momentum
    rw [show (M / 2 * (1 + s ^ 2)) ^ 2 - (s * M) ^ 2 = (M / 2 * (1 - s ^ 2)) ^ 2 by ring, Real.sqrt_sq]
    have : s ^ 2 ≤ 1 := by nlinarith
    have : 0 ≤ 1 - s ^ 2 := by linarith
    positivity
  unfold labEnergy
  rw [hmom, hg]
  field_simp
  ring

theorem positronMuon_above {E e : ℝ} (h : E ≤ e) : cPositronMuon e E = 0 := by
  rw [positronMuon_eq]
  have hp := Spectra.massMu_pos
  have hr := Spectra.rr_pos
  have hrs := Spectra.rr_small
  by_cases hE : E < Spectra.massMu
  · exact ((Spectra.kernels_below_threshold e E).1 hE).2
  push Not at hE
  have he0 : (Spectra.massMu ^ 2 + Spectra.massE ^ 2) / (2 * Spectra.massMu)
      = Spectra.massMu / 2 * (1 + Spectra.rr ^ 2) := by
    unfold Spectra.rr; field_simp
  by_cases h2 : E - Spectra.massMu < Spectra.f64eps
  · refine (Spectra.kernels_at_rest_endpoint e E).2.1 hE h2 ?_
    rw [he0]
    have : Spectra.rr ^ 2 ≤ 1 := by nlinarith
    nlinarith
  · push Not at h2
    refine (Spectra.kernels_above_endpoint e E).2.1 h2 ?_
    have hlt : Spectra.massMu < E := by linarith [eps_pos]
    obtain ⟨hb0, hb1, -, -⟩ := parent_boost hp hlt
    have := lab_two_body hp hr.le (by linarith : Spectra.rr ≤ 1) hlt
    rw [he0, show Spectra.massE = Spectra.rr * Spectra.massMu by unfold Spectra.rr; field_simp, this]
    have h5 : Spectra.rr ^ 2 * (1 - boostBeta E Spectra.massMu) ≤ 1 - boostBeta E Spectra.massMu := by
      have : Spectra.rr ^ 2 ≤ 1 := by nlinarith
      nlinarith
    nlinarith

theorem positronPion_above {E e : ℝ} (h : E ≤ e) : cPositronChargedPion e E = 0 := by
  rw [positronChargedPion_eq]
  have hp := Spectra.massPi_pos
  by_cases hE : E < Spectra.massPi
  · exact ((Spectra.kernels_below_threshold e E).2.1 hE).2.1
  push Not at hE
  by_cases h2 : |E - Spectra.massPi| < Spectra.f64eps
  · exact (Spectra.kernels_at_rest_endpoint e E).2.2.2.1 h2
  · push Not at h2
    rw [abs_of_nonneg (by linarith)] at h2
    refine (Spectra.kernels_above_endpoint e E).2.2.2.2.1 h2 ?_
    have hlt : Spectra.massPi < E := by linarith [eps_pos]
    obtain ⟨hb0, hb1, -, -⟩ := parent_boost hp hlt
    obtain ⟨s, hs⟩ : ∃ s, s = Spectra.massE / Spectra.massPi := ⟨_, rfl⟩
    have hs0 : 0 ≤ s := by rw [hs]; unfold Spectra.massE Spectra.massPi; norm_num
    have hs1 : s < 1 := by rw [hs]; unfold Spectra.massE Spectra.massPi; norm_num
    have := lab_two_body hp hs0 hs1.le hlt
    rw [show Spectra.engEPiRf = Spectra.massPi / 2 * (1 + s ^ 2) by
        rw [hs]; unfold Spectra.engEPiRf; norm_num; field_simp,
      show Spectra.massE = s * Spectra.massPi by rw [hs]; field_simp, this]
    have h5 : s ^ 2 * (1 - boostBeta E Spectra.massPi) < 1 - boostBeta E Spectra.massPi := by
      have : s ^ 2 < 1 := by nlinarith
      nlinarith
    nlinarith

theorem positronMuon_low {e E : ℝ} (h : E < CythonKernels.massMu ∨ e ≤ CythonKernels.massE) :
    cPositronMuon e E = 0 := by unfold cPositronMuon; rw [if_pos h]

theorem positronPion_low {e E : ℝ} (h : E < CythonKernels.massPi ∨ e < CythonKernels.massE) :
    cPositronChargedPion e E = 0 := by unfold cPositronChargedPion; rw [if_pos h]

theorem positronMuon_nonneg (e E : ℝ) : 0 ≤ cPositronMuon e E := by
  rw [positronMuon_eq]; exact (muon_spectra_nonneg e E).1

theorem boostDelta_nonneg (e0 e m b : ℝ) : 0 ≤ cBoostDelta e0 e m b := by
  unfold cBoostDelta
  split_ifs with h h1
  · exact le_rfl
  · exact le_rfl
  · simp only
    push Not at h
    split_ifs
    · have := h.2.1; positivity
    · exact le_rfl

theorem positronPion_nonneg (e E : ℝ) : 0 ≤ cPositronChargedPion e E := by
  by_cases h1 : E < CythonKernels.massPi ∨ e < CythonKernels.massE
  · rw [positronPion_low h1]
  by_cases h2 : |E - CythonKernels.massPi| < CythonKernels.dblEps
  · unfold cPositronChargedPion; rw [if_neg h1, if_pos h2]
  push Not at h1 h2
  rw [abs_of_nonneg (by linarith)] at h2
  rw [positronChargedPion_eq, positron_pion_is_boost e E h1.2 h2, ← boost_delta_implementations_agree,
    ← boostDelta_eq]
  have hlt : Spectra.massPi < E := by
    have h2' : Spectra.f64eps ≤ E - Spectra.massPi := h2
    linarith [eps_pos]
  obtain ⟨hb0, hb1, -, -⟩ := parent_boost Spectra.massPi_pos hlt
  have hA : (0 : ℝ) ≤ Spectra.brPiMuNu := by unfold Spectra.brPiMuNu; norm_num
  have hB : (0 : ℝ) ≤ Spectra.brPiENu := by unfold Spectra.brPiENu; norm_num
  have := boost_nonneg (fun x => dndePositronMuon x Spectra.engMuPiRf) Spectra.massE _ e hb0 hb1
    (fun x => (muon_spectra_nonneg x _).1)
  have := boostDelta_nonneg Spectra.engEPiRf e Spectra.massE (boostBeta E Spectra.massPi)
  positivity

theorem npInterp_nonneg {xs ys : ℕ → ℝ} (hx : StrictMono xs) (hy : ∀ i, 0 ≤ ys i) (x : ℝ) :
    0 ≤ npInterp xs ys x := by
  rcases le_or_gt x (xs 0) with h | h
  · rw [npInterp_below hx h]; exact hy 0
  rcases lt_or_ge x (xs 499) with h2 | h2
  · obtain ⟨j, -, -, -, t, ht0, ht1, -, hv⟩ := npInterp_chord (ys := ys) hx h.le h2
    rw [hv]
    have := hy j
    have := hy (j + 1)
    have : 0 ≤ 1 - t := by linarith
    positivity
  · rw [npInterp_above hx h2]; exact hy 499

/-- C260: the tabulated positron spectra in a mediator's decay are those of `hazma.spectra` at the points
of the table, lie on the chord in between, are never negative, and vanish below the electron mass and
from half of the mediator's mass on. -/
theorem positron_tables {m : ℝ} (hm : 2 * legacyE < m) :
    positronNode m 0 = legacyE ∧ positronNode m 499 = m / 2 ∧ StrictMono (positronNode m)
    ∧ ∀ p ∈ [(cPositronChargedPion, dndePositronChargedPion), (cPositronMuon, dndePositronMuon)],
      (∀ k ≤ 499, positronTable p.1 m (positronNode m k) = p.2 (positronNode m k) (m / 2))
      ∧ (∀ e, legacyE ≤ e → e < m / 2 → ∃ j < 499, positronNode m j ≤ e ∧ e < positronNode m (j + 1)
          ∧ ∃ t, 0 ≤ t ∧ t < 1 ∧ e = (1 - t) * positronNode m j + t * positronNode m (j + 1)
            ∧ positronTable p.1 m e
              = (1 - t) * p.2 (positronNode m j) (m / 2) + t * p.2 (positronNode m (j + 1)) (m / 2))
      ∧ (∀ e, 0 ≤ positronTable p.1 m e)
      ∧ (∀ e, e ≤ legacyE → positronTable p.1 m e = 0)
      ∧ (∀ e, m / 2 ≤ e → positronTable p.1 m e = 0) := by
  have hl : (0 : ℝ) < legacyE := by unfold legacyE; norm_num
  have hm0 : 0 < m := by linarith
  have hmono := positronNode_mono hm
  refine ⟨positronNode_zero m, positronNode_last hm0, hmono, ?_⟩
  have hk : ∀ p ∈ [(cPositronChargedPion, dndePositronChargedPion), (cPositronMuon, dndePositronMuon)],
      p.1 = p.2 ∧ (∀ e E, 0 ≤ p.1 e E) ∧ (∀ e E, E ≤ e → p.1 e E = 0) ∧ ∀ E, p.1 legacyE E = 0 := by
    have hle : legacyE < CythonKernels.massE := by unfold legacyE CythonKernels.massE; norm_num
    intro p hp
    simp only [List.mem_cons, List.not_mem_nil, or_false] at hp
    rcases hp with rfl | rfl
    · exact ⟨by funext e E; exact positronChargedPion_eq e E, positronPion_nonneg,
        fun _ _ => positronPion_above, fun E => positronPion_low (Or.inr hle)⟩
    · exact ⟨by funext e E; exact positronMuon_eq e E, positronMuon_nonneg,
        fun _ _ => positronMuon_above, fun E => positronMuon_low (Or.inr hle.le)⟩
  intro p hp
  obtain ⟨hpe, hpn, hpa, hpl⟩ := hk p hp
  refine ⟨?_, ?_, ?_, ?_, ?_⟩
  · intro k hk
    rw [positronTable, npInterp_node hmono hk, hpe]
  · intro e h1 h2
    obtain ⟨j, hj, ha, hb, t, ht⟩ := npInterp_chord (ys := fun i => p.1 (positronNode m i) (m / 2)) (x := e) hmono
      (by rw [positronNode_zero]; exact h1) (by rw [positronNode_last hm0]; exact h2)
    refine ⟨j, hj, ha, hb, t, ht.1, ht.2.1, ht.2.2.1, ?_⟩
    rw [positronTable, ht.2.2.2, hpe]
  · intro e
    exact npInterp_nonneg hmono (fun i => hpn _ _) e
  · intro e he
    rw [positronTable, npInterp_below hmono (by rw [positronNode_zero]; exact he), positronNode_zero]
    exact hpl _
  · intro e he
    rw [positronTable, npInterp_above hmono (by rw [positronNode_last hm0]; exact he)]
    exact hpa _ _ (positronNode_last hm0).ge

theorem positronRest_facts {m : ℝ} (hm : 2 * legacyE < m) (pws : Fin 3 → ℝ) (fs : PMode) :
    (∀ e, m / 2 < e → positronRest (positronTable cPositronChargedPion m) (positronTable cPositronMuon m) pws fs e = 0)
    ∧ ((∀ i, 0 ≤ pws i) → ∀ e,
      0 ≤ positronRest (positronTable cPositronChargedPion m) (positronTable cPositronMuon m) pws fs e) := by
  obtain ⟨-, -, -, ht⟩ := positron_tables hm
  have h1 := ht _ (List.mem_cons_self)
  have h2 := ht _ (List.mem_cons_of_mem _ List.mem_cons_self)
  refine ⟨fun e he => ?_, fun hp e => ?_⟩
  · have a := h1.2.2.2.2 e he.le
    have b := h2.2.2.2.2 e he.le
    simp only at a b
    cases fs <;> simp only [positronRest, a, b, mul_zero, add_zero]
  · have a := h1.2.2.1 e
    have b := h2.2.2.1 e
    simp only at a b
    have := hp 1
    have := hp 2
    cases fs <;> simp only [positronRest] <;> positivity

theorem positronIntegrand_low {f : ℝ → ℝ} {me E m e cl : ℝ} (h : e ≤ me) (hme : 0 ≤ me) :
    positronIntegrand f me E m e cl = 0 := by
  unfold positronIntegrand
  split_ifs with h1
  · rfl
  · have : e = me := le_antisymm h (not_lt.mp h1)
    subst this
    simp

/-- C261: the positron spectrum of a moving mediator is never negative and has no positrons above the
largest energy an electron pair can give, nor below the electron mass. -/
theorem positron_range (pws : Fin 3 → ℝ) (fs : PMode) {E m e : ℝ} (hm : 2 * legacyE < m) (h : m < E) :
    ((∀ i, 0 ≤ pws i) → 0 ≤ decayPositrons pws fs e E m)
    ∧ (E * (1 + Real.sqrt (1 - 4 * legacyE * legacyE / (m * m)) * Real.sqrt (1 - (m / E) ^ 2)) / 2 < e →
        decayPositrons pws fs e E m = 0)
    ∧ (e < legacyE → decayPositrons pws fs e E m = 0) := by
  have hl : (0 : ℝ) < legacyE := by unfold legacyE; norm_num
  have hm0 : 0 < m := by linarith
  have hE : 0 < E := hm0.trans h
  obtain ⟨h0, h1, hg, hb⟩ := beta_facts hm0 h
  obtain ⟨hv0, hv1, hvm⟩ := velocity_facts hl hm
  have hrad : ¬ 1 - 4 * legacyE * legacyE / (m * m) < 0 := by
    intro hc
    rw [velocity, Real.sqrt_eq_zero_of_nonpos hc.le] at hv0
    exact lt_irrefl _ hv0
  change _ ∧ (E * (1 + velocity legacyE m * Mediator.beta E m) / 2 < e → _) ∧ _
  have hbox : ∀ bf, positronBox bf legacyE E m e
      = if E * (1 - velocity legacyE m * Mediator.beta E m) / 2 ≤ e
          ∧ e ≤ E * (1 + velocity legacyE m * Mediator.beta E m) / 2 then bf / (E * Mediator.beta E m) else 0 := by
    intro bf
    unfold positronBox
    rw [if_neg hrad]; rfl
  have hI : ∀ f : ℝ → ℝ, legacyE < e →
      ∫ cl in (-1 : ℝ)..1, positronIntegrand f legacyE E m e cl = boosted f legacyE (Mediator.beta E m) e :=
    fun f he => positron_integral_is_boost f hl.le hm0 h he
  have hI0 : ∀ f : ℝ → ℝ, e ≤ legacyE → ∫ cl in (-1 : ℝ)..1, positronIntegrand f legacyE E m e cl = 0 := by
    intro f he
    simp [positronIntegrand_low he hl.le]
  obtain ⟨hz, hn⟩ := positronRest_facts hm pws fs
  have hlab : labEnergy (m / 2) legacyE (Mediator.beta E m) 1
      = E * (1 + velocity legacyE m * Mediator.beta E m) / 2 := by
    unfold labEnergy
    rw [hvm, hg, Mediator.gamma]; field_simp
  have hlow : legacyE ≤ E * (1 - velocity legacyE m * Mediator.beta E m) / 2 := by
    have := mass_le_labEnergy h0 h1 hl.le (by linarith : legacyE ≤ m / 2)
    unfold labEnergy at this
    rw [hvm, hg, Mediator.gamma] at this
    refine this.trans (le_of_eq ?_)
    field_simp
    ring
  refine ⟨fun hp => ?_, fun he => ?_, fun he => ?_⟩
  · have hbn : 0 ≤ positronBox (pws 0) legacyE E m e := by
      rw [hbox]
      have := hp 0
      split_ifs
      · positivity
      · exact le_rfl
    have hin : 0 ≤ ∫ cl in (-1 : ℝ)..1, positronIntegrand (positronRest (positronTable cPositronChargedPion m)
        (positronTable cPositronMuon m) pws fs) legacyE E m e cl := by
      by_cases he : legacyE < e
      · rw [hI _ he]; exact boost_nonneg _ _ _ _ h0 h1 (hn hp)
      · rw [hI0 _ (not_lt.mp he)]
    unfold decayPositrons positronPoint
    split_ifs <;> first | exact le_rfl | exact hbn | exact add_nonneg hin hbn
  · have hel : legacyE < e := by
      refine lt_of_le_of_lt (hlow.trans ?_) he
      have : 0 ≤ E * (velocity legacyE m * Mediator.beta E m) := by positivity
      nlinarith
    have hbn : positronBox (pws 0) legacyE E m e = 0 := by
      rw [hbox, if_neg (fun hc => absurd hc.2 (not_le.mpr he))]
    unfold decayPositrons positronPoint
    rw [hbn, hI _ hel, boosted_support h0 h1 hl.le (hi := m / 2) (by linarith) hz (by rw [hlab]; exact he.le)]
    simp
  · have hbn : positronBox (pws 0) legacyE E m e = 0 := by
      rw [hbox, if_neg (fun hc => absurd (hlow.trans hc.1) (not_le.mpr he))]
    unfold decayPositrons positronPoint
    rw [hbn, hI0 _ he.le]
    simp

/-! ### Concrete cases -/

/-- A scalar of mass 300 and energy 500 emits nothing above 450 MeV. -/
example (pws : Fin 5 → ℝ) (b : Modes) : scalarDecayPhotons pws b 460 500 300 = 0 := by
  refine (photon_endpoint pws (by norm_num) (by norm_num) ?_).1 b
  rw [show Real.sqrt (1 - (300 / 500 : ℝ) ^ 2) = 4 / 5 by
    rw [show (1 - (300 / 500 : ℝ) ^ 2) = (4 / 5) ^ 2 by norm_num, Real.sqrt_sq (by norm_num)]]
  norm_num

/-- A vector of mass 135 decaying into a pion and a photon shows only the photon. -/
example (pws : Fin 5 → ℝ) (e : ℝ) : vectorDecayPhotons pws .p0g e 200 135 = photonBox (pws 2) 200 135 e := by
  obtain ⟨h1, h2⟩ := window_size (m := 135) (by unfold CythonKernels.massPi0; norm_num) (by norm_num)
  exact (vector_pi0_window h1 h2 pws e 200 (by norm_num)).2

/-- A vector of mass 140 shows the pion's photons. -/
example : ∫ x, dndePhotonNeutralPion x (vectorPi0Energy 140) = 2 * Spectra.brPi0AA :=
  (vector_pi0_photons_partial (m := 140) (by unfold legacyPi0; norm_num)
    (by unfold legacyPi0 CythonKernels.massPi0; norm_num) (fun _ => 1) (e := 1) (E := 200)
    (by norm_num) (by norm_num)).2.1

/-- At the first point of the table of a 300 MeV scalar the pion spectrum is that of `hazma.spectra`. -/
example : photonTable cPhotonChargedPion 300 (photonNode 300 7)
    = dndePhotonChargedPion (photonNode 300 7) 150 := by
  have := ((photon_tables (m := 300) (by norm_num)).2.2.2 _ List.mem_cons_self).1 7 (by norm_num)
  simp only at this
  rw [this]; norm_num

/-- No positrons at 0.4 MeV from a mediator of mass 300. -/
example (pws : Fin 3 → ℝ) : decayPositrons pws .total 0.4 500 300 = 0 :=
  (positron_range pws .total (by unfold legacyE; norm_num) (by norm_num)).2.2 (by unfold legacyE; norm_num)

end Hazma.CythonKernels
