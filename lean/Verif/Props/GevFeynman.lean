import Verif.Props.Anomaly
import Verif.Props.GevXs
import Verif.Lemmas.Chiral

/-! # C293: two-body channels of the GeV vector mediator from the Feynman rules

Charged leptons are Dirac fermions, neutrinos are left-handed, mesons carry a form factor in place of a charge. -/

namespace Hazma.GevFeynman

open Hazma Hazma.GevXs Hazma.SelfScattering
open Hazma.Xs (propagator)
open Hazma.GevCache (widthFF)
open Hazma.Dirac (gamma eta line line_eq symPart projL projR)
open Hazma.FeynmanRules (comP comN mom mom_sq sqrt_mom rpow_three_half fermionSigma fermionWidth fermionSq vector_fermionWidth)
open Matrix

/-- Squared amplitude of `x x̄ → v* → ν ν̄` with left-handed neutrinos. -/
noncomputable def neutrinoSq (g h M w m : ℝ) (p1 p2 p3 p4 : Fin 4 → ℝ) : ℝ :=
  g ^ 2 * h ^ 2 / 4 * (∑ i, ∑ j, eta i * eta j * (trace (spinSum p2 (-m) * gamma i * spinSum p1 m * gamma j)
    * trace (spinSum p3 0 * gamma i * projL * spinSum p4 0 * (projR * gamma j)))).re
    / Complex.normSq (prop (mink (p1 + p2) (p1 + p2)) M w)

/-- Cross section. -/
noncomputable def neutrinoSigma (g h M w m e : ℝ) : ℝ :=
  mom e 0 / mom e m / (32 * Real.pi * e ^ 2)
    * ∫ z in (-1 : ℝ)..1, neutrinoSq g h M w m (comP e m 1) (comN e m 1) (comP e 0 z) (comN e 0 z)

/-- Width. -/
noncomputable def neutrinoWidth (h M : ℝ) : ℝ :=
  mom M 0 / (8 * Real.pi * M ^ 2) * (h ^ 2 / 3 * (-1 * (∑ i, eta i
    * trace (spinSum (comP M 0 1) 0 * gamma i * projL * spinSum (comN M 0 1) 0 * (projR * gamma i))).re))

theorem left_line (a b : Fin 4 → ℝ) (i j : Fin 4) :
    trace (spinSum a 0 * gamma i * projL * spinSum b 0 * (projR * gamma j)) = line 1 0 a 0 b 0 i j := by
  unfold line
  simp

theorem eta_real (i : Fin 4) : eta i = (((![1, -1, -1, -1] : Fin 4 → ℝ) i : ℝ) : ℂ) := by
  fin_cases i <;> simp [eta]

/-- The left-handed part is half of the current, up to an imaginary part. -/
theorem left_half (a b : Fin 4 → ℝ) (i j : Fin 4) :
    (line 1 0 a 0 b 0 i j).re = (trace (spinSum a 0 * gamma i * spinSum b 0 * gamma j)).re / 2 := by
  rw [line_eq, tr_gamma_gamma]
  simp [symPart, Dirac.metric]
  ring

theorem neutrinoSq_half (g h M w m : ℝ) (p1 p2 p3 p4 : Fin 4 → ℝ) :
    neutrinoSq g h M w m p1 p2 p3 p4 = fermionSq vectorVertex g h M w m 0 p1 p2 p3 p4 / 2 := by
  have key : (∑ i, ∑ j, eta i * eta j * (trace (spinSum p2 (-m) * gamma i * spinSum p1 m * gamma j)
      * trace (spinSum p3 0 * gamma i * projL * spinSum p4 0 * (projR * gamma j)))).re
      = (∑ i, ∑ j, eta i * eta j * (trace (spinSum p2 (-m) * gamma i * spinSum p1 m * gamma j)
      * trace (spinSum p3 0 * gamma i * spinSum p4 0 * gamma j))).re / 2 := by
    rw [Complex.re_sum, Complex.re_sum, Finset.sum_div]
    refine Finset.sum_congr rfl fun i _ => ?_
    rw [Complex.re_sum, Complex.re_sum, Finset.sum_div]
    refine Finset.sum_congr rfl fun j _ => ?_
    rw [left_line, tr_gamma_gamma p2 p1, eta_real, eta_real, ← Complex.ofReal_mul, Complex.re_ofReal_mul,
      Complex.re_ofReal_mul, Complex.re_ofReal_mul, Complex.re_ofReal_mul, left_half]
    ring
  unfold neutrinoSq fermionSq
  change _ = g ^ 2 * h ^ 2 / 4 * (∑ i, ∑ j, eta i * eta j * (trace (spinSum p2 (-m) * gamma i * spinSum p1 m * gamma j)
      * trace (spinSum p3 0 * gamma i * spinSum p4 (-0) * gamma j))).re / _ / 2
  rw [key, neg_zero]
  ring

/-- C293: charged leptons. -/
theorem lepton_channels (mx mv gvxx wv g mf q : ℝ) (hmx : 0 ≤ mx) (hmf : 0 ≤ mf) :
    (2 * mx < q → 2 * mf < q → propagator mv q wv ≠ 0 →
      sigmaFF mx mv gvxx wv g mf q = fermionSigma vectorVertex gvxx g mv wv mx mf q)
    ∧ (2 * mf < mv → widthFF mv mf g = fermionWidth vectorVertex (-1) 3 g mv mf) := by
  constructor
  · intro h1 h2 hp
    have hq : 0 < q := by linarith
    rw [← FeynmanRules.vector_fermion_sigma _ _ _ hmx hmf h1 h2 hp]
    have hb := mom_sq hmx h1.le
    have pa : 0 < mom q mx := Real.sqrt_pos.mpr (by nlinarith)
    have scale : ∀ m, 0 ≤ m → 2 * m ≤ q → √(1 - 4 * m ^ 2 / q ^ 2) = 2 * mom q m / q := by
      intro m hm h
      have := mom_sq hm h
      rw [show 1 - 4 * m ^ 2 / q ^ 2 = (2 * mom q m / q) ^ 2 by rw [div_pow, mul_pow, this]; field_simp; ring]
      exact Real.sqrt_sq (by unfold FeynmanRules.mom; positivity)
    unfold sigmaFF Xs.vectorFF
    rw [if_pos ⟨h1, h2⟩, if_neg (by push Not; exact ⟨h2.le, h1.le⟩)]
    simp only []
    rw [scale mf hmf h2.le, scale mx hmx h1.le, Real.sqrt_div (by nlinarith), sqrt_mom hmx h1.le, sqrt_mom hmf h2.le,
      show mv ^ 4 + (q ^ 2) ^ 2 + mv ^ 2 * (-2 * q ^ 2 + wv ^ 2) = propagator mv q wv by unfold propagator; ring]
    have := Real.pi_pos
    field_simp
  · intro h
    rw [vector_fermionWidth g hmf h]
    unfold GevCache.widthFF
    rw [max_eq_left (by nlinarith)]
    rw [show -4 * mf ^ 2 + mv ^ 2 = mv ^ 2 - 4 * mf ^ 2 by ring]
    ring

/-- C293: neutrinos are left-handed: half of the width and cross section of a Dirac fermion. -/
theorem neutrino_channels (mx mv gvxx wv g q : ℝ) (hmx : 0 ≤ mx) :
    (2 * mx < q → propagator mv q wv ≠ 0 → sigmaNuNu mx mv gvxx wv g q = neutrinoSigma gvxx g mv wv mx q)
    ∧ (0 < mv → widthFF mv 0 g / 2 = neutrinoWidth g mv) := by
  constructor
  · intro h1 hp
    have hq : 0 < q := by linarith
    unfold sigmaNuNu neutrinoSigma
    rw [(lepton_channels mx mv gvxx wv g 0 q hmx le_rfl).1 h1 (by linarith) hp]
    unfold FeynmanRules.fermionSigma
    simp only [neutrinoSq_half]
    rw [intervalIntegral.integral_div]
    ring
  · intro h
    rw [(lepton_channels 0 mv gvxx wv g 0 q le_rfl le_rfl).2 (by linarith)]
    unfold FeynmanRules.fermionWidth neutrinoWidth
    have key : (∑ i, eta i * trace (spinSum (comP mv 0 1) 0 * gamma i * projL * spinSum (comN mv 0 1) 0 * (projR * gamma i))).re
        = (∑ i, eta i * trace (spinSum (comP mv 0 1) 0 * gamma i * spinSum (comN mv 0 1) (-0) * gamma i)).re / 2 := by
      rw [Complex.re_sum, Complex.re_sum, Finset.sum_div]
      refine Finset.sum_congr rfl fun i _ => ?_
      rw [left_line, eta_real, Complex.re_ofReal_mul, Complex.re_ofReal_mul, left_half, neg_zero]
      ring
    rw [key]
    change mom mv 0 / (8 * Real.pi * mv ^ 2) * (g ^ 2 / 3 * (-1 * (∑ i, eta i
      * trace (spinSum (comP mv 0 1) 0 * gamma i * spinSum (comN mv 0 1) (-0) * gamma i)).re)) / 2 = _
    ring

theorem prop_swap {mv q wv : ℝ} (h : propagator mv q wv ≠ 0) : (mv ^ 2 - q ^ 2) ^ 2 + mv ^ 2 * wv ^ 2 ≠ 0 := by
  unfold propagator at h
  rwa [add_comm] at h

/-- C293: two pseudoscalars of equal mass. -/
theorem pseudoscalar_pair (m mx mv gvxx wv : ℝ) (F : ℝ → ℝ) (q : ℝ) (hm : 0 ≤ m) (hmx : 0 ≤ mx) :
    (2 * m < q → 2 * mx < q → propagator mv q wv ≠ 0 →
      hadXs [m, m] (integrated .pp m m F) mx mv gvxx wv q = .num (Anomaly.pionSigma gvxx (F q) mv wv mx m q))
    ∧ (2 * m < mv → hadWidth [m, m] (integrated .pp m m F) mv = Anomaly.pionWidth (F mv) mv m) := by
  have hpi := Real.pi_pos
  constructor
  · intro h1 h2 hp
    have hq : 0 < q := by linarith
    have b := mom_sq hm h1.le
    have pa : 0 < mom q mx := Real.sqrt_pos.mpr (by nlinarith)
    rw [closed_form_pp m mx mv gvxx wv F q hm hmx h1 h2 (prop_swap hp), Anomaly.pionSigma_eq _ _ _ _ hmx h2 hp]
    congr 1
    unfold xsPP
    rw [rpow_three_half (by nlinarith), sqrt_mom hmx h2.le, sqrt_mom hm h1.le,
      show -4 * m ^ 2 + q ^ 2 = 4 * mom q m ^ 2 by rw [b]; ring,
      show mv ^ 4 + (q ^ 2) ^ 2 + mv ^ 2 * (wv ^ 2 - 2 * q ^ 2) = propagator mv q wv by unfold propagator; ring]
    field_simp
    ring
  · intro h
    have hM : 0 < mv := by linarith
    have b := mom_sq hm h.le
    have pb : 0 < mom mv m := Real.sqrt_pos.mpr (by nlinarith)
    unfold hadWidth
    rw [if_pos (by simp; linarith)]
    unfold integrated ThreeBody.twoBodyPrefactor lorentz
    rw [show Kinematics.kallenLambda (mv ^ 2) (m ^ 2) (m ^ 2) = (2 * mv * mom mv m) ^ 2 by
        rw [mul_pow, b]; unfold Kinematics.kallenLambda; ring, max_eq_left (by positivity),
      Real.sqrt_sq (by positivity)]
    simp only []
    rw [show mv ^ 2 - 2 * m ^ 2 - 2 * m ^ 2 = 4 * mom mv m ^ 2 by rw [b]; ring]
    unfold Anomaly.pionWidth Anomaly.metric
    simp [Fin.sum_univ_four, comP, comN]
    field_simp
    ring

theorem anomaly_mom {q m M : ℝ} (hm : 0 ≤ m) (hM : 0 ≤ M) (h : m + M < q) :
    0 < ElasticFeynman.mom q M m
    ∧ (q ^ 2 - (m - M) ^ 2) * (q ^ 2 - (m + M) ^ 2) = (2 * q * ElasticFeynman.mom q M m) ^ 2 := by
  have hq : 0 < q := by linarith
  have b := ElasticFeynman.mom_sq hM hm hq (by linarith : M + m ≤ q)
  have hpos : 0 < (q ^ 2 - (M + m) ^ 2) * (q ^ 2 - (M - m) ^ 2) := mul_pos (by nlinarith) (by nlinarith)
  constructor
  · unfold ElasticFeynman.mom
    exact div_pos (Real.sqrt_pos.mpr hpos) (by linarith)
  · rw [mul_pow, b]; field_simp; ring

/-- C293: a pseudoscalar and a photon or a vector meson. -/
theorem pseudoscalar_vector (m M mx mv gvxx wv : ℝ) (F : ℝ → ℝ) (q : ℝ) (hm : 0 ≤ m) (hM : 0 ≤ M) (hmx : 0 ≤ mx) :
    (m + M < q → 2 * mx < q → propagator mv q wv ≠ 0 →
      hadXs [m, M] (integrated .pv m M F) mx mv gvxx wv q = .num (Anomaly.sigma gvxx (F q) mv wv mx M m q))
    ∧ (m < q → 2 * mx < q → propagator mv q wv ≠ 0 →
      hadXs [m, 0] (integrated .pa m 0 F) mx mv gvxx wv q = .num (Anomaly.sigma gvxx (F q) mv wv mx 0 m q))
    ∧ (m + M < mv → hadWidth [m, M] (integrated .pv m M F) mv = Anomaly.width (F mv) mv M m)
    ∧ (m < mv → hadWidth [m, 0] (integrated .pa m 0 F) mv = Anomaly.width (F mv) mv 0 m) := by
  have hpi := Real.pi_pos
  have width : ∀ X : ℝ, 0 ≤ X → m + X < mv →
      1 / 2 * mv * (ThreeBody.twoBodyPrefactor mv m X * ((mv ^ 2 - (m - X) ^ 2) * (mv ^ 2 - (m + X) ^ 2) / (6 * mv ^ 2))
        * F mv ^ 2) = Anomaly.width (F mv) mv X m := by
    intro X hX h
    have hmv : 0 < mv := by linarith
    obtain ⟨pk, hk⟩ := anomaly_mom hm hX h
    rw [Anomaly.width_eq _ hX hm hmv (by linarith)]
    unfold ThreeBody.twoBodyPrefactor
    rw [show Kinematics.kallenLambda (mv ^ 2) (m ^ 2) (X ^ 2) = (2 * mv * ElasticFeynman.mom mv X m) ^ 2 by
        rw [← hk]; unfold Kinematics.kallenLambda; ring, max_eq_left (by positivity), Real.sqrt_sq (by positivity), hk]
    field_simp
    ring
  refine ⟨?_, ?_, ?_, ?_⟩
  · intro h1 h2 hp
    have hq : 0 < q := by linarith
    have pa : 0 < mom q mx := Real.sqrt_pos.mpr (by nlinarith)
    obtain ⟨pk, hk⟩ := anomaly_mom hm hM h1
    rw [closed_form_pv m M mx mv gvxx wv F q hm hM hmx h1 h2 (prop_swap hp), Anomaly.sigma_eq _ _ _ _ hmx h2 hp]
    congr 1
    unfold xsPV
    have e1 : (m ^ 4 + (M ^ 2 - q ^ 2) ^ 2 - 2 * m ^ 2 * (M ^ 2 + q ^ 2)) / q ^ 2 = (2 * ElasticFeynman.mom q M m) ^ 2 := by
      rw [show m ^ 4 + (M ^ 2 - q ^ 2) ^ 2 - 2 * m ^ 2 * (M ^ 2 + q ^ 2)
        = (q ^ 2 - (m - M) ^ 2) * (q ^ 2 - (m + M) ^ 2) by ring, hk]
      field_simp
    rw [e1, rpow_three_half (by positivity), Real.sqrt_sq (by positivity), sqrt_mom hmx h2.le,
      show mv ^ 4 + (q ^ 2) ^ 2 + mv ^ 2 * (wv ^ 2 - 2 * q ^ 2) = propagator mv q wv by unfold propagator; ring]
    field_simp
    ring
  · intro h1 h2 hp
    have hq : 0 < q := by linarith
    have pa : 0 < mom q mx := Real.sqrt_pos.mpr (by nlinarith)
    have hk : ElasticFeynman.mom q 0 m = (q ^ 2 - m ^ 2) / (2 * q) := by
      unfold ElasticFeynman.mom
      rw [show (q ^ 2 - (0 + m) ^ 2) * (q ^ 2 - (0 - m) ^ 2) = (q ^ 2 - m ^ 2) ^ 2 by ring, Real.sqrt_sq (by nlinarith)]
    rw [closed_form_pa m mx mv gvxx wv F q hm hmx h1 h2 (prop_swap hp), Anomaly.sigma_eq _ _ _ _ hmx h2 hp, hk]
    congr 1
    unfold xsPA
    rw [Real.sqrt_mul (by positivity), Real.sqrt_sq hq.le, sqrt_mom hmx h2.le,
      show mv ^ 4 + (q ^ 2) ^ 2 + mv ^ 2 * (wv ^ 2 - 2 * q ^ 2) = propagator mv q wv by unfold propagator; ring]
    field_simp
    ring
  · intro h
    unfold hadWidth
    rw [if_pos (by simpa using h)]
    exact width M hM h
  · intro h
    unfold hadWidth
    rw [if_pos (by simpa using h), ← width 0 le_rfl (by linarith)]
    simp only [integrated, lorentz]
    ring

/-- C293, C142: the cross section into two mediators is twice that of the Feynman rules. -/
theorem vv_twice (mx mv g q : ℝ) (hmx : 0 ≤ mx) (hmv : 0 ≤ mv) (h0 : 0 < mx ∨ 0 < mv) (h1 : 2 * mx < q) (h2 : 2 * mv < q) :
    sigmaVV mx mv g (.float q) = 2 * FeynmanRules.pairSigma vectorVertex g mx mv q := by
  rw [vv_twice_mev mx mv g q hmx hmv h1.ne' h2.ne', FeynmanRules.vector_pair_sigma g hmx hmv h0 h1 h2]

/-- A massless neutrino pair from a mediator of mass two. -/
example : neutrinoWidth 1 2 = 1 / (12 * Real.pi) := by
  rw [← (neutrino_channels 0 2 0 0 1 0 le_rfl).2 (by norm_num)]
  unfold GevCache.widthFF
  have : √(max (-4 * (0 : ℝ) ^ 2 + 2 ^ 2) 0) = 2 := by
    rw [max_eq_left (by norm_num), show (-4 * (0 : ℝ) ^ 2 + 2 ^ 2) = 2 ^ 2 by norm_num]
    exact Real.sqrt_sq (by norm_num)
  rw [this]
  have := Real.pi_pos
  field_simp
  norm_num

end Hazma.GevFeynman
