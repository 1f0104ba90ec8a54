import Verif.Props.MuonSpectra
import Mathlib.Tactic

/-!
# Photons from muons (C75, C83)
-/

namespace Hazma.Spectra

open MeasureTheory Hazma.Boost

/-- The bracket of the radiative muon decay spectrum. -/
noncomputable def radBracket (y : ℝ) : ℝ :=
  (2 * y ^ 4 - 6 * y ^ 3 + 6 * y ^ 2 - 5 * y + 3) * Real.log ((1 - y) / rr ^ 2)
    + (55 * y ^ 3 - 101 * y ^ 2 + 46 * y - 102) * (1 - y) / 12

/-- The radiative spectrum of a muon at rest up to the endpoint `(m_mu² - m_e²)/(2 m_mu)`
(specification). -/
noncomputable def photonRestFull (e : ℝ) : ℝ :=
  if 0 < e ∧ 2 / massMu * e < 1 - rr ^ 2 then
    2 * alphaEM / (3 * Real.pi * massMu) * (radBracket (2 / massMu * e) / (2 / massMu * e))
  else 0

theorem logQuot_bound {x t : ℝ} (hx : 0 < x) (ht : x ≤ t) : |Real.log t / (t - 1)| ≤ 1 / min x 1 := by
  have htp : 0 < t := hx.trans_le ht
  have hmin : 0 < min x 1 := lt_min hx one_pos
  rcases lt_trichotomy t 1 with h | h | h
  · have h1 : Real.log t < 0 := Real.log_neg htp h
    have h2 : -Real.log t ≤ (1 - t) / t := by
      have := Real.log_le_sub_one_of_pos (inv_pos.mpr htp)
      rw [Real.log_inv] at this
      have e : (1 - t) / t = t⁻¹ - 1 := by field_simp
      linarith
    rw [abs_of_pos (div_pos_of_neg_of_neg h1 (by linarith))]
    have h3 : Real.log t / (t - 1) = (-Real.log t) / (1 - t) := by
      rw [← neg_div_neg_eq]; ring_nf
    rw [h3, div_le_iff₀ (by linarith)]
    refine h2.trans ?_
    rw [div_le_iff₀ htp]
    have h4 : 1 ≤ 1 / min x 1 * t := by
      rw [one_div, inv_mul_eq_div, le_div_iff₀ hmin, one_mul]
      exact (min_le_left _ _).trans ht
    nlinarith
  · rw [h]; simp; positivity
  · have h1 : 0 < Real.log t := Real.log_pos h
    have h2 := Real.log_le_sub_one_of_pos htp
    rw [abs_of_pos (div_pos h1 (by linarith)), div_le_iff₀ (by linarith)]
    have h4 : 1 ≤ 1 / min x 1 := by
      rw [le_div_iff₀ hmin, one_mul]; exact min_le_right _ _
    nlinarith

theorem logQuot_integrable {x : ℝ} (hx : 0 < x) :
    IntervalIntegrable (fun t => Real.log t / (t - 1)) volume 1 x := by
  rw [intervalIntegrable_iff]
  refine Measure.integrableOn_of_bounded (M := 1 / min x 1) ?_ ?_ ?_
  · simp [Set.uIoc]
  · have : Measurable fun t : ℝ => Real.log t / (t - 1) := by fun_prop
    exact this.aestronglyMeasurable
  · refine (ae_restrict_iff' measurableSet_uIoc).mpr (Filter.Eventually.of_forall ?_)
    intro t ht
    rw [Set.mem_uIoc] at ht
    have hlow : min x 1 ≤ t := by
      rcases ht with ht | ht
      · exact (min_le_right _ _).trans ht.1.le
      · exact (min_le_left _ _).trans ht.1.le
    have := logQuot_bound (x := min x 1) (lt_min hx one_pos) hlow
    rw [Real.norm_eq_abs]
    rwa [min_eq_left (min_le_right x 1)] at this

theorem hasDerivAt_spence {x : ℝ} (h0 : 0 < x) (h1 : x < 1) :
    HasDerivAt spence (Real.log x / (1 - x)) x := by
  have hc : ContinuousAt (fun t : ℝ => Real.log t / (t - 1)) x := by
    refine ContinuousAt.div (Real.continuousAt_log h0.ne') (by fun_prop) (by linarith)
  have hm : StronglyMeasurableAtFilter (fun t : ℝ => Real.log t / (t - 1)) (nhds x) volume := by
    have : Measurable fun t : ℝ => Real.log t / (t - 1) := by fun_prop
    exact this.aestronglyMeasurable.stronglyMeasurableAtFilter
  have h := (intervalIntegral.integral_hasDerivAt_right (logQuot_integrable h0) hm hc).neg
  have e : Real.log x / (1 - x) = -(Real.log x / (x - 1)) := by
    rw [← div_neg]; ring_nf
  rw [e]; exact h

/-- Antiderivative used by the closed form. -/
noncomputable def radPrim (x : ℝ) : ℝ :=
  102 / 12 * x⁻¹ - (191 * x + 21 * x ^ 3 - 92 * x ^ 2) / 12
    + Real.log ((1 - x) / rr ^ 2) * ((2 * x ^ 4 - 9 * x ^ 3 + 18 * x ^ 2 - 18 * x - 9) / (3 * x))
    - 5 * (Real.log ((1 - x) / rr ^ 2) * Real.log x)
    + 4 / 3 * (7 * Real.log x + 4 * Real.log (1 - x)) - 5 * spence x

theorem hasDerivAt_radPrim {x : ℝ} (h0 : 0 < x) (h1 : x < 1) :
    HasDerivAt radPrim (radBracket x / x ^ 2) x := by
  have hr := rr_pos
  have hx1 : 1 - x ≠ 0 := by linarith
  have hL : HasDerivAt (fun y => Real.log ((1 - y) / rr ^ 2)) ((-1 / rr ^ 2) / ((1 - x) / rr ^ 2)) x :=
    ((hasDerivAt_sub (x := x)).div_const _).log (by positivity)
  have hlx : HasDerivAt Real.log x⁻¹ x := Real.hasDerivAt_log h0.ne'
  have hlm := hasDerivAt_log_one_sub h1
  have hP : HasDerivAt (fun y : ℝ => 2 * y ^ 4 - 9 * y ^ 3 + 18 * y ^ 2 - 18 * y - 9)
      (2 * ((4 : ℕ) * x ^ (4 - 1)) - 9 * ((3 : ℕ) * x ^ (3 - 1)) + 18 * ((2 : ℕ) * x ^ (2 - 1)) - 18 * 1) x :=
    (((((hasDerivAt_pow 4 x).const_mul 2).sub ((hasDerivAt_pow 3 x).const_mul 9)).add
      ((hasDerivAt_pow 2 x).const_mul 18)).sub ((hasDerivAt_id x).const_mul 18)).sub_const 9
  have hden : HasDerivAt (fun y : ℝ => 3 * y) (3 * 1) x := (hasDerivAt_id x).const_mul 3
  have hq : HasDerivAt (fun y : ℝ => (2 * y ^ 4 - 9 * y ^ 3 + 18 * y ^ 2 - 18 * y - 9) / (3 * y))
      (((2 * ((4 : ℕ) * x ^ (4 - 1)) - 9 * ((3 : ℕ) * x ^ (3 - 1)) + 18 * ((2 : ℕ) * x ^ (2 - 1)) - 18 * 1)
        * (3 * x) - (2 * x ^ 4 - 9 * x ^ 3 + 18 * x ^ 2 - 18 * x - 9) * (3 * 1)) / (3 * x) ^ 2) x :=
    hP.div hden (by positivity)
  have hpoly : HasDerivAt (fun y : ℝ => (191 * y + 21 * y ^ 3 - 92 * y ^ 2) / 12)
      ((191 * 1 + 21 * ((3 : ℕ) * x ^ (3 - 1)) - 92 * ((2 : ℕ) * x ^ (2 - 1))) / 12) x :=
    ((((hasDerivAt_id x).const_mul 191).add ((hasDerivAt_pow 3 x).const_mul 21)).sub
      ((hasDerivAt_pow 2 x).const_mul 92)).div_const 12
  have H := ((((((hasDerivAt_inv h0.ne').const_mul (102 / 12)).sub hpoly).add (hL.mul hq)).sub
    ((hL.mul hlx).const_mul 5)).add (((hlx.const_mul 7).add (hlm.const_mul 4)).const_mul (4 / 3))).sub
    ((hasDerivAt_spence h0 h1).const_mul 5)
  refine H.congr_deriv ?_
  unfold radBracket
  obtain ⟨L, hLd⟩ : ∃ L, L = Real.log ((1 - x) / rr ^ 2) := ⟨_, rfl⟩
  obtain ⟨M, hMd⟩ : ∃ M, M = Real.log x := ⟨_, rfl⟩
  simp only [← hLd, ← hMd]
  push_cast
  field_simp
  ring

theorem rad_flight_value {xm xp beta : ℝ} (hm0 : 0 < xm) (hle : xm ≤ xp) (hp1 : xp < 1)
    (hb : 0 < beta) :
    (5 / beta) * (spence xm - spence xp) +
      ((4 / (3 * beta)) * (Real.log ((1 - xp) / (1 - xm)) * 4 + Real.log (xp / xm) * 7) +
      ((5 / beta) * (Real.log ((1 - xm) / rr ^ 2) * Real.log xm + -(Real.log ((1 - xp) / rr ^ 2) * Real.log xp)) +
      (((xm - xp) * ((xp * xm) * (xp * (xp * 21 + -92) + ((xp * 21 + -92) * xm + (xm * xm * 21 + 191))) + 102))
          / (12 * xm * xp * beta)
        + (Real.log ((1 - xm) / rr ^ 2) * ((((xm * -2 + 9) * xm + -18) * xm + 18) * xm + 9)) / (3 * xm * beta)
        + (Real.log ((1 - xp) / rr ^ 2) * ((((xp * 2 + -9) * xp + 18) * xp + -18) * xp + -9)) / (3 * xp * beta))))
      = (∫ y in xm..xp, radBracket y / y ^ 2) / beta := by
  have hp0 : 0 < xp := hm0.trans_le hle
  have hint : ∫ y in xm..xp, radBracket y / y ^ 2 = radPrim xp - radPrim xm := by
    refine intervalIntegral.integral_eq_sub_of_hasDerivAt ?_ ?_
    · intro y hy
      rw [Set.uIcc_of_le hle] at hy
      exact hasDerivAt_radPrim (hm0.trans_le hy.1) (lt_of_le_of_lt hy.2 hp1)
    · refine ContinuousOn.intervalIntegrable ?_
      rw [Set.uIcc_of_le hle]
      intro y hy
      have hy0 : y ^ 2 ≠ 0 := pow_ne_zero 2 (by linarith [hy.1])
      have hr := rr_pos
      have hy1 : (1 - y) / rr ^ 2 ≠ 0 := by
        have : 0 < 1 - y := by linarith [hy.2]
        positivity
      refine ContinuousAt.continuousWithinAt ?_
      unfold radBracket
      fun_prop (disch := assumption)
  rw [hint]
  have e1 : Real.log ((1 - xp) / (1 - xm)) = Real.log (1 - xp) - Real.log (1 - xm) :=
    Real.log_div (by linarith) (by linarith)
  have e2 : Real.log (xp / xm) = Real.log xp - Real.log xm := Real.log_div hp0.ne' hm0.ne'
  rw [e1, e2]
  unfold radPrim
  field_simp
  ring

/-- C75 (exact content): a moving muon radiates the boost of the spectrum cut at
`1 - (m_e/m_mu)²`. -/
theorem photon_muon_flight_is_boost (egam emu : ℝ) (he : 0 < egam) (hemu : f64eps ≤ emu - massMu) :
    dndePhotonMuon egam emu = boosted photonRestFull 0 (boostBeta emu massMu) egam := by
  have hep := eps_pos
  have hm := massMu_pos
  have hr := rr_pos
  have hrs := rr_small
  have hpi := Real.pi_pos
  have hme : massMu < emu := by linarith
  have hemup : 0 < emu := hm.trans hme
  obtain ⟨hb0, hb1, hg, hb⟩ := parent_boost hm hme
  have hgp := lorentz_pos hb0 hb1
  have hmom : ∀ y : ℝ, 0 < y → momentum y 0 = y := by
    intro y hy; unfold momentum; rw [show y ^ 2 - 0 ^ 2 = y ^ 2 by ring]; exact Real.sqrt_sq hy.le
  unfold boosted
  rw [hmom egam he]
  unfold dndePhotonMuon
  rw [if_neg (by linarith), if_neg (by linarith)]
  simp only
  obtain ⟨beta, hbeta⟩ : ∃ b, b = boostBeta emu massMu := ⟨_, rfl⟩
  obtain ⟨g, hgdef⟩ : ∃ g, g = lorentz beta := ⟨_, rfl⟩
  have hG : boostGamma emu massMu = g := by unfold boostGamma; rw [hgdef, hbeta, hg]
  rw [hG]
  simp only [← hbeta, ← hgdef] at hb0 hb1 hg hb hgp ⊢
  obtain ⟨x, hx⟩ : ∃ x, x = 2 * egam / massMu * g := ⟨_, rfl⟩
  have hxp : 0 < x := by rw [hx]; positivity
  rw [← hx]
  have ha : g * (egam - beta * egam) = massMu / 2 * (x * (1 - beta)) := by rw [hx]; field_simp
  have hbb : g * (egam + beta * egam) = massMu / 2 * (x * (1 + beta)) := by rw [hx]; field_simp
  rw [ha, hbb]
  have h1b : 0 < 1 - beta := by linarith
  have h1b' : 0 < 1 + beta := by linarith
  have hxm : 0 < x * (1 - beta) := by positivity
  have hzero : ∀ y, (y < 0 ∨ massMu / 2 * (1 - rr ^ 2) < y) → photonRestFull y = 0 := by
    intro y hy
    unfold photonRestFull
    rw [if_neg]
    rintro ⟨h1, h2⟩
    rcases hy with hy | hy
    · linarith
    · have := nu_xmax
      have h3 : 2 / massMu * (massMu / 2 * (1 - rr ^ 2)) < 2 / massMu * y :=
        mul_lt_mul_of_pos_left hy (by positivity)
      linarith
  have hab : massMu / 2 * (x * (1 - beta)) ≤ massMu / 2 * (x * (1 + beta)) := by
    have : x * (1 - beta) ≤ x * (1 + beta) := by nlinarith
    gcongr
  rw [integral_clip (lo := 0) (hi := massMu / 2 * (1 - rr ^ 2)) hab
      (fun y hy => by rw [hzero y hy, zero_div]), max_eq_left (by positivity),
      ← mul_min_of_nonneg _ _ (by positivity)]
  have hcond : x ≥ (1 - rr ^ 2) / (1 - beta) ↔ 1 - rr ^ 2 ≤ x * (1 - beta) := by
    rw [ge_iff_le, div_le_iff₀ h1b]
  by_cases hc : 1 - rr ^ 2 ≤ x * (1 - beta)
  · rw [if_pos (Or.inr (hcond.mpr hc))]
    split_ifs with h
    · have hle : min (x * (1 + beta)) (1 - rr ^ 2) ≤ x * (1 - beta) := (min_le_right _ _).trans hc
      have : massMu / 2 * (x * (1 - beta)) = massMu / 2 * min (x * (1 + beta)) (1 - rr ^ 2) :=
        le_antisymm h (by gcongr)
      rw [this, intervalIntegral.integral_same]
    · rfl
  · rw [if_neg (by push Not; exact ⟨hxp.le, not_le.mp (fun h => hc (hcond.mp h))⟩)]
    push Not at hc
    have hxpeq : x * (if x < (1 - rr ^ 2) / (1 + beta) then 1 + beta else (1 - rr ^ 2) / x)
        = min (x * (1 + beta)) (1 - rr ^ 2) := by
      split_ifs with h
      · rw [lt_div_iff₀ h1b'] at h
        rw [min_eq_left h.le]
      · rw [lt_div_iff₀ h1b'] at h
        rw [min_eq_right (not_lt.mp h)]
        field_simp
    rw [hxpeq]
    obtain ⟨xm, hxmd⟩ : ∃ y, y = x * (1 - beta) := ⟨_, rfl⟩
    obtain ⟨xp, hxpd⟩ : ∃ y, y = min (x * (1 + beta)) (1 - rr ^ 2) := ⟨_, rfl⟩
    rw [← hxmd, ← hxpd]
    rw [← hxmd] at hxm hc
    have hlt : xm < xp := by
      rw [hxpd]; refine lt_min ?_ hc; rw [hxmd]; nlinarith
    have hple : xp ≤ 1 - rr ^ 2 := by rw [hxpd]; exact min_le_right _ _
    have hp1 : xp < 1 := by nlinarith [sq_pos_of_pos hr]
    have hle : massMu / 2 * xm ≤ massMu / 2 * xp := by gcongr
    rw [if_pos hle, rad_flight_value hxm hlt.le hp1 hb0]
    rw [integral_congr_Ioo (g := fun e' => alphaEM / (3 * Real.pi * massMu) / (g * beta) *
        (2 / massMu) * (radBracket (2 / massMu * e') / (2 / massMu * e') ^ 2)) hle]
    · rw [intervalIntegral.integral_const_mul]
      have := intervalIntegral.integral_comp_mul_left (a := massMu / 2 * xm) (b := massMu / 2 * xp)
        (fun y => radBracket y / y ^ 2) (c := 2 / massMu) (by positivity)
      rw [this, show 2 / massMu * (massMu / 2 * xm) = xm by field_simp,
        show 2 / massMu * (massMu / 2 * xp) = xp by field_simp]
      have hemu0 : emu = g * massMu := by rw [hg]; field_simp
      rw [hemu0, smul_eq_mul]
      field_simp
    · intro y h1 h2
      have hy0 : 0 < y := lt_trans (by positivity) h1
      have hy : 2 / massMu * y < 1 - rr ^ 2 := by
        calc 2 / massMu * y < 2 / massMu * (massMu / 2 * xp) :=
              mul_lt_mul_of_pos_left h2 (by positivity)
          _ = xp := by field_simp
          _ ≤ _ := hple
      unfold photonRestFull
      rw [if_pos ⟨hy0, hy⟩, hmom y hy0]
      field_simp

/-- The rest-frame code is the full spectrum with the energies
`[1 - m_e/m_mu, 1 - (m_e/m_mu)²)·m_mu/2` removed. -/
theorem photon_muon_rest_is_cut (egam : ℝ) :
    photonMuonRest egam = if 2 / massMu * egam < 1 - rr then photonRestFull egam else 0 := by
  have hm := massMu_pos
  have hr := rr_pos
  have hrs := rr_small
  have hpi := Real.pi_pos
  have hy : 2 * egam / massMu = 2 / massMu * egam := by ring
  unfold photonMuonRest photonRestFull
  simp only [hy]
  by_cases h0 : egam ≤ 0
  · have : 2 / massMu * egam ≤ 0 := mul_nonpos_of_nonneg_of_nonpos (by positivity) h0
    rw [if_pos (Or.inl this), if_neg (show ¬ (0 < egam ∧ _) from fun h => absurd h.1 (not_lt.mpr h0)),
      ite_self]
  · push Not at h0
    have hyp : 0 < 2 / massMu * egam := by positivity
    by_cases h1 : 2 / massMu * egam < 1 - rr
    · rw [if_neg (by push Not; exact ⟨hyp, h1⟩), if_pos h1, if_pos ⟨h0, by nlinarith⟩]
      unfold radBracket
      field_simp
      ring
    · rw [if_pos (Or.inr (not_lt.mp h1)), if_neg h1]

theorem radBracket_le {y : ℝ} (h0 : 0 < y) (h1 : y < 1) (hl : 0 ≤ Real.log ((1 - y) / rr ^ 2)) :
    radBracket y ≤ (1 - y) * (3 * Real.log ((1 - y) / rr ^ 2) - 56 / 12) := by
  unfold radBracket
  have e : 2 * y ^ 4 - 6 * y ^ 3 + 6 * y ^ 2 - 5 * y + 3 = (1 - y) * (3 - 2 * y * (1 - y) ^ 2) := by ring
  rw [e]
  have h2 : 0 < 1 - y := by linarith
  have h3 : (3 - 2 * y * (1 - y) ^ 2) * Real.log ((1 - y) / rr ^ 2)
      ≤ 3 * Real.log ((1 - y) / rr ^ 2) := by
    have : 0 ≤ 2 * y * (1 - y) ^ 2 := by positivity
    nlinarith
  have h4 : 55 * y ^ 3 - 101 * y ^ 2 + 46 * y - 102 ≤ -56 := by nlinarith [mul_pos h0 h0]
  nlinarith

/-- C83 (false as stated): the photon spectrum of a moving muon is negative at the largest
reachable energies; here at rest-frame window starting at `1 - 2 (m_e/m_mu)²`. -/
theorem photon_muon_negative (emu : ℝ) (hemu : f64eps ≤ emu - massMu) :
    dndePhotonMuon (emu * (1 - 2 * rr ^ 2) / 2 * (1 + boostBeta emu massMu)) emu < 0 := by
  have hep := eps_pos
  have hm := massMu_pos
  have hr := rr_pos
  have hrs := rr_small
  have hpi := Real.pi_pos
  have hme : massMu < emu := by linarith
  have hemup : 0 < emu := hm.trans hme
  obtain ⟨hb0, hb1, hg, hb⟩ := parent_boost hm hme
  unfold dndePhotonMuon
  rw [if_neg (by linarith), if_neg (by linarith)]
  simp only
  obtain ⟨beta, hbeta⟩ : ∃ b, b = boostBeta emu massMu := ⟨_, rfl⟩
  simp only [← hbeta] at hb0 hb1 hg hb ⊢
  have hr2 : 0 < 1 - 2 * rr ^ 2 := by nlinarith
  have h1b : 0 < 1 - beta := by linarith
  have h1b' : 0 < 1 + beta := by linarith
  have hbb : (1 + beta) * (1 - beta) = (massMu / emu) ^ 2 := by nlinarith
  have hx : 2 * (emu * (1 - 2 * rr ^ 2) / 2 * (1 + beta)) / massMu * boostGamma emu massMu
      = (1 - 2 * rr ^ 2) / (1 - beta) := by
    unfold boostGamma
    rw [eq_div_iff h1b.ne']
    calc _ = (1 - 2 * rr ^ 2) * ((1 + beta) * (1 - beta)) * (emu / massMu) ^ 2 := by ring
      _ = _ := by rw [hbb]; field_simp
  rw [hx]
  have hneg : ¬ ((1 - 2 * rr ^ 2) / (1 - beta) < 0 ∨ (1 - 2 * rr ^ 2) / (1 - beta) ≥ (1 - rr ^ 2) / (1 - beta)) := by
    push Not
    refine ⟨by positivity, ?_⟩
    exact div_lt_div_of_pos_right (by nlinarith) h1b
  rw [if_neg hneg]
  have hxm : (1 - 2 * rr ^ 2) / (1 - beta) * (1 - beta) = 1 - 2 * rr ^ 2 := by field_simp
  obtain ⟨xp, hxpd⟩ : ∃ y, y = (1 - 2 * rr ^ 2) / (1 - beta) * (if (1 - 2 * rr ^ 2) / (1 - beta) < (1 - rr ^ 2) / (1 + beta) then 1 + beta else (1 - rr ^ 2) / ((1 - 2 * rr ^ 2) / (1 - beta))) := ⟨_, rfl⟩
  rw [← hxpd, hxm]
  have hxp : 1 - 2 * rr ^ 2 < xp ∧ xp ≤ 1 - rr ^ 2 := by
    rw [hxpd]
    split_ifs with h
    · rw [lt_div_iff₀ h1b'] at h
      refine ⟨?_, h.le⟩
      rw [div_mul_eq_mul_div, lt_div_iff₀ h1b]
      nlinarith
    · have hne : (1 - 2 * rr ^ 2) / (1 - beta) ≠ 0 := by positivity
      rw [mul_div_cancel₀ _ hne]
      exact ⟨by nlinarith, le_rfl⟩
  have hp1 : xp < 1 := by nlinarith
  rw [rad_flight_value hr2 hxp.1.le hp1 hb0]
  have hint : ∫ y in (1 - 2 * rr ^ 2)..xp, radBracket y / y ^ 2 < 0 := by
    rw [← neg_pos, ← intervalIntegral.integral_neg]
    refine intervalIntegral.intervalIntegral_pos_of_pos_on ?_ ?_ hxp.1
    · refine ContinuousOn.intervalIntegrable ?_
      rw [Set.uIcc_of_le hxp.1.le]
      intro y hy
      have hy0 : y ^ 2 ≠ 0 := pow_ne_zero 2 (by linarith [hy.1])
      have hy1 : (1 - y) / rr ^ 2 ≠ 0 := by
        have : 0 < 1 - y := by linarith [hy.2]
        positivity
      refine ContinuousAt.continuousWithinAt ?_
      unfold radBracket
      fun_prop (disch := assumption)
    · intro y hy
      have hy0 : 0 < y := hr2.trans hy.1
      have hy1 : y < 1 := hy.2.trans hp1
      have hle1 : 1 ≤ (1 - y) / rr ^ 2 := by
        rw [le_div_iff₀ (by positivity)]; linarith [hy.2, hxp.2]
      have hle2 : (1 - y) / rr ^ 2 ≤ 2 := by
        rw [div_le_iff₀ (by positivity)]; linarith [hy.1]
      have hl0 := Real.log_nonneg hle1
      have hl2 : Real.log ((1 - y) / rr ^ 2) ≤ Real.log 2 := Real.log_le_log (by positivity) hle2
      have hln := Real.log_two_lt_d9
      have := radBracket_le hy0 hy1 hl0
      have hneg : radBracket y < 0 := by
        refine lt_of_le_of_lt this (mul_neg_of_pos_of_neg (by linarith) ?_)
        norm_num at *
        linarith
      have : radBracket y / y ^ 2 < 0 := div_neg_of_neg_of_pos hneg (by positivity)
      linarith
  have ha : 0 < alphaEM := by unfold alphaEM; norm_num
  refine div_neg_of_neg_of_pos (mul_neg_of_neg_of_pos ?_ ha) (by positivity)
  exact div_neg_of_neg_of_pos hint hb0

/-- At rest the spectrum is non-negative: the cut at `1 - m_e/m_mu` removes the negative part. -/
theorem photon_muon_rest_nonneg_partial (egam : ℝ) : 0 ≤ photonMuonRest egam := by
  have hm := massMu_pos
  have hr := rr_pos
  have hrs := rr_small
  have hpi := Real.pi_pos
  have ha : 0 < alphaEM := by unfold alphaEM; norm_num
  rw [photon_muon_rest_is_cut]
  split_ifs with h
  · unfold photonRestFull
    split_ifs with h2
    · obtain ⟨y, hy⟩ : ∃ y, y = 2 / massMu * egam := ⟨_, rfl⟩
      rw [← hy] at h h2 ⊢
      have hy0 : 0 < y := by rw [hy]; exact mul_pos (by positivity) h2.1
      have h1y : 0 < 1 - y := by linarith
      have hl : (4 : ℝ) ≤ Real.log ((1 - y) / rr ^ 2) := by
        rw [Real.le_log_iff_exp_le (by positivity), le_div_iff₀ (by positivity)]
        have he : Real.exp 4 ≤ 2.7182818286 ^ 4 := by
          have := Real.exp_one_lt_d9.le
          calc Real.exp 4 = Real.exp 1 ^ 4 := by rw [← Real.exp_nat_mul]; norm_num
            _ ≤ _ := by gcongr
        have h3 : (2.7182818286 : ℝ) ^ 4 * rr ^ 2 ≤ rr := by
          have : (2.7182818286 : ℝ) ^ 4 ≤ 200 := by norm_num
          nlinarith
        have h4 : Real.exp 4 * rr ^ 2 ≤ 2.7182818286 ^ 4 * rr ^ 2 := by gcongr
        linarith
      have hb : 0 ≤ radBracket y := by
        unfold radBracket
        have e : 2 * y ^ 4 - 6 * y ^ 3 + 6 * y ^ 2 - 5 * y + 3
          = (1 - y) * (3 - 2 * y * (1 - y) ^ 2) := by ring
        have e2 : 55 * y ^ 3 - 101 * y ^ 2 + 46 * y - 102 = y * (1 - y) * (46 - 55 * y) - 102 := by ring
        rw [e, e2]
        have h5 : y * (1 - y) ≤ 1 / 4 := by nlinarith [sq_nonneg (y - 1 / 2)]
        have h6 : 0 ≤ y * (1 - y) := by positivity
        have h7 : -9 / 4 ≤ y * (1 - y) * (46 - 55 * y) := by nlinarith
        have h8 : 2.5 ≤ 3 - 2 * y * (1 - y) ^ 2 := by nlinarith
        have h9 : 10 ≤ (3 - 2 * y * (1 - y) ^ 2) * Real.log ((1 - y) / rr ^ 2) := by nlinarith
        nlinarith
      positivity
    · exact le_rfl
  · exact le_rfl

/-- C75 (false as stated): just below the endpoint the rest-frame spectrum is zero although the
spectrum that is boosted for a moving muon is not. -/
theorem photon_muon_cut_mismatch :
    photonMuonRest (massMu / 2 * (1 - rr / 2)) = 0
      ∧ 0 < photonRestFull (massMu / 2 * (1 - rr / 2)) := by
  have hm := massMu_pos
  have hr := rr_pos
  have hrs := rr_small
  have hpi := Real.pi_pos
  have ha : 0 < alphaEM := by unfold alphaEM; norm_num
  have hy : 2 / massMu * (massMu / 2 * (1 - rr / 2)) = 1 - rr / 2 := by field_simp
  constructor
  · rw [photon_muon_rest_is_cut, hy, if_neg (by linarith)]
  · unfold photonRestFull
    rw [hy, if_pos ⟨mul_pos (by positivity) (by linarith), by nlinarith⟩]
    have hq : (1 - (1 - rr / 2)) / rr ^ 2 = 1 / (2 * rr) := by field_simp; ring
    have hl : (4 : ℝ) ≤ Real.log (1 / (2 * rr)) := by
      rw [Real.le_log_iff_exp_le (by positivity)]
      have he : Real.exp 4 ≤ 2.7182818286 ^ 4 := by
        have := Real.exp_one_lt_d9.le
        calc Real.exp 4 = Real.exp 1 ^ 4 := by rw [← Real.exp_nat_mul]; norm_num
          _ ≤ _ := by gcongr
      refine he.trans ?_
      rw [le_div_iff₀ (by positivity)]
      nlinarith
    have hb : 0 < radBracket (1 - rr / 2) := by
      unfold radBracket
      rw [hq]
      obtain ⟨y, hyd⟩ : ∃ y, y = 1 - rr / 2 := ⟨_, rfl⟩
      rw [← hyd]
      have hy0 : 0.9 < y := by rw [hyd]; linarith
      have h1y : 0 < 1 - y := by rw [hyd]; linarith
      have e : 2 * y ^ 4 - 6 * y ^ 3 + 6 * y ^ 2 - 5 * y + 3
          = (1 - y) * (3 - 2 * y * (1 - y) ^ 2) := by ring
      have e2 : 55 * y ^ 3 - 101 * y ^ 2 + 46 * y - 102 = y * (1 - y) * (46 - 55 * y) - 102 := by ring
      rw [e, e2]
      have h6 : 0 ≤ y * (1 - y) := by nlinarith
      have h5 : y * (1 - y) ≤ 1 / 4 := by nlinarith [sq_nonneg (y - 1 / 2)]
      have h7 : -9 / 4 ≤ y * (1 - y) * (46 - 55 * y) := by nlinarith
      have h8 : 2.5 ≤ 3 - 2 * y * (1 - y) ^ 2 := by nlinarith
      have h9 : 10 ≤ (3 - 2 * y * (1 - y) ^ 2) * Real.log (1 / (2 * rr)) := by nlinarith
      nlinarith
    have h1r : 0 < 1 - rr / 2 := by linarith
    positivity

end Hazma.Spectra
