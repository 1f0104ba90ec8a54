import Verif.Props.PhotonMuon
import Mathlib.Tactic

/-!
# Pion and rho decay spectra (C28, C32, C76, C77, C78, C82, C84, C85)
-/

namespace Hazma.Spectra

open MeasureTheory Hazma.Boost

theorem massPi_pos : (0 : ℝ) < massPi := by unfold massPi; norm_num
theorem massPi0_pos : (0 : ℝ) < massPi0 := by unfold massPi0; norm_num
theorem massRho_pos : (0 : ℝ) < massRho := by unfold massRho; norm_num

/-! ### Neutral pions -/

/-- C28: two photons per decay (times the branching fraction), half of the pion energy each, on
exactly the energies of the boosted line. -/
theorem neutral_pion_box (epi : ℝ) (h : massPi0 < epi) :
    (∫ e, dndePhotonNeutralPion e epi = 2 * brPi0AA)
    ∧ (∫ e, e * dndePhotonNeutralPion e epi = 2 * brPi0AA * (epi / 2))
    ∧ (∀ e, 0 ≤ dndePhotonNeutralPion e epi)
    ∧ (∀ e, dndePhotonNeutralPion e epi ≠ 0 ↔
        labEnergy (massPi0 / 2) 0 (boostBeta epi massPi0) (-1) ≤ e
        ∧ e ≤ labEnergy (massPi0 / 2) 0 (boostBeta epi massPi0) 1) := by
  have hm := massPi0_pos
  have hep : 0 < epi := hm.trans h
  obtain ⟨hb0, hb1, hg, hb⟩ := parent_boost hm h
  have hbr : 0 < brPi0AA := by unfold brPi0AA; norm_num
  obtain ⟨beta, hbeta⟩ : ∃ b, b = boostBeta epi massPi0 := ⟨_, rfl⟩
  rw [← hbeta] at hb0 hb1 hg hb ⊢
  obtain ⟨lo, hlo⟩ : ∃ l, l = epi * (1 - beta) * 0.5 := ⟨_, rfl⟩
  obtain ⟨up, hup⟩ : ∃ l, l = epi * (1 + beta) * 0.5 := ⟨_, rfl⟩
  have hfun : (fun e => dndePhotonNeutralPion e epi)
      = (Set.Icc lo up).indicator fun _ => brPi0AA * 2 / (epi * beta) := by
    funext e
    unfold dndePhotonNeutralPion
    rw [if_neg (by linarith)]
    change (if epi * (1 - boostBeta epi massPi0) * 0.5 ≤ e ∧ e ≤ epi * (1 + boostBeta epi massPi0) * 0.5
      then brPi0AA * 2 / (epi * boostBeta epi massPi0) else 0) = _
    rw [← hbeta, ← hlo, ← hup]
    by_cases hw : e ∈ Set.Icc lo up
    · rw [Set.indicator_of_mem hw]; exact if_pos hw
    · rw [Set.indicator_of_notMem hw]; exact if_neg hw
  have hle : lo ≤ up := by rw [hlo, hup]; nlinarith
  have hlen : up - lo = epi * beta := by rw [hlo, hup]; ring
  have hpos : 0 < brPi0AA * 2 / (epi * beta) := by positivity
  have hmom : momentum (massPi0 / 2) 0 = massPi0 / 2 := by
    unfold momentum
    rw [show (massPi0 / 2) ^ 2 - 0 ^ 2 = (massPi0 / 2) ^ 2 by ring]
    exact Real.sqrt_sq (by positivity)
  have hlab1 : labEnergy (massPi0 / 2) 0 beta (-1) = lo := by
    unfold labEnergy; rw [hmom, hg, hlo]; field_simp; norm_num; ring
  have hlab2 : labEnergy (massPi0 / 2) 0 beta 1 = up := by
    unfold labEnergy; rw [hmom, hg, hup]; field_simp; norm_num
  refine ⟨?_, ?_, ?_, ?_⟩
  · rw [hfun, integral_indicator measurableSet_Icc, integral_Icc_eq_integral_Ioc,
      ← intervalIntegral.integral_of_le hle, intervalIntegral.integral_const, hlen, smul_eq_mul]
    field_simp
  · have : (fun e => e * dndePhotonNeutralPion e epi)
        = (Set.Icc lo up).indicator fun e => e * (brPi0AA * 2 / (epi * beta)) := by
      funext e
      rw [congrFun hfun e]
      by_cases hw : e ∈ Set.Icc lo up
      · rw [Set.indicator_of_mem hw, Set.indicator_of_mem hw]
      · rw [Set.indicator_of_notMem hw, Set.indicator_of_notMem hw, mul_zero]
    rw [this, integral_indicator measurableSet_Icc, integral_Icc_eq_integral_Ioc,
      ← intervalIntegral.integral_of_le hle, intervalIntegral.integral_mul_const, integral_id]
    have : up ^ 2 - lo ^ 2 = epi * beta * epi := by rw [hup, hlo]; ring
    rw [this]
    field_simp
  · intro e
    rw [congrFun hfun e]
    exact Set.indicator_nonneg (fun _ _ => hpos.le) e
  · intro e
    rw [congrFun hfun e, hlab1, hlab2]
    by_cases hw : e ∈ Set.Icc lo up
    · rw [Set.indicator_of_mem hw]; exact ⟨fun _ => hw, fun _ => hpos.ne'⟩
    · rw [Set.indicator_of_notMem hw]; exact ⟨fun h => absurd rfl h, fun h => absurd h hw⟩

/-! ### Photons from charged pions -/

/-- Photon spectrum of a charged pion at rest: muon radiation, radiative decays. -/
noncomputable def photonPionRest (e : ℝ) : ℝ :=
  brPiMuNu * dndePhotonMuon e engMuPirf + brPiMuNu * dndePiLNuG e massMu + brPiENu * dndePiLNuG e massE

theorem chargedPionPhotonIntegrand_eq {cl egam epi : ℝ} :
    chargedPionPhotonIntegrand cl egam epi
      = photonPionRest (egam * boostGamma epi massPi * (-boostBeta epi massPi * cl + 1))
        / (2 * boostGamma epi massPi * |-boostBeta epi massPi * cl + 1|) := by
  unfold chargedPionPhotonIntegrand photonPionRest
  simp only
  ring

theorem momentum_zero {y : ℝ} (hy : 0 ≤ y) : momentum y 0 = y := by
  unfold momentum; rw [show y ^ 2 - 0 ^ 2 = y ^ 2 by ring]; exact Real.sqrt_sq hy

/-- C85: the angular integral of the code is the energy-space boost integral, and at rest it is the
rest-frame spectrum. -/
theorem charged_pion_photon_is_boost (egam epi : ℝ) (he : 0 < egam) :
    (massPi < epi → dndePhotonChargedPion egam epi
      = boosted photonPionRest 0 (boostBeta epi massPi) egam)
    ∧ (epi = massPi → dndePhotonChargedPion egam epi = photonPionRest egam)
    ∧ (epi < massPi → dndePhotonChargedPion egam epi = 0) := by
  have hm := massPi_pos
  refine ⟨?_, ?_, ?_⟩
  · intro h
    obtain ⟨hb0, hb1, hg, hb⟩ := parent_boost hm h
    have hgp := lorentz_pos hb0 hb1
    unfold dndePhotonChargedPion boosted
    rw [if_neg (by linarith), momentum_zero he.le]
    simp only [chargedPionPhotonIntegrand_eq]
    have hG : boostGamma epi massPi = lorentz (boostBeta epi massPi) := by rw [hg]; rfl
    rw [hG]
    obtain ⟨beta, hbeta⟩ : ∃ b, b = boostBeta epi massPi := ⟨_, rfl⟩
    obtain ⟨g, hgdef⟩ : ∃ g, g = lorentz beta := ⟨_, rfl⟩
    rw [← hbeta] at hb0 hb1 hgp ⊢
    rw [← hgdef] at hgp ⊢
    have h1 : ∫ cl in (-1 : ℝ)..1, photonPionRest (egam * g * (-beta * cl + 1)) / (2 * g * |-beta * cl + 1|)
        = ∫ cl in (-1 : ℝ)..1, (fun y => photonPionRest y * egam / (2 * y)) (g * egam - (g * egam * beta) * cl) := by
      refine integral_congr_Ioo (by norm_num) fun c hc1 hc2 => ?_
      have hpos : 0 < -beta * c + 1 := by nlinarith
      have e1 : egam * g * (-beta * c + 1) = g * egam - g * egam * beta * c := by ring
      simp only
      rw [abs_of_pos hpos, e1]
      have e2 : g * egam - g * egam * beta * c = g * egam * (-beta * c + 1) := by ring
      have : g * egam - g * egam * beta * c ≠ 0 := by rw [e2]; positivity
      rw [div_eq_div_iff (by positivity) (by positivity)]
      rw [e2]; ring
    rw [h1, intervalIntegral.integral_comp_sub_mul (fun y => photonPionRest y * egam / (2 * y))
      (c := g * egam * beta) (by positivity)]
    rw [show g * egam - g * egam * beta * 1 = g * (egam - beta * egam) by ring,
      show g * egam - g * egam * beta * -1 = g * (egam + beta * egam) by ring,
      smul_eq_mul, ← intervalIntegral.integral_const_mul]
    have hle : g * (egam - beta * egam) ≤ g * (egam + beta * egam) :=
      mul_le_mul_of_nonneg_left (by nlinarith) hgp.le
    have hlo : 0 < g * (egam - beta * egam) := mul_pos hgp (by nlinarith)
    refine integral_congr_Ioo hle fun y hy1 _ => ?_
    have hy : 0 < y := hlo.trans hy1
    rw [momentum_zero hy.le]
    field_simp
  · intro h
    have hb : boostBeta massPi massPi = 0 := by
      unfold boostBeta; simp [div_self hm.ne']
    have hgm : boostGamma massPi massPi = 1 := div_self hm.ne'
    unfold dndePhotonChargedPion
    rw [if_neg (by linarith), h]
    simp only [chargedPionPhotonIntegrand_eq, hb, hgm]
    simp
    ring
  · intro h; unfold dndePhotonChargedPion; rw [if_pos h]

theorem dndePhotonMuon_support {e emu : ℝ} (hemu : f64eps ≤ emu - massMu)
    (he : emu * (1 + boostBeta emu massMu) / 2 * (1 - rr ^ 2) ≤ e) : dndePhotonMuon e emu = 0 := by
  have hm := massMu_pos
  have hr := rr_pos
  have hrs := rr_small
  have hme : massMu < emu := by linarith [eps_pos]
  have hemup : 0 < emu := hm.trans hme
  obtain ⟨hb0, hb1, hg, hb⟩ := parent_boost hm hme
  have hpos : 0 < e := lt_of_lt_of_le (mul_pos (by positivity) (by nlinarith)) he
  rw [photon_muon_flight_is_boost e emu hpos hemu]
  have h2 : 0 ≤ massMu / 2 * (1 - rr ^ 2) := nu_xmax_pos
  refine boosted_support (hi := massMu / 2 * (1 - rr ^ 2)) hb0 hb1 le_rfl h2 ?_ ?_
  · intro y hy
    unfold photonRestFull
    rw [if_neg]
    rintro ⟨-, h⟩
    have h3 : 2 / massMu * (massMu / 2 * (1 - rr ^ 2)) < 2 / massMu * y :=
      mul_lt_mul_of_pos_left hy (by positivity)
    linarith [nu_xmax]
  · refine le_trans (le_of_eq ?_) he
    unfold labEnergy
    rw [momentum_zero h2, hg]
    field_simp

theorem photonPionRest_support {e : ℝ} (h : massPi / 2 < e) : photonPionRest e = 0 := by
  have hm := massPi_pos
  have hmu : dndePhotonMuon e engMuPirf = 0 := by
    refine dndePhotonMuon_support (by unfold f64eps engMuPirf massMu; norm_num) ?_
    have hme : massMu < engMuPirf := by unfold massMu engMuPirf; norm_num
    obtain ⟨hb0, hb1, -, hb⟩ := parent_boost massMu_pos hme
    have hp : engMuPirf * boostBeta engMuPirf massMu ≤ massPi - engMuPirf := by
      refine abs_le_of_sq_le_sq' ?_ (by unfold massPi engMuPirf; norm_num) |>.2
      rw [mul_pow, hb]
      unfold engMuPirf massMu massPi; norm_num
    have hr := rr_pos
    have hrs := rr_small
    have h3 : engMuPirf * (1 + boostBeta engMuPirf massMu) / 2 ≤ massPi / 2 := by linarith
    have h4 : 0 < engMuPirf * (1 + boostBeta engMuPirf massMu) / 2 := by
      have : (0 : ℝ) < engMuPirf := massMu_pos.trans hme
      positivity
    nlinarith [sq_nonneg rr]
  have hl : ∀ ml, dndePiLNuG e ml = 0 := by
    intro ml
    unfold dndePiLNuG
    refine if_pos (Or.inr ?_)
    have h1 : 1 < 2 * e / massPi := by rw [lt_div_iff₀ hm]; linarith
    nlinarith [mul_self_nonneg (ml / massPi)]
  unfold photonPionRest
  rw [hmu, hl, hl]; ring

/-! ### Positrons from charged pions -/

theorem muon_endpoint_in_pion :
    labEnergy (massMu / 2 * (1 + rr ^ 2)) massE (boostBeta engMuPiRf massMu) 1 = engEPiRf := by
  have hm := massMu_pos
  have hr := rr_pos
  have hrs := rr_small
  have hpi := massPi_pos
  have hlt : massMu < engMuPiRf := by unfold massMu engMuPiRf massPi massMu; norm_num
  obtain ⟨hb0, hb1, hg, hb⟩ := parent_boost hm hlt
  have hmom : momentum (massMu / 2 * (1 + rr ^ 2)) massE = massMu / 2 * (1 - rr ^ 2) := by
    unfold momentum
    rw [massE_eq, show (massMu / 2 * (1 + rr ^ 2)) ^ 2 - (rr * massMu) ^ 2
      = (massMu / 2 * (1 - rr ^ 2)) ^ 2 by ring]
    exact Real.sqrt_sq nu_xmax_pos
  have hbeta : boostBeta engMuPiRf massMu
      = (massPi ^ 2 - massMu ^ 2) / (massPi ^ 2 + massMu ^ 2) := by
    have h1 : 0 ≤ (massPi ^ 2 - massMu ^ 2) / (massPi ^ 2 + massMu ^ 2) := by
      unfold massPi massMu; norm_num
    have h2 : boostBeta engMuPiRf massMu ^ 2
        = ((massPi ^ 2 - massMu ^ 2) / (massPi ^ 2 + massMu ^ 2)) ^ 2 := by
      rw [hb]; unfold engMuPiRf; field_simp; ring
    exact (sq_eq_sq₀ hb0.le h1).mp h2
  unfold labEnergy
  rw [hg, hmom, hbeta]
  unfold engMuPiRf engEPiRf
  rw [massE_eq]
  field_simp
  ring

theorem positron_in_pion_support {e : ℝ} (h : emaxPiRf < e) : dndePositronMuon e engMuPiRf = 0 := by
  have hlt : massMu < engMuPiRf := by unfold massMu engMuPiRf massPi massMu; norm_num
  have heps : f64eps ≤ engMuPiRf - massMu := by unfold f64eps engMuPiRf massMu massPi; norm_num
  obtain ⟨hb0, hb1, hg, hb⟩ := parent_boost massMu_pos hlt
  have hE : engEPiRf ≤ emaxPiRf := by unfold engEPiRf emaxPiRf massPi massE; norm_num
  have he : massE < e := lt_trans (by unfold massE emaxPiRf; norm_num) h
  rw [positron_muon_is_boost e _ he heps]
  refine boosted_support (hi := massMu / 2 * (1 + rr ^ 2)) hb0 hb1 massE_pos.le emax_mu ?_ ?_
  · intro x hx; exact positronRestE_zero' (Or.inr hx.le)
  · rw [muon_endpoint_in_pion]; linarith

/-- C84: positrons of a moving charged pion are the boosts of the muon-chain spectrum and of the
electron line, weighted with the branching fractions. -/
theorem positron_pion_is_boost (e epi : ℝ) (he : massE ≤ e) (hepi : f64eps ≤ epi - massPi) :
    dndePositronChargedPion e epi
      = brPiMuNu * boosted (fun x => dndePositronMuon x engMuPiRf) massE (boostBeta epi massPi) e
        + brPiENu * boostDeltaPy e engEPiRf massE (boostBeta epi massPi) := by
  have hep := eps_pos
  have hm := massPi_pos
  have hlt : massPi < epi := by linarith
  obtain ⟨hb0, hb1, hg, hb⟩ := parent_boost hm hlt
  have hgp := lorentz_pos hb0 hb1
  have hG : boostGamma epi massPi = lorentz (boostBeta epi massPi) := by rw [hg]; rfl
  unfold dndePositronChargedPion
  rw [if_neg (by push Not; exact ⟨hlt.le, he⟩),
    if_neg (by rw [abs_of_pos (by linarith)]; linarith)]
  simp only
  rw [boost_delta_implementations_agree, hG]
  congr 1
  obtain ⟨beta, hbeta⟩ : ∃ b, b = boostBeta epi massPi := ⟨_, rfl⟩
  rw [← hbeta] at hb0 hb1 hgp ⊢
  have hk : Real.sqrt (e * e - massE * massE) = momentum e massE := by unfold momentum; ring_nf
  rw [hk]
  have hk0 : 0 ≤ momentum e massE := Real.sqrt_nonneg _
  have e1 : -beta * momentum e massE + e = e - beta * momentum e massE := by ring
  have e2 : beta * momentum e massE + e = e + beta * momentum e massE := by ring
  rw [e1, e2]
  have hlo : massE ≤ lorentz beta * (e - beta * momentum e massE) := by
    have := mass_le_labEnergy hb0 hb1 massE_pos.le he
    unfold labEnergy at this
    have e1 : e + beta * (-1) * momentum e massE = e - beta * momentum e massE := by ring
    rwa [e1] at this
  rw [max_eq_left hlo]
  unfold boosted
  have hle : lorentz beta * (e - beta * momentum e massE) ≤ lorentz beta * (e + beta * momentum e massE) :=
    mul_le_mul_of_nonneg_left (by nlinarith [mul_nonneg hb0.le hk0]) hgp.le
  obtain ⟨a, ha⟩ : ∃ a, a = lorentz beta * (e - beta * momentum e massE) := ⟨_, rfl⟩
  obtain ⟨b, hbb⟩ : ∃ b, b = lorentz beta * (e + beta * momentum e massE) := ⟨_, rfl⟩
  rw [← ha] at hlo
  rw [← ha, ← hbb] at hle ⊢
  have hrhs : ∫ e' in a..b, dndePositronMuon e' engMuPiRf / (2 * lorentz beta * beta * momentum e' massE)
      = 1 / (2 * lorentz beta * beta) * ∫ e' in a..b, positronPionIntegrand e' := by
    rw [← intervalIntegral.integral_const_mul]
    congr 1
    funext y
    unfold positronPionIntegrand
    have : Real.sqrt (y * y - massE * massE) = momentum y massE := by unfold momentum; ring_nf
    rw [this]
    rw [div_mul_div_comm, one_mul]
  have hz : ∀ x, emaxPiRf < x → positronPionIntegrand x = 0 := by
    intro x hx; unfold positronPionIntegrand; rw [positron_in_pion_support hx, zero_div]
  have hcl : ∫ x in a..(min b emaxPiRf), positronPionIntegrand x = ∫ x in a..b, positronPionIntegrand x := by
    by_cases hc : a ≤ emaxPiRf
    · rw [integral_clip (f := positronPionIntegrand) (lo := massE) (hi := emaxPiRf) hle
        (fun x hx => ?_), max_eq_left hlo, if_pos (le_min hle hc)]
      rcases hx with hx | hx
      · unfold positronPionIntegrand dndePositronMuon
        rw [if_pos (Or.inr hx.le), zero_div]
      · exact hz x hx
    · push Not at hc
      rw [min_eq_right (by linarith), intervalIntegral.integral_symm,
        intervalIntegral.integral_of_le hc.le, intervalIntegral.integral_of_le hle,
        setIntegral_eq_zero_of_forall_eq_zero (fun x hx => hz x hx.1),
        setIntegral_eq_zero_of_forall_eq_zero (fun x hx => hz x (hc.trans hx.1)), neg_zero]
  rw [hrhs, hcl]
  field_simp

theorem line_integral {e0 m beta : ℝ} (h0 : 0 < beta) (h1 : beta < 1) (hm : 0 ≤ m) (he0 : m < e0) :
    ∫ e in Set.Ioi m, boostDeltaPy e e0 m beta = 1 := by
  rw [setIntegral_eq_integral_of_forall_compl_eq_zero]
  · exact (boost_delta_normalised_box e0 m beta h0 h1 hm he0).2.2.1
  · intro e he
    by_contra hc
    have := ((boost_delta_normalised_box e0 m beta h0 h1 hm he0).2.1 e).mp hc
    exact he (lt_of_le_of_lt (mass_le_labEnergy h0 h1 hm he0.le) this.1)

theorem line_integrable {e0 m beta : ℝ} (h0 : 0 < beta) (h1 : beta < 1) (hm : 0 ≤ m) (he0 : m < e0) :
    Integrable fun e => boostDeltaPy e e0 m beta := by
  have h := (boost_delta_normalised_box e0 m beta h0 h1 hm he0).2.2.1
  by_contra hc
  rw [integral_undef hc] at h
  exact zero_ne_one h

theorem dndePositronMuon_integrable {emu : ℝ} (hemu : f64eps ≤ emu - massMu) :
    IntegrableOn (fun e => dndePositronMuon e emu) (Set.Ioi massE) := by
  have hlt : massMu < emu := by linarith [eps_pos]
  obtain ⟨hb0, hb1, -, -⟩ := parent_boost massMu_pos hlt
  refine (boosted_integrable hb0 hb1 massE_pos.le positronRestE_integrable.integrableOn).congr ?_
  filter_upwards [ae_restrict_mem measurableSet_Ioi] with e he
  exact (positron_muon_is_boost e emu he hemu).symm

theorem engMu_eps : f64eps ≤ engMuPiRf - massMu := by
  unfold f64eps engMuPiRf massMu massPi; norm_num

/-- C84: positrons per charged pion in flight: the muon chain carries the muon deficit of C30. -/
theorem positron_pion_total (epi : ℝ) (hepi : f64eps ≤ epi - massPi) :
    ∫ e in Set.Ioi massE, dndePositronChargedPion e epi
      = brPiMuNu * (michel / rFactor) + brPiENu := by
  have hlt : massPi < epi := by linarith [eps_pos]
  obtain ⟨hb0, hb1, hg, hb⟩ := parent_boost massPi_pos hlt
  have hi := dndePositronMuon_integrable engMu_eps
  have hE : massE < engEPiRf := by unfold massE engEPiRf massPi massE; norm_num
  have h1 : ∫ e in Set.Ioi massE, dndePositronChargedPion e epi
      = ∫ e in Set.Ioi massE, (brPiMuNu * boosted (fun x => dndePositronMuon x engMuPiRf) massE (boostBeta epi massPi) e
        + brPiENu * boostDeltaPy e engEPiRf massE (boostBeta epi massPi)) :=
    setIntegral_congr_fun measurableSet_Ioi fun e he => positron_pion_is_boost e epi (le_of_lt he) hepi
  rw [h1, integral_add ((boosted_integrable hb0 hb1 massE_pos.le hi).const_mul _)
    ((line_integrable hb0 hb1 massE_pos.le hE).integrableOn.const_mul _), integral_const_mul,
    integral_const_mul, boost_conserves_number _ _ _ hb0 hb1 massE_pos.le hi,
    line_integral hb0 hb1 massE_pos.le hE, mul_one,
    positron_muon_total engMuPiRf (by linarith [engMu_eps, eps_pos])]

/-- C76 (false as stated): a charged pion at rest emits no positron at all, while the muon chain
it should carry holds more than 0.999 positrons; every moving pion carries them. -/
theorem positron_pion_at_rest_zero :
    (∀ e, dndePositronChargedPion e massPi = 0)
    ∧ 0.999 < ∫ e in Set.Ioi massE, brPiMuNu * dndePositronMuon e engMuPiRf
    ∧ ∀ epi, f64eps ≤ epi - massPi → 0.999 < ∫ e in Set.Ioi massE, dndePositronChargedPion e epi := by
  obtain ⟨h1, h2, -⟩ := michel_bounds
  have h4 : 1 - 3.8e-4 < michel / rFactor := by
    rw [lt_div_iff₀ rFactor_pos]; refine lt_trans ?_ h1; unfold rFactor; norm_num
  refine ⟨?_, ?_, ?_⟩
  · intro e
    unfold dndePositronChargedPion
    split_ifs with h h'
    · rfl
    · rfl
    · exact absurd (by rw [sub_self, abs_zero]; exact eps_pos) h'
  · rw [integral_const_mul, positron_muon_total engMuPiRf (by linarith [engMu_eps, eps_pos])]
    unfold brPiMuNu
    norm_num at *
    linarith
  · intro epi hepi
    rw [positron_pion_total epi hepi]
    unfold brPiMuNu brPiENu
    norm_num at *
    linarith

/-! ### Neutrinos from charged pions -/

/-- Rows of the muon's neutrino spectrum inside a pion. -/
noncomputable def nueInPion (e : ℝ) : ℝ := (dndeNeutrinoMuon e engMuPiRf).electron
noncomputable def numuInPion (e : ℝ) : ℝ := (dndeNeutrinoMuon e engMuPiRf).muon

theorem nuBoost {row : NuPoint → ℝ} {enu epi : ℝ} (he : 0 < enu) (hlt : massPi < epi) :
    0.5 / (1 / Real.sqrt (1 - boostBeta epi massPi * boostBeta epi massPi) * boostBeta epi massPi)
      * brPiMuNu * nuBoostIntegral
        (max (enu * (1 / Real.sqrt (1 - boostBeta epi massPi * boostBeta epi massPi)) * (1 - boostBeta epi massPi)) 0)
        (enu * (1 / Real.sqrt (1 - boostBeta epi massPi * boostBeta epi massPi)) * (1 + boostBeta epi massPi)) row
      = brPiMuNu * boosted (fun e => row (dndeNeutrinoMuon e engMuPiRf)) 0 (boostBeta epi massPi) enu := by
  obtain ⟨hb0, hb1, hg, hb⟩ := parent_boost massPi_pos hlt
  have hgp := lorentz_pos hb0 hb1
  obtain ⟨beta, hbeta⟩ : ∃ b, b = boostBeta epi massPi := ⟨_, rfl⟩
  rw [← hbeta] at hb0 hb1 hgp ⊢
  have hl : 1 / Real.sqrt (1 - beta * beta) = lorentz beta := by unfold lorentz; ring_nf
  rw [hl]
  obtain ⟨g, hgd⟩ : ∃ g, g = lorentz beta := ⟨_, rfl⟩
  unfold boosted nuBoostIntegral
  rw [← hgd] at hgp ⊢
  have h1b : 0 < 1 - beta := by linarith
  rw [max_eq_left (by positivity), momentum_zero he.le,
    show enu * g * (1 - beta) = g * (enu - beta * enu) by ring,
    show enu * g * (1 + beta) = g * (enu + beta * enu) by ring]
  have hle : g * (enu - beta * enu) ≤ g * (enu + beta * enu) :=
    mul_le_mul_of_nonneg_left (by nlinarith) hgp.le
  have hlo : 0 < g * (enu - beta * enu) := mul_pos hgp (by nlinarith)
  rw [mul_right_comm, mul_comm, mul_comm (0.5 / (g * beta)), ← intervalIntegral.integral_mul_const]
  congr 1
  refine integral_congr_Ioo hle fun y hy1 _ => ?_
  have hy : 0 < y := hlo.trans hy1
  rw [momentum_zero hy.le]
  field_simp
  norm_num
  ring

/-- C78 (exact content): the muon row is the muon line plus the boosted muon chain, but the
electron row contains the electron line twice. -/
theorem neutrino_pion_rows (enu epi : ℝ) (he : 0 < enu) (hepi : f64eps ≤ epi - massPi) :
    (dndeNeutrinoChargedPion enu epi).electron
      = 2 * (brPiENu * boostDeltaPy enu enuEPiRf 0 (boostBeta epi massPi))
        + brPiMuNu * boosted nueInPion 0 (boostBeta epi massPi) enu
    ∧ (dndeNeutrinoChargedPion enu epi).muon
      = brPiMuNu * boostDeltaPy enu enuMuPiRf 0 (boostBeta epi massPi)
        + brPiMuNu * boosted numuInPion 0 (boostBeta epi massPi) enu
    ∧ (dndeNeutrinoChargedPion enu epi).tau = 0 := by
  have hlt : massPi < epi := by linarith [eps_pos]
  have hbb : Real.sqrt (1 - massPi / epi * (massPi / epi)) = boostBeta epi massPi := rfl
  unfold dndeNeutrinoChargedPion dndeMuNumu dndeENue
  simp only [if_neg (not_lt.mpr hlt.le), if_neg (not_lt.mpr hepi), hbb,
    boost_delta_implementations_agree]
  rw [nuBoost he hlt, nuBoost he hlt]
  refine ⟨?_, ?_, trivial⟩
  · unfold nueInPion; ring
  · unfold numuInPion; ring

theorem nuInPion_integrable : IntegrableOn nueInPion (Set.Ioi 0) ∧ IntegrableOn numuInPion (Set.Ioi 0) := by
  have hlt : massMu < engMuPiRf := by linarith [engMu_eps, eps_pos]
  obtain ⟨hb0, hb1, -, -⟩ := parent_boost massMu_pos hlt
  constructor
  · refine (boosted_integrable hb0 hb1 le_rfl nueRest_integrable.integrableOn).congr ?_
    filter_upwards [ae_restrict_mem measurableSet_Ioi] with e he
    exact (neutrino_muon_is_boost e _ he engMu_eps).1.symm
  · refine (boosted_integrable hb0 hb1 le_rfl numuRest_integrable.integrableOn).congr ?_
    filter_upwards [ae_restrict_mem measurableSet_Ioi] with e he
    exact (neutrino_muon_is_boost e _ he engMu_eps).2.1.symm

/-- C78 (false as stated): a moving charged pion yields 1.000123 electron neutrinos (one electron
line too many); the muon row carries its two neutrinos. -/
theorem neutrino_pion_electron_line_doubled (epi : ℝ) (hepi : f64eps ≤ epi - massPi) :
    |(∫ e in Set.Ioi 0, (dndeNeutrinoChargedPion e epi).electron) - (2 * brPiENu + brPiMuNu)| < 1e-8
    ∧ |(∫ e in Set.Ioi 0, (dndeNeutrinoChargedPion e epi).muon) - 2 * brPiMuNu| < 1e-8
    ∧ 1 + 1.2e-4 < ∫ e in Set.Ioi 0, (dndeNeutrinoChargedPion e epi).electron := by
  have hlt : massPi < epi := by linarith [eps_pos]
  obtain ⟨hb0, hb1, hg, hb⟩ := parent_boost massPi_pos hlt
  obtain ⟨hi1, hi2⟩ := nuInPion_integrable
  have hE : 0 < enuEPiRf := by unfold enuEPiRf massPi massE; norm_num
  have hM : 0 < enuMuPiRf := by unfold enuMuPiRf massPi massMu; norm_num
  obtain ⟨n1, n2⟩ := neutrino_muon_numbers engMuPiRf (by linarith [engMu_eps, eps_pos])
  have h1 : ∫ e in Set.Ioi 0, (dndeNeutrinoChargedPion e epi).electron
      = 2 * brPiENu + brPiMuNu * ∫ e in Set.Ioi 0, (dndeNeutrinoMuon e engMuPiRf).electron := by
    rw [setIntegral_congr_fun measurableSet_Ioi fun e he => (neutrino_pion_rows e epi he hepi).1,
      integral_add (((line_integrable hb0 hb1 le_rfl hE).integrableOn.const_mul _).const_mul _)
        ((boosted_integrable hb0 hb1 le_rfl hi1).const_mul _), integral_const_mul, integral_const_mul,
      integral_const_mul, line_integral hb0 hb1 le_rfl hE,
      boost_conserves_number _ _ _ hb0 hb1 le_rfl hi1]
    unfold nueInPion; ring
  have h2 : ∫ e in Set.Ioi 0, (dndeNeutrinoChargedPion e epi).muon
      = brPiMuNu + brPiMuNu * ∫ e in Set.Ioi 0, (dndeNeutrinoMuon e engMuPiRf).muon := by
    rw [setIntegral_congr_fun measurableSet_Ioi fun e he => (neutrino_pion_rows e epi he hepi).2.1,
      integral_add ((line_integrable hb0 hb1 le_rfl hM).integrableOn.const_mul _)
        ((boosted_integrable hb0 hb1 le_rfl hi2).const_mul _), integral_const_mul, integral_const_mul,
      line_integral hb0 hb1 le_rfl hM, boost_conserves_number _ _ _ hb0 hb1 le_rfl hi2]
    unfold numuInPion; ring
  rw [h1, h2]
  rw [abs_lt] at n1 n2
  unfold brPiENu brPiMuNu
  refine ⟨?_, ?_, ?_⟩
  · rw [abs_lt]; constructor <;> norm_num at * <;> linarith
  · rw [abs_lt]; constructor <;> norm_num at * <;> linarith
  · norm_num at *; linarith

/-! ### Photons from rho mesons -/

/-- Photon spectra of the rho mesons at rest (specification): the photons of the two pions. -/
noncomputable def neutralRhoRest (e : ℝ) : ℝ := 2 * dndePhotonChargedPion e engPiNeutralRho
noncomputable def chargedRhoRest (e : ℝ) : ℝ :=
  dndePhotonChargedPion e engPiChargedRho + dndePhotonNeutralPion e engPi0ChargedRho

theorem rhoBoosted_flight {f : ℝ → ℝ} {e erho : ℝ} (he : 0 < e) (h : f64eps ≤ erho - massRho) :
    rhoBoosted e erho (fun x => f x / x) = boosted f 0 (boostBeta erho massRho) e := by
  have hlt : massRho < erho := by linarith [eps_pos]
  obtain ⟨hb0, hb1, hg, hb⟩ := parent_boost massRho_pos hlt
  have hgp := lorentz_pos hb0 hb1
  have hG : boostGamma erho massRho = lorentz (boostBeta erho massRho) := by rw [hg]; rfl
  unfold rhoBoosted boosted
  rw [if_neg (by linarith), if_neg (by linarith)]
  simp only
  rw [hG, momentum_zero he.le]
  obtain ⟨beta, hbeta⟩ : ∃ b, b = boostBeta erho massRho := ⟨_, rfl⟩
  obtain ⟨g, hgd⟩ : ∃ g, g = lorentz beta := ⟨_, rfl⟩
  rw [← hbeta] at hb0 hb1 hgp ⊢
  rw [← hgd] at hgp ⊢
  rw [show g * e * (1 - beta) = g * (e - beta * e) by ring,
    show g * e * (1 + beta) = g * (e + beta * e) by ring, ← intervalIntegral.integral_const_mul]
  have hle : g * (e - beta * e) ≤ g * (e + beta * e) :=
    mul_le_mul_of_nonneg_left (by nlinarith) hgp.le
  have hlo : 0 < g * (e - beta * e) := mul_pos hgp (by nlinarith)
  refine integral_congr_Ioo hle fun y hy1 _ => ?_
  have hy : 0 < y := hlo.trans hy1
  rw [momentum_zero hy.le]
  field_simp
  norm_num
  ring

/-- C77, moving mesons: the code boosts the pion photons. -/
theorem rho_photon_flight_partial (e erho : ℝ) (he : 0 < e) (h : f64eps ≤ erho - massRho) :
    dndePhotonNeutralRho e erho = boosted neutralRhoRest 0 (boostBeta erho massRho) e
    ∧ dndePhotonChargedRho e erho = boosted chargedRhoRest 0 (boostBeta erho massRho) e := by
  constructor
  · rw [← rhoBoosted_flight he h]
    unfold dndePhotonNeutralRho
    congr 1
    funext x
    unfold neutralRhoIntegrand neutralRhoRest
    ring
  · rw [← rhoBoosted_flight he h]; rfl

/-- C77 (false as stated): at rest the spectra are divided by the photon energy. -/
theorem rho_photon_at_rest_wrong (e : ℝ) :
    dndePhotonNeutralRho e massRho = neutralRhoRest e / e
    ∧ dndePhotonChargedRho e massRho = chargedRhoRest e / e := by
  unfold dndePhotonNeutralRho dndePhotonChargedRho rhoBoosted
  rw [if_neg (lt_irrefl _), if_neg (lt_irrefl _), if_pos (by rw [sub_self]; exact eps_pos),
    if_pos (by rw [sub_self]; exact eps_pos)]
  constructor
  · unfold neutralRhoIntegrand neutralRhoRest; ring
  · rfl

/-! ### Consistency of the muon energy inside a pion -/

/-- C82 (false as stated): the photon kernel uses a muon energy that differs from
`(m_pi² + m_mu²)/(2 m_pi)`, which the positron and neutrino kernels use. -/
theorem muon_energy_inconsistent :
    engMuPiRf = (massPi ^ 2 + massMu ^ 2) / (2 * massPi)
    ∧ 4.7e-5 < engMuPiRf - engMuPirf ∧ engMuPiRf - engMuPirf < 4.8e-5 := by
  refine ⟨by unfold engMuPiRf; ring, ?_, ?_⟩ <;>
  · unfold engMuPiRf engMuPirf massPi massMu; norm_num

/-! ### Kinematic ranges -/

/-- C32, thresholds: every kernel vanishes when the parent energy is below its mass. -/
theorem kernels_below_threshold (e ep : ℝ) :
    (ep < massMu → dndePhotonMuon e ep = 0 ∧ dndePositronMuon e ep = 0)
    ∧ (ep < massPi → dndePhotonChargedPion e ep = 0 ∧ dndePositronChargedPion e ep = 0
        ∧ dndeNeutrinoChargedPion e ep = NuPoint.zero)
    ∧ (ep < massPi0 → dndePhotonNeutralPion e ep = 0)
    ∧ (ep < massRho → dndePhotonNeutralRho e ep = 0 ∧ dndePhotonChargedRho e ep = 0) := by
  refine ⟨?_, ?_, ?_, ?_⟩
  · intro h
    unfold dndePhotonMuon dndePositronMuon
    exact ⟨if_pos h, if_pos (Or.inl h)⟩
  · intro h
    refine ⟨if_pos h, if_pos (Or.inl h), ?_⟩
    unfold dndeNeutrinoChargedPion dndeMuNumu dndeENue
    rw [if_pos h, if_pos h]
    simp [NuPoint.zero]
  · intro h; exact if_pos h
  · intro h; exact ⟨if_pos h, if_pos h⟩

theorem labEnergy_massless {hi e m : ℝ} (hhi : 0 ≤ hi) (hm : 0 < m) (h : m < e) :
    labEnergy hi 0 (boostBeta e m) 1 = e / m * (1 + boostBeta e m) * hi := by
  obtain ⟨hb0, hb1, hg, -⟩ := parent_boost hm h
  unfold labEnergy
  rw [momentum_zero hhi, hg]; ring

theorem chargedPion_support {e epi : ℝ} (h : massPi < epi)
    (he : epi * (1 + boostBeta epi massPi) / 2 ≤ e) : dndePhotonChargedPion e epi = 0 := by
  have hm := massPi_pos
  obtain ⟨hb0, hb1, hg, -⟩ := parent_boost hm h
  have hep : 0 < epi := hm.trans h
  have hpos : 0 < e := lt_of_lt_of_le (by positivity) he
  rw [(charged_pion_photon_is_boost e epi hpos).1 h]
  refine boosted_support hb0 hb1 le_rfl (hi := massPi / 2) (by positivity)
    (fun x hx => photonPionRest_support hx) ?_
  rw [labEnergy_massless (by positivity) hm h]
  refine le_trans (le_of_eq ?_) he
  field_simp

theorem rho_pions_support {x : ℝ} (hx : massRho / 2 < x) :
    neutralRhoRest x = 0 ∧ chargedRhoRest x = 0 := by
  have hpi : ∀ E, massPi < E → E * E - massPi * massPi ≤ (massRho - E) ^ 2
      → E ≤ massRho → dndePhotonChargedPion x E = 0 := by
    intro E hE hp hEr
    refine chargedPion_support hE ?_
    obtain ⟨c0, c1, -, c2⟩ := parent_boost massPi_pos hE
    have hE0 : 0 < E := massPi_pos.trans hE
    have : E * boostBeta E massPi ≤ massRho - E := by
      refine abs_le_of_sq_le_sq' ?_ (by linarith) |>.2
      rw [mul_pow, c2]
      refine le_trans (le_of_eq ?_) hp
      field_simp
    linarith
  constructor
  ·
    unfold neutralRhoRest
    rw [hpi engPiNeutralRho (by unfold engPiNeutralRho massPi massRho; norm_num)
      (by unfold engPiNeutralRho massPi massRho; norm_num)
      (by unfold engPiNeutralRho massRho; norm_num), mul_zero]
  ·
    unfold chargedRhoRest
    rw [hpi engPiChargedRho (by unfold engPiChargedRho massPi massRho massPi0; norm_num)
      (by unfold engPiChargedRho massPi massRho massPi0; norm_num)
      (by unfold engPiChargedRho massRho massPi massPi0; norm_num)]
    have h0 : massPi0 < engPi0ChargedRho := by
      unfold engPi0ChargedRho massPi massRho massPi0; norm_num
    obtain ⟨c0, c1, -, c2⟩ := parent_boost massPi0_pos h0
    have hE0 : 0 < engPi0ChargedRho := massPi0_pos.trans h0
    have hz : dndePhotonNeutralPion x engPi0ChargedRho = 0 := by
      by_contra hc
      have hw := ((neutral_pion_box _ h0).2.2.2 x).mp hc
      rw [labEnergy_massless (by have := massPi0_pos; positivity) massPi0_pos h0] at hw
      have h2 : engPi0ChargedRho / massPi0 * (1 + boostBeta engPi0ChargedRho massPi0) * (massPi0 / 2)
        = engPi0ChargedRho * (1 + boostBeta engPi0ChargedRho massPi0) / 2 := by
        have := massPi0_pos; field_simp
      have h3 : engPi0ChargedRho * boostBeta engPi0ChargedRho massPi0 ≤ massRho - engPi0ChargedRho := by
        refine abs_le_of_sq_le_sq' ?_ (by unfold engPi0ChargedRho massPi massRho massPi0; norm_num) |>.2
        rw [mul_pow, c2]
        unfold engPi0ChargedRho massPi massRho massPi0; norm_num
      linarith [hw.2]
    rw [hz, add_zero]

/-- C32, upper ends: nothing is emitted above the largest energy a daughter can carry forward.
Muons: `E(1+β)/2·(1-r²)` for photons and `γ(E*+βp*)` for positrons; pions: `E(1+β)/2` for photons;
rho mesons: `E(1+β)/2`. -/
theorem kernels_above_endpoint (e ep : ℝ) :
    (f64eps ≤ ep - massMu → ep * (1 + boostBeta ep massMu) / 2 * (1 - rr ^ 2) ≤ e →
      dndePhotonMuon e ep = 0)
    ∧ (f64eps ≤ ep - massMu →
      labEnergy ((massMu ^ 2 + massE ^ 2) / (2 * massMu)) massE (boostBeta ep massMu) 1 ≤ e →
      dndePositronMuon e ep = 0)
    ∧ (massPi < ep → ep * (1 + boostBeta ep massPi) / 2 ≤ e → dndePhotonChargedPion e ep = 0)
    ∧ (massPi0 < ep → ep * (1 + boostBeta ep massPi0) / 2 < e → dndePhotonNeutralPion e ep = 0)
    ∧ (f64eps ≤ ep - massPi → labEnergy engEPiRf massE (boostBeta ep massPi) 1 < e →
      dndePositronChargedPion e ep = 0)
    ∧ (f64eps ≤ ep - massRho → ep * (1 + boostBeta ep massRho) / 2 ≤ e →
      dndePhotonNeutralRho e ep = 0 ∧ dndePhotonChargedRho e ep = 0) := by
  have hep := eps_pos
  refine ⟨dndePhotonMuon_support, ?_, chargedPion_support, ?_, ?_, ?_⟩
  · intro h he
    have hlt : massMu < ep := by linarith
    obtain ⟨hb0, hb1, hg, -⟩ := parent_boost massMu_pos hlt
    have hE : (massMu ^ 2 + massE ^ 2) / (2 * massMu) = massMu / 2 * (1 + rr ^ 2) := by
      have := massMu_pos
      rw [massE_eq]; field_simp
    rw [hE] at he
    by_cases hme : e ≤ massE
    · unfold dndePositronMuon; exact if_pos (Or.inr hme)
    · rw [positron_muon_is_boost e ep (not_le.mp hme) h]
      exact boosted_support hb0 hb1 massE_pos.le emax_mu
        (fun x hx => positronRestE_zero' (Or.inr hx.le)) he
  · intro h he
    by_contra hc
    have := ((neutral_pion_box ep h).2.2.2 e).mp hc
    rw [labEnergy_massless (by have := massPi0_pos; positivity) massPi0_pos h] at this
    have h2 : ep / massPi0 * (1 + boostBeta ep massPi0) * (massPi0 / 2)
      = ep * (1 + boostBeta ep massPi0) / 2 := by have := massPi0_pos; field_simp
    linarith [this.2]
  · intro h he
    have hlt : massPi < ep := by linarith
    have hpp := massPi_pos
    have hepp : 0 < ep := hpp.trans hlt
    obtain ⟨hb0, hb1, hg, -⟩ := parent_boost massPi_pos hlt
    have hgp := lorentz_pos hb0 hb1
    have hEm : massE ≤ engEPiRf := by unfold massE engEPiRf massPi massE; norm_num
    have hk0 : 0 ≤ momentum engEPiRf massE := Real.sqrt_nonneg _
    have hle : massE ≤ e := by
      have := mass_le_labEnergy hb0 hb1 massE_pos.le hEm
      have h2 : labEnergy engEPiRf massE (boostBeta ep massPi) (-1)
          ≤ labEnergy engEPiRf massE (boostBeta ep massPi) 1 := by
        unfold labEnergy
        refine mul_le_mul_of_nonneg_left ?_ hgp.le
        nlinarith [mul_nonneg hb0.le hk0]
      linarith
    rw [positron_pion_is_boost e ep hle h]
    have hline : boostDeltaPy e engEPiRf massE (boostBeta ep massPi) = 0 := by
      by_contra hc
      have := ((boost_delta_normalised_box engEPiRf massE (boostBeta ep massPi) hb0 hb1
        massE_pos.le (by unfold massE engEPiRf massPi massE; norm_num)).2.1 e).mp hc
      linarith [this.2]
    rw [hline]
    have hbst : boosted (fun x => dndePositronMuon x engMuPiRf) massE (boostBeta ep massPi) e = 0 := by
      refine boosted_support (hi := engEPiRf) hb0 hb1 massE_pos.le hEm ?_ ?_
      · intro x hx
        have hltm : massMu < engMuPiRf := by linarith [engMu_eps]
        obtain ⟨c0, c1, -, -⟩ := parent_boost massMu_pos hltm
        rw [positron_muon_is_boost x _ (lt_of_le_of_lt hEm hx) engMu_eps]
        refine boosted_support (hi := massMu / 2 * (1 + rr ^ 2)) c0 c1 massE_pos.le emax_mu
          (fun x hx => positronRestE_zero' (Or.inr hx.le)) ?_
        rw [muon_endpoint_in_pion]; exact hx.le
      · linarith
    rw [hbst]; ring
  · intro h he
    have hlt : massRho < ep := by linarith
    have hm := massRho_pos
    have hepp : 0 < ep := hm.trans hlt
    obtain ⟨hb0, hb1, hg, -⟩ := parent_boost hm hlt
    have hpos : 0 < e := lt_of_lt_of_le (by positivity) he
    obtain ⟨r1, r2⟩ := rho_photon_flight_partial e ep hpos h
    have hlab : labEnergy (massRho / 2) 0 (boostBeta ep massRho) 1 ≤ e := by
      rw [labEnergy_massless (by positivity) hm hlt]
      refine le_trans (le_of_eq ?_) he
      field_simp
    constructor
    · rw [r1]
      exact boosted_support hb0 hb1 le_rfl (by positivity) (fun x hx => (rho_pions_support hx).1) hlab
    · rw [r2]
      exact boosted_support hb0 hb1 le_rfl (by positivity) (fun x hx => (rho_pions_support hx).2) hlab

/-- C32, parents at rest (within one machine epsilon of their mass). -/
theorem kernels_at_rest_endpoint (e ep : ℝ) :
    (massMu ≤ ep → ep - massMu < f64eps → massMu / 2 * (1 - rr ^ 2) ≤ e → dndePhotonMuon e ep = 0)
    ∧ (massMu ≤ ep → ep - massMu < f64eps → (massMu ^ 2 + massE ^ 2) / (2 * massMu) ≤ e →
      dndePositronMuon e ep = 0)
    ∧ (ep = massPi → massPi / 2 < e → dndePhotonChargedPion e ep = 0)
    ∧ (|ep - massPi| < f64eps → dndePositronChargedPion e ep = 0)
    ∧ (massRho ≤ ep → ep - massRho < f64eps → massRho / 2 < e →
      dndePhotonNeutralRho e ep = 0 ∧ dndePhotonChargedRho e ep = 0) := by
  refine ⟨?_, ?_, ?_, ?_, ?_⟩
  · intro h1 h2 he
    unfold dndePhotonMuon photonMuonRest
    rw [if_neg (by linarith), if_pos h2, if_pos]
    right
    have hm := massMu_pos
    have hr : rr ^ 2 ≤ rr := by nlinarith [rr_pos, rr_small]
    have : massMu / 2 * (1 - rr) ≤ e := le_trans (by gcongr) he
    rw [ge_iff_le, le_div_iff₀ hm]; linarith
  · intro h1 h2 he
    rw [dndePositronMuon_rest h1 h2]
    refine positronRestE_zero' (Or.inr ?_)
    have hE : (massMu ^ 2 + massE ^ 2) / (2 * massMu) = massMu / 2 * (1 + rr ^ 2) := by
      have := massMu_pos
      rw [massE_eq]; field_simp
    rwa [hE] at he
  · intro h he
    rw [(charged_pion_photon_is_boost e ep (by linarith [massPi_pos])).2.1 h]
    exact photonPionRest_support he
  · intro h
    unfold dndePositronChargedPion
    split_ifs <;> rfl
  · intro h1 h2 he
    unfold dndePhotonNeutralRho dndePhotonChargedRho rhoBoosted
    rw [if_neg (not_lt.mpr h1), if_neg (not_lt.mpr h1), if_pos h2, if_pos h2]
    obtain ⟨z1, z2⟩ := rho_pions_support he
    unfold neutralRhoRest at z1
    unfold chargedRhoRest at z2
    have z3 : dndePhotonChargedPion e engPiNeutralRho = 0 := by linarith
    unfold neutralRhoIntegrand chargedRhoIntegrand
    simp only [z3, z2, add_zero, zero_div, and_self]

/-- A 300 MeV pion satisfies the hypotheses above. -/
example : f64eps ≤ 300 - massPi ∧ massE ≤ 30 ∧ massPi0 < 300 := by
  unfold f64eps massPi massE massPi0; norm_num

end Hazma.Spectra
