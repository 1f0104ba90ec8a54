import Verif.Props.BoostFn
import Verif.Props.SpectraBoost
import Verif.Props.MediatorDecay
import Verif.Props.MuonSpectra
import Verif.Props.PionSpectra
import Verif.Lemmas.Archimedes
import Mathlib.Tactic

/-!
# Boosted spectra are Lorentz transformations of isotropic decays (C306)
-/

namespace Hazma.BoostLorentz

open MeasureTheory Set Hazma.Boost Hazma.BoostFn Hazma.RamboMeasure
open scoped ENNReal

/-- The energy, in the frame where the parent moves with velocity `v`, of a particle of mass `m` that leaves the parent with energy
`e` in the direction `x`: the time component of the Lorentz transformation of `(e, √(e² - m²) x)`. -/
noncomputable def boostedEnergy (v : V) (m e : ℝ) (x : Metric.sphere (0 : V) 1) : ℝ :=
  lorentz ‖v‖ * (e + inner ℝ v (Real.sqrt (e ^ 2 - m ^ 2) • (x : V)))

/-- The mean over the directions, all equally likely. -/
noncomputable def isotropic (H : Metric.sphere (0 : V) 1 → ℝ≥0∞) : ℝ≥0∞ := ENNReal.ofReal (1 / (4 * Real.pi)) * ∫⁻ x, H x ∂surface

theorem isotropic_lab {v : V} (h0 : 0 < ‖v‖) {m e : ℝ} {H : ℝ → ℝ≥0∞} (hH : Measurable H) :
    isotropic (fun x => H (boostedEnergy v m e x)) = ENNReal.ofReal (1 / 2) * ∫⁻ c in Ioo (-1 : ℝ) 1, H (labEnergy e m ‖v‖ c) := by
  have hpi := Real.pi_pos
  have hn : ‖‖v‖⁻¹ • v‖ = 1 := by rw [norm_smul, norm_inv, norm_norm, inv_mul_cancel₀ h0.ne']
  have hg : Measurable fun c => H (labEnergy e m ‖v‖ c) := by
    unfold labEnergy
    exact hH.comp (by fun_prop)
  have e1 : ∀ x : Metric.sphere (0 : V) 1, H (boostedEnergy v m e x) = (fun c => H (labEnergy e m ‖v‖ c)) (inner ℝ (‖v‖⁻¹ • v) (x : V)) := by
    intro x
    simp only [boostedEnergy, labEnergy, momentum]
    congr 1
    rw [inner_smul_right, real_inner_smul_left]
    have : ‖v‖ * (‖v‖⁻¹ * inner ℝ v (x : V)) = inner ℝ v (x : V) := by
      rw [← mul_assoc, mul_inv_cancel₀ h0.ne', one_mul]
    rw [this]
    ring
  unfold isotropic
  simp only [e1]
  rw [archimedes hn hg, ← mul_assoc, ← ENNReal.ofReal_mul (by positivity)]
  congr 2
  field_simp
  norm_num

theorem lab_box {m e beta : ℝ} (h0 : 0 < beta) (h1 : beta < 1) (hm : 0 ≤ m) (he : m < e) (H : ℝ → ℝ≥0∞) :
    ENNReal.ofReal (1 / 2) * ∫⁻ c in Ioo (-1 : ℝ) 1, H (labEnergy e m beta c) = ∫⁻ e', ENNReal.ofReal (box e m beta e') * H e' := by
  have hg := lorentz_pos h0 h1
  have hk := momentum_pos hm he
  set a := lorentz beta * beta * momentum e m with ha
  have ha0 : 0 < a := by positivity
  have hlab : ∀ c, labEnergy e m beta c = lorentz beta * e + a * c := fun c => by unfold labEnergy; ring
  have himg : (fun c => lorentz beta * e + a * c) '' Ioo (-1 : ℝ) 1 = Ioo (labEnergy e m beta (-1)) (labEnergy e m beta 1) := by
    ext y
    simp only [mem_image, mem_Ioo, hlab]
    constructor
    · rintro ⟨c, ⟨hc1, hc2⟩, rfl⟩
      exact ⟨by nlinarith, by nlinarith⟩
    · rintro ⟨h1, h2⟩
      refine ⟨(y - lorentz beta * e) / a, ⟨?_, ?_⟩, ?_⟩
      · rw [lt_div_iff₀ ha0]; linarith
      · rw [div_lt_iff₀ ha0]; linarith
      · field_simp; ring
  have hd : ∀ c ∈ Ioo (-1 : ℝ) 1, HasDerivWithinAt (fun c => lorentz beta * e + a * c) a (Ioo (-1) 1) c := by
    intro c _
    have := ((hasDerivAt_id c).const_mul a).const_add (lorentz beta * e)
    simpa using this.hasDerivWithinAt
  have hinj : InjOn (fun c => lorentz beta * e + a * c) (Ioo (-1 : ℝ) 1) := by
    intro x _ y _ h
    simp only at h
    exact mul_left_cancel₀ ha0.ne' (by linarith)
  have hrhs : ∫⁻ e', ENNReal.ofReal (box e m beta e') * H e'
      = ∫⁻ e' in Ioo (labEnergy e m beta (-1)) (labEnergy e m beta 1), ENNReal.ofReal (1 / (2 * a)) * H e' := by
    rw [← lintegral_indicator measurableSet_Ioo]
    refine lintegral_congr fun e' => ?_
    unfold box
    by_cases h : e' ∈ Ioo (labEnergy e m beta (-1)) (labEnergy e m beta 1)
    · rw [indicator_of_mem h, indicator_of_mem h, ha]
      congr 3
      ring
    · rw [indicator_of_notMem h, indicator_of_notMem h]
      simp
  rw [hrhs, ← himg, lintegral_image_eq_lintegral_abs_deriv_mul measurableSet_Ioo hd hinj,
    ← lintegral_const_mul' _ _ ENNReal.ofReal_ne_top]
  refine lintegral_congr fun c => ?_
  rw [abs_of_pos ha0, ← mul_assoc, ← ENNReal.ofReal_mul ha0.le, hlab]
  congr 2
  field_simp

/-- **C306, a line.** `boost_delta` is the energy distribution of a particle emitted isotropically with energy `e0` by a parent of
velocity `v`. -/
theorem line {v : V} (h0 : 0 < ‖v‖) (h1 : ‖v‖ < 1) {m e0 : ℝ} (hm : 0 ≤ m) (he : m < e0) {H : ℝ → ℝ≥0∞} (hH : Measurable H) :
    isotropic (fun x => H (boostedEnergy v m e0 x)) = ∫⁻ e, ENNReal.ofReal (boostDeltaPy e e0 m ‖v‖) * H e := by
  rw [isotropic_lab h0 hH, lab_box h0 h1 hm he]
  simp only [boostDeltaPy_eq_box h0 h1 hm he.le]

/-- The distribution of lab energies for a rest-frame spectrum. -/
theorem lab_spectrum_measurable {v : V} (h0 : 0 < ‖v‖) (h1 : ‖v‖ < 1) {m : ℝ} (hm : 0 ≤ m) {f : ℝ → ℝ} (hf : Measurable f)
    (hpos : ∀ e, m < e → 0 ≤ f e) (hint : IntegrableOn f (Ioi m)) {H : ℝ → ℝ≥0∞} (hH : Measurable H) :
    ∫⁻ e in Ioi m, ENNReal.ofReal (f e) * isotropic (fun x => H (boostedEnergy v m e x))
      = ∫⁻ e, ENNReal.ofReal (labSpectrum f m ‖v‖ e) * H e := by
  have hbox := box_measurable m ‖v‖
  have hB : Measurable fun p : ℝ × ℝ => ENNReal.ofReal (f p.1) * ENNReal.ofReal (box p.1 m ‖v‖ p.2) :=
    (hf.comp measurable_fst).ennreal_ofReal.mul hbox.ennreal_ofReal
  have swap : ∀ {K : ℝ → ℝ≥0∞}, Measurable K → ∫⁻ e0 in Ioi m, ENNReal.ofReal (f e0) * ∫⁻ e, ENNReal.ofReal (box e0 m ‖v‖ e) * K e
      = ∫⁻ e, (∫⁻ e0 in Ioi m, ENNReal.ofReal (f e0) * ENNReal.ofReal (box e0 m ‖v‖ e)) * K e := by
    intro K hK
    have hm2 : Measurable fun p : ℝ × ℝ => ENNReal.ofReal (f p.1) * ENNReal.ofReal (box p.1 m ‖v‖ p.2) * K p.2 :=
      hB.mul (hK.comp measurable_snd)
    have hs := lintegral_lintegral_swap (μ := volume.restrict (Ioi m)) (ν := volume)
      (f := fun e0 e => ENNReal.ofReal (f e0) * ENNReal.ofReal (box e0 m ‖v‖ e) * K e) hm2.aemeasurable
    have hl : ∀ e0, ENNReal.ofReal (f e0) * ∫⁻ e, ENNReal.ofReal (box e0 m ‖v‖ e) * K e
        = ∫⁻ e, ENNReal.ofReal (f e0) * ENNReal.ofReal (box e0 m ‖v‖ e) * K e := by
      intro e0
      rw [← lintegral_const_mul' _ _ ENNReal.ofReal_ne_top]
      simp only [mul_assoc]
    simp only [hl]
    rw [hs]
    refine lintegral_congr fun e => ?_
    rw [lintegral_mul_const]
    exact hB.comp (measurable_id.prodMk measurable_const)
  have hl : ∫⁻ e in Ioi m, ENNReal.ofReal (f e) * isotropic (fun x => H (boostedEnergy v m e x))
      = ∫⁻ e0 in Ioi m, ENNReal.ofReal (f e0) * ∫⁻ e, ENNReal.ofReal (box e0 m ‖v‖ e) * H e := by
    refine setLIntegral_congr_fun measurableSet_Ioi fun e he => ?_
    rw [isotropic_lab h0 hH, lab_box h0 h1 hm he]
  rw [hl, swap hH]
  -- the number of particles is finite, hence the density is finite almost everywhere
  have htot : ∫⁻ e, (∫⁻ e0 in Ioi m, ENNReal.ofReal (f e0) * ENNReal.ofReal (box e0 m ‖v‖ e)) ≠ ∞ := by
    have hs := swap (K := fun _ => 1) measurable_const
    simp only [mul_one] at hs
    rw [← hs]
    have h2 : ∀ e0 ∈ Ioi m, ENNReal.ofReal (f e0) * ∫⁻ e, ENNReal.ofReal (box e0 m ‖v‖ e) = ENNReal.ofReal (f e0) := by
      intro e0 he
      have := lab_box h0 h1 hm he (fun _ => 1)
      simp only [mul_one] at this
      rw [← this, lintegral_one, Measure.restrict_apply_univ, Real.volume_Ioo, ← ENNReal.ofReal_mul (by norm_num)]
      norm_num
    rw [setLIntegral_congr_fun measurableSet_Ioi h2]
    have := hint.2
    rw [hasFiniteIntegral_iff_norm] at this
    refine (lt_of_le_of_lt (lintegral_mono fun e => ENNReal.ofReal_le_ofReal (le_abs_self _)) this).ne
  have hme : Measurable fun e => ∫⁻ e0 in Ioi m, ENNReal.ofReal (f e0) * ENNReal.ofReal (box e0 m ‖v‖ e) :=
    Measurable.lintegral_prod_left' (f := fun p : ℝ × ℝ => ENNReal.ofReal (f p.1) * ENNReal.ofReal (box p.1 m ‖v‖ p.2)) hB
  refine lintegral_congr_ae ?_
  filter_upwards [ae_lt_top hme htot] with e hfin
  congr 1
  have hsim : ∫⁻ e0 in Ioi m, ENNReal.ofReal (f e0) * ENNReal.ofReal (box e0 m ‖v‖ e)
      = ∫⁻ e0 in Ioi m, ENNReal.ofReal (f e0 * boostDeltaPy e e0 m ‖v‖) := by
    refine setLIntegral_congr_fun measurableSet_Ioi fun e0 he0 => ?_
    rw [boostDeltaPy_eq_box h0 h1 hm (le_of_lt he0), ENNReal.ofReal_mul (hpos e0 he0)]
  have hmb : AEStronglyMeasurable (fun e0 => f e0 * boostDeltaPy e e0 m ‖v‖) (volume.restrict (Ioi m)) := by
    have h3 : Measurable fun e0 => f e0 * box e0 m ‖v‖ e := hf.mul (hbox.comp (measurable_id.prodMk measurable_const))
    refine h3.aestronglyMeasurable.congr ?_
    filter_upwards [ae_restrict_mem measurableSet_Ioi] with e0 he0
    rw [boostDeltaPy_eq_box h0 h1 hm (le_of_lt he0)]
  unfold labSpectrum
  rw [integral_eq_lintegral_of_nonneg_ae _ hmb, ENNReal.ofReal_toReal, hsim]
  · rw [← hsim]; exact hfin.ne
  · filter_upwards [ae_restrict_mem measurableSet_Ioi] with e0 he0
    rw [boostDeltaPy_eq_box h0 h1 hm (le_of_lt he0)]
    exact mul_nonneg (hpos e0 he0) (box_nonneg h0 h1 e)

/-- The distribution of lab energies for a rest-frame spectrum, measurable up to a set of measure zero. -/
theorem lab_spectrum {v : V} (h0 : 0 < ‖v‖) (h1 : ‖v‖ < 1) {m : ℝ} (hm : 0 ≤ m) {f : ℝ → ℝ}
    (hpos : ∀ e, m < e → 0 ≤ f e) (hint : IntegrableOn f (Ioi m)) {H : ℝ → ℝ≥0∞} (hH : Measurable H) :
    ∫⁻ e in Ioi m, ENNReal.ofReal (f e) * isotropic (fun x => H (boostedEnergy v m e x))
      = ∫⁻ e, ENNReal.ofReal (labSpectrum f m ‖v‖ e) * H e := by
  obtain ⟨g, hg, hfg⟩ := hint.aestronglyMeasurable
  have hfa : f =ᵐ[volume.restrict (Ioi m)] fun e => |g e| := by
    filter_upwards [hfg, ae_restrict_mem measurableSet_Ioi] with e h1 h2
    rw [← h1, abs_of_nonneg (hpos e h2)]
  have h := lab_spectrum_measurable h0 h1 hm (f := fun e => |g e|) (continuous_abs.measurable.comp hg.measurable) (fun e _ => abs_nonneg _)
    (hint.congr_fun_ae hfa) hH
  have e1 : ∀ e, labSpectrum f m ‖v‖ e = labSpectrum (fun e => |g e|) m ‖v‖ e := by
    intro e
    unfold labSpectrum
    refine integral_congr_ae ?_
    filter_upwards [hfa] with e0 h0
    rw [h0]
  simp only [e1]
  rw [← h]
  refine lintegral_congr_ae ?_
  filter_upwards [hfa] with e h0
  rw [h0]

/-- **C306, `make_boost_function` and `dnde_boost`.** The values returned are the energy distribution of particles that leave a parent
of velocity `v` with the given spectrum and in all directions alike. -/
theorem boost_function (simps : List ℝ → List ℝ → ℝ) (unit : List ℝ → Except Err (List ℝ)) (eps : ℝ) (heps : 0 < eps) (fn : Fn)
    {m : ℝ} (hm : 0 ≤ m) {v : V} (hb : eps ≤ ‖v‖) (hb1 : ‖v‖ < 1) (args : List ℝ) (ha : args.length = fn.arity) (npts : ℕ)
    (hpos : ∀ e, m < e → 0 ≤ fn.eval e args) (hint : IntegrableOn (fun e => fn.eval e args) (Ioi m)) :
    ∃ g : ℝ → ℝ, (∀ energies, fnBoosted simps unit eps fn m energies ‖v‖ "quad" args npts = .ok (energies.map g)
        ∧ dndeBoost simps unit eps fn energies ‖v‖ m "quadrature" args npts = .ok (energies.map g))
      ∧ ∀ H : ℝ → ℝ≥0∞, Measurable H →
        ∫⁻ e in Ioi m, ENNReal.ofReal (fn.eval e args) * isotropic (fun x => H (boostedEnergy v m e x))
          = ∫⁻ e, ENNReal.ofReal (g e) * H e := by
  refine ⟨labSpectrum (fun e => fn.eval e args) m ‖v‖, fun energies => ?_, fun H hH => ?_⟩
  · obtain ⟨h1, h2⟩ := boosted_value simps unit eps heps fn m hm energies ‖v‖ hb hb1 args ha npts
    exact ⟨h1, h2.trans h1⟩
  · exact lab_spectrum (heps.trans_le hb) hb1 hm hpos hint hH

/-- The specification `boosted` that other claims use. -/
theorem boosted_spectrum {v : V} (h0 : 0 < ‖v‖) (h1 : ‖v‖ < 1) {m : ℝ} (hm : 0 ≤ m) {f : ℝ → ℝ}
    (hpos : ∀ e, m < e → 0 ≤ f e) (hint : IntegrableOn f (Ioi m)) {H : ℝ → ℝ≥0∞} (hH : Measurable H) :
    ∫⁻ e in Ioi m, ENNReal.ofReal (f e) * isotropic (fun x => H (boostedEnergy v m e x))
      = ∫⁻ e in Ioi m, ENNReal.ofReal (Spectra.boosted f m ‖v‖ e) * H e := by
  rw [lab_spectrum h0 h1 hm hpos hint hH, ← lintegral_indicator measurableSet_Ioi]
  refine lintegral_congr fun e => ?_
  by_cases he : m < e
  · rw [indicator_of_mem (show e ∈ Ioi m from he), ← integrand_eq f h0 h1 hm he]
    congr 2
    have hg := lorentz_pos h0 h1
    unfold Spectra.boosted
    rw [mul_div_assoc, mul_comm, div_mul_eq_mul_div, mul_div_assoc, ← intervalIntegral.integral_mul_const]
    congr 1
    funext x
    show f x / momentum x m * (0.5 / (‖v‖ * lorentz ‖v‖)) = f x / (2 * lorentz ‖v‖ * ‖v‖ * momentum x m)
    rw [div_mul_div_comm, show (0.5 : ℝ) = 1 / 2 by norm_num, mul_one_div, div_div]
    congr 1
    ring
  · rw [indicator_of_notMem (show e ∉ Ioi m from he), labSpectrum_below f h0 h1 hm (not_lt.mp he)]
    simp

/-! ### Parents of given momentum -/

/-- The velocity of a particle of mass `M` and momentum `P`. -/
noncomputable def velocity (M : ℝ) (P : V) : V := (Real.sqrt (M ^ 2 + ‖P‖ ^ 2))⁻¹ • P

theorem velocity_norm {M : ℝ} (hM : 0 < M) {P : V} (hP : P ≠ 0) :
    M < Real.sqrt (M ^ 2 + ‖P‖ ^ 2) ∧ ‖velocity M P‖ = boostBeta (Real.sqrt (M ^ 2 + ‖P‖ ^ 2)) M
      ∧ 0 < ‖velocity M P‖ ∧ ‖velocity M P‖ < 1 := by
  have hp : 0 < ‖P‖ := norm_pos_iff.mpr hP
  have h1 : M < Real.sqrt (M ^ 2 + ‖P‖ ^ 2) := (Real.lt_sqrt hM.le).mpr (by nlinarith)
  have h2 : ‖velocity M P‖ = boostBeta (Real.sqrt (M ^ 2 + ‖P‖ ^ 2)) M := by
    have hs : 0 < Real.sqrt (M ^ 2 + ‖P‖ ^ 2) := hM.trans h1
    have hsq : Real.sqrt (M ^ 2 + ‖P‖ ^ 2) ^ 2 = M ^ 2 + ‖P‖ ^ 2 := Real.sq_sqrt (by positivity)
    unfold velocity boostBeta
    rw [norm_smul, norm_inv, Real.norm_of_nonneg hs.le]
    simp only
    have : 1 - M / Real.sqrt (M ^ 2 + ‖P‖ ^ 2) * (M / Real.sqrt (M ^ 2 + ‖P‖ ^ 2)) = ((Real.sqrt (M ^ 2 + ‖P‖ ^ 2))⁻¹ * ‖P‖) ^ 2 := by
      obtain ⟨S, hS⟩ : ∃ S, S = Real.sqrt (M ^ 2 + ‖P‖ ^ 2) := ⟨_, rfl⟩
      rw [← hS] at hs hsq ⊢
      field_simp
      linarith
    rw [this, Real.sqrt_sq (by positivity)]
  obtain ⟨b0, b1, -, -⟩ := Spectra.parent_boost hM h1
  exact ⟨h1, h2, by rw [h2]; exact b0, by rw [h2]; exact b1⟩

/-- **C306, muons.** The positrons and neutrinos of a muon of momentum `P` are those of a muon at rest, isotropic there and
Lorentz-transformed. -/
theorem muon_decay {P : V} (hP : Spectra.f64eps ≤ Real.sqrt (Spectra.massMu ^ 2 + ‖P‖ ^ 2) - Spectra.massMu) {H : ℝ → ℝ≥0∞}
    (hH : Measurable H) :
    let emu := Real.sqrt (Spectra.massMu ^ 2 + ‖P‖ ^ 2)
    let v := velocity Spectra.massMu P
    (∫⁻ e in Ioi Spectra.massE, ENNReal.ofReal (Spectra.dndePositronMuon e Spectra.massMu)
        * isotropic (fun x => H (boostedEnergy v Spectra.massE e x))
      = ∫⁻ e in Ioi Spectra.massE, ENNReal.ofReal (Spectra.dndePositronMuon e emu) * H e)
    ∧ (∫⁻ e in Ioi (0 : ℝ), ENNReal.ofReal (Spectra.dndeNeutrinoMuon e Spectra.massMu).electron * isotropic (fun x => H (boostedEnergy v 0 e x))
      = ∫⁻ e in Ioi (0 : ℝ), ENNReal.ofReal (Spectra.dndeNeutrinoMuon e emu).electron * H e)
    ∧ (∫⁻ e in Ioi (0 : ℝ), ENNReal.ofReal (Spectra.dndeNeutrinoMuon e Spectra.massMu).muon * isotropic (fun x => H (boostedEnergy v 0 e x))
      = ∫⁻ e in Ioi (0 : ℝ), ENNReal.ofReal (Spectra.dndeNeutrinoMuon e emu).muon * H e) := by
  intro emu v
  have hep := Spectra.eps_pos
  have hP0 : P ≠ 0 := by
    rintro rfl
    rw [norm_zero, zero_pow two_ne_zero, add_zero, Real.sqrt_sq Spectra.massMu_pos.le] at hP
    linarith
  obtain ⟨-, hv, h0, h1⟩ := velocity_norm Spectra.massMu_pos hP0
  have hpr : ∀ e, Spectra.massE < e → Spectra.dndePositronMuon e Spectra.massMu = Spectra.positronRestE e := by
    intro e he
    unfold Spectra.dndePositronMuon
    rw [if_neg (by push Not; exact ⟨le_rfl, he⟩), if_pos (by linarith)]
    rfl
  have hnr : ∀ e, Spectra.dndeNeutrinoMuon e Spectra.massMu = Spectra.neutrinoMuonRest e := by
    intro e
    unfold Spectra.dndeNeutrinoMuon
    rw [if_neg (lt_irrefl _), if_pos (by linarith)]
  refine ⟨?_, ?_, ?_⟩
  · have h := boosted_spectrum h0 h1 Spectra.massE_pos.le (f := Spectra.positronRestE) (fun e _ => Spectra.positronRestE_nonneg e)
      Spectra.positronRestE_integrable.integrableOn hH
    rw [setLIntegral_congr_fun measurableSet_Ioi (g := fun e => ENNReal.ofReal (Spectra.positronRestE e)
      * isotropic (fun x => H (boostedEnergy v Spectra.massE e x))) (fun e he => by simp only [hpr e he]), h]
    refine setLIntegral_congr_fun measurableSet_Ioi fun e he => ?_
    simp only [Spectra.positron_muon_is_boost e emu he hP, hv, emu]
  · have h := boosted_spectrum h0 h1 le_rfl (f := Spectra.nueRest) (fun e _ => (Spectra.nu_rest_nonneg e).1)
      Spectra.nueRest_integrable.integrableOn hH
    simp only [hnr]
    refine Eq.trans h (setLIntegral_congr_fun measurableSet_Ioi fun e he => ?_)
    simp only [(Spectra.neutrino_muon_is_boost e emu he hP).1, hv, emu]
  · have h := boosted_spectrum h0 h1 le_rfl (f := Spectra.numuRest) (fun e _ => (Spectra.nu_rest_nonneg e).2)
      Spectra.numuRest_integrable.integrableOn hH
    simp only [hnr]
    refine Eq.trans h (setLIntegral_congr_fun measurableSet_Ioi fun e he => ?_)
    simp only [(Spectra.neutrino_muon_is_boost e emu he hP).2.1, hv, emu]

/-- **C306, neutral pions.** Two photons of half the pion mass, back to back in a random direction, Lorentz-transformed. -/
theorem neutral_pion {P : V} (hP : P ≠ 0) {H : ℝ → ℝ≥0∞} (hH : Measurable H) :
    ENNReal.ofReal (2 * Spectra.brPi0AA) * isotropic (fun x => H (boostedEnergy (velocity Spectra.massPi0 P) 0 (Spectra.massPi0 / 2) x))
      = ∫⁻ e, ENNReal.ofReal (Spectra.dndePhotonNeutralPion e (Real.sqrt (Spectra.massPi0 ^ 2 + ‖P‖ ^ 2))) * H e := by
  have hm := Spectra.massPi0_pos
  obtain ⟨hlt, hv, h0, h1⟩ := velocity_norm hm hP
  rw [isotropic_lab h0 hH, lab_box h0 h1 le_rfl (by positivity), ← lintegral_const_mul' _ _ ENNReal.ofReal_ne_top]
  obtain ⟨E, hE⟩ : ∃ E, E = Real.sqrt (Spectra.massPi0 ^ 2 + ‖P‖ ^ 2) := ⟨_, rfl⟩
  rw [← hE] at hlt hv ⊢
  have hE0 : 0 < E := hm.trans hlt
  obtain ⟨-, -, hg, -⟩ := Spectra.parent_boost hm hlt
  have hbr : 0 < Spectra.brPi0AA := by unfold Spectra.brPi0AA; norm_num
  rw [hv] at h0 h1 ⊢
  obtain ⟨b, hb⟩ : ∃ b, b = boostBeta E Spectra.massPi0 := ⟨_, rfl⟩
  have hmom : momentum (Spectra.massPi0 / 2) 0 = Spectra.massPi0 / 2 := Spectra.momentum_zero (by positivity)
  have hlo : labEnergy (Spectra.massPi0 / 2) 0 b (-1) = E * (1 - b) * 0.5 := by
    unfold labEnergy; rw [hmom, hb, hg]; field_simp; norm_num; ring
  have hup : labEnergy (Spectra.massPi0 / 2) 0 b 1 = E * (1 + b) * 0.5 := by
    unfold labEnergy; rw [hmom, hb, hg]; field_simp; norm_num
  rw [← hb] at h0 h1 hg ⊢
  -- the end points of the box have measure zero
  have hae : ∀ᵐ e : ℝ, e ∉ ({E * (1 - b) * 0.5, E * (1 + b) * 0.5} : Set ℝ) :=
    measure_eq_zero_iff_ae_notMem.mp ((Set.toFinite _).measure_zero _)
  refine lintegral_congr_ae ?_
  filter_upwards [hae] with e he
  simp only [mem_insert_iff, mem_singleton_iff, not_or] at he
  rw [← mul_assoc, ← ENNReal.ofReal_mul (by positivity)]
  congr 2
  have hd : Spectra.dndePhotonNeutralPion e E = if E * (1 - b) * 0.5 ≤ e ∧ e ≤ E * (1 + b) * 0.5 then Spectra.brPi0AA * 2 / (E * b) else 0 := by
    unfold Spectra.dndePhotonNeutralPion
    rw [if_neg (by linarith), hb]
    rfl
  rw [hd]
  unfold box
  rw [hlo, hup, hmom, hg]
  by_cases hw : E * (1 - b) * 0.5 < e ∧ e < E * (1 + b) * 0.5
  · rw [indicator_of_mem (show e ∈ Ioo _ _ from hw), if_pos ⟨hw.1.le, hw.2.le⟩]
    field_simp
  · rw [indicator_of_notMem (show e ∉ Ioo _ _ from hw), if_neg, mul_zero]
    rintro ⟨h1, h2⟩
    exact hw ⟨lt_of_le_of_ne h1 (Ne.symm he.1), lt_of_le_of_ne h2 he.2⟩

/-- **C306, mediators.** The angular integrals of the compiled mediator decays. -/
theorem mediator_decay {m : ℝ} (hm : 0 < m) {P : V} (hP : P ≠ 0) {H : ℝ → ℝ≥0∞} (hH : Measurable H) {f : ℝ → ℝ} :
    let E := Real.sqrt (m ^ 2 + ‖P‖ ^ 2)
    ((∀ e, 0 < e → 0 ≤ f e) → IntegrableOn f (Ioi 0) →
      ∫⁻ e in Ioi (0 : ℝ), ENNReal.ofReal (f e) * isotropic (fun x => H (boostedEnergy (velocity m P) 0 e x))
        = ∫⁻ e in Ioi (0 : ℝ), ENNReal.ofReal (∫ cl in (-1 : ℝ)..1, Mediator.photonIntegrand f E m e cl) * H e)
    ∧ ∀ me : ℝ, 0 ≤ me → (∀ e, me < e → 0 ≤ f e) → IntegrableOn f (Ioi me) →
      ∫⁻ e in Ioi me, ENNReal.ofReal (f e) * isotropic (fun x => H (boostedEnergy (velocity m P) me e x))
        = ∫⁻ e in Ioi me, ENNReal.ofReal (∫ cl in (-1 : ℝ)..1, Mediator.positronIntegrand f me E m e cl) * H e := by
  intro E
  obtain ⟨hlt, hv, h0, h1⟩ := velocity_norm hm hP
  have hb : Mediator.beta E m = ‖velocity m P‖ := by
    rw [hv]
    simp only [Mediator.beta, boostBeta, sq, E]
  refine ⟨fun hpos hint => ?_, fun me hme hpos hint => ?_⟩
  · rw [boosted_spectrum h0 h1 le_rfl hpos hint hH]
    refine setLIntegral_congr_fun measurableSet_Ioi fun e he => ?_
    simp only [Mediator.photon_integral_is_boost f hm hlt he, hb, E]
  · rw [boosted_spectrum h0 h1 hme hpos hint hH]
    refine setLIntegral_congr_fun measurableSet_Ioi fun e he => ?_
    simp only [Mediator.positron_integral_is_boost f hme hm hlt he, hb, E]

/-- Half of the photons of a moving neutral pion have more than half of its energy. -/
example {P : V} (hP : P ≠ 0) : ∫⁻ e in Ioi (Real.sqrt (Spectra.massPi0 ^ 2 + ‖P‖ ^ 2) / 2),
    ENNReal.ofReal (Spectra.dndePhotonNeutralPion e (Real.sqrt (Spectra.massPi0 ^ 2 + ‖P‖ ^ 2))) = ENNReal.ofReal Spectra.brPi0AA := by
  have hm := Spectra.massPi0_pos
  obtain ⟨hlt, hv, h0, h1⟩ := velocity_norm hm hP
  obtain ⟨-, -, hg, -⟩ := Spectra.parent_boost hm hlt
  obtain ⟨E, hE⟩ : ∃ E, E = Real.sqrt (Spectra.massPi0 ^ 2 + ‖P‖ ^ 2) := ⟨_, rfl⟩
  have h := neutral_pion hP (H := (Ioi (E / 2)).indicator fun _ => 1) (measurable_const.indicator measurableSet_Ioi)
  rw [isotropic_lab h0 (measurable_const.indicator measurableSet_Ioi)] at h
  rw [← hE] at h hlt hv hg ⊢
  have hE0 : 0 < E := hm.trans hlt
  have hbr : 0 < Spectra.brPi0AA := by unfold Spectra.brPi0AA; norm_num
  have e1 : ∀ c : ℝ, (Ioi (E / 2)).indicator (fun _ => (1 : ℝ≥0∞)) (labEnergy (Spectra.massPi0 / 2) 0 ‖velocity Spectra.massPi0 P‖ c)
      = (Ioi (0 : ℝ)).indicator (fun _ => 1) c := by
    intro c
    have hl : labEnergy (Spectra.massPi0 / 2) 0 ‖velocity Spectra.massPi0 P‖ c = E / 2 + E / 2 * ‖velocity Spectra.massPi0 P‖ * c := by
      unfold labEnergy
      rw [Spectra.momentum_zero (by positivity), hv, hg]
      field_simp
    by_cases hc : 0 < c
    · rw [indicator_of_mem (show c ∈ Ioi (0 : ℝ) from hc), indicator_of_mem]
      rw [hl, mem_Ioi]
      have : 0 < E / 2 * ‖velocity Spectra.massPi0 P‖ * c := by positivity
      linarith
    · rw [indicator_of_notMem (show c ∉ Ioi (0 : ℝ) from hc), indicator_of_notMem]
      rw [hl, mem_Ioi, not_lt]
      have : E / 2 * ‖velocity Spectra.massPi0 P‖ * c ≤ 0 := mul_nonpos_of_nonneg_of_nonpos (by positivity) (not_lt.mp hc)
      linarith
  simp only [e1] at h
  rw [← lintegral_indicator measurableSet_Ioi]
  have e2 : ∀ e, (Ioi (E / 2)).indicator (fun e => ENNReal.ofReal (Spectra.dndePhotonNeutralPion e E)) e
      = ENNReal.ofReal (Spectra.dndePhotonNeutralPion e E) * (Ioi (E / 2)).indicator (fun _ => 1) e := by
    intro e
    by_cases he : e ∈ Ioi (E / 2)
    · rw [indicator_of_mem he, indicator_of_mem he, mul_one]
    · rw [indicator_of_notMem he, indicator_of_notMem he, mul_zero]
  simp only [e2]
  rw [← h, setLIntegral_indicator measurableSet_Ioi, lintegral_one, Measure.restrict_apply_univ,
    show Ioi (0 : ℝ) ∩ Ioo (-1) 1 = Ioo 0 1 from Set.ext fun y => ⟨fun h => ⟨h.1, h.2.2⟩, fun h => ⟨h.1, (by linarith [h.1] : (-1 : ℝ) < y), h.2⟩⟩,
    Real.volume_Ioo, ← ENNReal.ofReal_mul (by norm_num), ← ENNReal.ofReal_mul (by positivity)]
  congr 1
  ring

end Hazma.BoostLorentz
