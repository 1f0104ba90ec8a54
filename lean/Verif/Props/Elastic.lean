import Verif.Props.XsUnits
import Mathlib.Analysis.SpecialFunctions.Integrals.Basic

/-! # Elastic scattering of dark matter off leptons -/

namespace Hazma.Xs

open Hazma

/-- The t-channel squared amplitude, up to couplings. -/
noncomputable def tAmplitude (ml mx ms w t : ℝ) : ℝ :=
  (4 * ml ^ 2 - t) * (4 * mx ^ 2 - t) / ((t - ms ^ 2) ^ 2 + ms ^ 2 * w ^ 2)

theorem tAmplitude_den {ms w : ℝ} (hms : 0 < ms) (hw : 0 < w) (t : ℝ) :
    0 < (t - ms ^ 2) ^ 2 + ms ^ 2 * w ^ 2 := by positivity

theorem tAmplitude_continuous {ml mx ms w : ℝ} (hms : 0 < ms) (hw : 0 < w) :
    Continuous (tAmplitude ml mx ms w) := by
  unfold tAmplitude
  exact Continuous.div (by fun_prop) (by fun_prop) fun t => (tAmplitude_den hms hw t).ne'

/-- The closed form behind the kernel. -/
theorem tAmplitude_integral {ml mx ms w : ℝ} (hms : 0 < ms) (hw : 0 < w) (T : ℝ) :
    ∫ t in (0 : ℝ)..T, tAmplitude ml mx ms w t
      = T + (ms ^ 2 - 2 * (ml ^ 2 + mx ^ 2))
          * (Real.log ((T - ms ^ 2) ^ 2 + ms ^ 2 * w ^ 2) - Real.log (ms ^ 4 + ms ^ 2 * w ^ 2))
        + ((ms ^ 2 - 4 * ml ^ 2) * (ms ^ 2 - 4 * mx ^ 2) - ms ^ 2 * w ^ 2) / (ms * w)
          * (Real.arctan ((T - ms ^ 2) / (ms * w)) + Real.arctan (ms / w)) := by
  let F : ℝ → ℝ := fun t => t + (ms ^ 2 - 2 * (ml ^ 2 + mx ^ 2))
      * Real.log ((t - ms ^ 2) ^ 2 + ms ^ 2 * w ^ 2)
    + ((ms ^ 2 - 4 * ml ^ 2) * (ms ^ 2 - 4 * mx ^ 2) - ms ^ 2 * w ^ 2) / (ms * w)
      * Real.arctan ((t - ms ^ 2) / (ms * w))
  have hF : ∀ t, HasDerivAt F (tAmplitude ml mx ms w t) t := by
    intro t
    have hden := tAmplitude_den hms hw t
    have e1 : HasDerivAt (fun t : ℝ => t - ms ^ 2) 1 t := (hasDerivAt_id t).sub_const _
    have e2 : HasDerivAt (fun t : ℝ => (t - ms ^ 2) ^ 2 + ms ^ 2 * w ^ 2) (2 * (t - ms ^ 2)) t := by
      have := (e1.pow 2).add_const (ms ^ 2 * w ^ 2)
      exact this.congr_deriv (by norm_num)
    have e3 := (e1.div_const (ms * w)).arctan
    have d := ((hasDerivAt_id t).add ((e2.log hden.ne').const_mul (ms ^ 2 - 2 * (ml ^ 2 + mx ^ 2)))).add
      (e3.const_mul (((ms ^ 2 - 4 * ml ^ 2) * (ms ^ 2 - 4 * mx ^ 2) - ms ^ 2 * w ^ 2) / (ms * w)))
    refine d.congr_deriv ?_
    unfold tAmplitude
    have h1 : 1 + ((t - ms ^ 2) / (ms * w)) ^ 2 = ((t - ms ^ 2) ^ 2 + ms ^ 2 * w ^ 2) / (ms * w) ^ 2 := by
      field_simp; ring
    rw [h1]
    obtain ⟨Q, hQ⟩ : ∃ Q, Q = (t - ms ^ 2) ^ 2 + ms ^ 2 * w ^ 2 := ⟨_, rfl⟩
    rw [← hQ] at hden ⊢
    field_simp
    rw [hQ]
    ring
  rw [intervalIntegral.integral_eq_sub_of_hasDerivAt (fun t _ => hF t)
    ((tAmplitude_continuous hms hw).intervalIntegrable _ _)]
  simp only [F]
  have h0 : (0 - ms ^ 2) / (ms * w) = -(ms / w) := by field_simp; ring
  rw [h0, Real.arctan_neg, show ((0 : ℝ) - ms ^ 2) ^ 2 = ms ^ 4 by ring]
  ring

/-- C91, exact content of the kernel: the mean of the squared amplitude over momentum transfers
between `0` and `4 mx² − e²`. -/
theorem scalarXL_eq_mean (e mx ms gsxx gsff w ml : ℝ) (hms : 0 < ms) (hw : 0 < w) (he : 0 < e)
    (hth : mx + ml ≤ e) (hne : 4 * mx ^ 2 ≠ e ^ 2) :
    scalarXL e mx ms gsxx gsff w ml
      = (gsff * ml * gsxx) ^ 2 / (16 * Real.pi * e ^ 2)
        * ((∫ t in (0 : ℝ)..(4 * mx ^ 2 - e ^ 2), tAmplitude ml mx ms w t) / (4 * mx ^ 2 - e ^ 2)) := by
  have hpi := Real.pi_pos
  rw [tAmplitude_integral hms hw]
  unfold scalarXL
  rw [if_neg (not_lt.mpr hth)]
  simp only
  have a1 : (4 * mx ^ 2 - e ^ 2 - ms ^ 2) / (ms * w) = -((-4 * mx ^ 2 + ms ^ 2 + e ^ 2) / (ms * w)) := by
    ring
  have a2 : ms ^ 2 * (-8 * mx ^ 2 + 2 * e ^ 2 + w ^ 2) + (ms ^ 4 + (-4 * mx ^ 2 + e ^ 2) ^ 2)
      = (4 * mx ^ 2 - e ^ 2 - ms ^ 2) ^ 2 + ms ^ 2 * w ^ 2 := by ring
  have a3 : Real.log (4 * ms ^ 2 * (ms ^ 2 + w ^ 2)) = Real.log 4 + Real.log (ms ^ 4 + ms ^ 2 * w ^ 2) := by
    rw [← Real.log_mul (by norm_num) (by positivity)]; congr 1; ring
  have a4 : Real.log 16 = 2 * Real.log 4 := by
    rw [show (16 : ℝ) = 4 ^ 2 by norm_num, Real.log_pow]; norm_num
  rw [a1, a2, a3, a4, Real.arctan_neg]
  generalize Real.arctan ((-4 * mx ^ 2 + ms ^ 2 + e ^ 2) / (ms * w)) = B
  generalize Real.arctan (ms / w) = A
  generalize Real.log 4 = l4
  generalize Real.log (ms ^ 4 + ms ^ 2 * w ^ 2) = L1
  generalize Real.log ((4 * mx ^ 2 - e ^ 2 - ms ^ 2) ^ 2 + ms ^ 2 * w ^ 2) = L2
  have hT : 4 * mx ^ 2 - e ^ 2 ≠ 0 := sub_ne_zero.mpr hne
  field_simp
  ring

/-- C91 (the part that holds): above the dark-matter pair threshold the elastic cross section is
positive, and below the elastic threshold it is zero. -/
theorem scalarXL_pos_partial (e mx ms gsxx gsff w ml : ℝ) (hms : 0 < ms) (hw : 0 < w) (hmx : 0 < mx)
    (hml : 0 < ml) (hg : gsxx ≠ 0) (hf : gsff ≠ 0) :
    (e < mx + ml → scalarXL e mx ms gsxx gsff w ml = 0)
    ∧ (mx + ml ≤ e → 2 * mx < e → 0 < scalarXL e mx ms gsxx gsff w ml) := by
  constructor
  · intro h; unfold scalarXL; rw [if_pos h]
  · intro hth h
    have he : 0 < e := by linarith
    have hT : 4 * mx ^ 2 - e ^ 2 < 0 := by nlinarith
    rw [scalarXL_eq_mean e mx ms gsxx gsff w ml hms hw he hth (by linarith)]
    have hpi := Real.pi_pos
    apply mul_pos (by positivity)
    rw [intervalIntegral.integral_symm]
    apply div_pos_of_neg_of_neg _ hT
    rw [neg_lt_zero]
    apply intervalIntegral.intervalIntegral_pos_of_pos_on
      ((tAmplitude_continuous hms hw).intervalIntegrable _ _) _ hT
    intro t ht
    unfold tAmplitude
    have h1 : 0 < 4 * ml ^ 2 - t := by nlinarith [ht.2]
    have h2 : 0 < 4 * mx ^ 2 - t := by nlinarith [ht.2]
    have := tAmplitude_den hms hw t
    positivity

/-- C91 is false: between the elastic threshold `mx + ml` and `2 mx` the kernel integrates over
positive momentum transfers, where the amplitude is negative beyond `4 ml²`.  For every mediator heavy
enough (`4 mx² − e² ≤ ms²`) and every lepton light enough, the cross section is negative. -/
theorem scalarXL_negative (e mx ms gsxx gsff w ml : ℝ) (hms : 0 < ms) (hw : 0 < w) (hmx : 0 < mx)
    (hml : 0 < ml) (hg : gsxx ≠ 0) (hf : gsff ≠ 0) (hth : mx + ml ≤ e) (hlt : e < 2 * mx)
    (hheavy : 4 * mx ^ 2 - e ^ 2 ≤ ms ^ 2)
    (hlight : 16 * ml ^ 2 * mx ^ 2 - 2 * (ml ^ 2 + mx ^ 2) * (4 * mx ^ 2 - e ^ 2)
      + (4 * mx ^ 2 - e ^ 2) ^ 2 / 3 < 0) :
    scalarXL e mx ms gsxx gsff w ml < 0 := by
  have he : 0 < e := by linarith
  have hT : 0 < 4 * mx ^ 2 - e ^ 2 := by nlinarith
  have hpi := Real.pi_pos
  rw [scalarXL_eq_mean e mx ms gsxx gsff w ml hms hw he hth (by linarith)]
  apply mul_neg_of_pos_of_neg (by positivity)
  apply div_neg_of_neg_of_pos _ hT
  generalize hTd : 4 * mx ^ 2 - e ^ 2 = T at *
  have hTx : T < 4 * mx ^ 2 := by have := sq_pos_of_pos he; linarith
  -- compare with the propagator frozen at `a = 4 ml²`
  rcases le_or_gt T (4 * ml ^ 2) with hcase | hcase
  · exfalso
    have hml1 : T ≤ 4 * ml ^ 2 := hcase
    nlinarith [mul_nonneg (sub_nonneg.mpr hcase) (sub_nonneg.mpr hTx.le), sq_nonneg T, mul_pos hT hT]
  · have hw0 : 0 < ((4 * ml ^ 2 - ms ^ 2) ^ 2 + ms ^ 2 * w ^ 2)⁻¹ :=
      inv_pos.mpr (tAmplitude_den hms hw _)
    have hle : ∫ t in (0 : ℝ)..T, tAmplitude ml mx ms w t
        ≤ ∫ t in (0 : ℝ)..T, ((4 * ml ^ 2 - ms ^ 2) ^ 2 + ms ^ 2 * w ^ 2)⁻¹
          * ((4 * ml ^ 2 - t) * (4 * mx ^ 2 - t)) := by
      apply intervalIntegral.integral_mono_on hT.le
        ((tAmplitude_continuous hms hw).intervalIntegrable _ _)
        (Continuous.intervalIntegrable (by fun_prop) _ _)
      intro t ht
      unfold tAmplitude
      rw [div_eq_inv_mul]
      have h2 : 0 ≤ 4 * mx ^ 2 - t := by linarith [ht.2]
      rcases le_total t (4 * ml ^ 2) with h | h
      · apply mul_le_mul_of_nonneg_right _ (mul_nonneg (by linarith) h2)
        apply inv_anti₀ (tAmplitude_den hms hw _)
        nlinarith
      · apply mul_le_mul_of_nonpos_right _ (mul_nonpos_of_nonpos_of_nonneg (by linarith) h2)
        apply inv_anti₀ (tAmplitude_den hms hw _)
        nlinarith [ht.2]
    have hpoly : ∫ t in (0 : ℝ)..T, ((4 * ml ^ 2 - ms ^ 2) ^ 2 + ms ^ 2 * w ^ 2)⁻¹
          * ((4 * ml ^ 2 - t) * (4 * mx ^ 2 - t))
        = ((4 * ml ^ 2 - ms ^ 2) ^ 2 + ms ^ 2 * w ^ 2)⁻¹
          * (T * (16 * ml ^ 2 * mx ^ 2 - 2 * (ml ^ 2 + mx ^ 2) * T + T ^ 2 / 3)) := by
      rw [intervalIntegral.integral_const_mul]
      congr 1
      let F : ℝ → ℝ := fun t => 16 * ml ^ 2 * mx ^ 2 * t - 2 * (ml ^ 2 + mx ^ 2) * t ^ 2 + t ^ 3 / 3
      have hF : ∀ t, HasDerivAt F ((4 * ml ^ 2 - t) * (4 * mx ^ 2 - t)) t := by
        intro t
        have d := (((hasDerivAt_id t).const_mul (16 * ml ^ 2 * mx ^ 2)).sub
          ((hasDerivAt_pow 2 t).const_mul (2 * (ml ^ 2 + mx ^ 2)))).add ((hasDerivAt_pow 3 t).div_const 3)
        refine d.congr_deriv ?_
        norm_num
        ring
      rw [intervalIntegral.integral_eq_sub_of_hasDerivAt (fun t _ => hF t)
        (Continuous.intervalIntegrable (by fun_prop) _ _)]
      simp only [F]
      ring
    rw [hpoly] at hle
    have : ((4 * ml ^ 2 - ms ^ 2) ^ 2 + ms ^ 2 * w ^ 2)⁻¹
        * (T * (16 * ml ^ 2 * mx ^ 2 - 2 * (ml ^ 2 + mx ^ 2) * T + T ^ 2 / 3)) < 0 :=
      mul_neg_of_pos_of_neg hw0 (mul_neg_of_pos_of_neg hT hlight)
    linarith

/-- A 100 MeV particle on a muon-like lepton of 10 MeV through a 200 MeV mediator at 120 MeV. -/
example : scalarXL 120 100 200 1 1 1 10 < 0 :=
  scalarXL_negative 120 100 200 1 1 1 10 (by norm_num) one_pos (by norm_num) (by norm_num) one_ne_zero
    one_ne_zero (by norm_num) (by norm_num) (by norm_num) (by norm_num)

/-- And positive once `e > 2 mx`. -/
example : 0 < scalarXL 220 100 200 1 1 1 10 :=
  (scalarXL_pos_partial 220 100 200 1 1 1 10 (by norm_num) one_pos (by norm_num) (by norm_num) one_ne_zero
    one_ne_zero).2 (by norm_num) (by norm_num)

/-- C92 is false of the elastic cross section: it is dimensionless (invariant under a common
rescaling of all masses), because the Yukawa coupling `gsff ml / vh` lost its `1 / vh`. -/
theorem scalarXL_units (l e mx ms gsxx gsff w ml : ℝ) (hl : 0 < l) (hms : 0 < ms) (hw : 0 < w)
    (he : 0 < e) (hth : mx + ml ≤ e) (hne : 4 * mx ^ 2 ≠ e ^ 2) :
    scalarXL (l * e) (l * mx) (l * ms) gsxx gsff (l * w) (l * ml) = scalarXL e mx ms gsxx gsff w ml := by
  have hpi := Real.pi_pos
  have hne' : 4 * (l * mx) ^ 2 ≠ (l * e) ^ 2 := by
    intro h
    apply hne
    have : l ^ 2 * (4 * mx ^ 2) = l ^ 2 * e ^ 2 := by linarith
    exact mul_left_cancel₀ (by positivity) this
  rw [scalarXL_eq_mean (l * e) (l * mx) (l * ms) gsxx gsff (l * w) (l * ml) (by positivity) (by positivity)
    (by positivity) (by nlinarith) hne', scalarXL_eq_mean e mx ms gsxx gsff w ml hms hw he hth hne,
    tAmplitude_integral (by positivity) (by positivity), tAmplitude_integral hms hw]
  have hT : 4 * mx ^ 2 - e ^ 2 ≠ 0 := sub_ne_zero.mpr hne
  rw [show 4 * (l * mx) ^ 2 - (l * e) ^ 2 = l ^ 2 * (4 * mx ^ 2 - e ^ 2) by ring,
    show (l ^ 2 * (4 * mx ^ 2 - e ^ 2) - (l * ms) ^ 2) ^ 2 + (l * ms) ^ 2 * (l * w) ^ 2
      = l ^ 4 * ((4 * mx ^ 2 - e ^ 2 - ms ^ 2) ^ 2 + ms ^ 2 * w ^ 2) by ring,
    show (l * ms) ^ 4 + (l * ms) ^ 2 * (l * w) ^ 2 = l ^ 4 * (ms ^ 4 + ms ^ 2 * w ^ 2) by ring,
    Real.log_mul (by positivity) (tAmplitude_den hms hw _).ne', Real.log_mul (by positivity) (by positivity),
    show (l ^ 2 * (4 * mx ^ 2 - e ^ 2) - (l * ms) ^ 2) / (l * ms * (l * w))
      = (4 * mx ^ 2 - e ^ 2 - ms ^ 2) / (ms * w) by field_simp,
    mul_div_mul_left _ _ hl.ne']
  generalize Real.arctan ((4 * mx ^ 2 - e ^ 2 - ms ^ 2) / (ms * w)) = B
  generalize Real.arctan (ms / w) = A
  generalize Real.log (ms ^ 4 + ms ^ 2 * w ^ 2) = L1
  generalize Real.log ((4 * mx ^ 2 - e ^ 2 - ms ^ 2) ^ 2 + ms ^ 2 * w ^ 2) = L2
  generalize Real.log (l ^ 4) = L3
  generalize 4 * mx ^ 2 - e ^ 2 = T at hT ⊢
  field_simp
  ring

/-- C92, part that holds: dividing by the square of the electroweak scale restores the units of a
cross section. -/
theorem scalarXL_units_partial (l e mx ms gsxx gsff w ml vh : ℝ) (hl : 0 < l) (hms : 0 < ms) (hw : 0 < w)
    (he : 0 < e) (hth : mx + ml ≤ e) (hne : 4 * mx ^ 2 ≠ e ^ 2) :
    scalarXL (l * e) (l * mx) (l * ms) gsxx gsff (l * w) (l * ml) / (l * vh) ^ 2
      = scalarXL e mx ms gsxx gsff w ml / vh ^ 2 / l ^ 2 := by
  rw [scalarXL_units l e mx ms gsxx gsff w ml hl hms hw he hth hne]
  field_simp

/-- Hence a non-zero value does not scale like a cross section. -/
theorem scalarXL_not_cross_section (e mx ms gsxx gsff w ml : ℝ) (hms : 0 < ms) (hw : 0 < w) (hmx : 0 < mx)
    (hml : 0 < ml) (hg : gsxx ≠ 0) (hf : gsff ≠ 0) (hth : mx + ml ≤ e) (hx : 2 * mx < e) :
    scalarXL (2 * e) (2 * mx) (2 * ms) gsxx gsff (2 * w) (2 * ml)
      ≠ scalarXL e mx ms gsxx gsff w ml / 2 ^ 2 := by
  have he : 0 < e := by linarith
  have h := (scalarXL_pos_partial e mx ms gsxx gsff w ml hms hw hmx hml hg hf).2 hth hx
  rw [scalarXL_units 2 e mx ms gsxx gsff w ml two_pos hms hw he hth (by nlinarith)]
  intro h'
  linarith

end Hazma.Xs
