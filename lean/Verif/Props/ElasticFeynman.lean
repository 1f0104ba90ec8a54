import Verif.Props.SelfScattering
import Verif.Props.ElasticXs

/-! # C289: elastic scattering off leptons from the Feynman rules

`sigma_xl_to_xl` (`_scalar_mediator_cross_sections.py:332-365`, `scalar_xs.rs:388-440`) against the exchange of the
mediator between a dark matter particle of mass `m` and a lepton of mass `n`. -/

namespace Hazma.ElasticFeynman

open Hazma Hazma.Xs Hazma.SelfScattering
open Matrix

/-- Momentum of either particle in the centre-of-mass frame. -/
noncomputable def mom (e m n : ℝ) : ℝ :=
  Real.sqrt ((e ^ 2 - (m + n) ^ 2) * (e ^ 2 - (m - n) ^ 2)) / (2 * e)

/-- Four-momentum of the particle of mass `m`, at an angle of cosine `z` to the beam. -/
noncomputable def dark (e m n z : ℝ) : Fin 4 → ℝ :=
  ![(e ^ 2 + m ^ 2 - n ^ 2) / (2 * e), mom e m n * Real.sqrt (1 - z ^ 2), 0, mom e m n * z]
/-- Four-momentum of its partner of mass `n`. -/
noncomputable def lepton (e m n z : ℝ) : Fin 4 → ℝ :=
  ![(e ^ 2 + n ^ 2 - m ^ 2) / (2 * e), -(mom e m n * Real.sqrt (1 - z ^ 2)), 0, -(mom e m n * z)]

/-- Squared amplitude of `x(1) l(2) → x(3) l(4)` by exchange of a scalar, summed over final and averaged over initial
spins. -/
noncomputable def amplitudeSq (g h M w m n : ℝ) (p1 p2 p3 p4 : Fin 4 → ℝ) : ℝ :=
  (g * h) ^ 2 / 4 * (trace (spinSum p3 m * spinSum p1 m) * trace (spinSum p4 n * spinSum p2 n)).re
    / Complex.normSq (prop (mink (p1 - p3) (p1 - p3)) M w)

/-- Cross section: flux and phase space give `1 / (32 pi s)` times the integral over the cosine of the angle. -/
noncomputable def sigma (g h M w m n e : ℝ) : ℝ :=
  1 / (32 * Real.pi * e ^ 2)
    * ∫ z in (-1 : ℝ)..1, amplitudeSq g h M w m n (dark e m n 1) (lepton e m n 1) (dark e m n z) (lepton e m n z)

theorem mom_sq {e m n : ℝ} (hm : 0 ≤ m) (hn : 0 ≤ n) (he : 0 < e) (h : m + n ≤ e) :
    mom e m n ^ 2 = (e ^ 2 - (m + n) ^ 2) * (e ^ 2 - (m - n) ^ 2) / (4 * e ^ 2) := by
  unfold mom
  rw [div_pow, Real.sq_sqrt (mul_nonneg (by nlinarith) (by nlinarith))]
  ring

theorem shells {e m n z : ℝ} (hm : 0 ≤ m) (hn : 0 ≤ n) (he : 0 < e) (h : m + n ≤ e) (hz : z ^ 2 ≤ 1) :
    mink (dark e m n z) (dark e m n z) = m ^ 2 ∧ mink (lepton e m n z) (lepton e m n z) = n ^ 2
    ∧ dark e m n z + lepton e m n z = ![e, 0, 0, 0]
    ∧ mink (dark e m n 1 - dark e m n z) (dark e m n 1 - dark e m n z) = -(2 * mom e m n ^ 2 * (1 - z)) := by
  have hk := mom_sq hm hn he h
  have hs : Real.sqrt (1 - z ^ 2) ^ 2 = 1 - z ^ 2 := Real.sq_sqrt (by linarith)
  refine ⟨?_, ?_, ?_, ?_⟩
  · simp only [mink, dark, Matrix.cons_val_zero, Matrix.cons_val_one, Matrix.cons_val]
    have : (mom e m n * Real.sqrt (1 - z ^ 2)) * (mom e m n * Real.sqrt (1 - z ^ 2)) + mom e m n * z * (mom e m n * z)
        = mom e m n ^ 2 := by linear_combination mom e m n ^ 2 * hs
    have h2 : (e ^ 2 + m ^ 2 - n ^ 2) / (2 * e) * ((e ^ 2 + m ^ 2 - n ^ 2) / (2 * e)) - mom e m n ^ 2 = m ^ 2 := by
      rw [hk]; field_simp; ring
    linarith
  · simp only [mink, lepton, Matrix.cons_val_zero, Matrix.cons_val_one, Matrix.cons_val]
    have : (-(mom e m n * Real.sqrt (1 - z ^ 2))) * (-(mom e m n * Real.sqrt (1 - z ^ 2)))
        + -(mom e m n * z) * -(mom e m n * z) = mom e m n ^ 2 := by linear_combination mom e m n ^ 2 * hs
    have h2 : (e ^ 2 + n ^ 2 - m ^ 2) / (2 * e) * ((e ^ 2 + n ^ 2 - m ^ 2) / (2 * e)) - mom e m n ^ 2 = n ^ 2 := by
      rw [hk]; field_simp; ring
    linarith
  · ext i
    fin_cases i <;> simp [dark, lepton]
    field_simp
    ring
  · simp [mink, dark]
    linear_combination -(mom e m n ^ 2) * hs

/-- C289: the squared amplitude, for momenta of the two masses in any frame. -/
theorem amplitudeSq_eq (g h M w : ℝ) {m n t : ℝ} {p1 p2 p3 p4 : Fin 4 → ℝ} (s1 : mink p1 p1 = m ^ 2)
    (s2 : mink p2 p2 = n ^ 2) (s3 : mink p3 p3 = m ^ 2) (s4 : mink p4 p4 = n ^ 2) (hc : p1 + p2 = p3 + p4)
    (ht : mink (p1 - p3) (p1 - p3) = t) :
    amplitudeSq g h M w m n p1 p2 p3 p4 = (g * h) ^ 2 * tAmplitude n m M w t := by
  have ht' : mink (p4 - p2) (p4 - p2) = t := by
    rw [← ht]
    congr 1 <;> linear_combination (exp := 1) -hc
  rw [mink_sub_sub] at ht ht'
  have e1 : mink p3 p1 = m ^ 2 - t / 2 := by rw [mink_comm]; linarith
  have e2 : mink p4 p2 = n ^ 2 - t / 2 := by linarith
  unfold amplitudeSq tAmplitude
  rw [mink_sub_sub, tr_pair, tr_pair, e1, e2, ← Complex.ofReal_mul, Complex.ofReal_re, normSq_prop, s1, s3, mink_comm p1 p3,
    e1]
  have : m ^ 2 + m ^ 2 - 2 * (m ^ 2 - t / 2) = t := by ring
  rw [this]
  ring

/-- C289: the cross section of the Feynman rules is the mean of the squared amplitude over the momentum transfers
between `-4 p^2` and zero. -/
theorem sigma_eq_mean (g h : ℝ) {M w m n e : ℝ} (hm : 0 ≤ m) (hn : 0 ≤ n) (he : m + n < e) :
    sigma g h M w m n e
      = (g * h) ^ 2 / (16 * Real.pi * e ^ 2) * mean (tAmplitude n m M w) (-(4 * mom e m n ^ 2)) := by
  have he0 : 0 < e := by linarith
  have hk : 0 < mom e m n ^ 2 := by
    rw [mom_sq hm hn he0 he.le]
    exact div_pos (mul_pos (by nlinarith) (by nlinarith)) (by positivity)
  obtain ⟨k, hkk⟩ : ∃ k, k = mom e m n ^ 2 := ⟨_, rfl⟩
  have hint : ∀ z ∈ Set.uIcc (-1 : ℝ) 1,
      amplitudeSq g h M w m n (dark e m n 1) (lepton e m n 1) (dark e m n z) (lepton e m n z)
        = (g * h) ^ 2 * tAmplitude n m M w (2 * k * z - 2 * k) := by
    intro z hz
    rw [Set.uIcc_of_le (by norm_num)] at hz
    obtain ⟨a1, a2, a3, -⟩ := shells hm hn he0 he.le (z := 1) (by norm_num)
    obtain ⟨b1, b2, b3, b4⟩ := shells hm hn he0 he.le (z := z) (by nlinarith [hz.1, hz.2])
    refine amplitudeSq_eq g h M w a1 a2 b1 b2 (a3.trans b3.symm) ?_
    rw [b4, ← hkk]
    ring
  unfold sigma mean
  rw [intervalIntegral.integral_congr hint, intervalIntegral.integral_const_mul, ← hkk]
  rw [← hkk] at hk
  rw [intervalIntegral.integral_comp_mul_sub (fun t => tAmplitude n m M w t) (by positivity : (2 * k : ℝ) ≠ 0)]
  have e1 : 2 * k * (-1) - 2 * k = -(4 * k) := by ring
  have e2 : 2 * k * 1 - 2 * k = 0 := by ring
  rw [e1, e2, intervalIntegral.integral_symm 0]
  have hp := Real.pi_pos
  simp only [smul_eq_mul]
  field_simp
  ring

/-- C289: what `sigma_xl_to_xl` computes: the same mean over other momentum transfers, between `4 mx^2 - e^2` and
zero, and a coupling without the vacuum expectation value. -/
theorem code_eq_mean {e mx ms w ml : ℝ} (gsxx gsff : ℝ) (hms : 0 < ms) (hw : 0 < w) (he : 0 < e)
    (hth : mx + ml ≤ e) (hne : 4 * mx ^ 2 ≠ e ^ 2) :
    scalarXL e mx ms gsxx gsff w ml
      = (gsxx * (gsff * ml)) ^ 2 / (16 * Real.pi * e ^ 2) * mean (tAmplitude ml mx ms w) (4 * mx ^ 2 - e ^ 2) := by
  rw [scalarXL_eq_mean e mx ms gsxx gsff w ml hms hw he hth hne]
  unfold mean
  ring

/-- C289: the two ranges of momentum transfer are the same only for a lepton as heavy as the dark matter. -/
theorem range_iff {e m n : ℝ} (hm : 0 < m) (hn : 0 < n) (he : m + n ≤ e) :
    4 * m ^ 2 - e ^ 2 = -(4 * mom e m n ^ 2) ↔ n = m := by
  have he0 : 0 < e := by linarith
  rw [mom_sq hm.le hn.le he0 he]
  have key : 4 * m ^ 2 - e ^ 2 - -(4 * ((e ^ 2 - (m + n) ^ 2) * (e ^ 2 - (m - n) ^ 2) / (4 * e ^ 2)))
      = (m - n) * ((m + n) * (2 * e ^ 2 + (m ^ 2 - n ^ 2))) / e ^ 2 := by
    field_simp
    ring
  rw [← sub_eq_zero, key]
  have hpos : 0 < (m + n) * (2 * e ^ 2 + (m ^ 2 - n ^ 2)) := mul_pos (by linarith) (by nlinarith)
  constructor
  · intro h
    rcases div_eq_zero_iff.mp h with h | h
    · rcases mul_eq_zero.mp h with h | h
      · linarith
      · exact absurd h hpos.ne'
    · exact absurd h (by positivity)
  · rintro rfl
    simp

/-- C289, the part that holds: for a lepton as heavy as the dark matter the kernel is the square of the vacuum
expectation value times the cross section, where the cross section summed over the lepton's charges is twice that. -/
theorem code_equal_masses_partial {e m ms w vh : ℝ} (gsxx gsff : ℝ) (hms : 0 < ms) (hw : 0 < w) (hm : 0 < m)
    (he : 2 * m < e) (hv : vh ≠ 0) :
    scalarXL e m ms gsxx gsff w m = vh ^ 2 * sigma gsxx (gsff * m / vh) ms w m m e := by
  rw [code_eq_mean gsxx gsff hms hw (by linarith) (by linarith) (by nlinarith),
    sigma_eq_mean gsxx _ hm.le hm.le (by linarith), (range_iff hm hm (by linarith)).mpr rfl]
  field_simp

/-- The cross section of the Feynman rules is positive above threshold. -/
theorem sigma_pos {M w m n e g h : ℝ} (hM : 0 < M) (hw : 0 < w) (hm : 0 < m) (hn : 0 < n) (he : m + n < e)
    (hg : g ≠ 0) (hh : h ≠ 0) : 0 < sigma g h M w m n e := by
  have he0 : 0 < e := by linarith
  rw [sigma_eq_mean g h hm.le hn.le he]
  have hp := Real.pi_pos
  have hk : 0 < mom e m n ^ 2 := by
    rw [mom_sq hm.le hn.le he0 he.le]
    exact div_pos (mul_pos (by nlinarith) (by nlinarith)) (by positivity)
  refine mul_pos (by positivity) ?_
  unfold mean
  rw [intervalIntegral.integral_symm]
  refine div_pos_of_neg_of_neg (neg_lt_zero.mpr ?_) (by linarith)
  refine intervalIntegral.intervalIntegral_pos_of_pos_on
    ((tAmplitude_continuous hM hw).intervalIntegrable _ _) (fun t ht => ?_) (by linarith)
  unfold tAmplitude
  have h1 : 0 < 4 * n ^ 2 - t := by nlinarith [ht.2]
  have h2 : 0 < 4 * m ^ 2 - t := by nlinarith [ht.2]
  have := tAmplitude_den hM hw t
  positivity

/-- C289 (violated): between the threshold and twice the dark matter mass the kernel has the wrong sign for light
leptons and heavy mediators. -/
theorem code_wrong_sign {e mx ms gsxx gsff w ml vh : ℝ} (hms : 0 < ms) (hw : 0 < w) (hmx : 0 < mx)
    (hml : 0 < ml) (hg : gsxx ≠ 0) (hf : gsff ≠ 0) (hv : vh ≠ 0) (hth : mx + ml < e) (hlt : e < 2 * mx)
    (hheavy : 4 * mx ^ 2 - e ^ 2 ≤ ms ^ 2)
    (hlight : 16 * ml ^ 2 * mx ^ 2 - 2 * (ml ^ 2 + mx ^ 2) * (4 * mx ^ 2 - e ^ 2)
      + (4 * mx ^ 2 - e ^ 2) ^ 2 / 3 < 0) :
    scalarXL e mx ms gsxx gsff w ml < 0 ∧ 0 < sigma gsxx (gsff * ml / vh) ms w mx ml e :=
  ⟨scalarXL_negative e mx ms gsxx gsff w ml hms hw hmx hml hg hf hth.le hlt hheavy hlight,
    sigma_pos hms hw hmx hml hth hg (div_ne_zero (mul_ne_zero hf hml.ne') hv)⟩

/-- Dark matter of 100 MeV on a lepton of 10 MeV at 120 MeV. -/
example : scalarXL 120 100 200 1 1 1 10 < 0 ∧ 0 < sigma 1 (1 * 10 / 246) 200 1 100 10 120 :=
  code_wrong_sign (by norm_num) one_pos (by norm_num) (by norm_num) one_ne_zero one_ne_zero (by norm_num)
    (by norm_num) (by norm_num) (by norm_num) (by norm_num)

/-- Equal masses. -/
example : scalarXL 30 10 200 1 1 1 10 = 246 ^ 2 * sigma 1 (1 * 10 / 246) 200 1 10 10 30 :=
  code_equal_masses_partial 1 1 (by norm_num) one_pos (by norm_num) (by norm_num) (by norm_num)

end Hazma.ElasticFeynman
