import Verif.Props.ElasticFeynman

/-! # C290: scattering of dark matter off the scalar mediator from the Feynman rules

`sigma_xs_to_xs` (`scalar_xs.rs:784-840`) against the two graphs in which a dark matter particle of mass `m` absorbs
and emits a scalar of mass `M`. -/

namespace Hazma.Compton

open Hazma Hazma.Xs Hazma.SelfScattering
open Hazma.ElasticFeynman (dark lepton mom mom_sq shells)
open Matrix

/-- Squared amplitude of `x(p1) s(k1) → x(p3) s(k2)`, summed over final and averaged over initial spins.  The
dark matter line carries `p1 + k1` in one graph and `p1 - k2` in the other. -/
noncomputable def amplitudeSq (g m : ℝ) (p1 k1 p3 k2 : Fin 4 → ℝ) : ℝ :=
  let q := p1 + k1
  let r := p1 - k2
  let S := mink q q - m ^ 2
  let U := mink r r - m ^ 2
  g ^ 4 / 2 * ((trace (spinSum p3 m * spinSum q m * spinSum p1 m * spinSum q m)).re / S ^ 2
    + (trace (spinSum p3 m * spinSum r m * spinSum p1 m * spinSum r m)).re / U ^ 2
    + 2 * (trace (spinSum p3 m * spinSum q m * spinSum p1 m * spinSum r m)).re / (S * U))

/-- Cross section: flux and phase space give `1 / (32 pi s)` times the integral over the cosine of the angle. -/
noncomputable def sigma (g m M e : ℝ) : ℝ :=
  1 / (32 * Real.pi * e ^ 2)
    * ∫ z in (-1 : ℝ)..1, amplitudeSq g m (dark e m M 1) (lepton e m M 1) (dark e m M z) (lepton e m M z)

/-- The squared amplitude without the coupling as a function of `S = s - m^2` and `U = u - m^2`. -/
noncomputable def reduced (m M S U : ℝ) : ℝ :=
  1 + 8 * m ^ 2 / S + (4 * m ^ 2 - M ^ 2) ^ 2 / (2 * S ^ 2) - U / (2 * S)
    + (8 * m ^ 2 - S / 2 + (16 * m ^ 4 - 8 * m ^ 2 * M ^ 2 - M ^ 4) / S) / U + (4 * m ^ 2 - M ^ 2) ^ 2 / (2 * U ^ 2)

/-- C290: the squared amplitude in any frame. -/
theorem amplitudeSq_eq (g : ℝ) {m M s t : ℝ} {p1 k1 p3 k2 : Fin 4 → ℝ} (h1 : mink p1 p1 = m ^ 2)
    (h2 : mink k1 k1 = M ^ 2) (h3 : mink p3 p3 = m ^ 2) (h4 : mink k2 k2 = M ^ 2) (hc : p1 + k1 = p3 + k2)
    (hs : mink (p1 + k1) (p1 + k1) = s) (ht : mink (p1 - p3) (p1 - p3) = t) (hS : s - m ^ 2 ≠ 0)
    (hU : 2 * M ^ 2 - (s - m ^ 2) - t ≠ 0) :
    amplitudeSq g m p1 k1 p3 k2 = 2 * g ^ 4 * reduced m M (s - m ^ 2) (2 * M ^ 2 - (s - m ^ 2) - t) := by
  have hr : p1 - k2 = p3 - k1 := by linear_combination (exp := 1) hc
  have a1 : mink p1 k1 = (s - m ^ 2 - M ^ 2) / 2 := by rw [mink_add_add] at hs; linarith
  have a2 : mink p3 k2 = (s - m ^ 2 - M ^ 2) / 2 := by rw [hc, mink_add_add] at hs; linarith
  have a3 : mink p1 p3 = m ^ 2 - t / 2 := by rw [mink_sub_sub] at ht; linarith
  have lin : ∀ x : Fin 4 → ℝ, mink x p1 + mink x k1 = mink x p3 + mink x k2 := fun x => by
    rw [← mink_add, ← mink_add, hc]
  have l1 := lin p1
  have l2 := lin p3
  have l3 := lin k1
  rw [h1, a1, a3] at l1
  rw [mink_comm p3 p1, a3, h3, a2] at l2
  have sub : ∀ x a b : Fin 4 → ℝ, mink x (a - b) = mink x a - mink x b := fun x a b => by simp [mink]; ring
  have addl : ∀ x a b : Fin 4 → ℝ, mink (a + b) x = mink a x + mink b x := fun x a b => by simp [mink]; ring
  have b1 : mink p1 k2 = (s + t) / 2 - (m ^ 2 + M ^ 2) / 2 := by linarith
  have b2 : mink p3 k1 = (s + t) / 2 - (m ^ 2 + M ^ 2) / 2 := by linarith
  rw [mink_comm k1 p1, a1, h2, mink_comm k1 p3, b2] at l3
  have q1 : mink p1 (p1 + k1) = (s + m ^ 2 - M ^ 2) / 2 := by rw [mink_add, h1, a1]; ring
  have q3 : mink p3 (p1 + k1) = (s + m ^ 2 - M ^ 2) / 2 := by
    rw [mink_add, mink_comm p3 p1, a3, b2]; ring
  have rr : mink (p1 - k2) (p1 - k2) = 2 * m ^ 2 + 2 * M ^ 2 - s - t := by
    rw [mink_sub_sub, h1, h4, b1]; ring
  have r1 : mink p1 (p1 - k2) = (3 * m ^ 2 + M ^ 2 - s - t) / 2 := by rw [sub, h1, b1]; ring
  have r3 : mink p3 (p1 - k2) = (3 * m ^ 2 + M ^ 2 - s - t) / 2 := by
    rw [sub, mink_comm p3 p1, a3, a2]; ring
  have qr : mink (p1 + k1) (p1 - k2) = m ^ 2 - M ^ 2 := by
    have : mink k1 k2 = M ^ 2 - t / 2 := by linarith
    rw [addl, sub, sub, h1, b1, mink_comm k1 p1, a1, this]; ring
  unfold amplitudeSq
  simp only [tr_quad, Complex.ofReal_re]
  rw [mink_comm (p1 + k1) p1, mink_comm (p1 - k2) p1, mink_comm p3 p1, hs, rr, q1, q3, r1, r3, a3, qr]
  have e : 2 * m ^ 2 + 2 * M ^ 2 - s - t - m ^ 2 = 2 * M ^ 2 - (s - m ^ 2) - t := by ring
  rw [e]
  obtain ⟨S, rfl⟩ : ∃ S, s = S + m ^ 2 := ⟨s - m ^ 2, by ring⟩
  rw [add_sub_cancel_right] at hS hU ⊢
  obtain ⟨U, rfl⟩ : ∃ U, t = 2 * M ^ 2 - S - U := ⟨2 * M ^ 2 - S - t, by ring⟩
  have e' : 2 * M ^ 2 - S - (2 * M ^ 2 - S - U) = U := by ring
  rw [e'] at hU ⊢
  unfold reduced
  field_simp
  ring

/-- C290: the cross section of the Feynman rules is the mean of the squared amplitude over the momentum transfers
between `-4 p^2` and zero, if the other graph has no pole there. -/
theorem sigma_eq_mean (g : ℝ) {m M e : ℝ} (hm : 0 < m) (hM : 0 < M) (he : m + M < e)
    (hU : ∀ t, -(4 * mom e m M ^ 2) ≤ t → t ≤ 0 → 2 * M ^ 2 - (e ^ 2 - m ^ 2) - t ≠ 0) :
    sigma g m M e = g ^ 4 / (8 * Real.pi * e ^ 2)
      * mean (fun t => reduced m M (e ^ 2 - m ^ 2) (2 * M ^ 2 - (e ^ 2 - m ^ 2) - t)) (-(4 * mom e m M ^ 2)) := by
  have he0 : 0 < e := by linarith
  have hk : 0 < mom e m M ^ 2 := by
    rw [mom_sq hm.le hM.le he0 he.le]
    exact div_pos (mul_pos (by nlinarith) (by nlinarith)) (by positivity)
  obtain ⟨k, hkk⟩ : ∃ k, k = mom e m M ^ 2 := ⟨_, rfl⟩
  rw [← hkk] at hk hU ⊢
  have hint : ∀ z ∈ Set.uIcc (-1 : ℝ) 1,
      amplitudeSq g m (dark e m M 1) (lepton e m M 1) (dark e m M z) (lepton e m M z)
        = 2 * g ^ 4 * (fun t => reduced m M (e ^ 2 - m ^ 2) (2 * M ^ 2 - (e ^ 2 - m ^ 2) - t)) (2 * k * z - 2 * k) := by
    intro z hz
    rw [Set.uIcc_of_le (by norm_num)] at hz
    obtain ⟨a1, a2, a3, -⟩ := shells hm.le hM.le he0 he.le (z := 1) (by norm_num)
    obtain ⟨b1, b2, b3, b4⟩ := shells hm.le hM.le he0 he.le (z := z) (by nlinarith [hz.1, hz.2])
    refine amplitudeSq_eq g a1 a2 b1 b2 (a3.trans b3.symm) ?_ ?_ (by nlinarith) ?_
    · rw [a3]; simp [mink]; ring
    · rw [b4, ← hkk]; ring
    · exact hU _ (by nlinarith [hz.1, hz.2]) (by nlinarith [hz.1, hz.2])
  unfold sigma mean
  rw [intervalIntegral.integral_congr hint, intervalIntegral.integral_const_mul]
  rw [intervalIntegral.integral_comp_mul_sub (fun t => reduced m M (e ^ 2 - m ^ 2) (2 * M ^ 2 - (e ^ 2 - m ^ 2) - t))
    (by positivity : (2 * k : ℝ) ≠ 0)]
  have e1 : 2 * k * (-1) - 2 * k = -(4 * k) := by ring
  have e2 : 2 * k * 1 - 2 * k = 0 := by ring
  rw [e1, e2, intervalIntegral.integral_symm 0]
  have hp := Real.pi_pos
  simp only [smul_eq_mul]
  field_simp
  ring

/-- The integral of the reduced amplitude over momentum transfers from zero to `T` that avoid the pole. -/
theorem reduced_integral {m M S T : ℝ} (hS : S ≠ 0) (hU : ∀ t ∈ Set.uIcc 0 T, 2 * M ^ 2 - S - t ≠ 0) :
    ∫ t in (0 : ℝ)..T, reduced m M S (2 * M ^ 2 - S - t)
      = (1 + 8 * m ^ 2 / S + (4 * m ^ 2 - M ^ 2) ^ 2 / (2 * S ^ 2)) * T
        + ((2 * M ^ 2 - S - T) ^ 2 - (2 * M ^ 2 - S) ^ 2) / (4 * S)
        - (8 * m ^ 2 - S / 2 + (16 * m ^ 4 - 8 * m ^ 2 * M ^ 2 - M ^ 4) / S)
          * (Real.log (2 * M ^ 2 - S - T) - Real.log (2 * M ^ 2 - S))
        + (4 * m ^ 2 - M ^ 2) ^ 2 / 2 * (1 / (2 * M ^ 2 - S - T) - 1 / (2 * M ^ 2 - S)) := by
  have hd : ∀ t ∈ Set.uIcc 0 T, HasDerivAt (fun t : ℝ =>
      (1 + 8 * m ^ 2 / S + (4 * m ^ 2 - M ^ 2) ^ 2 / (2 * S ^ 2)) * t
        + (2 * M ^ 2 - S - t) ^ 2 / (4 * S)
        - (8 * m ^ 2 - S / 2 + (16 * m ^ 4 - 8 * m ^ 2 * M ^ 2 - M ^ 4) / S) * Real.log (2 * M ^ 2 - S - t)
        + (4 * m ^ 2 - M ^ 2) ^ 2 / 2 * (2 * M ^ 2 - S - t)⁻¹) (reduced m M S (2 * M ^ 2 - S - t)) t := by
    intro t ht
    have h0 := hU t ht
    have u : HasDerivAt (fun t : ℝ => 2 * M ^ 2 - S - t) (-1) t := by
      simpa using (hasDerivAt_id t).const_sub (2 * M ^ 2 - S)
    have d := ((((hasDerivAt_id t).const_mul (1 + 8 * m ^ 2 / S + (4 * m ^ 2 - M ^ 2) ^ 2 / (2 * S ^ 2))).add
      ((u.pow 2).div_const (4 * S))).sub ((u.log h0).const_mul
        (8 * m ^ 2 - S / 2 + (16 * m ^ 4 - 8 * m ^ 2 * M ^ 2 - M ^ 4) / S))).add
      ((u.inv h0).const_mul ((4 * m ^ 2 - M ^ 2) ^ 2 / 2))
    refine d.congr_deriv ?_
    unfold reduced
    generalize 2 * M ^ 2 - S - t = U at *
    field_simp
    ring
  have hc : IntervalIntegrable (fun t => reduced m M S (2 * M ^ 2 - S - t)) MeasureTheory.volume 0 T := by
    apply ContinuousOn.intervalIntegrable
    unfold reduced
    have h2 : ∀ t ∈ Set.uIcc 0 T, 2 * (2 * M ^ 2 - S - t) ^ 2 ≠ 0 := fun t ht => by
      have := hU t ht
      positivity
    exact ((((by fun_prop : ContinuousOn (fun t : ℝ => 1 + 8 * m ^ 2 / S + (4 * m ^ 2 - M ^ 2) ^ 2 / (2 * S ^ 2)
      - (2 * M ^ 2 - S - t) / (2 * S)) (Set.uIcc 0 T)).add (ContinuousOn.div (by fun_prop) (by fun_prop) hU)).add
      (ContinuousOn.div (by fun_prop) (by fun_prop) h2)))
  rw [intervalIntegral.integral_eq_sub_of_hasDerivAt hd hc]
  simp only [mul_zero, sub_zero]
  ring

/-- C290: what `sigma_xs_to_xs` computes: the same mean over other momentum transfers, between `4 mx^2 - e^2` and
zero, wherever the other graph has no pole between them. -/
theorem code_eq_mean (g : ℝ) {m M e : ℝ} (hm : 0 < m) (hM : 0 < M) (he : m + M ≤ e) (h2 : e ≠ 2 * m)
    (hU : ∀ t ∈ Set.uIcc 0 (4 * m ^ 2 - e ^ 2), 2 * M ^ 2 - (e ^ 2 - m ^ 2) - t ≠ 0) :
    scalarXS e m M g = some (g ^ 4 / (8 * Real.pi * e ^ 2)
      * mean (fun t => reduced m M (e ^ 2 - m ^ 2) (2 * M ^ 2 - (e ^ 2 - m ^ 2) - t)) (4 * m ^ 2 - e ^ 2)) := by
  have he0 : 0 < e := by linarith
  have hS : 0 < e ^ 2 - m ^ 2 := by nlinarith
  have hd : 4 * m ^ 2 - e ^ 2 ≠ 0 := by
    intro h
    apply h2
    nlinarith
  have ha := hU (4 * m ^ 2 - e ^ 2) Set.right_mem_uIcc
  have hb := hU 0 Set.left_mem_uIcc
  have hp := Real.pi_pos
  unfold mean
  rw [reduced_integral hS.ne' hU]
  unfold scalarXS
  rw [if_neg (not_lt.mpr he), if_neg h2]
  simp only
  have ea : 2 * M ^ 2 + -(3 * m ^ 2) = 2 * M ^ 2 - (e ^ 2 - m ^ 2) - (4 * m ^ 2 - e ^ 2) := by ring
  have eb : 2 * M ^ 2 + m ^ 2 - e ^ 2 = 2 * M ^ 2 - (e ^ 2 - m ^ 2) := by ring
  have ed : 4 * m ^ 2 + -e ^ 2 = 4 * m ^ 2 - e ^ 2 := by ring
  have eS : m ^ 2 - e ^ 2 = -(e ^ 2 - m ^ 2) := by ring
  rw [sub_zero] at hb
  rw [ea, eb, ed, eS]
  rw [if_neg (by push Not; exact ⟨ha, hb, hd, mul_ne_zero (by positivity) (pow_ne_zero 2 (neg_ne_zero.mpr hS.ne'))⟩)]
  rw [Real.log_abs, Real.log_div ha hb]
  congr 1
  obtain ⟨S, rS⟩ : ∃ S, S = e ^ 2 - m ^ 2 := ⟨_, rfl⟩
  have re : e ^ 2 = S + m ^ 2 := by rw [rS]; ring
  obtain ⟨a, ra⟩ : ∃ a, a = 2 * M ^ 2 - S - (4 * m ^ 2 - e ^ 2) := ⟨_, rfl⟩
  obtain ⟨b, rb⟩ : ∃ b, b = 2 * M ^ 2 - S := ⟨_, rfl⟩
  obtain ⟨d, rd⟩ : ∃ d, d = 4 * m ^ 2 - e ^ 2 := ⟨_, rfl⟩
  rw [← rS] at hS ha hb ⊢
  rw [← ra] at ha ⊢
  rw [← rb] at hb ⊢
  rw [← rd] at hd ⊢
  have hab : a = b - d := by rw [ra, rb, rd]
  generalize Real.log a = la
  generalize Real.log b = lb
  have hS' := hS.ne'
  have hpi := hp.ne'
  have he' := he0.ne'
  have rM : M ^ 2 = (b + S) / 2 := by rw [rb]; ring
  have rm : m ^ 2 = (d + S) / 3 := by rw [rd, re]; ring
  have rM4 : M ^ 4 = ((b + S) / 2) ^ 2 := by rw [← rM]; ring
  have rm4 : m ^ 4 = ((d + S) / 3) ^ 2 := by rw [← rm]; ring
  have re4 : (e ^ 2) ^ 2 = (S + (d + S) / 3) ^ 2 := by rw [re, rm]
  have re' : e ^ 2 = S + (d + S) / 3 := by rw [re, rm]
  have hE : S + (d + S) / 3 ≠ 0 := by rw [← re']; positivity
  rw [rM4, rm4, rM, rm, re']
  subst hab
  field_simp
  ring

/-- C290, the part that holds: for a mediator as heavy as the dark matter the kernel is the cross section. -/
theorem code_equal_masses_partial (g : ℝ) {m e : ℝ} (hm : 0 < m) (he : 2 * m < e) :
    scalarXS e m m g = some (sigma g m m e) := by
  have hk : -(4 * mom e m m ^ 2) = 4 * m ^ 2 - e ^ 2 := by
    have h0 : 0 < e := by linarith
    rw [mom_sq hm.le hm.le h0 (by linarith)]
    field_simp
    ring
  have h4 : 4 * m ^ 2 - e ^ 2 < 0 := by nlinarith
  rw [sigma_eq_mean g hm hm (by linarith), hk, code_eq_mean g hm hm (by linarith) he.ne']
  · intro t ht
    rw [Set.uIcc_of_ge h4.le] at ht
    have := ht.1
    exact ne_of_lt (by nlinarith)
  · intro t h1 _
    rw [hk] at h1
    exact ne_of_lt (by nlinarith)

/-- C290 (violated): at twice the dark matter mass the kernel returns the forward amplitude, which is more than the
cross section. -/
theorem code_too_large : ∃ v, scalarXS 2 1 (4 / 5) 1 = some v ∧ sigma 1 1 (4 / 5) 2 < v := by
  have hp := Real.pi_pos
  have hT : -(4 * mom 2 1 (4 / 5) ^ 2) = -(1881 / 2500 : ℝ) := by
    rw [mom_sq (by norm_num) (by norm_num) (by norm_num) (by norm_num)]
    norm_num
  refine ⟨_, by unfold scalarXS checkedDiv; rw [if_neg (by norm_num), if_pos (by norm_num), if_neg (by positivity)], ?_⟩
  rw [sigma_eq_mean 1 (by norm_num) (by norm_num) (by norm_num) (by
    intro t h1 _
    rw [hT] at h1
    exact ne_of_lt (by nlinarith)), hT]
  obtain ⟨f, hf⟩ : ∃ f : ℝ → ℝ, f = fun t => reduced 1 (4 / 5) (2 ^ 2 - 1 ^ 2) (2 * (4 / 5) ^ 2 - (2 ^ 2 - 1 ^ 2) - t) := ⟨_, rfl⟩
  rw [← hf]
  have hneg : ∀ t : ℝ, -(1881 / 2500 : ℝ) ≤ t → 2 * (4 / 5 : ℝ) ^ 2 - (2 ^ 2 - 1 ^ 2) - t < 0 := fun t h => by
    norm_num; linarith
  have hcont : ContinuousOn f (Set.Icc (-(1881 / 2500)) 0) := by
    rw [hf]
    unfold reduced
    refine ((by fun_prop : ContinuousOn (fun t : ℝ => 1 + 8 * (1 : ℝ) ^ 2 / (2 ^ 2 - 1 ^ 2)
      + (4 * 1 ^ 2 - (4 / 5) ^ 2) ^ 2 / (2 * (2 ^ 2 - 1 ^ 2) ^ 2)
      - (2 * (4 / 5) ^ 2 - (2 ^ 2 - 1 ^ 2) - t) / (2 * (2 ^ 2 - 1 ^ 2))) _).add
      (ContinuousOn.div (by fun_prop) (by fun_prop) fun t ht => (hneg t ht.1).ne)).add
      (ContinuousOn.div (by fun_prop) (by fun_prop) fun t ht => ?_)
    have := (hneg t ht.1).ne
    positivity
  have hdiff : ∀ t ∈ Set.Icc (-(1881 / 2500) : ℝ) 0, t < 0 → f t < f 0 := by
    intro t ht h0
    have hD := hneg t ht.1
    obtain ⟨D, rD⟩ : ∃ D, D = 2 * (4 / 5 : ℝ) ^ 2 - (2 ^ 2 - 1 ^ 2) - t := ⟨_, rfl⟩
    rw [← rD] at hD
    have h1 : D ≤ -(9676 / 10000) := by rw [rD]; have := ht.1; norm_num; linarith
    have h2 : -(43 / 25) < D := by rw [rD]; norm_num; linarith
    have key : f 0 - f t = (D + 43 / 25)
        * (D ^ 2 / 6 - (13 / 2 + 16 * (1 - 1 / 2 * (16 / 25) - 1 / 16 * (16 / 25) ^ 2) / 3) * D * (25 / 43)
          + 84 ^ 2 / 25 ^ 2 / 2 * (D - 43 / 25) * (25 / 43) ^ 2) / D ^ 2 := by
      rw [hf]
      simp only
      rw [← rD]
      unfold reduced
      have := hD.ne
      field_simp
      norm_num
      ring
    have hpos : 0 < f 0 - f t := by
      rw [key]
      refine div_pos (mul_pos (by linarith) ?_) (by nlinarith)
      nlinarith
    linarith
  have hint : ∫ t in (-(1881 / 2500) : ℝ)..0, f t < ∫ _t in (-(1881 / 2500) : ℝ)..0, f 0 := by
    refine intervalIntegral.integral_lt_integral_of_continuousOn_of_le_of_exists_lt (by norm_num) hcont
      continuousOn_const (fun t ht => ?_) ⟨-(1881 / 2500), ⟨le_refl _, by norm_num⟩,
        hdiff _ ⟨le_refl _, by norm_num⟩ (by norm_num)⟩
    rcases ht.2.lt_or_eq with h | h
    · exact (hdiff t ⟨ht.1.le, ht.2⟩ h).le
    · rw [h]
  rw [intervalIntegral.integral_const, smul_eq_mul] at hint
  have hmean : mean f (-(1881 / 2500)) < f 0 := by
    unfold mean
    rw [intervalIntegral.integral_symm, neg_div_neg_eq, div_lt_iff₀ (by norm_num)]
    linarith
  have hv : f 0 = (9 * 1 ^ 4 + (-(10 * (4 / 5) ^ 2) * 1 ^ 2 + (4 / 5) ^ 4)) ^ 2 * 32
      / (36 * 1 ^ 4 * (2 * (4 / 5) ^ 2 + -(3 * 1 ^ 2)) ^ 2 * 2 ^ 2) := by
    rw [hf]
    norm_num [reduced]
  calc (1 : ℝ) ^ 4 / (8 * Real.pi * 2 ^ 2) * mean f (-(1881 / 2500))
      < 1 ^ 4 / (8 * Real.pi * 2 ^ 2) * f 0 := mul_lt_mul_of_pos_left hmean (by positivity)
    _ = _ := by
      rw [hv]
      field_simp
      norm_num

/-- A mediator as heavy as the dark matter. -/
example : scalarXS 5 1 1 1 = some (sigma 1 1 1 5) := code_equal_masses_partial 1 one_pos (by norm_num)

end Hazma.Compton
