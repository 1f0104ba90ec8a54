import Verif.Model.CrossSections
import Verif.Props.VectorModel
import Verif.Props.ScalarModel
import Mathlib.Tactic
import Mathlib.Analysis.SpecialFunctions.Log.Deriv
import Mathlib.Analysis.SpecialFunctions.Trigonometric.ArctanDeriv
import Mathlib.MeasureTheory.Integral.IntervalIntegral.FundThmCalculus

/-! # Annihilation cross sections: signs, thresholds, factorisation, detailed balance, units -/

namespace Hazma.Xs

open Hazma
open Hazma.ScalarModel (rpow32_nonneg)

theorem quotient_ok {a c : ℝ} (h : c ≠ 0) : quotient a c = .ok (a / c) := if_neg h

theorem propagator_pos {m e w : ℝ} (hm : 0 < m) (h : 0 < w ∨ (0 < e ∧ e ≠ m)) : 0 < propagator m e w := by
  unfold propagator
  rcases h with h | ⟨h1, h2⟩
  · positivity
  · have : m ^ 2 - e ^ 2 ≠ 0 := by
      intro h0
      have : (m - e) * (m + e) = 0 := by linear_combination h0
      rcases mul_eq_zero.mp this with h' | h'
      · exact h2 (by linarith)
      · linarith
    positivity

theorem sub_sq_pos {e m : ℝ} (hm : 0 ≤ m) (h : 2 * m < e) : 0 < -4 * m ^ 2 + e ^ 2 := by nlinarith
theorem sub_sq_nonneg {e m : ℝ} (hm : 0 ≤ m) (h : 2 * m ≤ e) : 0 ≤ -4 * m ^ 2 + e ^ 2 := by nlinarith

/-! ### The t- and u-channel closed form -/

/-- The closed form of `∫ f` for the t- and u-channel integrand is positive when its numerator is
positive at both ends. -/
theorem tu_pos (c S K A R : ℝ) (hc : 0 ≤ c) (hR : 0 ≤ R) (hRA : R < A)
    (h0 : 0 ≤ -c * (A ^ 2) ^ 2 - 2 * S * A ^ 2 + K * A ^ 2)
    (h1 : 0 ≤ -c * (A ^ 2 - R ^ 2) ^ 2 - 2 * S * (A ^ 2 + R ^ 2) + K * (A ^ 2 - R ^ 2)) :
    0 ≤ -(2 * c * R) - 4 * S * R / (A ^ 2 - R ^ 2) + K * Real.log ((A + R) / (A - R)) / A
    ∧ (0 < R → 0 < -c * (A ^ 2) ^ 2 - 2 * S * A ^ 2 + K * A ^ 2 →
      0 < -(2 * c * R) - 4 * S * R / (A ^ 2 - R ^ 2) + K * Real.log ((A + R) / (A - R)) / A) := by
  have hA : 0 < A := hR.trans_lt hRA
  let G : ℝ → ℝ := fun u => -(2 * c * u) - 2 * S * ((A - u)⁻¹ - (A + u)⁻¹)
    + K / A * (Real.log (A + u) - Real.log (A - u))
  have hG : ∀ u, 0 ≤ u → u < A → HasDerivAt G
      (2 * ((-c * (A ^ 2 - u ^ 2) ^ 2 - 2 * S * (A ^ 2 + u ^ 2) + K * (A ^ 2 - u ^ 2))
        / (A ^ 2 - u ^ 2) ^ 2)) u := by
    intro u hu huA
    have hm : A - u ≠ 0 := by linarith
    have hp : A + u ≠ 0 := by linarith
    have e1 : HasDerivAt (fun u : ℝ => A - u) (-1) u := by
      simpa using (hasDerivAt_id u).const_sub A
    have e2 : HasDerivAt (fun u : ℝ => A + u) 1 u := by
      simpa using (hasDerivAt_id u).const_add A
    have d1 := (e1.inv hm).sub (e2.inv hp)
    have d2 := (e2.log hp).sub (e1.log hm)
    have d := ((((hasDerivAt_id u).const_mul (2 * c)).neg).sub (d1.const_mul (2 * S))).add
      (d2.const_mul (K / A))
    refine (d.congr_deriv ?_)
    have : A ^ 2 - u ^ 2 ≠ 0 := by
      rw [show A ^ 2 - u ^ 2 = (A - u) * (A + u) by ring]; positivity
    field_simp
    ring
  have hcont : ContinuousOn G (Set.Icc 0 R) := fun u hu =>
    (hG u hu.1 (hu.2.trans_lt hRA)).continuousAt.continuousWithinAt
  have hGR : G R = -(2 * c * R) - 4 * S * R / (A ^ 2 - R ^ 2)
      + K * Real.log ((A + R) / (A - R)) / A := by
    have hm : A - R ≠ 0 := by linarith
    have hp : A + R ≠ 0 := by linarith
    have hq : A ^ 2 - R ^ 2 ≠ 0 := by
      rw [show A ^ 2 - R ^ 2 = (A - R) * (A + R) by ring]; positivity
    simp only [G]
    rw [Real.log_div hp hm]
    have : (A - R)⁻¹ - (A + R)⁻¹ = 2 * R / (A ^ 2 - R ^ 2) := by field_simp; ring
    rw [this]
    ring
  have hG0 : G 0 = 0 := by simp [G]
  have hnum : ∀ u, 0 < u → u < R →
      (0 ≤ -c * (A ^ 2 - u ^ 2) ^ 2 - 2 * S * (A ^ 2 + u ^ 2) + K * (A ^ 2 - u ^ 2))
      ∧ (0 < -c * (A ^ 2) ^ 2 - 2 * S * A ^ 2 + K * A ^ 2 →
        0 < -c * (A ^ 2 - u ^ 2) ^ 2 - 2 * S * (A ^ 2 + u ^ 2) + K * (A ^ 2 - u ^ 2)) := by
    intro u hu huR
    have hR' : 0 < R := hu.trans huR
    have hw : u ^ 2 < R ^ 2 := by nlinarith
    have key : R ^ 2 * (-c * (A ^ 2 - u ^ 2) ^ 2 - 2 * S * (A ^ 2 + u ^ 2) + K * (A ^ 2 - u ^ 2))
        = (R ^ 2 - u ^ 2) * (-c * (A ^ 2) ^ 2 - 2 * S * A ^ 2 + K * A ^ 2)
          + u ^ 2 * (-c * (A ^ 2 - R ^ 2) ^ 2 - 2 * S * (A ^ 2 + R ^ 2) + K * (A ^ 2 - R ^ 2))
          + c * (u ^ 2 * (R ^ 2 - u ^ 2)) * R ^ 2 := by ring
    have hR2 : 0 < R ^ 2 := by positivity
    have hd : 0 < R ^ 2 - u ^ 2 := by linarith
    have t2 := mul_nonneg (sq_nonneg u) h1
    have t3 : 0 ≤ c * (u ^ 2 * (R ^ 2 - u ^ 2)) * R ^ 2 := by positivity
    constructor
    · have t1 := mul_nonneg hd.le h0
      exact nonneg_of_mul_nonneg_right (by linarith [key]) hR2
    · intro h
      have t1 := mul_pos hd h
      exact (mul_pos_iff_of_pos_left hR2).mp (by linarith [key])
  rw [← hGR]
  constructor
  · rw [← hG0]
    have hmono : MonotoneOn G (Set.Icc 0 R) := by
      apply monotoneOn_of_deriv_nonneg (convex_Icc 0 R) hcont
      · rw [interior_Icc]
        exact fun u hu => (hG u hu.1.le (hu.2.trans hRA)).differentiableAt.differentiableWithinAt
      · rw [interior_Icc]
        intro u hu
        rw [(hG u hu.1.le (hu.2.trans hRA)).deriv]
        have := (hnum u hu.1 hu.2).1
        positivity
    exact hmono ⟨le_rfl, hR⟩ ⟨hR, le_rfl⟩ hR
  · intro hRp hN
    have hmono : StrictMonoOn G (Set.Icc 0 R) := by
      apply strictMonoOn_of_deriv_pos (convex_Icc 0 R) hcont
      rw [interior_Icc]
      intro u hu
      rw [(hG u hu.1.le (hu.2.trans hRA)).deriv]
      have := (hnum u hu.1 hu.2).2 hN
      have : A ^ 2 - u ^ 2 ≠ 0 := by
        have h1 : 0 < A - u := by linarith [hu.2]
        have h2 : 0 < A + u := by linarith [hu.1]
        rw [show A ^ 2 - u ^ 2 = (A - u) * (A + u) by ring]; positivity
      positivity
    rw [← hG0]
    exact hmono ⟨le_rfl, hR⟩ ⟨hR, le_rfl⟩ hRp

/-- The kinematics shared by `x x → S S` and `x x → V V`. -/
theorem tu_kin {e mx m : ℝ} (hmx : 0 ≤ mx) (hm : 0 ≤ m) (hmm : 0 < mx ∨ 0 < m) (h1 : 2 * mx < e)
    (h2 : 2 * m ≤ e) :
    let R := Real.sqrt ((-4 * m ^ 2 + e ^ 2) * (-4 * mx ^ 2 + e ^ 2))
    0 < -2 * m ^ 2 + e ^ 2 ∧ R ^ 2 = (-4 * m ^ 2 + e ^ 2) * (-4 * mx ^ 2 + e ^ 2)
    ∧ (-2 * m ^ 2 + e ^ 2) ^ 2 - R ^ 2 = 4 * (mx ^ 2 * e ^ 2 + (-(4 * m ^ 2) * mx ^ 2 + m ^ 4))
    ∧ 0 < mx ^ 2 * e ^ 2 + (-(4 * m ^ 2) * mx ^ 2 + m ^ 4)
    ∧ R < -2 * m ^ 2 + e ^ 2 ∧ 0 ≤ R ∧ (0 < R ↔ 2 * m < e) := by
  intro R
  have he : 0 < e := by linarith
  have p1 := sub_sq_pos hmx h1
  have p2 := sub_sq_nonneg hm h2
  have hA : 0 < -2 * m ^ 2 + e ^ 2 := by nlinarith
  have hR2 : R ^ 2 = (-4 * m ^ 2 + e ^ 2) * (-4 * mx ^ 2 + e ^ 2) :=
    Real.sq_sqrt (mul_nonneg p2 p1.le)
  have hD : (-2 * m ^ 2 + e ^ 2) ^ 2 - R ^ 2
      = 4 * (mx ^ 2 * e ^ 2 + (-(4 * m ^ 2) * mx ^ 2 + m ^ 4)) := by rw [hR2]; ring
  have hDp : 0 < mx ^ 2 * e ^ 2 + (-(4 * m ^ 2) * mx ^ 2 + m ^ 4) := by
    have : mx ^ 2 * e ^ 2 + (-(4 * m ^ 2) * mx ^ 2 + m ^ 4) = mx ^ 2 * (-4 * m ^ 2 + e ^ 2) + m ^ 4 := by
      ring
    rw [this]
    rcases hm.eq_or_lt with h | h
    · have hx : 0 < mx := by rcases hmm with h' | h' <;> linarith
      rw [← h]
      have : 0 < e ^ 2 := by positivity
      nlinarith [sq_pos_of_pos hx]
    · positivity
  have hR0 : 0 ≤ R := Real.sqrt_nonneg _
  refine ⟨hA, hR2, hD, hDp, ?_, hR0, ?_⟩
  · nlinarith
  · constructor
    · intro h
      by_contra h'
      have : e = 2 * m := by linarith
      have : R ^ 2 = 0 := by rw [hR2, this]; ring
      exact h.ne' (by simpa using this)
    · intro h
      exact Real.sqrt_pos.mpr (mul_pos (sub_sq_pos hm h) p1)

/-- `x x → S S`: zero at and below threshold, positive above. -/
theorem scalarSS_sign (e mx ms g : ℝ) (hmx : 0 < mx) (hms : 0 ≤ ms) (hne : e ≠ 2 * mx) :
    0 ≤ scalarSS e mx ms g ∧ (0 < scalarSS e mx ms g ↔ 2 * ms < e ∧ 2 * mx < e ∧ g ≠ 0) := by
  unfold scalarSS
  by_cases h : e < 2 * ms ∨ e < 2 * mx
  · rw [if_pos h]
    refine ⟨le_rfl, ⟨fun h' => absurd h' (lt_irrefl _), fun ⟨a, b, _⟩ => ?_⟩⟩
    rcases h with h | h <;> linarith
  · rw [if_neg h]
    push Not at h
    have hx : 2 * mx < e := lt_of_le_of_ne h.2 (Ne.symm hne)
    have he : 0 < e := by linarith
    have hpi := Real.pi_pos
    have p1 := sub_sq_pos hmx.le hx
    have kin := tu_kin hmx.le hms (Or.inl hmx) hx h.1
    simp only at kin ⊢
    generalize hRdef : Real.sqrt ((-4 * ms ^ 2 + e ^ 2) * (-4 * mx ^ 2 + e ^ 2)) = R at kin ⊢
    obtain ⟨hA, hR2, hD, hDp, hRA, hR0, hRp⟩ := kin
    obtain ⟨t1, t2⟩ := tu_pos 1 ((ms ^ 2 - 4 * mx ^ 2) ^ 2)
      (-(4 * ms ^ 2) * (4 * mx ^ 2 + e ^ 2) + (16 * mx ^ 2 * e ^ 2 + (6 * ms ^ 4 - 32 * mx ^ 4) + e ^ 4))
      (-2 * ms ^ 2 + e ^ 2) R zero_le_one hR0 hRA
      (by
        have : -1 * ((-2 * ms ^ 2 + e ^ 2) ^ 2) ^ 2
            - 2 * (ms ^ 2 - 4 * mx ^ 2) ^ 2 * (-2 * ms ^ 2 + e ^ 2) ^ 2
            + (-(4 * ms ^ 2) * (4 * mx ^ 2 + e ^ 2)
              + (16 * mx ^ 2 * e ^ 2 + (6 * ms ^ 4 - 32 * mx ^ 4) + e ^ 4)) * (-2 * ms ^ 2 + e ^ 2) ^ 2
            = (-2 * ms ^ 2 + e ^ 2) ^ 2 * (16 * mx ^ 2 * (-4 * mx ^ 2 + e ^ 2)) := by ring
        rw [this]; positivity)
      (by
        rw [hR2]
        have : -1 * ((-2 * ms ^ 2 + e ^ 2) ^ 2 - (-4 * ms ^ 2 + e ^ 2) * (-4 * mx ^ 2 + e ^ 2)) ^ 2
            - 2 * (ms ^ 2 - 4 * mx ^ 2) ^ 2
              * ((-2 * ms ^ 2 + e ^ 2) ^ 2 + (-4 * ms ^ 2 + e ^ 2) * (-4 * mx ^ 2 + e ^ 2))
            + (-(4 * ms ^ 2) * (4 * mx ^ 2 + e ^ 2)
              + (16 * mx ^ 2 * e ^ 2 + (6 * ms ^ 4 - 32 * mx ^ 4) + e ^ 4))
              * ((-2 * ms ^ 2 + e ^ 2) ^ 2 - (-4 * ms ^ 2 + e ^ 2) * (-4 * mx ^ 2 + e ^ 2))
            = 4 * mx ^ 2 * (-4 * mx ^ 2 + e ^ 2) * e ^ 4 := by ring
        rw [this]; positivity)
    have hform : -(R * (2 * mx ^ 2 * (8 * mx ^ 2 + e ^ 2) + (3 * ms ^ 4 - 16 * ms ^ 2 * mx ^ 2))
          / (mx ^ 2 * e ^ 2 + (-(4 * ms ^ 2) * mx ^ 2 + ms ^ 4)))
        = -(2 * 1 * R) - 4 * (ms ^ 2 - 4 * mx ^ 2) ^ 2 * R / ((-2 * ms ^ 2 + e ^ 2) ^ 2 - R ^ 2) := by
      rw [hD]
      obtain ⟨D, hDd⟩ : ∃ D, D = mx ^ 2 * e ^ 2 + (-(4 * ms ^ 2) * mx ^ 2 + ms ^ 4) := ⟨_, rfl⟩
      have hP : 2 * mx ^ 2 * (8 * mx ^ 2 + e ^ 2) + (3 * ms ^ 4 - 16 * ms ^ 2 * mx ^ 2)
          = 2 * D + (ms ^ 2 - 4 * mx ^ 2) ^ 2 := by rw [hDd]; ring
      rw [← hDd] at hDp ⊢
      rw [hP]
      field_simp
      ring
    rw [hform]
    have hden : 0 < 32 * Real.pi * e ^ 2 * (-4 * mx ^ 2 + e ^ 2) := by positivity
    have hg4 : 0 ≤ g ^ 4 := by positivity
    refine ⟨div_nonneg (mul_nonneg hg4 t1) hden.le, ?_⟩
    constructor
    · intro hpos
      refine ⟨?_, hx, ?_⟩
      · rw [← hRp]
        by_contra h'
        have h0 : R = 0 := le_antisymm (not_lt.mp h') hR0
        rw [h0] at hpos
        simp [hA.ne'] at hpos
      · rintro rfl
        simp at hpos
    · rintro ⟨h1, -, h3⟩
      have := t2 (hRp.mpr h1) (by
        have : -1 * ((-2 * ms ^ 2 + e ^ 2) ^ 2) ^ 2
            - 2 * (ms ^ 2 - 4 * mx ^ 2) ^ 2 * (-2 * ms ^ 2 + e ^ 2) ^ 2
            + (-(4 * ms ^ 2) * (4 * mx ^ 2 + e ^ 2)
              + (16 * mx ^ 2 * e ^ 2 + (6 * ms ^ 4 - 32 * mx ^ 4) + e ^ 4)) * (-2 * ms ^ 2 + e ^ 2) ^ 2
            = (-2 * ms ^ 2 + e ^ 2) ^ 2 * (16 * mx ^ 2 * (-4 * mx ^ 2 + e ^ 2)) := by ring
        rw [this]; positivity)
      have : 0 < g ^ 4 := by positivity
      positivity

theorem vv_num (s v x : ℝ) (hv : 0 ≤ v) (hx : 0 ≤ x) (h1 : 4 * v ≤ s) (h2 : 4 * x < s) :
    0 < s ^ 2 / 2 + 2 * s * v - 16 * x ^ 2 - 16 * v * x + 4 * x * s
    ∧ 0 ≤ ((x * (s - 4 * v) + v ^ 2) / 2 - (v + 2 * x) ^ 2) * ((s - 4 * v) * (s - 4 * x))
      + (s ^ 2 / 2 + 2 * s * v - 16 * x ^ 2 - 16 * v * x + 4 * x * s) * (x * (s - 4 * v) + v ^ 2) := by
  have hs : 0 < s := by linarith
  constructor
  · have e1 := mul_pos (sub_pos.mpr h2) hs
    have e2 := mul_nonneg hx (sub_nonneg.mpr h1)
    have e3 := mul_nonneg hv (sub_nonneg.mpr h2.le)
    have e4 := mul_nonneg hx (sub_nonneg.mpr h2.le)
    nlinarith
  · rcases le_total v x with h | h
    · obtain ⟨p, rfl⟩ : ∃ p, x = v + p := ⟨x - v, by ring⟩
      obtain ⟨q, rfl⟩ : ∃ q, s = 4 * (v + p) + q := ⟨s - 4 * (v + p), by ring⟩
      have hp : 0 ≤ p := by linarith
      have hq : 0 ≤ q := by linarith
      ring_nf
      positivity
    · obtain ⟨p, rfl⟩ : ∃ p, v = x + p := ⟨v - x, by ring⟩
      obtain ⟨q, rfl⟩ : ∃ q, s = 4 * (x + p) + q := ⟨s - 4 * (x + p), by ring⟩
      have hp : 0 ≤ p := by linarith
      have hq : 0 ≤ q := by linarith
      ring_nf
      positivity

/-- `x x → V V`: zero at and below threshold, positive above. -/
theorem vectorVV_sign (e mx mv g : ℝ) (hmx : 0 ≤ mx) (hmv : 0 < mv) (hne : e ≠ 2 * mx) :
    0 ≤ vectorVV e mx mv g ∧ (0 < vectorVV e mx mv g ↔ 2 * mv < e ∧ 2 * mx < e ∧ g ≠ 0) := by
  unfold vectorVV
  by_cases h : e < 2 * mv ∨ e < 2 * mx
  · rw [if_pos h]
    refine ⟨le_rfl, ⟨fun h' => absurd h' (lt_irrefl _), fun ⟨a, b, _⟩ => ?_⟩⟩
    rcases h with h | h <;> linarith
  · rw [if_neg h]
    push Not at h
    have hx : 2 * mx < e := lt_of_le_of_ne h.2 (Ne.symm hne)
    have he : 0 < e := by linarith
    have hpi := Real.pi_pos
    have p1 := sub_sq_pos hmx hx
    have p2 := sub_sq_nonneg hmv.le h.1
    have kin := tu_kin hmx hmv.le (Or.inr hmv) hx h.1
    simp only at kin ⊢
    rw [Real.sqrt_mul p2] at kin
    have hrr : Real.sqrt (-4 * mx ^ 2 + e ^ 2)
        * (Real.sqrt (-4 * mv ^ 2 + e ^ 2) + Real.sqrt (-4 * mv ^ 2 + e ^ 2))
        = 2 * (Real.sqrt (-4 * mv ^ 2 + e ^ 2) * Real.sqrt (-4 * mx ^ 2 + e ^ 2)) := by ring
    rw [hrr, neg_mul (Real.sqrt (-4 * mv ^ 2 + e ^ 2)) (Real.sqrt (-4 * mx ^ 2 + e ^ 2))]
    generalize hRdef : Real.sqrt (-4 * mv ^ 2 + e ^ 2) * Real.sqrt (-4 * mx ^ 2 + e ^ 2) = R at kin ⊢
    obtain ⟨hA, hR2, hD, hDp, hRA, hR0, hRp⟩ := kin
    obtain ⟨n0, n1⟩ := vv_num (e ^ 2) (mv ^ 2) (mx ^ 2) (sq_nonneg _) (sq_nonneg _) (by linarith)
      (by linarith)
    have hk : 4 * mx ^ 2 * e ^ 2 + (-8 * mx ^ 4 + (4 * mv ^ 4 + mv ^ 2 * -8 * mx ^ 2)) + e ^ 4
        = ((e ^ 2) ^ 2 / 2 + 2 * e ^ 2 * mv ^ 2 - 16 * (mx ^ 2) ^ 2 - 16 * mv ^ 2 * mx ^ 2
          + 4 * mx ^ 2 * e ^ 2) + (-2 * mv ^ 2 + e ^ 2) ^ 2 / 2 + 2 * (mv ^ 2 + 2 * mx ^ 2) ^ 2 := by ring
    generalize hP : 4 * mx ^ 2 * e ^ 2 + (-8 * mx ^ 4 + (4 * mv ^ 4 + mv ^ 2 * -8 * mx ^ 2)) + e ^ 4 = P
      at hk ⊢
    obtain ⟨k0, hk0⟩ : ∃ k0, k0 = (e ^ 2) ^ 2 / 2 + 2 * e ^ 2 * mv ^ 2 - 16 * (mx ^ 2) ^ 2
      - 16 * mv ^ 2 * mx ^ 2 + 4 * mx ^ 2 * e ^ 2 := ⟨_, rfl⟩
    rw [← hk0] at n0 n1 hk
    have hN0 : -(1 / 2) * ((-2 * mv ^ 2 + e ^ 2) ^ 2) ^ 2
        - 2 * (mv ^ 2 + 2 * mx ^ 2) ^ 2 * (-2 * mv ^ 2 + e ^ 2) ^ 2 + P * (-2 * mv ^ 2 + e ^ 2) ^ 2
        = (-2 * mv ^ 2 + e ^ 2) ^ 2 * k0 := by rw [hk]; ring
    have hN0p : 0 < (-2 * mv ^ 2 + e ^ 2) ^ 2 * k0 := by positivity
    have hN1 : 0 ≤ -(1 / 2) * ((-2 * mv ^ 2 + e ^ 2) ^ 2 - R ^ 2) ^ 2
        - 2 * (mv ^ 2 + 2 * mx ^ 2) ^ 2 * ((-2 * mv ^ 2 + e ^ 2) ^ 2 + R ^ 2)
        + P * ((-2 * mv ^ 2 + e ^ 2) ^ 2 - R ^ 2) := by
      have e1 : ∀ a r S k : ℝ, -(1 / 2) * (a - r) ^ 2 - 2 * S * (a + r) + (k + a / 2 + 2 * S) * (a - r)
          = 4 * ((((a - r) / 4) / 2 - S) * r + k * ((a - r) / 4)) := by intros; ring
      rw [hk, e1, hD, hR2]
      have e2 : 4 * (mx ^ 2 * e ^ 2 + (-(4 * mv ^ 2) * mx ^ 2 + mv ^ 4)) / 4
          = mx ^ 2 * (e ^ 2 - 4 * mv ^ 2) + (mv ^ 2) ^ 2 := by ring
      rw [e2, show -4 * mv ^ 2 + e ^ 2 = e ^ 2 - 4 * mv ^ 2 by ring,
        show -4 * mx ^ 2 + e ^ 2 = e ^ 2 - 4 * mx ^ 2 by ring]
      linarith
    obtain ⟨t1, t2⟩ := tu_pos (1 / 2) ((mv ^ 2 + 2 * mx ^ 2) ^ 2) P (-2 * mv ^ 2 + e ^ 2) R (by norm_num)
      hR0 hRA (by rw [hN0]; exact hN0p.le) hN1
    have hform : (P + P) * Real.log ((R + (-2 * mv ^ 2 + e ^ 2)) / (-R + (-2 * mv ^ 2 + e ^ 2)))
          / (-2 * mv ^ 2 + e ^ 2)
        - (mx ^ 2 * e ^ 2 + (2 * mv ^ 4 + mx ^ 4 * 4)) * (2 * R)
          / (mx ^ 2 * e ^ 2 + (-4 * mv ^ 2 * mx ^ 2 + mv ^ 4))
        = 2 * (-(2 * (1 / 2) * R)
          - 4 * (mv ^ 2 + 2 * mx ^ 2) ^ 2 * R / ((-2 * mv ^ 2 + e ^ 2) ^ 2 - R ^ 2)
          + P * Real.log ((-2 * mv ^ 2 + e ^ 2 + R) / (-2 * mv ^ 2 + e ^ 2 - R))
            / (-2 * mv ^ 2 + e ^ 2)) := by
      rw [hD, show R + (-2 * mv ^ 2 + e ^ 2) = -2 * mv ^ 2 + e ^ 2 + R by ring,
        show -R + (-2 * mv ^ 2 + e ^ 2) = -2 * mv ^ 2 + e ^ 2 - R by ring]
      obtain ⟨D, hDd⟩ : ∃ D, D = mx ^ 2 * e ^ 2 + (-(4 * mv ^ 2) * mx ^ 2 + mv ^ 4) := ⟨_, rfl⟩
      have hT : mx ^ 2 * e ^ 2 + (2 * mv ^ 4 + mx ^ 4 * 4) = D + (mv ^ 2 + 2 * mx ^ 2) ^ 2 := by
        rw [hDd]; ring
      have hD2 : mx ^ 2 * e ^ 2 + (-4 * mv ^ 2 * mx ^ 2 + mv ^ 4) = D := by rw [hDd]; ring
      rw [hT, hD2]
      rw [← hDd] at hDp ⊢
      have h4 : 4 * (mv ^ 2 + 2 * mx ^ 2) ^ 2 * R / (4 * D) = (mv ^ 2 + 2 * mx ^ 2) ^ 2 * R / D := by
        field_simp
      have h5 : (D + (mv ^ 2 + 2 * mx ^ 2) ^ 2) * (2 * R) / D
          = 2 * R + 2 * ((mv ^ 2 + 2 * mx ^ 2) ^ 2 * R / D) := by field_simp
      rw [h4, h5]
      ring
    rw [hform]
    have hden : 0 < 16 * Real.pi * e ^ 2 * (-4 * mx ^ 2 + e ^ 2) := by positivity
    have hg4 : 0 ≤ g ^ 4 := by positivity
    refine ⟨div_nonneg (mul_nonneg hg4 (mul_nonneg zero_le_two t1)) hden.le, ?_⟩
    constructor
    · intro hpos
      refine ⟨?_, hx, ?_⟩
      · rw [← hRp]
        by_contra h'
        have h0 : R = 0 := le_antisymm (not_lt.mp h') hR0
        rw [h0] at hpos
        simp [hA.ne'] at hpos
      · rintro rfl
        simp at hpos
    · rintro ⟨h1, -, h3⟩
      have := t2 (hRp.mpr h1) (by rw [hN0]; exact hN0p)
      have : 0 < g ^ 4 := by positivity
      positivity

/-! ### Detailed balance -/

/-- C40: `σ(S S → x x)` and `σ(x x → S S)` obey detailed balance: two spin states of each dark
fermion and identical mediators give `|p_S|² σ(SS → xx) = 8 |p_x|² σ(xx → SS)`, at every energy
above threshold. -/
theorem detailed_balance (e mx ms g : ℝ) (hmx : 0 < mx) (hms : 0 ≤ ms) (h1 : 2 * mx < e)
    (h2 : 2 * ms < e) :
    (e ^ 2 / 4 - ms ^ 2) * scalarSSXX e mx ms g = 8 * ((e ^ 2 / 4 - mx ^ 2) * scalarSS e mx ms g) := by
  have he : 0 < e := by linarith
  have hpi := Real.pi_pos
  have p1 := sub_sq_pos hmx.le h1
  have p2 := sub_sq_pos hms h2
  have kin := tu_kin hmx.le hms (Or.inl hmx) h1 h2.le
  simp only at kin
  unfold scalarSSXX scalarSS
  rw [if_neg (by push Not; exact ⟨h1.le, h2.le⟩), if_neg (by push Not; exact ⟨h2.le, h1.le⟩)]
  simp only
  have hroot : Real.sqrt ((-4 * (ms / e) ^ 2 + 1) * (-4 * (mx / e) ^ 2 + 1))
      = Real.sqrt ((-4 * ms ^ 2 + e ^ 2) * (-4 * mx ^ 2 + e ^ 2)) / e ^ 2 := by
    rw [show (-4 * (ms / e) ^ 2 + 1) * (-4 * (mx / e) ^ 2 + 1)
      = ((-4 * ms ^ 2 + e ^ 2) * (-4 * mx ^ 2 + e ^ 2)) / (e ^ 2) ^ 2 by field_simp,
      Real.sqrt_div' _ (by positivity), Real.sqrt_sq (by positivity)]
  rw [hroot]
  generalize hRdef : Real.sqrt ((-4 * ms ^ 2 + e ^ 2) * (-4 * mx ^ 2 + e ^ 2)) = R at kin ⊢
  obtain ⟨hA, hR2, hD, hDp, hRA, hR0, hRp⟩ := kin
  have l1 : -2 * (ms / e) ^ 2 + 1 + R / e ^ 2 = (-2 * ms ^ 2 + e ^ 2 + R) / e ^ 2 := by field_simp
  have l2 : -2 * (ms / e) ^ 2 + 1 - R / e ^ 2 = (-2 * ms ^ 2 + e ^ 2 - R) / e ^ 2 := by field_simp
  rw [l1, l2, Real.log_div (by linarith) (by positivity), Real.log_div (by linarith) (by positivity),
    Real.log_div (by linarith) (by linarith)]
  have l3 : Real.log (-2 * ms ^ 2 + e ^ 2 + R) - Real.log (e ^ 2)
      - (Real.log (-2 * ms ^ 2 + e ^ 2 - R) - Real.log (e ^ 2))
      = Real.log (-2 * ms ^ 2 + e ^ 2 + R) - Real.log (-2 * ms ^ 2 + e ^ 2 - R) := by ring
  rw [l3]
  generalize Real.log (-2 * ms ^ 2 + e ^ 2 + R) - Real.log (-2 * ms ^ 2 + e ^ 2 - R) = L
  have d1 : -(4 * (ms / e) ^ 2) * (mx / e) ^ 2 + ((ms / e) ^ 4 + (mx / e) ^ 2)
      = (mx ^ 2 * e ^ 2 + (-(4 * ms ^ 2) * mx ^ 2 + ms ^ 4)) / e ^ 4 := by field_simp; ring
  have d2 : -2 * (ms / e) ^ 2 + 1 = (-2 * ms ^ 2 + e ^ 2) / e ^ 2 := by field_simp
  have d3 : -4 * (ms / e) ^ 2 + 1 = (-4 * ms ^ 2 + e ^ 2) / e ^ 2 := by field_simp
  have d4 : 16 * (mx / e) ^ 4 + (3 * (ms / e) ^ 4 + 2 * (-8 * (ms / e) ^ 2 + 1) * (mx / e) ^ 2)
      = (2 * mx ^ 2 * (8 * mx ^ 2 + e ^ 2) + (3 * ms ^ 4 - 16 * ms ^ 2 * mx ^ 2)) / e ^ 4 := by
    field_simp; ring
  have d5 : -(4 * (ms / e) ^ 2) * (4 * (mx / e) ^ 2 + 1)
      + (-32 * (mx / e) ^ 4 + (16 * (mx / e) ^ 2 + (6 * (ms / e) ^ 4 + 1)))
      = (-(4 * ms ^ 2) * (4 * mx ^ 2 + e ^ 2)
        + (16 * mx ^ 2 * e ^ 2 + (6 * ms ^ 4 - 32 * mx ^ 4) + e ^ 4)) / e ^ 4 := by field_simp; ring
  rw [d1, d2, d3, d4, d5]
  generalize mx ^ 2 * e ^ 2 + (-(4 * ms ^ 2) * mx ^ 2 + ms ^ 4) = D at hDp ⊢
  generalize -(4 * ms ^ 2) * (4 * mx ^ 2 + e ^ 2)
        + (16 * mx ^ 2 * e ^ 2 + (6 * ms ^ 4 - 32 * mx ^ 4) + e ^ 4) = K
  generalize 2 * mx ^ 2 * (8 * mx ^ 2 + e ^ 2) + (3 * ms ^ 4 - 16 * ms ^ 2 * mx ^ 2) = P
  rw [show e ^ 2 / 4 - ms ^ 2 = (-4 * ms ^ 2 + e ^ 2) / 4 by ring,
    show e ^ 2 / 4 - mx ^ 2 = (-4 * mx ^ 2 + e ^ 2) / 4 by ring]
  generalize -2 * ms ^ 2 + e ^ 2 = A at hA ⊢
  generalize -4 * ms ^ 2 + e ^ 2 = b at p2 ⊢
  generalize -4 * mx ^ 2 + e ^ 2 = d at p1 ⊢
  field_simp
  ring

/-- C40, sign: the inverse reaction is non-negative, and positive above threshold. -/
theorem inverse_positive (e mx ms g : ℝ) (hmx : 0 < mx) (hms : 0 ≤ ms) (h1 : 2 * mx < e)
    (h2 : 2 * ms < e) (hg : g ≠ 0) : 0 < scalarSSXX e mx ms g := by
  have h := detailed_balance e mx ms g hmx hms h1 h2
  have hp := (scalarSS_sign e mx ms g hmx hms h1.ne').2.mpr ⟨h2, h1, hg⟩
  have p1 := sub_sq_pos hmx.le h1
  have p2 := sub_sq_pos hms h2
  have : 0 < (e ^ 2 / 4 - ms ^ 2) * scalarSSXX e mx ms g := by
    rw [h]
    have : 0 < e ^ 2 / 4 - mx ^ 2 := by linarith
    positivity
  exact (mul_pos_iff_of_pos_left (by linarith)).mp this

example : 0 < scalarSSXX 10 1 2 1 ∧ 0 < scalarSS 10 1 2 1 :=
  ⟨inverse_positive 10 1 2 1 one_pos zero_le_two (by norm_num) (by norm_num) one_ne_zero,
   (scalarSS_sign 10 1 2 1 one_pos zero_le_two (by norm_num)).2.mpr
     ⟨by norm_num, by norm_num, one_ne_zero⟩⟩

end Hazma.Xs
