import Verif.Props.RhTree
import Mathlib.Tactic

/-! # C135: a neutrino and a light lepton pair

For `m/mx` below about `1/45` the code replaces the logarithm of the closed form by the start of its
series.  The electron channel is always computed this way above some 25 MeV.  Here the width is
compared with the phase-space integral of the matrix element. -/

namespace Hazma.RhNeutrino

open Set MeasureTheory Hazma Hazma.Kinematics

/-- The series of the logarithm, with the size of what is left out. -/
theorem lx_series {x w : ℝ} (hx : 0 < x) (hw : 0 < w) (hw1 : w ≤ 1 / 2000) (h : x ^ 2 = w * (1 - w)) :
    |4 * Real.log x + 4 * x ^ 2 + 6 * x ^ 4 - -2 * ell (1 - 2 * w)| ≤ 17 * w ^ 3 := by
  have h1 : 0 < 1 - w := by linarith
  have e : -2 * ell (1 - 2 * w) = 4 * Real.log x - 4 * Real.log (1 - w) := by
    have h4 : 4 * Real.log x = 2 * Real.log (x ^ 2) := by rw [Real.log_pow]; push_cast; ring
    rw [h4, h, Real.log_mul hw.ne' h1.ne', ell,
      show 1 + (1 - 2 * w) = 2 * (1 - w) by ring, show 1 - (1 - 2 * w) = 2 * w by ring,
      Real.log_mul two_ne_zero h1.ne', Real.log_mul two_ne_zero hw.ne']
    ring
  have hl := Real.abs_log_sub_add_sum_range_le (x := w) (by rw [abs_of_pos hw]; linarith) 2
  rw [abs_of_pos hw, Finset.sum_range_succ, Finset.sum_range_one] at hl
  norm_num at hl
  have hq : w ^ 3 / (1 - w) ≤ 101 / 100 * w ^ 3 := by
    rw [div_le_iff₀ h1]
    have : 0 < w ^ 3 := by positivity
    nlinarith
  rw [e, show x ^ 4 = (x ^ 2) ^ 2 by ring, h]
  have h3 : 0 < w ^ 3 := by positivity
  have h4 : w ^ 4 ≤ w ^ 3 / 2000 := by
    have : w ^ 4 = w ^ 3 * w := by ring
    rw [this]; nlinarith
  have h4' : 0 < w ^ 4 := by positivity
  rw [abs_le] at hl ⊢
  have key : 4 * Real.log x + 4 * (w * (1 - w)) + 6 * (w * (1 - w)) ^ 2
      - (4 * Real.log x - 4 * Real.log (1 - w))
      = 4 * (w + w ^ 2 / 2 + Real.log (1 - w)) - 12 * w ^ 3 + 6 * w ^ 4 := by ring
  rw [key]
  constructor <;> linarith [hl.1, hl.2]

/-- The combination of the two closed forms, with any value `l` of the logarithm. -/
noncomputable def bracket (gL gR x v l : ℝ) : ℝ :=
  (gL ^ 2 + gR ^ 2) * ((1 - 14 * x ^ 2 - 2 * x ^ 4 - 12 * x ^ 6) * v
      + 12 * x ^ 4 * (x ^ 4 - 1) * l)
    + 4 * (gL * gR) * (x ^ 2 * (2 + 10 * x ^ 2 - 12 * x ^ 4) * v
      + 6 * x ^ 4 * (1 - 2 * x ^ 2 + 2 * x ^ 4) * l)

/-- For a light pair the logarithm hardly matters. -/
theorem bracket_sub {x l l' δ : ℝ} (gL gR v : ℝ) (hx : 0 < x) (hx2 : x ^ 2 ≤ 1 / 2000)
    (hl : |l' - l| ≤ δ) :
    |bracket gL gR x v l' - bracket gL gR x v l| ≤ 24 * x ^ 4 * δ * (gL ^ 2 + gR ^ 2) := by
  have e : bracket gL gR x v l' - bracket gL gR x v l
      = -(((gL + gR) ^ 2 * (6 * (x ^ 2) ^ 3 * (2 - 3 * x ^ 2))
        + (gL - gR) ^ 2 * (6 * (x ^ 2) ^ 2 * ((x ^ 2) ^ 2 - 2 * x ^ 2 + 2))) * (l' - l)) := by
    unfold bracket; ring
  have hy : 0 < x ^ 2 := by positivity
  rw [e, abs_neg, abs_mul, show x ^ 4 = (x ^ 2) ^ 2 by ring]
  generalize x ^ 2 = y at *
  have a1 : 0 ≤ 6 * y ^ 3 * (2 - 3 * y) := by
    have : 0 ≤ 2 - 3 * y := by linarith
    positivity
  have a2 : 0 ≤ 6 * y ^ 2 * (y ^ 2 - 2 * y + 2) := by
    have : 0 ≤ y ^ 2 - 2 * y + 2 := by nlinarith
    positivity
  have b1 : 6 * y ^ 3 * (2 - 3 * y) ≤ 12 * y ^ 2 := by
    have : 0 < y ^ 2 := by positivity
    have h3 : y ^ 3 = y ^ 2 * y := by ring
    have : y * (2 - 3 * y) ≤ 2 := by nlinarith
    rw [h3]; nlinarith
  have b2 : 6 * y ^ 2 * (y ^ 2 - 2 * y + 2) ≤ 12 * y ^ 2 := by
    have : 0 < y ^ 2 := by positivity
    have : y ^ 2 - 2 * y + 2 ≤ 2 := by nlinarith
    nlinarith
  have hs : (gL + gR) ^ 2 * (6 * y ^ 3 * (2 - 3 * y)) + (gL - gR) ^ 2 * (6 * y ^ 2 * (y ^ 2 - 2 * y + 2))
      ≤ 24 * y ^ 2 * (gL ^ 2 + gR ^ 2) := by
    have := mul_le_mul_of_nonneg_left b1 (sq_nonneg (gL + gR))
    have := mul_le_mul_of_nonneg_left b2 (sq_nonneg (gL - gR))
    nlinarith
  rw [abs_of_nonneg (by positivity)]
  have hδ : 0 ≤ δ := (abs_nonneg _).trans hl
  calc _ ≤ (24 * y ^ 2 * (gL ^ 2 + gR ^ 2)) * δ :=
        mul_le_mul hs hl (abs_nonneg _) (by positivity)
    _ = _ := by ring

/-- For a light pair the bracket is at least half the sum of the squares of the couplings. -/
theorem bracket_low {x v e : ℝ} (gL gR : ℝ) (hx : 0 < x) (hx2 : x ^ 2 ≤ 1 / 2000)
    (hv : 9 / 10 ≤ v) (hv1 : v ≤ 1) (he : 0 ≤ e) :
    1 / 2 * (gL ^ 2 + gR ^ 2) ≤ bracket gL gR x v (-2 * e) := by
  have h : bracket gL gR x v (-2 * e)
      = ((gL + gR) ^ 2 * ((1 - 10 * x ^ 2 + 18 * (x ^ 2) ^ 2 - 36 * (x ^ 2) ^ 3) * v
          + 24 * (x ^ 2) ^ 3 * (2 - 3 * x ^ 2) * e)
        + (gL - gR) ^ 2 * ((1 - 18 * x ^ 2 - 22 * (x ^ 2) ^ 2 + 12 * (x ^ 2) ^ 3) * v
          + 24 * (x ^ 2) ^ 2 * ((x ^ 2) ^ 2 - 2 * x ^ 2 + 2) * e)) / 2 := by
    unfold bracket; ring
  rw [h]
  have hyp : 0 < x ^ 2 := by positivity
  generalize x ^ 2 = y at *
  have y2 : y ^ 2 ≤ 1 / 2000 := by nlinarith
  have y20 : 0 < y ^ 2 := by positivity
  have y3 : y ^ 3 ≤ 1 / 2000 := by
    have : y ^ 3 = y ^ 2 * y := by ring
    rw [this]; nlinarith
  have y30 : 0 < y ^ 3 := by positivity
  have p1 : 1 / 2 ≤ (1 - 10 * y + 18 * y ^ 2 - 36 * y ^ 3) * v + 24 * y ^ 3 * (2 - 3 * y) * e := by
    have q : 0 ≤ 24 * y ^ 3 * (2 - 3 * y) * e := by
      have : 0 ≤ 2 - 3 * y := by linarith
      positivity
    have r : 9 / 10 ≤ 1 - 10 * y + 18 * y ^ 2 - 36 * y ^ 3 := by linarith
    have := mul_le_mul r hv (by norm_num) (by linarith)
    linarith
  have p2 : 1 / 2 ≤ (1 - 18 * y - 22 * y ^ 2 + 12 * y ^ 3) * v
      + 24 * y ^ 2 * (y ^ 2 - 2 * y + 2) * e := by
    have q : 0 ≤ 24 * y ^ 2 * (y ^ 2 - 2 * y + 2) * e := by
      have : 0 ≤ y ^ 2 - 2 * y + 2 := by linarith
      positivity
    have r : 9 / 10 ≤ 1 - 18 * y - 22 * y ^ 2 + 12 * y ^ 3 := by linarith
    have := mul_le_mul r hv (by norm_num) (by linarith)
    linarith
  have q1 := mul_le_mul_of_nonneg_left p1 (sq_nonneg (gL + gR))
  have q2 := mul_le_mul_of_nonneg_left p2 (sq_nonneg (gL - gR))
  have : 1 / 2 * (gL ^ 2 + gR ^ 2) = ((gL + gR) ^ 2 * (1 / 2) + (gL - gR) ^ 2 * (1 / 2)) / 2 := by ring
  rw [this]
  linarith

/-- **C135.** On the small-mass branch `_width_v_l_l` agrees with the phase-space integral of the
matrix element to thirteen digits. -/
theorem v_l_l_small_mass (c : Core) (g : Gen) (h : 2 * lepMass g < c.mx)
    (hn : 1 - 3 * (lepMass g / c.mx) ^ 2
      - (1 - (lepMass g / c.mx) ^ 2) * Real.sqrt (1 - 4 * (lepMass g / c.mx) ^ 2) < 1e-10) :
    |widthVLLsame c g - phaseSpaceWidth c.mx (0, lepMass g, lepMass g) (msqrdVLL c c.gen g g).1|
      ≤ 1e-13 * phaseSpaceWidth c.mx (0, lepMass g, lepMass g) (msqrdVLL c c.gen g g).1 := by
  have hm := lepMass_pos g
  have hM : 0 < c.mx := by linarith
  obtain ⟨x, hx⟩ : ∃ x, x = lepMass g / c.mx := ⟨_, rfl⟩
  obtain ⟨v, hv⟩ : ∃ v, v = Real.sqrt (1 - 4 * x ^ 2) := ⟨_, rfl⟩
  have hx0 : 0 < x := by rw [hx]; positivity
  have hx2 : x < 1 / 2 := by rw [hx, div_lt_iff₀ hM]; linarith
  rw [← hx] at hn
  obtain ⟨hs, hlx, -⟩ := lx_small hx0 hx2 hn
  obtain ⟨v0, v1, hy⟩ := root_facts hx0 hx2
  rw [v_l_l_closed_form c g h x v hx hv]
  rw [num_eq hy] at hn
  rw [← hv] at v0 v1 hy hn
  have hv' : 1 - v < 1 / 1000 := by
    by_contra hc
    have := pow_le_pow_left₀ (by norm_num) (not_lt.mp hc) 3
    norm_num at this hn
    linarith
  obtain ⟨w, hw⟩ : ∃ w, w = (1 - v) / 2 := ⟨_, rfl⟩
  have hvw : v = 1 - 2 * w := by rw [hw]; ring
  have hw0 : 0 < w := by rw [hw]; linarith
  have hw1 : w ≤ 1 / 2000 := by rw [hw]; linarith
  have hser := lx_series hx0 hw0 hw1 (by rw [hy, hvw]; ring)
  rw [← hlx, ← hvw] at hser
  obtain ⟨gL, hgL⟩ : ∃ gL, gL = if c.gen = g then sw2 + 1 / 2 else sw2 - 1 / 2 := ⟨_, rfl⟩
  have hwid : widthVLLsame c g
      = gf ^ 2 * c.mx ^ 5 / (192 * Real.pi ^ 3) * c.u ^ 2 * bracket gL sw2 x v (lx x) := by
    unfold widthVLLsame bracket
    by_cases e : c.gen = g
    · simp only [hgL, if_pos e, widthVFF, if_neg (not_lt.mpr h.le), t1, t2, ← hx, ← hv]; ring
    · simp only [hgL, if_neg e, widthVFF, if_neg (not_lt.mpr h.le), t1, t2, ← hx, ← hv]; ring
  have hps : 0.25 * (1 + (if c.gen = g then 1 else -1) * 4 * sw2 + 8 * sw2 ^ 2)
            * ((1 - 14 * x ^ 2 - 2 * x ^ 4 - 12 * x ^ 6) * v
              + 12 * x ^ 4 * (x ^ 4 - 1) * (-2 * ell v))
          + 4 * (0.5 * sw2 * (2 * sw2 + (if c.gen = g then 1 else -1)))
            * (x ^ 2 * (2 + 10 * x ^ 2 - 12 * x ^ 4) * v
              + 6 * x ^ 4 * (1 - 2 * x ^ 2 + 2 * x ^ 4) * (-2 * ell v))
      = bracket gL sw2 x v (-2 * ell v) := by
    unfold bracket
    by_cases e : c.gen = g
    · simp only [hgL, if_pos e]; ring
    · simp only [hgL, if_neg e]; ring
  rw [hwid, hps]
  obtain ⟨P, hP⟩ : ∃ P, P = gf ^ 2 * c.mx ^ 5 / (192 * Real.pi ^ 3) * c.u ^ 2 := ⟨_, rfl⟩
  have hP0 : 0 ≤ P := by rw [hP]; positivity
  rw [← hP, ← mul_sub, abs_mul, abs_of_nonneg hP0,
    show 1e-13 * (P * bracket gL sw2 x v (-2 * ell v))
      = P * (1e-13 * bracket gL sw2 x v (-2 * ell v)) by ring]
  refine mul_le_mul_of_nonneg_left ?_ hP0
  refine (bracket_sub gL sw2 v hx0 hs.le hser).trans ?_
  -- the bracket is close to the sum of the squares of the couplings
  have hell : 0 ≤ ell v := by
    unfold ell
    have := Real.log_le_log (by linarith : 0 < 1 - v) (by linarith : 1 - v ≤ 1 + v)
    linarith
  have hlow := bracket_low gL sw2 hx0 hs.le (by linarith) v1.le hell
  have hG : 0 ≤ gL ^ 2 + sw2 ^ 2 := by positivity
  have hw3 : w ^ 3 ≤ (1 / 2000) ^ 3 := pow_le_pow_left₀ hw0.le hw1 3
  have hx4 : x ^ 4 ≤ (1 / 2000) ^ 2 := by
    rw [show x ^ 4 = (x ^ 2) ^ 2 by ring]
    exact pow_le_pow_left₀ (by positivity) hs.le 2
  have hxw : 24 * x ^ 4 * (17 * w ^ 3) ≤ 24 * (1 / 2000) ^ 2 * (17 * (1 / 2000) ^ 3) :=
    mul_le_mul (by linarith) (by linarith) (by positivity) (by positivity)
  calc _ ≤ 24 * (1 / 2000) ^ 2 * (17 * (1 / 2000) ^ 3) * (gL ^ 2 + sw2 ^ 2) :=
        mul_le_mul_of_nonneg_right hxw hG
    _ ≤ 1e-13 * (1 / 2 * (gL ^ 2 + sw2 ^ 2)) := by nlinarith
    _ ≤ _ := by gcongr

/-- **C135.** At every mass above threshold the width for a neutrino and a lepton pair is the
phase-space integral of the matrix element, to thirteen digits. -/
theorem v_l_l_phase_space_all (c : Core) (g : Gen) (h : 2 * lepMass g < c.mx) :
    |widthVLLsame c g - phaseSpaceWidth c.mx (0, lepMass g, lepMass g) (msqrdVLL c c.gen g g).1|
      ≤ 1e-13 * |phaseSpaceWidth c.mx (0, lepMass g, lepMass g) (msqrdVLL c c.gen g g).1| := by
  by_cases hn : 1 - 3 * (lepMass g / c.mx) ^ 2
      - (1 - (lepMass g / c.mx) ^ 2) * Real.sqrt (1 - 4 * (lepMass g / c.mx) ^ 2) < 1e-10
  · exact (v_l_l_small_mass c g h hn).trans
      (mul_le_mul_of_nonneg_left (le_abs_self _) (by norm_num))
  · rw [v_l_l_phase_space c g h hn, sub_self, abs_zero]
    positivity

/-- A concrete case: electrons from a sterile neutrino of 100 MeV, whose width is
computed with the series. -/
example : |widthVLLsame ⟨100, 1e-3, .fst⟩ .fst
      - phaseSpaceWidth 100 (0, lepMass .fst, lepMass .fst)
          (msqrdVLL ⟨100, 1e-3, .fst⟩ .fst .fst .fst).1|
    ≤ 1e-13 * phaseSpaceWidth 100 (0, lepMass .fst, lepMass .fst)
          (msqrdVLL ⟨100, 1e-3, .fst⟩ .fst .fst .fst).1 := by
  refine v_l_l_small_mass ⟨100, 1e-3, .fst⟩ .fst (by norm_num [lepMass]) ?_
  have hx0 : (0 : ℝ) < lepMass .fst / 100 := by norm_num [lepMass]
  have hx2 : lepMass .fst / 100 < 1 / 2 := by norm_num [lepMass]
  obtain ⟨v0, v1, hy⟩ := root_facts hx0 hx2
  simp only
  rw [num_eq hy]
  have hv : 0.9999 ≤ Real.sqrt (1 - 4 * (lepMass .fst / 100) ^ 2) := by
    apply Real.le_sqrt_of_sq_le
    norm_num [lepMass]
  have := pow_le_pow_left₀ (by linarith) (show 1 - Real.sqrt (1 - 4 * (lepMass .fst / 100) ^ 2) ≤ 1e-4
    by linarith) 3
  refine lt_of_le_of_lt (div_le_div_of_nonneg_right this (by norm_num)) (by norm_num)

end Hazma.RhNeutrino
