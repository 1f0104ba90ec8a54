import Verif.Model.RhNeutrino
import Mathlib.Analysis.Calculus.MeanValue
import Mathlib.Analysis.SpecialFunctions.Log.Deriv
import Mathlib.Tactic

/-! # Sign of the closed form of the width `N → ν f f` -/

namespace Hazma.RhNeutrino

open Set

/-- `log((1+v)/(1-v))`, written as a difference. -/
noncomputable def ell (v : ℝ) : ℝ := Real.log (1 + v) - Real.log (1 - v)

theorem ell_hasDerivAt {v : ℝ} (h1 : -1 < v) (h2 : v < 1) :
    HasDerivAt ell (1 / (1 + v) + 1 / (1 - v)) v := by
  have a := ((hasDerivAt_id v).const_add 1).log (by simp only [id]; linarith)
  have b := ((hasDerivAt_id v).const_sub 1).log (by simp only [id]; linarith)
  exact (a.sub b).congr_deriv (by simp only [id]; ring)

/-- A positive combination: if the logarithmic derivative works out, `P + Q ℓ` is positive. -/
theorem combination_pos {P Q P' Q' : ℝ → ℝ} (hP : ∀ v, HasDerivAt P (P' v) v)
    (hQ : ∀ v, HasDerivAt Q (Q' v) v) (hQpos : ∀ v, 0 ≤ v → v < 1 → 0 < Q v) (hP0 : P 0 = 0)
    (hN : ∀ v, 0 < v → v < 1 →
      0 < P' v * Q v - P v * Q' v + (1 / (1 + v) + 1 / (1 - v)) * Q v ^ 2)
    {v : ℝ} (hv : 0 < v) (hv1 : v < 1) : 0 < P v + Q v * ell v := by
  have hd : ∀ w, 0 ≤ w → w < 1 → HasDerivAt (fun w => P w / Q w + ell w)
      ((P' w * Q w - P w * Q' w) / Q w ^ 2 + (1 / (1 + w) + 1 / (1 - w))) w := by
    intro w h0 h1
    exact ((hP w).div (hQ w) (hQpos w h0 h1).ne').add (ell_hasDerivAt (by linarith) h1)
  have hmono : StrictMonoOn (fun w => P w / Q w + ell w) (Ico 0 1) := by
    apply strictMonoOn_of_deriv_pos (convex_Ico 0 1)
    · intro w hw
      exact (hd w hw.1 hw.2).continuousAt.continuousWithinAt
    · intro w hw
      rw [interior_Ico] at hw
      rw [(hd w hw.1.le hw.2).deriv]
      have hq := hQpos w hw.1.le hw.2
      have hn := hN w hw.1 hw.2
      rw [show (P' w * Q w - P w * Q' w) / Q w ^ 2 + (1 / (1 + w) + 1 / (1 - w))
        = (P' w * Q w - P w * Q' w + (1 / (1 + w) + 1 / (1 - w)) * Q w ^ 2) / Q w ^ 2 by
          field_simp]
      positivity
  have h := hmono (left_mem_Ico.mpr one_pos) (mem_Ico.mpr ⟨hv.le, hv1⟩) hv
  simp only [hP0, zero_div, ell, add_zero, sub_zero, Real.log_one] at h
  have hq := hQpos v hv.le hv1
  have : P v + Q v * ell v = Q v * (P v / Q v + ell v) := by field_simp
  rw [this]
  exact mul_pos hq (by simpa [ell] using h)

/-- `t1 + 2 t2` in terms of `v = √(1-4x²)`. -/
theorem plus_pos {v : ℝ} (hv : 0 < v) (hv1 : v < 1) (y : ℝ) (hy : y = (1 - v ^ 2) / 4) :
    0 < (1 - 10 * y + 18 * y ^ 2 - 36 * y ^ 3) * v + 24 * y ^ 3 * (2 - 3 * y) * ell v := by
  subst hy
  have hy' : ∀ w : ℝ, HasDerivAt (fun w : ℝ => (1 - w ^ 2) / 4) (-w / 2) w := by
    intro w
    have := (((hasDerivAt_pow 2 w).const_sub 1).div_const 4)
    exact this.congr_deriv (by norm_num; try ring)
  refine combination_pos
    (P := fun v => (1 - 10 * ((1 - v ^ 2) / 4) + 18 * ((1 - v ^ 2) / 4) ^ 2
      - 36 * ((1 - v ^ 2) / 4) ^ 3) * v)
    (Q := fun v => 24 * ((1 - v ^ 2) / 4) ^ 3 * (2 - 3 * ((1 - v ^ 2) / 4)))
    (P' := fun v => (1 - 10 * ((1 - v ^ 2) / 4) + 18 * ((1 - v ^ 2) / 4) ^ 2
      - 36 * ((1 - v ^ 2) / 4) ^ 3)
        + v * ((-10 + 36 * ((1 - v ^ 2) / 4) - 108 * ((1 - v ^ 2) / 4) ^ 2) * (-v / 2)))
    (Q' := fun v => (144 * ((1 - v ^ 2) / 4) ^ 2 - 288 * ((1 - v ^ 2) / 4) ^ 3) * (-v / 2))
    ?_ ?_ ?_ (by norm_num) ?_ hv hv1
  · intro w
    have h := hy' w
    have := ((((h.const_mul 10).const_sub 1).add ((h.pow 2).const_mul 18)).sub
      ((h.pow 3).const_mul 36)).mul (hasDerivAt_id w)
    exact this.congr_deriv (by norm_num; try ring)
  · intro w
    have h := hy' w
    have := ((h.pow 3).const_mul 24).mul ((h.const_mul 3).const_sub 2)
    exact this.congr_deriv (by norm_num; try ring)
  · intro w h0 h1
    have : 0 < 1 - w ^ 2 := by nlinarith
    have : 0 < 2 - 3 * ((1 - w ^ 2) / 4) := by nlinarith
    positivity
  · intro w h0 h1
    have e : (1 / (1 + w) + 1 / (1 - w)) = 2 / (1 - w ^ 2) := by
      have : 1 + w ≠ 0 := by linarith
      have : 1 - w ≠ 0 := by linarith
      have : 1 - w ^ 2 ≠ 0 := by nlinarith
      field_simp; ring
    have hw : 0 < 1 - w ^ 2 := by nlinarith
    rw [e]
    have : 0 < 72 * ((1 - w ^ 2) / 4) ^ 2 * w ^ 6 := by positivity
    refine lt_of_lt_of_eq this ?_
    field_simp
    ring

/-- `t1 - 2 t2` in terms of `v = √(1-4x²)`. -/
theorem minus_pos {v : ℝ} (hv : 0 < v) (hv1 : v < 1) (y : ℝ) (hy : y = (1 - v ^ 2) / 4) :
    0 < (1 - 18 * y - 22 * y ^ 2 + 12 * y ^ 3) * v + 24 * y ^ 2 * (y ^ 2 - 2 * y + 2) * ell v := by
  subst hy
  have hy' : ∀ w : ℝ, HasDerivAt (fun w : ℝ => (1 - w ^ 2) / 4) (-w / 2) w := by
    intro w
    have := (((hasDerivAt_pow 2 w).const_sub 1).div_const 4)
    exact this.congr_deriv (by norm_num; try ring)
  refine combination_pos
    (P := fun v => (1 - 18 * ((1 - v ^ 2) / 4) - 22 * ((1 - v ^ 2) / 4) ^ 2
      + 12 * ((1 - v ^ 2) / 4) ^ 3) * v)
    (Q := fun v => 24 * ((1 - v ^ 2) / 4) ^ 2
      * (((1 - v ^ 2) / 4) ^ 2 - 2 * ((1 - v ^ 2) / 4) + 2))
    (P' := fun v => (1 - 18 * ((1 - v ^ 2) / 4) - 22 * ((1 - v ^ 2) / 4) ^ 2
      + 12 * ((1 - v ^ 2) / 4) ^ 3)
        + v * ((-18 - 44 * ((1 - v ^ 2) / 4) + 36 * ((1 - v ^ 2) / 4) ^ 2) * (-v / 2)))
    (Q' := fun v => (96 * ((1 - v ^ 2) / 4) - 144 * ((1 - v ^ 2) / 4) ^ 2
      + 96 * ((1 - v ^ 2) / 4) ^ 3) * (-v / 2))
    ?_ ?_ ?_ (by norm_num) ?_ hv hv1
  · intro w
    have h := hy' w
    have := ((((h.const_mul 18).const_sub 1).sub ((h.pow 2).const_mul 22)).add
      ((h.pow 3).const_mul 12)).mul (hasDerivAt_id w)
    exact this.congr_deriv (by norm_num; try ring)
  · intro w
    have h := hy' w
    have := ((h.pow 2).const_mul 24).mul (((h.pow 2).sub (h.const_mul 2)).add_const 2)
    exact this.congr_deriv (by norm_num; try ring)
  · intro w h0 h1
    have : 0 < 1 - w ^ 2 := by nlinarith
    have : 0 < ((1 - w ^ 2) / 4) ^ 2 - 2 * ((1 - w ^ 2) / 4) + 2 := by nlinarith
    positivity
  · intro w h0 h1
    have e : (1 / (1 + w) + 1 / (1 - w)) = 2 / (1 - w ^ 2) := by
      have : 1 + w ≠ 0 := by linarith
      have : 1 - w ≠ 0 := by linarith
      have : 1 - w ^ 2 ≠ 0 := by nlinarith
      field_simp; ring
    have hw : 0 < 1 - w ^ 2 := by nlinarith
    have h2 : 0 < 2 - 3 * ((1 - w ^ 2) / 4) := by nlinarith
    rw [e]
    have : 0 < 24 * ((1 - w ^ 2) / 4) * w ^ 6 * (2 - 3 * ((1 - w ^ 2) / 4)) := by positivity
    refine lt_of_lt_of_eq this ?_
    field_simp
    ring

/-! ## The function `L` -/

/-- Facts about `v = √(1-4x²)` for `0 < x < 1/2`. -/
theorem root_facts {x : ℝ} (hx : 0 < x) (hx2 : x < 1 / 2) :
    0 < Real.sqrt (1 - 4 * x ^ 2) ∧ Real.sqrt (1 - 4 * x ^ 2) < 1 ∧
      x ^ 2 = (1 - Real.sqrt (1 - 4 * x ^ 2) ^ 2) / 4 := by
  have h : 0 < 1 - 4 * x ^ 2 := by nlinarith
  refine ⟨Real.sqrt_pos.mpr h, ?_, ?_⟩
  · rw [Real.sqrt_lt' one_pos]; nlinarith
  · rw [Real.sq_sqrt h.le]; ring

/-- The argument of the logarithm is `((1-v)/(1+v))²`. -/
theorem num_eq {x v : ℝ} (h : x ^ 2 = (1 - v ^ 2) / 4) :
    1 - 3 * x ^ 2 - (1 - x ^ 2) * v = (1 - v) ^ 3 / 4 := by
  rw [h]; ring

/-- Away from the small-mass branch, `L = -2 log((1+v)/(1-v))`. -/
theorem lx_exact {x : ℝ} (hx : 0 < x) (hx2 : x < 1 / 2)
    (hn : ¬ 1 - 3 * x ^ 2 - (1 - x ^ 2) * Real.sqrt (1 - 4 * x ^ 2) < 1e-10) :
    lx x = -2 * ell (Real.sqrt (1 - 4 * x ^ 2)) := by
  obtain ⟨h0, h1, hy⟩ := root_facts hx hx2
  unfold lx
  simp only [if_neg hn]
  rw [num_eq hy]
  set v := Real.sqrt (1 - 4 * x ^ 2) with hv
  have h1' : 0 < 1 - v := by linarith
  have h2' : 0 < 1 + v := by linarith
  have : (1 - v) ^ 3 / 4 / (x ^ 2 * (1 + v)) = ((1 - v) / (1 + v)) ^ 2 := by
    rw [hy, show 1 - v ^ 2 = (1 - v) * (1 + v) by ring]
    field_simp
  rw [this, Real.log_pow, Real.log_div h1'.ne' h2'.ne', ell]
  push_cast; ring

/-- On the small-mass branch `x² < 1/2000` and `L ≤ 0`. -/
theorem lx_small {x : ℝ} (hx : 0 < x) (hx2 : x < 1 / 2)
    (hn : 1 - 3 * x ^ 2 - (1 - x ^ 2) * Real.sqrt (1 - 4 * x ^ 2) < 1e-10) :
    x ^ 2 < 1 / 2000 ∧ lx x = 4 * Real.log x + 4 * x ^ 2 + 6 * x ^ 4 ∧ lx x < 0 := by
  obtain ⟨h0, h1, hy⟩ := root_facts hx hx2
  have hl : lx x = 4 * Real.log x + 4 * x ^ 2 + 6 * x ^ 4 := by
    unfold lx; simp only [if_pos hn]
  rw [num_eq hy] at hn
  set v := Real.sqrt (1 - 4 * x ^ 2) with hv
  have hv' : 1 - v < 1 / 1000 := by
    by_contra hc
    have hc' : 1 / 1000 ≤ 1 - v := not_lt.mp hc
    have := pow_le_pow_left₀ (by norm_num) hc' 3
    norm_num at this hn
    linarith
  have hs : x ^ 2 < 1 / 2000 := by rw [hy]; nlinarith
  refine ⟨hs, hl, ?_⟩
  rw [hl]
  have hxs : x < 1 / 40 := by nlinarith
  have := Real.log_le_sub_one_of_pos hx
  have h4 : x ^ 4 = (x ^ 2) ^ 2 := by ring
  rw [h4]
  nlinarith [sq_nonneg x]

/-- Both extreme combinations of `t1` and `t2` are positive. -/
theorem t_plus_pos {x : ℝ} (hx : 0 < x) (hx2 : x < 1 / 2) : 0 < t1 x + 2 * t2 x := by
  obtain ⟨h0, h1, hy⟩ := root_facts hx hx2
  have key : t1 x + 2 * t2 x = (1 - 10 * x ^ 2 + 18 * (x ^ 2) ^ 2 - 36 * (x ^ 2) ^ 3)
      * Real.sqrt (1 - 4 * x ^ 2) - 12 * (x ^ 2) ^ 3 * (2 - 3 * x ^ 2) * lx x := by
    unfold t1 t2; ring
  rw [key]
  by_cases hn : 1 - 3 * x ^ 2 - (1 - x ^ 2) * Real.sqrt (1 - 4 * x ^ 2) < 1e-10
  · obtain ⟨hs, -, hneg⟩ := lx_small hx hx2 hn
    have hy0 : 0 < x ^ 2 := by positivity
    generalize x ^ 2 = y at *
    have a : 0 < 1 - 10 * y + 18 * y ^ 2 - 36 * y ^ 3 := by
      have : y ^ 3 ≤ y ^ 2 := by nlinarith [sq_nonneg y]
      nlinarith [sq_nonneg y]
    have b : 0 < 12 * y ^ 3 * (2 - 3 * y) := by
      have : 0 < 2 - 3 * y := by linarith
      positivity
    have := mul_pos a h0
    nlinarith [mul_pos b (neg_pos.mpr hneg)]
  · rw [lx_exact hx hx2 hn]
    have := plus_pos h0 h1 (x ^ 2) hy
    linarith

theorem t_minus_pos {x : ℝ} (hx : 0 < x) (hx2 : x < 1 / 2) : 0 < t1 x - 2 * t2 x := by
  obtain ⟨h0, h1, hy⟩ := root_facts hx hx2
  have key : t1 x - 2 * t2 x = (1 - 18 * x ^ 2 - 22 * (x ^ 2) ^ 2 + 12 * (x ^ 2) ^ 3)
      * Real.sqrt (1 - 4 * x ^ 2) - 12 * (x ^ 2) ^ 2 * ((x ^ 2) ^ 2 - 2 * x ^ 2 + 2) * lx x := by
    unfold t1 t2; ring
  rw [key]
  by_cases hn : 1 - 3 * x ^ 2 - (1 - x ^ 2) * Real.sqrt (1 - 4 * x ^ 2) < 1e-10
  · obtain ⟨hs, -, hneg⟩ := lx_small hx hx2 hn
    have hy0 : 0 < x ^ 2 := by positivity
    generalize x ^ 2 = y at *
    have a : 0 < 1 - 18 * y - 22 * y ^ 2 + 12 * y ^ 3 := by
      have : 0 < y ^ 3 := by positivity
      nlinarith [sq_nonneg y]
    have b : 0 < 12 * y ^ 2 * (y ^ 2 - 2 * y + 2) := by
      have : 0 < y ^ 2 - 2 * y + 2 := by nlinarith
      positivity
    have := mul_pos a h0
    nlinarith [mul_pos b (neg_pos.mpr hneg)]
  · rw [lx_exact hx hx2 hn]
    have := minus_pos h0 h1 (x ^ 2) hy
    linarith

/-- At threshold both functions vanish. -/
theorem t_threshold : t1 (1 / 2) = 0 ∧ t2 (1 / 2) = 0 := by
  have h : Real.sqrt (1 - 4 * (1 / 2 : ℝ) ^ 2) = 0 := by norm_num
  have hl : lx (1 / 2) = 0 := by
    unfold lx
    simp only [h]
    norm_num
  constructor
  · unfold t1; rw [h, hl]; ring
  · unfold t2; rw [h, hl]; ring

/-- The closed form with couplings `c1 = gL² + gR²`, `c2 = gL gR` is nonnegative, and positive
above threshold unless both couplings vanish. -/
theorem combo_pos {x gL gR : ℝ} (hx : 0 < x) (hx2 : x < 1 / 2) (hg : gL ≠ 0 ∨ gR ≠ 0) :
    0 < (gL ^ 2 + gR ^ 2) * t1 x + 4 * (gL * gR) * t2 x := by
  have hp := t_plus_pos hx hx2
  have hm := t_minus_pos hx hx2
  have e : (gL ^ 2 + gR ^ 2) * t1 x + 4 * (gL * gR) * t2 x
      = ((gL + gR) ^ 2 * (t1 x + 2 * t2 x) + (gL - gR) ^ 2 * (t1 x - 2 * t2 x)) / 2 := by ring
  rw [e]
  have : 0 < (gL + gR) ^ 2 ∨ 0 < (gL - gR) ^ 2 := by
    by_contra hc
    push Not at hc
    have a : gL + gR = 0 := by nlinarith [sq_nonneg (gL + gR), hc.1]
    have b : gL - gR = 0 := by nlinarith [sq_nonneg (gL - gR), hc.2]
    rcases hg with h | h
    · exact h (by linarith)
    · exact h (by linarith)
  rcases this with h | h
  · have := mul_pos h hp
    have := mul_nonneg (sq_nonneg (gL - gR)) hm.le
    linarith
  · have := mul_pos h hm
    have := mul_nonneg (sq_nonneg (gL + gR)) hp.le
    linarith

end Hazma.RhNeutrino
