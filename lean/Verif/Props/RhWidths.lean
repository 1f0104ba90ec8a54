import Verif.Lemmas.RhWidths
import Mathlib.Analysis.SpecialFunctions.Integrals.Basic
import Mathlib.Analysis.Real.Pi.Bounds
import Mathlib.Tactic

/-!
# Partial widths of the right-handed neutrino

Properties C127 and C128: every partial width is nonnegative, vanishes below the threshold of its
final state, depends on the mixing angle through `tan²(2θ)` only and (for the channels that do not
involve the pion form factor) is strictly positive above threshold.
-/

namespace Hazma.RhNeutrino

open Hazma Hazma.Kinematics Set

/-! ## Constants -/

theorem gf_pos : 0 < gf := by unfold gf; norm_num
theorem lepMass_pos (g : Gen) : 0 < lepMass g := by cases g <;> unfold lepMass <;> norm_num
theorem mPi_pos : 0 < mPi := by unfold mPi; norm_num

/-! ## Two-body final states -/

/-- The kinematic polynomial of a charged final state is positive above threshold. -/
theorem poly_pos {xh xl : ℝ} (h0 : 0 < xh) (hl0 : 0 < xl) (h : xh + xl ≤ 1) :
    0 < (1 - xl ^ 2) ^ 2 + xh ^ 2 * (1 + xl ^ 2) - 2 * xh ^ 4 := by
  have h1 : xh ^ 2 ≤ (1 - xl) ^ 2 := by nlinarith
  have h2 : 0 < xh ^ 2 := by positivity
  have h3 : xh ^ 4 = (xh ^ 2) ^ 2 := by ring
  have h4 : 0 < 1 - xl := by linarith
  rw [h3]
  generalize xh ^ 2 = y at *
  nlinarith [mul_nonneg (sub_nonneg.mpr h1) (add_nonneg (sq_nonneg (1 + xl)) h2.le),
    mul_pos h2 hl0, mul_nonneg (sub_nonneg.mpr h1) h2.le]

theorem kallen_nonneg {xh xl : ℝ} (h0 : 0 ≤ xh) (hl0 : 0 ≤ xl) (h : xh + xl ≤ 1) :
    0 ≤ kallenLambda 1 (xh ^ 2) (xl ^ 2) := by
  have e : kallenLambda 1 (xh ^ 2) (xl ^ 2)
      = (1 - (xh + xl) ^ 2) * (1 - (xh - xl) ^ 2) := by unfold kallenLambda; ring
  rw [e]
  apply mul_nonneg <;> nlinarith

theorem kallen_pos {xh xl : ℝ} (h0 : 0 < xh) (hl0 : 0 < xl) (h : xh + xl < 1) :
    0 < kallenLambda 1 (xh ^ 2) (xl ^ 2) := by
  have e : kallenLambda 1 (xh ^ 2) (xl ^ 2)
      = (1 - (xh + xl) ^ 2) * (1 - (xh - xl) ^ 2) := by unfold kallenLambda; ring
  rw [e]
  apply mul_pos <;> nlinarith

/-- What the property asks of a partial width `w` of a final state with masses summing to `thr`. -/
structure Sound (w : Core → ℝ) (thr : Gen → ℝ) : Prop where
  nonneg : ∀ c : Core, 0 < c.mx → 0 ≤ w c
  closed : ∀ c : Core, 0 < c.mx → c.mx < thr c.gen → w c = 0
  angle : ∀ (mx th th' : ℝ) (g : Gen), Real.tan (2 * th) ^ 2 = Real.tan (2 * th') ^ 2 →
    w ⟨mx, th, g⟩ = w ⟨mx, th', g⟩

theorem u_sq (c : Core) : c.u ^ 2 = 0.25 * Real.tan (2 * c.theta) ^ 2 := by
  unfold Core.u; ring

theorem u_sq_congr {mx th th' : ℝ} {g : Gen}
    (h : Real.tan (2 * th) ^ 2 = Real.tan (2 * th') ^ 2) :
    Core.u ⟨mx, th, g⟩ ^ 2 = Core.u ⟨mx, th', g⟩ ^ 2 := by
  rw [u_sq, u_sq]; simp only [h]

theorem sound_vhp (mp fp : ℝ) : Sound (fun c => widthVHp c mp fp) (fun _ => mp) where
  nonneg c hc := by
    simp only [widthVHp]; split_ifs
    · rfl
    · positivity
  closed c _ h := by simp [widthVHp, h]
  angle mx th th' g h := by simp only [widthVHp, u_sq_congr h]

theorem vhp_pos {c : Core} {mp fp : ℝ} (hm : 0 < mp) (h : mp < c.mx) (hu : c.u ≠ 0) (hf : fp ≠ 0) :
    0 < widthVHp c mp fp := by
  have hc : 0 < c.mx := hm.trans h
  have hg := gf_pos
  simp only [widthVHp, if_neg h.not_gt]
  have hx : mp / c.mx < 1 := (div_lt_one hc).mpr h
  have hx0 : 0 < mp / c.mx := by positivity
  have : 0 < 1 - (mp / c.mx) ^ 2 := by nlinarith
  positivity

theorem ratio_le {c : Core} {mh ml : ℝ} (hc : 0 < c.mx) (h : ¬ c.mx < mh + ml) :
    mh / c.mx + ml / c.mx ≤ 1 := by
  rw [← add_div, div_le_one hc]; linarith

theorem ratio_lt {c : Core} {mh ml : ℝ} (hc : 0 < c.mx) (h : mh + ml < c.mx) :
    mh / c.mx + ml / c.mx < 1 := by
  rw [← add_div, div_lt_one hc]; linarith

theorem sound_lhp {mh : ℝ} (hh : 0 < mh) (fh : ℝ) (ckm : ℂ) :
    Sound (fun c => widthLHp c (lepMass c.gen) mh fh ckm) (fun g => lepMass g + mh) where
  nonneg c hc := by
    simp only [widthLHp]; split_ifs with h
    · rfl
    · have hl := lepMass_pos c.gen
      have := poly_pos (div_pos hh hc) (div_pos hl hc) (ratio_le hc h)
      positivity
  closed c _ h := by simp only [widthLHp]; rw [if_pos (by linarith)]
  angle mx th th' g h := by simp only [widthLHp, u_sq_congr h]

theorem lhp_pos {c : Core} {mh fh : ℝ} {ckm : ℂ} (hh : 0 < mh) (h : lepMass c.gen + mh < c.mx)
    (hu : c.u ≠ 0) (hf : fh ≠ 0) (hk : ckm ≠ 0) : 0 < widthLHp c (lepMass c.gen) mh fh ckm := by
  have hl := lepMass_pos c.gen
  have hc : 0 < c.mx := by linarith
  have hg := gf_pos
  have h' : mh + lepMass c.gen < c.mx := by linarith
  have hr := ratio_lt hc h'
  have := poly_pos (div_pos hh hc) (div_pos hl hc) hr.le
  have hs := Real.sqrt_pos.mpr (kallen_pos (div_pos hh hc) (div_pos hl hc) hr)
  have hn : 0 < ‖ckm‖ := norm_pos_iff.mpr hk
  simp only [widthLHp, if_neg h'.not_gt]
  positivity

theorem sound_lhv {mh : ℝ} (hh : 0 < mh) (gh : ℝ) (ckm : ℂ) :
    Sound (fun c => widthLHv c (lepMass c.gen) mh gh ckm) (fun g => lepMass g + mh) where
  nonneg c hc := by
    simp only [widthLHv]; split_ifs with h
    · rfl
    · have hl := lepMass_pos c.gen
      have := poly_pos (div_pos hh hc) (div_pos hl hc) (ratio_le hc h)
      positivity
  closed c _ h := by simp only [widthLHv]; rw [if_pos (by linarith)]
  angle mx th th' g h := by simp only [widthLHv, u_sq_congr h]

theorem lhv_pos {c : Core} {mh gh : ℝ} {ckm : ℂ} (hh : 0 < mh) (h : lepMass c.gen + mh < c.mx)
    (hu : c.u ≠ 0) (hf : gh ≠ 0) (hk : ckm ≠ 0) : 0 < widthLHv c (lepMass c.gen) mh gh ckm := by
  have hl := lepMass_pos c.gen
  have hc : 0 < c.mx := by linarith
  have hg := gf_pos
  have h' : mh + lepMass c.gen < c.mx := by linarith
  have hr := ratio_lt hc h'
  have := poly_pos (div_pos hh hc) (div_pos hl hc) hr.le
  have hs := Real.sqrt_pos.mpr (kallen_pos (div_pos hh hc) (div_pos hl hc) hr)
  have hn : 0 < ‖ckm‖ := norm_pos_iff.mpr hk
  simp only [widthLHv, if_neg h'.not_gt]
  positivity

theorem sound_vhv (mh kh gr : ℝ) : Sound (fun c => widthVHv c mh kh gr) (fun _ => mh) where
  nonneg c hc := by
    simp only [widthVHv]; split_ifs
    · rfl
    · positivity
  closed c _ h := by simp [widthVHv, h]
  angle mx th th' g h := by
    have e : ∀ c : Core, (gf * kh * gr * c.u / mh) ^ 2 = (gf * kh * gr / mh) ^ 2 * c.u ^ 2 := by
      intro c; ring
    simp only [widthVHv, e, u_sq_congr h]

theorem vhv_pos {c : Core} {mh kh gr : ℝ} (hm : 0 < mh) (h : mh < c.mx) (hu : c.u ≠ 0)
    (hk : kh ≠ 0) (hr : gr ≠ 0) : 0 < widthVHv c mh kh gr := by
  have hc : 0 < c.mx := hm.trans h
  have hg := gf_pos
  simp only [widthVHv, if_neg h.not_gt]
  have hx : mh / c.mx < 1 := (div_lt_one hc).mpr h
  have hx0 : 0 < mh / c.mx := by positivity
  have : 0 < 1 - (mh / c.mx) ^ 2 := by nlinarith
  positivity

/-! ## Neutrino and photon final states -/

theorem sound_va : Sound widthVA (fun _ => 0) where
  nonneg c hc := by unfold widthVA alphaEm; positivity
  closed c h h' := absurd h' h.not_gt
  angle mx th th' g h := by simp only [widthVA, u_sq_congr h]

theorem va_pos {c : Core} (hc : 0 < c.mx) (hu : c.u ≠ 0) : 0 < widthVA c := by
  have := gf_pos
  unfold widthVA alphaEm; positivity

theorem sound_vvv (g : Gen) : Sound (fun c => widthVVV c g) (fun _ => 0) where
  nonneg c hc := by simp only [widthVVV]; split_ifs <;> positivity
  closed c h h' := absurd h' h.not_gt
  angle mx th th' g h := by simp only [widthVVV, u_sq_congr h]

theorem vvv_pos {c : Core} (g : Gen) (hc : 0 < c.mx) (hu : c.u ≠ 0) : 0 < widthVVV c g := by
  have := gf_pos
  simp only [widthVVV]; split_ifs <;> positivity

/-! ## Final states with two pions -/

theorem sound_vpipi (env : Env) : Sound (widthVPiPi env) (fun _ => 0 + (mPi + mPi)) where
  nonneg c hc := by
    simp only [widthVPiPi]; split_ifs with h
    · rfl
    · have hp := mPi_pos
      have hle : 4 * mPi ^ 2 ≤ c.mx ^ 2 := by nlinarith
      refine mul_nonneg (by positivity) (intervalIntegral.integral_nonneg hle fun s hs => ?_)
      have hs0 : 0 < s := lt_of_lt_of_le (by positivity) hs.1
      have hb : 0 ≤ 1 - 4 * mPi ^ 2 / s := by
        rw [sub_nonneg, div_le_one hs0]; exact hs.1
      unfold integrandVPiPi
      positivity
  closed c _ h := by simp only [widthVPiPi]; rw [if_pos (by linarith)]
  angle mx th th' g h := by
    simp only [widthVPiPi, u_sq_congr h, integrandVPiPi]

/-- The Källén function in the form used by the three-body integrand. -/
theorem poly_pos_z {z xl : ℝ} (hz0 : 0 ≤ z) (hl : 0 ≤ xl) (hz : z ≤ (1 - xl) ^ 2) (hl1 : xl ≤ 1) :
    0 ≤ (1 - xl ^ 2) ^ 2 + z * (1 + xl ^ 2) - 2 * z ^ 2 := by
  nlinarith [mul_nonneg (sub_nonneg.mpr hz) (add_nonneg (sq_nonneg (1 + xl)) hz0),
    mul_nonneg hz0 hl, mul_nonneg (sub_nonneg.mpr hz) hz0]

theorem sound_lpipi0 (env : Env) :
    Sound (widthLPi0Pi env) (fun g => lepMass g + (mPi + mPi0)) where
  nonneg c hc := by
    simp only [widthLPi0Pi]; split_ifs with h
    · rfl
    · have hp := mPi_pos
      have hl := lepMass_pos c.gen
      have hle : 4 * mPi ^ 2 ≤ (c.mx - lepMass c.gen) ^ 2 := by nlinarith
      refine mul_nonneg (by positivity) (intervalIntegral.integral_nonneg hle fun s hs => ?_)
      have hs0 : 0 < s := lt_of_lt_of_le (by positivity) hs.1
      have hb : 0 ≤ 1 - 4 * mPi ^ 2 / s := by
        rw [sub_nonneg, div_le_one hs0]; exact hs.1
      have hz : s / c.mx ^ 2 ≤ (1 - lepMass c.gen / c.mx) ^ 2 := by
        rw [show (1 - lepMass c.gen / c.mx) ^ 2 = (c.mx - lepMass c.gen) ^ 2 / c.mx ^ 2 by
          field_simp]
        gcongr; exact hs.2
      have hx1 : lepMass c.gen / c.mx ≤ 1 := by rw [div_le_one hc]; linarith
      have := poly_pos_z (z := s / c.mx ^ 2) (xl := lepMass c.gen / c.mx) (by positivity)
        (by positivity) hz hx1
      simp only [integrandLPi0Pi]
      positivity
  closed c _ h := by
    simp only [widthLPi0Pi]
    rw [if_pos]
    have : mPi0 < mPi := by unfold mPi mPi0; norm_num
    linarith
  angle mx th th' g h := by
    simp only [widthLPi0Pi, u_sq_congr h, integrandLPi0Pi]

/-! ## Three leptons -/

theorem lud_integrand_nonneg {xd xl x : ℝ} (hd : 0 < xd) (hl : 0 < xl) (h1 : (xd + xl) ^ 2 ≤ x)
    (h2 : x ≤ (1 - 0) ^ 2) : 0 ≤ integrandLUD 0 xd xl x := by
  have hx : 0 < x := lt_of_lt_of_le (by positivity) h1
  have : 0 ≤ x - xl ^ 2 - xd ^ 2 := by nlinarith
  have : 0 ≤ 1 + (0 : ℝ) ^ 2 - x := by linarith
  unfold integrandLUD
  positivity

theorem sound_lud {md : Gen → ℝ} {ml : Gen → ℝ} (hd : ∀ g, 0 < md g) (hl : ∀ g, 0 < ml g) :
    Sound (fun c => widthLUD c 0 (md c.gen) (ml c.gen)) (fun g => ml g + 0 + md g) where
  nonneg c hc := by
    have hd := hd c.gen
    have hl := hl c.gen
    simp only [widthLUD]; split_ifs with h
    · rfl
    · have hle : (md c.gen / c.mx + ml c.gen / c.mx) ^ 2 ≤ (1 - 0 / c.mx) ^ 2 := by
        rw [zero_div, sub_zero, one_pow, ← add_div]
        have : (md c.gen + ml c.gen) / c.mx ≤ 1 := by rw [div_le_one hc]; linarith
        have : 0 ≤ (md c.gen + ml c.gen) / c.mx := by positivity
        nlinarith
      refine mul_nonneg (by positivity) (intervalIntegral.integral_nonneg hle fun s hs => ?_)
      rw [zero_div] at hs ⊢
      exact lud_integrand_nonneg (div_pos hd hc) (div_pos hl hc) hs.1 hs.2
  closed c _ h := by simp only [widthLUD]; rw [if_pos h]
  angle mx th th' g h := by simp only [widthLUD, u_sq_congr h]

theorem lud_pos {c : Core} {md ml : ℝ} (hd : 0 < md) (hl : 0 < ml) (h : ml + md < c.mx)
    (hu : c.u ≠ 0) : 0 < widthLUD c 0 md ml := by
  have hc : 0 < c.mx := by linarith
  have hg := gf_pos
  simp only [widthLUD]
  rw [if_neg (by simp; linarith)]
  refine mul_pos (by positivity) ?_
  rw [zero_div]
  have hxd := div_pos hd hc
  have hxl := div_pos hl hc
  have hsum : md / c.mx + ml / c.mx < 1 := by
    rw [← add_div, div_lt_one hc]; linarith
  set xd := md / c.mx
  set xl := ml / c.mx
  have hlt : (xd + xl) ^ 2 < (1 - 0 : ℝ) ^ 2 := by nlinarith
  refine intervalIntegral.intervalIntegral_pos_of_pos_on ?_ ?_ hlt
  · apply ContinuousOn.intervalIntegrable
    rw [uIcc_of_le hlt.le]
    have hx0 : ∀ x ∈ Icc ((xd + xl) ^ 2) ((1 - 0 : ℝ) ^ 2), x ≠ 0 := fun x hx =>
      (lt_of_lt_of_le (by positivity) hx.1).ne'
    unfold integrandLUD kallenLambda
    fun_prop (disch := assumption)
  · intro x hx
    have hx0 : 0 < x := lt_of_lt_of_le (by positivity) hx.1.le
    have h1 : 0 < x - xl ^ 2 - xd ^ 2 := by nlinarith [hx.1]
    have h2 : 0 < 1 + (0 : ℝ) ^ 2 - x := by
      have := hx.2
      norm_num at this ⊢
      exact this
    have k1 : 0 < kallenLambda x (xl ^ 2) (xd ^ 2) := by
      have e : kallenLambda x (xl ^ 2) (xd ^ 2)
          = (x - (xd + xl) ^ 2) * (x - (xd - xl) ^ 2) := by unfold kallenLambda; ring
      rw [e]
      have := hx.1
      apply mul_pos <;> nlinarith
    have k2 : 0 < kallenLambda 1 x (0 ^ 2) := by
      have e : kallenLambda 1 x (0 ^ 2) = (1 - x) ^ 2 := by unfold kallenLambda; ring
      rw [e]
      have : 0 < 1 - x := by linarith
      positivity
    have := Real.sqrt_pos.mpr (mul_pos k1 k2)
    unfold integrandLUD
    positivity

theorem vff_pos {c : Core} {mf gL gR : ℝ} (hm : 0 < mf) (h : 2 * mf < c.mx) (hu : c.u ≠ 0)
    (hg : gL ≠ 0 ∨ gR ≠ 0) : 0 < widthVFF c mf (gL ^ 2 + gR ^ 2) (gL * gR) := by
  have hc : 0 < c.mx := by linarith
  have hgf := gf_pos
  simp only [widthVFF, if_neg h.not_gt]
  have := combo_pos (x := mf / c.mx) (by positivity)
    (by rw [div_lt_iff₀ hc]; linarith) hg
  positivity

theorem sound_vff {mf gL gR : ℝ} (hm : 0 < mf) (hg : gL ≠ 0 ∨ gR ≠ 0) :
    Sound (fun c => widthVFF c mf (gL ^ 2 + gR ^ 2) (gL * gR)) (fun _ => mf + mf) where
  nonneg c hc := by
    rcases lt_trichotomy c.mx (2 * mf) with h | h | h
    · simp [widthVFF, h]
    · simp only [widthVFF, h, lt_irrefl, if_false]
      rw [show mf / (2 * mf) = 1 / 2 by field_simp, t_threshold.1, t_threshold.2]
      simp
    · by_cases hu : c.u = 0
      · simp [widthVFF, hu]
      · exact (vff_pos hm h hu hg).le
  closed c _ h := by simp only [widthVFF]; rw [if_pos (by linarith)]
  angle mx th th' g h := by simp only [widthVFF, u_sq_congr h]

/-- The couplings of the neutral current (and, for equal generations, its interference with the
charged current): `c1 = gL² + gR²`, `c2 = gL gR`. -/
theorem vllsame_eq (c : Core) (g : Gen) :
    widthVLLsame c g = widthVFF c (lepMass g)
      ((if c.gen = g then sw2 + 1 / 2 else sw2 - 1 / 2) ^ 2 + sw2 ^ 2)
      ((if c.gen = g then sw2 + 1 / 2 else sw2 - 1 / 2) * sw2) := by
  unfold widthVLLsame
  split_ifs <;> congr 1 <;> ring

theorem sw2_ne : sw2 ≠ 0 := by unfold sw2; norm_num

theorem sound_vllsame (g : Gen) : Sound (fun c => widthVLLsame c g)
    (fun _ => lepMass g + lepMass g) where
  nonneg c hc := by
    rw [vllsame_eq]
    exact (sound_vff (lepMass_pos g) (Or.inr sw2_ne)).nonneg c hc
  closed c hc h := by
    rw [vllsame_eq]
    exact (sound_vff (gL := if c.gen = g then sw2 + 1 / 2 else sw2 - 1 / 2) (lepMass_pos g)
      (Or.inr sw2_ne)).closed c hc h
  angle mx th th' g' h := by
    rw [vllsame_eq, vllsame_eq]
    exact (sound_vff (lepMass_pos g) (Or.inr sw2_ne)).angle mx th th' g' h

end Hazma.RhNeutrino
