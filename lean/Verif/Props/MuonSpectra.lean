import Verif.Props.SpectraBoost
import Verif.Model.Spectra
import Mathlib.Analysis.SpecialFunctions.Integrals.Basic
import Mathlib.MeasureTheory.Integral.IntervalIntegral.FundThmCalculus
import Mathlib.Analysis.SpecialFunctions.Log.Deriv
import Mathlib.Analysis.SpecialFunctions.Sqrt
import Mathlib.Analysis.Calculus.Deriv.Pow
import Mathlib.Analysis.Complex.ExponentialBounds
import Mathlib.Tactic

/-!
# Positrons and neutrinos from muons (C29, C30, C31)
-/

namespace Hazma.Spectra

open MeasureTheory Hazma.Boost

theorem rr_pos : 0 < rr := by unfold rr massE massMu; norm_num
theorem rr_small : rr < 1 / 200 := by unfold rr massE massMu; norm_num
theorem massMu_pos : (0 : ℝ) < massMu := by unfold massMu; norm_num
theorem massE_pos : (0 : ℝ) < massE := by unfold massE; norm_num
theorem rFactor_pos : (0 : ℝ) < rFactor := by unfold rFactor; norm_num
theorem eps_pos : 0 < f64eps := by unfold f64eps; norm_num
theorem massE_eq : massE = rr * massMu := by unfold rr massE massMu; norm_num

/-- Velocity and Lorentz factor of a moving parent. -/
theorem parent_boost {e m : ℝ} (hm : 0 < m) (h : m < e) :
    0 < boostBeta e m ∧ boostBeta e m < 1 ∧ lorentz (boostBeta e m) = e / m
      ∧ boostBeta e m ^ 2 = 1 - (m / e) ^ 2 := by
  have he : 0 < e := hm.trans h
  have hr : m / e < 1 := (div_lt_one he).mpr h
  have hr0 : 0 < m / e := div_pos hm he
  have hb : boostBeta e m ^ 2 = 1 - (m / e) ^ 2 := by
    unfold boostBeta
    rw [Real.sq_sqrt (by nlinarith)]; ring
  have hb0 : 0 < boostBeta e m := by
    unfold boostBeta
    exact Real.sqrt_pos.mpr (by nlinarith)
  refine ⟨hb0, by nlinarith [sq_nonneg (boostBeta e m - 1), sq_nonneg (m / e)], ?_, hb⟩
  unfold lorentz
  rw [hb]
  have : 1 - (1 - (m / e) ^ 2) = (m / e) ^ 2 := by ring
  rw [this, Real.sqrt_sq hr0.le]
  field_simp

theorem eps_lt_beta {e : ℝ} (h : f64eps ≤ e - massMu) : f64eps < boostBeta e massMu := by
  have hep := eps_pos
  have hm := massMu_pos
  have hme : massMu < e := by linarith
  obtain ⟨hb0, hb1, -, hb⟩ := parent_boost hm hme
  have he : 0 < e := by linarith
  by_contra hc
  push Not at hc
  have h1 : boostBeta e massMu ^ 2 ≤ f64eps ^ 2 := by nlinarith
  rw [hb] at h1
  have h2 : massMu / e ≤ massMu / (massMu + f64eps) :=
    div_le_div_of_nonneg_left hm.le (by linarith) (by linarith)
  have h3 : 0 < massMu / e := div_pos hm he
  have h4 : (massMu / e) ^ 2 ≤ (massMu / (massMu + f64eps)) ^ 2 := by gcongr
  have h5 : (massMu / (massMu + f64eps)) ^ 2 < 1 - f64eps ^ 2 := by
    unfold massMu f64eps; norm_num
  linarith

/-! ### Positrons -/

/-- Positron spectrum per energy of a muon at rest (specification-side name for the code's
rest-frame branch). -/
noncomputable def positronRestE (e : ℝ) : ℝ := 2 / massMu * positronMuonRest (2 / massMu * e)

/-- Antiderivative used by the closed form. -/
noncomputable def posPrim (x : ℝ) : ℝ := -8 * rr ^ 2 * x + (3 + 3 * rr ^ 2) * x ^ 2 - 4 * x ^ 3 / 3

theorem hasDerivAt_posPrim (x : ℝ) :
    HasDerivAt posPrim (-2 * (x * (x * 2 + (-3 - 3 * rr ^ 2)) + 4 * rr ^ 2)) x := by
  have h : HasDerivAt posPrim (-8 * rr ^ 2 * 1 + (3 + 3 * rr ^ 2) * ((2 : ℕ) * x ^ (2 - 1))
      - 4 * ((3 : ℕ) * x ^ (3 - 1)) / 3) x :=
    (((hasDerivAt_id x).const_mul (-8 * rr ^ 2)).add
      ((hasDerivAt_pow 2 x).const_mul (3 + 3 * rr ^ 2))).sub
        (((hasDerivAt_pow 3 x).const_mul 4).div_const 3)
  have e : (-2 * (x * (x * 2 + (-3 - 3 * rr ^ 2)) + 4 * rr ^ 2)) = -8 * rr ^ 2 * 1 + (3 + 3 * rr ^ 2) * ((2 : ℕ) * x ^ (2 - 1))
      - 4 * ((3 : ℕ) * x ^ (3 - 1)) / 3 := by push_cast; ring
  rw [e]; exact h

theorem positronRest_div {e : ℝ} (h1 : massE < e) (h2 : 2 / massMu * e < 1 + rr ^ 2) :
    positronRestE e / momentum e massE
      = (2 / massMu) ^ 2 / rFactor * (-2 * ((2 / massMu * e) * ((2 / massMu * e) * 2 + (-3 - 3 * rr ^ 2)) + 4 * rr ^ 2)) := by
  have hm := massMu_pos
  have hp := momentum_pos massE_pos.le h1
  have hx : 2 * rr < 2 / massMu * e := by
    have : 2 * rr = 2 / massMu * massE := by rw [massE_eq]; field_simp
    rw [this]; exact mul_lt_mul_of_pos_left h1 (by positivity)
  have hroot : Real.sqrt ((2 / massMu * e) * (2 / massMu * e) - 4 * rr ^ 2)
      = 2 / massMu * momentum e massE := by
    unfold momentum
    have : (2 / massMu * e) * (2 / massMu * e) - 4 * rr ^ 2
        = (2 / massMu) ^ 2 * (e ^ 2 - massE ^ 2) := by
      rw [massE_eq]; field_simp; ring
    rw [this, Real.sqrt_mul (by positivity), Real.sqrt_sq (by positivity)]
  unfold positronRestE positronMuonRest
  rw [if_neg (by push Not; exact ⟨hx, h2⟩)]
  simp only [hroot]
  have := rFactor_pos
  field_simp

theorem positronRestE_zero {e : ℝ} (h : e ≤ massE ∨ 1 + rr ^ 2 ≤ 2 / massMu * e) :
    positronRestE e = 0 := by
  have hm := massMu_pos
  unfold positronRestE positronMuonRest
  rw [if_pos, mul_zero]
  rcases h with h | h
  · left
    have : 2 * rr = 2 / massMu * massE := by rw [massE_eq]; field_simp
    rw [this]; gcongr
  · right; exact h

/-- Scaled integral of the polynomial. -/
theorem integral_posPoly {c a b : ℝ} (hc : 0 < c) :
    ∫ e in a..b, (-2 * ((c * e) * ((c * e) * 2 + (-3 - 3 * rr ^ 2)) + 4 * rr ^ 2))
      = (posPrim (c * b) - posPrim (c * a)) / c := by
  have hd : ∀ e ∈ Set.uIcc a b, HasDerivAt (fun e => posPrim (c * e) / c)
      (-2 * ((c * e) * ((c * e) * 2 + (-3 - 3 * rr ^ 2)) + 4 * rr ^ 2)) e := by
    intro e _
    have h := ((hasDerivAt_posPrim (c * e)).comp e ((hasDerivAt_id e).const_mul c)).div_const c
    have e1 : (-2 * ((c * e) * ((c * e) * 2 + (-3 - 3 * rr ^ 2)) + 4 * rr ^ 2))
        = (-2 * ((c * e) * ((c * e) * 2 + (-3 - 3 * rr ^ 2)) + 4 * rr ^ 2)) * (c * 1) / c := by
      field_simp
    rw [e1]; exact h
  rw [intervalIntegral.integral_eq_sub_of_hasDerivAt hd]
  · ring
  · exact (Continuous.intervalIntegrable (by fun_prop) _ _)

/-- C29: the closed form for a moving muon is the boost of the rest-frame spectrum. -/
theorem positron_muon_is_boost (e emu : ℝ) (he : massE < e) (hemu : f64eps ≤ emu - massMu) :
    dndePositronMuon e emu = boosted positronRestE massE (boostBeta emu massMu) e := by
  have hep := eps_pos
  have hm := massMu_pos
  have hme : massMu < emu := by linarith
  have hepsb := eps_lt_beta hemu
  obtain ⟨hb0, hb1, hg, hb⟩ := parent_boost hm hme
  have hgp := lorentz_pos hb0 hb1
  have hgs := lorentz_sq hb0 hb1
  have hk := momentum_pos massE_pos.le he
  have hk2 := momentum_sq massE_pos.le he.le
  have hemup : 0 < emu := hm.trans hme
  have hlo : massE ≤ lorentz (boostBeta emu massMu) * (e - boostBeta emu massMu * momentum e massE) := by
    have := mass_le_labEnergy hb0 hb1 massE_pos.le he.le
    unfold labEnergy at this
    have e1 : e + boostBeta emu massMu * (-1) * momentum e massE
      = e - boostBeta emu massMu * momentum e massE := by ring
    rwa [e1] at this
  unfold dndePositronMuon
  rw [if_neg (by push Not; exact ⟨hme.le, he⟩), if_neg (by linarith)]
  have hemu0 : emu = lorentz (boostBeta emu massMu) * massMu := by rw [hg]; field_simp
  unfold boosted positronMuonX
  obtain ⟨beta, hbeta⟩ : ∃ b, b = boostBeta emu massMu := ⟨_, rfl⟩
  obtain ⟨g, hgdef⟩ : ∃ g, g = lorentz beta := ⟨_, rfl⟩
  obtain ⟨k, hkdef⟩ : ∃ k, k = momentum e massE := ⟨_, rfl⟩
  simp only [← hbeta, ← hgdef, ← hkdef] at *
  rw [if_neg (by push Not; exact ⟨hb0.le, hb1.le⟩), if_neg (by linarith)]
  have hg2 : 1 / (1 - beta * beta) = g ^ 2 := by
    rw [div_eq_iff (by nlinarith)]; nlinarith
  have hroot : Real.sqrt (2 / emu * e * (2 / emu * e) - 4 * rr ^ 2 * (1 - beta * beta))
      = 2 / emu * k := by
    have hx : 1 - beta * beta = (massMu / emu) ^ 2 := by nlinarith
    have : 2 / emu * e * (2 / emu * e) - 4 * rr ^ 2 * (1 - beta * beta) = (2 / emu * k) ^ 2 := by
      rw [hx, mul_pow, hk2, massE_eq]
      field_simp
      ring
    rw [this, Real.sqrt_sq (by positivity)]
  have hxm : g ^ 2 * (-beta * (2 / emu * k) + 2 / emu * e) = 2 / massMu * (g * (e - beta * k)) := by
    rw [hemu0]; field_simp; ring
  have hxp : g ^ 2 * (beta * (2 / emu * k) + 2 / emu * e) = 2 / massMu * (g * (e + beta * k)) := by
    rw [hemu0]; field_simp; ring
  simp only [hg2, hroot, hxm, hxp]
  have h2r : 2 * rr = 2 / massMu * massE := by rw [massE_eq]; field_simp
  have hmax : max (2 / massMu * (g * (e - beta * k))) (2 * rr) = 2 / massMu * (g * (e - beta * k)) := by
    rw [max_eq_left]; rw [h2r]; gcongr
  rw [hmax]
  obtain ⟨a, ha⟩ : ∃ a, a = g * (e - beta * k) := ⟨_, rfl⟩
  obtain ⟨b, hbb⟩ : ∃ b, b = g * (e + beta * k) := ⟨_, rfl⟩
  have hab : a < b := by rw [ha, hbb]; exact mul_lt_mul_of_pos_left (by nlinarith [mul_pos hb0 hk]) hgp
  obtain ⟨hi, hhi⟩ : ∃ h, h = massMu / 2 * (1 + rr ^ 2) := ⟨_, rfl⟩
  have hhi' : 1 + rr ^ 2 = 2 / massMu * hi := by rw [hhi]; field_simp
  rw [← ha] at hlo
  rw [← ha, ← hbb]
  have hmin : min (2 / massMu * b) (1 + rr ^ 2) = 2 / massMu * min b hi := by
    rw [hhi', ← mul_min_of_nonneg _ _ (by positivity)]
  rw [hmin, integral_clip (lo := massE) (hi := hi) hab.le, max_eq_left hlo]
  · by_cases hc : a ≤ min b hi
    · rw [if_neg (by push Not; gcongr), if_pos hc]
      rw [integral_congr_Ioo (g := fun e' => (2 / massMu) ^ 2 / rFactor / (2 * g * beta) *
        (-2 * ((2 / massMu * e') * ((2 / massMu * e') * 2 + (-3 - 3 * rr ^ 2)) + 4 * rr ^ 2))) hc]
      · rw [intervalIntegral.integral_const_mul, integral_posPoly (by positivity)]
        have hR := rFactor_pos
        unfold posPrim
        rw [hemu0]
        field_simp
        ring
      · intro x hx1 hx2
        have := positronRest_div (e := x) (lt_of_le_of_lt hlo hx1) (by
          rw [hhi']; exact mul_lt_mul_of_pos_left (lt_of_lt_of_le hx2 (min_le_right _ _)) (by positivity))
        rw [show positronRestE x / (2 * g * beta * momentum x massE)
          = positronRestE x / momentum x massE / (2 * g * beta) by
            rw [div_div]; ring_nf, this]
        ring
    · rw [if_pos (mul_lt_mul_of_pos_left (not_le.mp hc) (by positivity)), if_neg hc, mul_zero]
  · intro x hx
    rw [positronRestE_zero, zero_div]
    rcases hx with hx | hx
    · left; exact hx.le
    · right; rw [hhi']; gcongr

/-! ### Total number of positrons -/

theorem supported_integrable {f g : ℝ → ℝ} {a b : ℝ} (hg : ContinuousOn g (Set.Icc a b))
    (hfg : ∀ x, a < x → x < b → f x = g x) (hf : ∀ x, x ≤ a ∨ b ≤ x → f x = 0) :
    Integrable f := by
  have : f = (Set.Ioo a b).indicator g := by
    funext x
    by_cases hx : x ∈ Set.Ioo a b
    · rw [Set.indicator_of_mem hx]; exact hfg x hx.1 hx.2
    · rw [Set.indicator_of_notMem hx]
      apply hf
      by_contra hc
      push Not at hc
      exact hx hc
  rw [this, integrable_indicator_iff measurableSet_Ioo]
  exact (hg.integrableOn_compact isCompact_Icc).mono_set Set.Ioo_subset_Icc_self

theorem supported_integral {f g : ℝ → ℝ} {m a b : ℝ} (hma : m ≤ a) (hab : a ≤ b)
    (hfg : ∀ x, a < x → x < b → f x = g x) (hf : ∀ x, x ≤ a ∨ b ≤ x → f x = 0) :
    ∫ x in Set.Ioi m, f x = ∫ x in a..b, g x := by
  rw [← integral_congr_Ioo hab hfg, intervalIntegral.integral_of_le hab,
    integral_Ioc_eq_integral_Ioo]
  refine setIntegral_eq_of_subset_of_forall_sdiff_eq_zero measurableSet_Ioi ?_ ?_
  · intro x hx; exact lt_of_le_of_lt hma hx.1
  · rintro x ⟨-, hx⟩
    apply hf
    by_contra hc
    push Not at hc
    exact hx hc

/-- Michel phase-space integral `1 - 8r² + 8r⁶ - r⁸ - 12r⁴ ln r²` at `r = m_e/m_mu`
(specification). -/
noncomputable def michel : ℝ :=
  1 - 8 * rr ^ 2 + 8 * rr ^ 6 - rr ^ 8 - 12 * rr ^ 4 * Real.log (rr ^ 2)

/-- `sqrt(x² - a²)`. -/
noncomputable def hyp (a x : ℝ) : ℝ := Real.sqrt (x ^ 2 - a ^ 2)

theorem hyp_sq {a x : ℝ} (ha : 0 < a) (h : a ≤ x) : hyp a x ^ 2 = x ^ 2 - a ^ 2 :=
  Real.sq_sqrt (by nlinarith)

theorem hyp_pos {a x : ℝ} (ha : 0 < a) (h : a < x) : 0 < hyp a x := Real.sqrt_pos.mpr (by nlinarith)

theorem hasDerivAt_hyp {a x : ℝ} (ha : 0 < a) (h : a < x) : HasDerivAt (hyp a) (x / hyp a x) x := by
  have hne : x ^ 2 - a ^ 2 ≠ 0 := by nlinarith
  have h1 : HasDerivAt (fun x => x ^ 2 - a ^ 2) ((2 : ℕ) * x ^ (2 - 1)) x :=
    (hasDerivAt_pow 2 x).sub_const _
  have h2 : HasDerivAt (hyp a) (((2 : ℕ) * x ^ (2 - 1)) / (2 * Real.sqrt (x ^ 2 - a ^ 2))) x :=
    h1.sqrt hne
  have e : x / hyp a x = ((2 : ℕ) * x ^ (2 - 1)) / (2 * Real.sqrt (x ^ 2 - a ^ 2)) := by
    unfold hyp; push_cast
    rw [pow_one, mul_div_mul_left _ _ two_ne_zero]
  rw [e]; exact h2

/-- Antiderivative of the rest-frame spectrum. -/
noncomputable def restPrim (x : ℝ) : ℝ :=
  -2 * (4 * rr ^ 2 * ((x * hyp (2 * rr) x - (2 * rr) ^ 2 * Real.log (x + hyp (2 * rr) x)) / 2)
    - (3 + 3 * rr ^ 2) * (hyp (2 * rr) x ^ 3 / 3)
    + 2 * (x * hyp (2 * rr) x ^ 3 / 4 + (2 * rr) ^ 2 / 8 *
      (x * hyp (2 * rr) x - (2 * rr) ^ 2 * Real.log (x + hyp (2 * rr) x))))

theorem restPrim_deriv_alg (x s r : ℝ) (hs : 0 < s) (hx : 0 < x) (h : s ^ 2 = x ^ 2 - (2 * r) ^ 2) :
    -2 * (4 * r ^ 2 * ((1 * s + x * (x / s) - (2 * r) ^ 2 * ((1 + x / s) / (x + s))) / 2)
    - (3 + 3 * r ^ 2) * (((3 : ℕ) * s ^ (3 - 1) * (x / s)) / 3)
    + 2 * ((1 * s ^ 3 + x * ((3 : ℕ) * s ^ (3 - 1) * (x / s))) / 4 + (2 * r) ^ 2 / 8 *
      (1 * s + x * (x / s) - (2 * r) ^ 2 * ((1 + x / s) / (x + s)))))
     = -2 * s * (x * (x * 2 + (-3 - 3 * r ^ 2)) + 4 * r ^ 2) := by
  have h1 : (1 + x / s) / (x + s) = 1 / s := by
    have : x + s ≠ 0 := by positivity
    field_simp; ring
  rw [h1]
  push_cast
  have hx2 : x ^ 2 = s ^ 2 + 4 * r ^ 2 := by linarith
  have h2 : 1 * s + x * (x / s) - (2 * r) ^ 2 * (1 / s) = 2 * s := by
    field_simp
    nlinarith
  rw [h2]
  have h3 : (3 : ℝ) * s ^ (3 - 1) * (x / s) = 3 * s * x := by
    field_simp
  rw [h3]
  have h4 : (1 * s ^ 3 + x * (3 * s * x)) / 4 = s * x ^ 2 - r ^ 2 * s := by
    have : s ^ 3 = s * (x ^ 2 - 4 * r ^ 2) := by rw [pow_succ, h]; ring
    rw [this]; ring
  rw [h4]
  ring

theorem hasDerivAt_restPrim {x : ℝ} (h : 2 * rr < x) :
    HasDerivAt restPrim
      (-2 * hyp (2 * rr) x * (x * (x * 2 + (-3 - 3 * rr ^ 2)) + 4 * rr ^ 2)) x := by
  have hr := rr_pos
  have ha : 0 < 2 * rr := by positivity
  have hx : 0 < x := ha.trans h
  have hs := hyp_pos ha h
  have hd := hasDerivAt_hyp ha h
  have hid : HasDerivAt (fun y : ℝ => y) 1 x := hasDerivAt_id x
  have hxs : HasDerivAt (fun y => y * hyp (2 * rr) y)
      (1 * hyp (2 * rr) x + x * (x / hyp (2 * rr) x)) x := hid.mul hd
  have hl : HasDerivAt (fun y => Real.log (y + hyp (2 * rr) y))
      ((1 + x / hyp (2 * rr) x) / (x + hyp (2 * rr) x)) x :=
    (hid.add hd).log (by simp only [Pi.add_apply]; positivity)
  have h3 : HasDerivAt (fun y => hyp (2 * rr) y ^ 3)
      ((3 : ℕ) * hyp (2 * rr) x ^ (3 - 1) * (x / hyp (2 * rr) x)) x := hd.pow 3
  have hc : HasDerivAt (fun y => y * hyp (2 * rr) y ^ 3)
      (1 * hyp (2 * rr) x ^ 3 + x * ((3 : ℕ) * hyp (2 * rr) x ^ (3 - 1) * (x / hyp (2 * rr) x))) x :=
    hid.mul h3
  have hA := hxs.sub (hl.const_mul ((2 * rr) ^ 2))
  have H := ((((hA.div_const 2).const_mul (4 * rr ^ 2)).sub
    ((h3.div_const 3).const_mul (3 + 3 * rr ^ 2))).add
      (((hc.div_const 4).add (hA.const_mul ((2 * rr) ^ 2 / 8))).const_mul 2)).const_mul (-2)
  rw [← restPrim_deriv_alg x _ rr hs hx (hyp_sq ha h.le)]
  exact H

theorem continuous_hyp (a : ℝ) : Continuous (hyp a) := by unfold hyp; fun_prop

theorem continuousOn_restPrim : ContinuousOn restPrim (Set.Icc (2 * rr) (1 + rr ^ 2)) := by
  have hr := rr_pos
  have hl : ContinuousOn (fun x => Real.log (x + hyp (2 * rr) x)) (Set.Icc (2 * rr) (1 + rr ^ 2)) := by
    refine ContinuousOn.log (continuous_id.add (continuous_hyp _)).continuousOn ?_
    intro x hx
    have h1 : 0 < x := by linarith [hx.1]
    have h2 : 0 ≤ hyp (2 * rr) x := Real.sqrt_nonneg _
    positivity
  have hh := (continuous_hyp (2 * rr)).continuousOn (s := Set.Icc (2 * rr) (1 + rr ^ 2))
  unfold restPrim
  fun_prop

theorem rest_lt : 2 * rr < 1 + rr ^ 2 := by nlinarith [rr_small, rr_pos, sq_nonneg rr]

theorem integral_rest_poly :
    ∫ x in (2 * rr)..(1 + rr ^ 2),
      (-2 * hyp (2 * rr) x * (x * (x * 2 + (-3 - 3 * rr ^ 2)) + 4 * rr ^ 2)) = michel := by
  have hr := rr_pos
  have hsm := rr_small
  rw [intervalIntegral.integral_eq_sub_of_hasDerivAt_of_le rest_lt.le continuousOn_restPrim
    (fun x hx => hasDerivAt_restPrim hx.1)]
  · have h1 : hyp (2 * rr) (1 + rr ^ 2) = 1 - rr ^ 2 := by
      unfold hyp
      rw [show (1 + rr ^ 2) ^ 2 - (2 * rr) ^ 2 = (1 - rr ^ 2) ^ 2 by ring]
      exact Real.sqrt_sq (by nlinarith)
    have h2 : hyp (2 * rr) (2 * rr) = 0 := by unfold hyp; simp
    have h3 : Real.log (2 * rr) = Real.log 2 + Real.log rr := Real.log_mul (by norm_num) hr.ne'
    have h4 : Real.log (rr ^ 2) = 2 * Real.log rr := by rw [Real.log_pow]; norm_num
    unfold restPrim michel
    rw [h1, h2, show (1 + rr ^ 2 + (1 - rr ^ 2)) = 2 by ring, add_zero, h3, h4]
    ring
  · have := continuous_hyp (2 * rr)
    exact (Continuous.intervalIntegrable (by fun_prop) _ _)

theorem positronRestE_eq {e : ℝ} (h1 : massE < e) (h2 : e < massMu / 2 * (1 + rr ^ 2)) :
    positronRestE e = 2 / massMu / rFactor * (-2 * hyp (2 * rr) (2 / massMu * e) *
      ((2 / massMu * e) * ((2 / massMu * e) * 2 + (-3 - 3 * rr ^ 2)) + 4 * rr ^ 2)) := by
  have hm := massMu_pos
  have h2r : 2 * rr = 2 / massMu * massE := by rw [massE_eq]; field_simp
  unfold positronRestE positronMuonRest
  rw [if_neg]
  · have : hyp (2 * rr) (2 / massMu * e)
        = Real.sqrt ((2 / massMu * e) * (2 / massMu * e) - 4 * rr ^ 2) := by
      unfold hyp; congr 1; ring
    simp only [this]
    ring
  · push Not
    constructor
    · rw [h2r]; exact mul_lt_mul_of_pos_left h1 (by positivity)
    · calc 2 / massMu * e < 2 / massMu * (massMu / 2 * (1 + rr ^ 2)) :=
          mul_lt_mul_of_pos_left h2 (by positivity)
        _ = _ := by field_simp

theorem emax_mu : massE ≤ massMu / 2 * (1 + rr ^ 2) := by
  rw [massE_eq]; nlinarith [rest_lt, massMu_pos]

theorem positronRestE_zero' {e : ℝ} (h : e ≤ massE ∨ massMu / 2 * (1 + rr ^ 2) ≤ e) :
    positronRestE e = 0 := by
  have hm := massMu_pos
  refine positronRestE_zero (h.imp_right fun h => ?_)
  calc 1 + rr ^ 2 = 2 / massMu * (massMu / 2 * (1 + rr ^ 2)) := by field_simp
    _ ≤ _ := by gcongr

theorem positronRestE_integrable : Integrable positronRestE := by
  have := continuous_hyp (2 * rr)
  refine supported_integrable (g := fun e => 2 / massMu / rFactor * (-2 * hyp (2 * rr) (2 / massMu * e) *
      ((2 / massMu * e) * ((2 / massMu * e) * 2 + (-3 - 3 * rr ^ 2)) + 4 * rr ^ 2)))
    (a := massE) (b := massMu / 2 * (1 + rr ^ 2)) ?_ (fun x h1 h2 => positronRestE_eq h1 h2)
    (fun x h => positronRestE_zero' h)
  fun_prop

theorem positron_rest_total : ∫ e in Set.Ioi massE, positronRestE e = michel / rFactor := by
  have hm := massMu_pos
  rw [supported_integral (a := massE) le_rfl emax_mu (fun x h1 h2 => positronRestE_eq h1 h2)
    (fun x h => positronRestE_zero' h), intervalIntegral.integral_const_mul]
  have := intervalIntegral.integral_comp_mul_left (a := massE) (b := massMu / 2 * (1 + rr ^ 2))
    (fun x => -2 * hyp (2 * rr) x * (x * (x * 2 + (-3 - 3 * rr ^ 2)) + 4 * rr ^ 2))
    (c := 2 / massMu) (by positivity)
  rw [this, show 2 / massMu * massE = 2 * rr by rw [massE_eq]; field_simp,
    show 2 / massMu * (massMu / 2 * (1 + rr ^ 2)) = 1 + rr ^ 2 by field_simp, integral_rest_poly]
  have := rFactor_pos
  simp only [smul_eq_mul]
  field_simp

theorem dndePositronMuon_rest {e emu : ℝ} (h1 : massMu ≤ emu) (h2 : emu - massMu < f64eps) :
    dndePositronMuon e emu = positronRestE e := by
  unfold dndePositronMuon
  by_cases he : e ≤ massE
  · rw [if_pos (Or.inr he), positronRestE_zero (Or.inl he)]
  · rw [if_neg (by push Not; exact ⟨h1, not_le.mp he⟩), if_pos h2]; rfl

/-- Total number of positrons per muon, at rest or in flight: `michel / R_FACTOR`. -/
theorem positron_muon_total (emu : ℝ) (h : massMu ≤ emu) :
    ∫ e in Set.Ioi massE, dndePositronMuon e emu = michel / rFactor := by
  by_cases hr : emu - massMu < f64eps
  · rw [← positron_rest_total]
    exact setIntegral_congr_fun measurableSet_Ioi fun e _ => dndePositronMuon_rest h hr
  · push Not at hr
    have hlt : massMu < emu := by linarith [eps_pos]
    obtain ⟨hb0, hb1, -, -⟩ := parent_boost massMu_pos hlt
    rw [← positron_rest_total, ← boost_conserves_number positronRestE massE _ hb0 hb1 massE_pos.le
      positronRestE_integrable.integrableOn]
    exact setIntegral_congr_fun measurableSet_Ioi fun e he => positron_muon_is_boost e emu he hr

theorem michel_bounds : 0.999812947 < michel ∧ michel < 0.999812954 ∧
    |michel * rFactor - 1| < 1e-8 := by
  have hl : Real.log (rr ^ 2) = -Real.log (1 / rr ^ 2) := by rw [one_div, Real.log_inv, neg_neg]
  have h15 : (15 : ℝ) * Real.log 2 ≤ Real.log (1 / rr ^ 2) := by
    have : (15 : ℝ) * Real.log 2 = Real.log (2 ^ 15) := by rw [Real.log_pow]; norm_num
    rw [this]
    exact Real.log_le_log (by norm_num) (by unfold rr massE massMu; norm_num)
  have h16 : Real.log (1 / rr ^ 2) ≤ (16 : ℝ) * Real.log 2 := by
    have : (16 : ℝ) * Real.log 2 = Real.log (2 ^ 16) := by rw [Real.log_pow]; norm_num
    rw [this]
    exact Real.log_le_log (by unfold rr massE massMu; norm_num) (by unfold rr massE massMu; norm_num)
  have l1 := Real.log_two_gt_d9
  have l2 := Real.log_two_lt_d9
  unfold michel
  rw [hl]
  obtain ⟨L, hL⟩ : ∃ L, L = Real.log (1 / rr ^ 2) := ⟨_, rfl⟩
  rw [← hL] at h15 h16 ⊢
  have hL1 : (10.39 : ℝ) < L := by linarith
  have hL2 : L < (11.1 : ℝ) := by linarith
  have hr4 : 0 < rr ^ 4 := by have := rr_pos; positivity
  have e4 : rr ^ 4 * 10.39 < rr ^ 4 * L := by nlinarith
  have e5 : rr ^ 4 * L < rr ^ 4 * 11.1 := by nlinarith
  have hlow : 0.999812947 < 1 - 8 * rr ^ 2 + 8 * rr ^ 6 - rr ^ 8 + 12 * (rr ^ 4 * 10.39) := by
    unfold rr massE massMu; norm_num
  have hhigh : 1 - 8 * rr ^ 2 + 8 * rr ^ 6 - rr ^ 8 + 12 * (rr ^ 4 * 11.1) < 0.999812954 := by
    unfold rr massE massMu; norm_num
  have hm1 : 0.999812947 < 1 - 8 * rr ^ 2 + 8 * rr ^ 6 - rr ^ 8 - 12 * rr ^ 4 * -L := by linarith
  have hm2 : 1 - 8 * rr ^ 2 + 8 * rr ^ 6 - rr ^ 8 - 12 * rr ^ 4 * -L < 0.999812954 := by linarith
  refine ⟨hm1, hm2, ?_⟩
  rw [abs_lt]
  unfold rFactor
  constructor <;> nlinarith

/-- C30 (false as stated): the positron spectrum carries `michel / R_FACTOR` positrons per muon,
short of one by between 3.7e-4 and 3.8e-4, at every muon energy. -/
theorem positron_muon_not_normalised (emu : ℝ) (h : massMu ≤ emu) :
    3.7e-4 < 1 - ∫ e in Set.Ioi massE, dndePositronMuon e emu
      ∧ 1 - ∫ e in Set.Ioi massE, dndePositronMuon e emu < 3.8e-4 := by
  rw [positron_muon_total emu h]
  obtain ⟨h1, h2, -⟩ := michel_bounds
  have h3 : michel / rFactor < 1 - 3.7e-4 := by
    rw [div_lt_iff₀ rFactor_pos]; refine h2.trans ?_; unfold rFactor; norm_num
  have h4 : 1 - 3.8e-4 < michel / rFactor := by
    rw [lt_div_iff₀ rFactor_pos]; refine lt_trans ?_ h1; unfold rFactor; norm_num
  constructor <;> linarith

/-- Multiplying by the constant instead of dividing gives one positron to 1e-8. -/
theorem positron_muon_normalised_partial (emu : ℝ) (h : massMu ≤ emu) :
    |rFactor ^ 2 * (∫ e in Set.Ioi massE, dndePositronMuon e emu) - 1| < 1e-8 := by
  rw [positron_muon_total emu h]
  have := rFactor_pos
  rw [show rFactor ^ 2 * (michel / rFactor) = michel * rFactor by field_simp]
  exact michel_bounds.2.2

/-! ### Neutrinos -/

/-- Electron-neutrino spectrum of a muon at rest. -/
noncomputable def nueRest (e : ℝ) : ℝ := (neutrinoMuonRest e).electron
/-- Muon-neutrino spectrum of a muon at rest. -/
noncomputable def numuRest (e : ℝ) : ℝ := (neutrinoMuonRest e).muon

theorem nu_rest_eq {e : ℝ} (h1 : 0 < e) (h2 : 2 / massMu * e < 1 - rr ^ 2) :
    nueRest e = 2 / massMu * rFactor * (12 * (2 / massMu * e) ^ 2 * (1 - rr ^ 2 - 2 / massMu * e) ^ 2
        / (1 - 2 / massMu * e))
    ∧ numuRest e = 2 / massMu * rFactor * (2 * (2 / massMu * e) ^ 2 * (1 - rr ^ 2 - 2 / massMu * e) ^ 2
        * (3 + rr ^ 2 * (3 - 2 / massMu * e) - 5 * (2 / massMu * e) + 2 * (2 / massMu * e) ^ 2)
        / (1 - 2 / massMu * e) ^ 3) := by
  have hm := massMu_pos
  have hx : 0 < 2 / massMu * e := by positivity
  have hr := rr_pos
  unfold nueRest numuRest neutrinoMuonRest
  simp only
  rw [if_neg (by push Not; exact ⟨hx, h2⟩)]
  have h3 : 1 - 2 / massMu * e ≠ 0 := by nlinarith [sq_nonneg rr]
  constructor
  · simp only; ring
  · simp only; field_simp; ring

theorem nu_rest_zero {e : ℝ} (h : e ≤ 0 ∨ 1 - rr ^ 2 ≤ 2 / massMu * e) :
    nueRest e = 0 ∧ numuRest e = 0 := by
  have hm := massMu_pos
  unfold nueRest numuRest neutrinoMuonRest
  simp only
  rw [if_pos]
  · exact ⟨rfl, rfl⟩
  · rcases h with h | h
    · left; exact mul_nonpos_of_nonneg_of_nonpos (by positivity) h
    · right; exact h

/-- Antiderivatives of the closed forms in flight. -/
noncomputable def nuePrim (x : ℝ) : ℝ :=
  3 * x ^ 2 - 2 * x ^ 3 - 6 * rr ^ 4 * x - 6 * rr ^ 2 * x ^ 2 - 6 * rr ^ 4 * Real.log (1 - x)
noncomputable def numuPrim (x : ℝ) : ℝ :=
  -3 * rr ^ 2 * x ^ 2 + 3 * x ^ 2 - 4 / 3 * x ^ 3 + 2 * rr ^ 6 * (x / (1 - x) ^ 2)
    - 6 * rr ^ 4 * (1 - x)⁻¹ + 2 * rr ^ 4 * (-3 + rr ^ 2) * Real.log (1 - x)

theorem hasDerivAt_sub {x : ℝ} : HasDerivAt (fun y : ℝ => 1 - y) (-1) x :=
  (hasDerivAt_id x).const_sub 1

theorem hasDerivAt_log_one_sub {x : ℝ} (h : x < 1) :
    HasDerivAt (fun y : ℝ => Real.log (1 - y)) (-1 / (1 - x)) x :=
  hasDerivAt_sub.log (by linarith)

theorem hasDerivAt_nuePrim {x : ℝ} (h : x < 1) :
    HasDerivAt nuePrim (6 * x * (1 - rr ^ 2 - x) ^ 2 / (1 - x)) x := by
  have H : HasDerivAt nuePrim (3 * ((2 : ℕ) * x ^ (2 - 1)) - 2 * ((3 : ℕ) * x ^ (3 - 1))
      - 6 * rr ^ 4 * 1 - 6 * rr ^ 2 * ((2 : ℕ) * x ^ (2 - 1)) - 6 * rr ^ 4 * (-1 / (1 - x))) x :=
    (((((hasDerivAt_pow 2 x).const_mul 3).sub ((hasDerivAt_pow 3 x).const_mul 2)).sub
      ((hasDerivAt_id x).const_mul (6 * rr ^ 4))).sub
      ((hasDerivAt_pow 2 x).const_mul (6 * rr ^ 2))).sub
      ((hasDerivAt_log_one_sub h).const_mul (6 * rr ^ 4))
  have e : 6 * x * (1 - rr ^ 2 - x) ^ 2 / (1 - x) = 3 * ((2 : ℕ) * x ^ (2 - 1)) - 2 * ((3 : ℕ) * x ^ (3 - 1))
      - 6 * rr ^ 4 * 1 - 6 * rr ^ 2 * ((2 : ℕ) * x ^ (2 - 1)) - 6 * rr ^ 4 * (-1 / (1 - x)) := by
    have : 1 - x ≠ 0 := by linarith
    push_cast
    field_simp
    ring
  rw [e]; exact H

theorem hasDerivAt_numuPrim {x : ℝ} (h : x < 1) :
    HasDerivAt numuPrim (2 * x * (1 - rr ^ 2 - x) ^ 2 *
      (3 + rr ^ 2 * (3 - x) - 5 * x + 2 * x ^ 2) / (1 - x) ^ 3) x := by
  have hne : 1 - x ≠ 0 := by linarith
  have hsq : HasDerivAt (fun y : ℝ => (1 - y) ^ 2) ((2 : ℕ) * (1 - x) ^ (2 - 1) * -1) x :=
    (hasDerivAt_sub (x := x)).pow 2
  have hq : HasDerivAt (fun y : ℝ => y / (1 - y) ^ 2)
      ((1 * (1 - x) ^ 2 - x * ((2 : ℕ) * (1 - x) ^ (2 - 1) * -1)) / ((1 - x) ^ 2) ^ 2) x :=
    (hasDerivAt_id x).div hsq (pow_ne_zero 2 hne)
  have hi : HasDerivAt (fun y : ℝ => (1 - y)⁻¹) (-(-1) / (1 - x) ^ 2) x :=
    (hasDerivAt_sub (x := x)).inv hne
  have H : HasDerivAt numuPrim (-3 * rr ^ 2 * ((2 : ℕ) * x ^ (2 - 1)) + 3 * ((2 : ℕ) * x ^ (2 - 1))
      - 4 / 3 * ((3 : ℕ) * x ^ (3 - 1)) + 2 * rr ^ 6 * ((1 * (1 - x) ^ 2 - x * ((2 : ℕ) * (1 - x) ^ (2 - 1) * -1)) / ((1 - x) ^ 2) ^ 2)
      - 6 * rr ^ 4 * (-(-1) / (1 - x) ^ 2) + 2 * rr ^ 4 * (-3 + rr ^ 2) * (-1 / (1 - x))) x :=
    ((((((hasDerivAt_pow 2 x).const_mul (-3 * rr ^ 2)).add ((hasDerivAt_pow 2 x).const_mul 3)).sub
      ((hasDerivAt_pow 3 x).const_mul (4 / 3))).add (hq.const_mul (2 * rr ^ 6))).sub
      (hi.const_mul (6 * rr ^ 4))).add ((hasDerivAt_log_one_sub h).const_mul _)
  have e : 2 * x * (1 - rr ^ 2 - x) ^ 2 *
      (3 + rr ^ 2 * (3 - x) - 5 * x + 2 * x ^ 2) / (1 - x) ^ 3 = -3 * rr ^ 2 * ((2 : ℕ) * x ^ (2 - 1)) + 3 * ((2 : ℕ) * x ^ (2 - 1))
      - 4 / 3 * ((3 : ℕ) * x ^ (3 - 1)) + 2 * rr ^ 6 * ((1 * (1 - x) ^ 2 - x * ((2 : ℕ) * (1 - x) ^ (2 - 1) * -1)) / ((1 - x) ^ 2) ^ 2)
      - 6 * rr ^ 4 * (-(-1) / (1 - x) ^ 2) + 2 * rr ^ 4 * (-3 + rr ^ 2) * (-1 / (1 - x)) := by
    push_cast
    field_simp
    ring
  rw [e]; exact H

/-- Integral of a rescaled derivative. -/
theorem integral_scaled {P p : ℝ → ℝ} {c a b u : ℝ} (hc : 0 < c) (hab : a ≤ b) (hb : c * b < u)
    (hP : ∀ x, x < u → HasDerivAt P (p x) x) (hp : ContinuousOn p (Set.Iio u)) :
    ∫ e in a..b, p (c * e) = (P (c * b) - P (c * a)) / c := by
  have hmem : ∀ e ∈ Set.uIcc a b, c * e < u := by
    intro e he
    rw [Set.uIcc_of_le hab] at he
    exact lt_of_le_of_lt (mul_le_mul_of_nonneg_left he.2 hc.le) hb
  have hd : ∀ e ∈ Set.uIcc a b, HasDerivAt (fun e => P (c * e) / c) (p (c * e)) e := by
    intro e he
    have h := ((hP (c * e) (hmem e he)).comp e ((hasDerivAt_id e).const_mul c)).div_const c
    have e1 : p (c * e) = p (c * e) * (c * 1) / c := by field_simp
    rw [e1]; exact h
  rw [intervalIntegral.integral_eq_sub_of_hasDerivAt hd]
  · ring
  · refine ContinuousOn.intervalIntegrable ?_
    exact hp.comp (by fun_prop) hmem

theorem nu_window {emu enu : ℝ} (h : massMu < emu) (he : 0 < enu) :
    momentum enu 0 = enu ∧
    lorentz (boostBeta emu massMu) * (enu - boostBeta emu massMu * enu)
      = massMu / 2 * (emu / massMu * (emu / massMu) * (2 / emu * enu) * (1 - boostBeta emu massMu)) ∧
    lorentz (boostBeta emu massMu) * (enu + boostBeta emu massMu * enu)
      = massMu / 2 * (emu / massMu * (emu / massMu) * (2 / emu * enu) * (boostBeta emu massMu + 1)) := by
  have hm := massMu_pos
  obtain ⟨hb0, hb1, hg, -⟩ := parent_boost hm h
  have hemu : 0 < emu := hm.trans h
  refine ⟨?_, ?_, ?_⟩
  · unfold momentum; rw [show enu ^ 2 - 0 ^ 2 = enu ^ 2 by ring]; exact Real.sqrt_sq he.le
  · rw [hg]; field_simp
  · rw [hg]; field_simp; ring

theorem boostBeta_eq (emu : ℝ) :
    Real.sqrt (1 - massMu / emu * (massMu / emu)) = boostBeta emu massMu := rfl

/-- C31, in flight: both rows of the closed form are the boosts of the rest-frame rows, and the
tau row vanishes. -/
theorem neutrino_muon_is_boost (enu emu : ℝ) (he : 0 < enu) (hemu : f64eps ≤ emu - massMu) :
    (dndeNeutrinoMuon enu emu).electron = boosted nueRest 0 (boostBeta emu massMu) enu
    ∧ (dndeNeutrinoMuon enu emu).muon = boosted numuRest 0 (boostBeta emu massMu) enu
    ∧ (dndeNeutrinoMuon enu emu).tau = 0 := by
  have hep := eps_pos
  have hm := massMu_pos
  have hR := rFactor_pos
  have hr := rr_pos
  have hrs := rr_small
  have hme : massMu < emu := by linarith
  have hemup : 0 < emu := hm.trans hme
  obtain ⟨hb0, hb1, hg, hb⟩ := parent_boost hm hme
  obtain ⟨hk, hlo, hhi⟩ := nu_window hme he
  have hgp := lorentz_pos hb0 hb1
  unfold boosted
  rw [hk, hlo, hhi]
  unfold dndeNeutrinoMuon
  rw [if_neg (by linarith), if_neg (by linarith)]
  simp only [boostBeta_eq]
  obtain ⟨beta, hbeta⟩ : ∃ b, b = boostBeta emu massMu := ⟨_, rfl⟩
  obtain ⟨g, hgdef⟩ : ∃ g, g = lorentz beta := ⟨_, rfl⟩
  simp only [← hbeta, ← hgdef] at hb0 hb1 hg hb hgp ⊢
  have hb' : (emu / massMu * (emu / massMu)) * (1 - beta) * (1 + beta) = 1 := by
    have : (1 - beta) * (1 + beta) = (massMu / emu) ^ 2 := by nlinarith
    rw [mul_assoc, this]; field_simp
  obtain ⟨G, hG⟩ : ∃ G, G = emu / massMu * (emu / massMu) := ⟨_, rfl⟩
  have hGp : 0 < G := by rw [hG]; positivity
  rw [← hG] at hb' ⊢
  obtain ⟨x, hx⟩ : ∃ x, x = 2 / emu * enu := ⟨_, rfl⟩
  have hxp : 0 < x := by rw [hx]; positivity
  rw [← hx]
  obtain ⟨xm, hxm⟩ : ∃ y, y = G * x * (1 - beta) := ⟨_, rfl⟩
  obtain ⟨xq, hxq⟩ : ∃ y, y = G * x * (beta + 1) := ⟨_, rfl⟩
  rw [← hxm, ← hxq]
  have hxm0 : 0 < xm := by rw [hxm]; have : 0 < 1 - beta := by linarith
                           positivity
  have hxmq : xm < xq := by
    rw [hxm, hxq]; exact mul_lt_mul_of_pos_left (by linarith) (by positivity)
  have hcond : (beta + 1) * (1 - rr ^ 2) ≤ x ↔ 1 - rr ^ 2 ≤ xm := by
    have h1 : xm * (beta + 1) = x := by
      rw [hxm]; calc _ = x * (G * (1 - beta) * (1 + beta)) := by ring
        _ = x := by rw [hb', mul_one]
    rw [← h1, mul_comm]
    exact mul_le_mul_iff_of_pos_right (by linarith)
  have hzero : ∀ y, (y < 0 ∨ massMu / 2 * (1 - rr ^ 2) < y) → nueRest y = 0 ∧ numuRest y = 0 := by
    intro y hy
    apply nu_rest_zero
    rcases hy with hy | hy
    · left; exact hy.le
    · right
      calc 1 - rr ^ 2 = 2 / massMu * (massMu / 2 * (1 - rr ^ 2)) := by field_simp
        _ ≤ _ := by gcongr
  have hab : massMu / 2 * xm ≤ massMu / 2 * xq := by gcongr
  have hmax : max (massMu / 2 * xm) 0 = massMu / 2 * xm := max_eq_left (by positivity)
  have hmin : min (massMu / 2 * xq) (massMu / 2 * (1 - rr ^ 2)) = massMu / 2 * min xq (1 - rr ^ 2) := by
    rw [mul_min_of_nonneg _ _ (by positivity)]
  rw [integral_clip (lo := 0) (hi := massMu / 2 * (1 - rr ^ 2)) hab
      (fun y hy => by rw [(hzero y hy).1, zero_div]),
    integral_clip (lo := 0) (hi := massMu / 2 * (1 - rr ^ 2)) hab
      (fun y hy => by rw [(hzero y hy).2, zero_div]), hmax, hmin]
  obtain ⟨xp, hxpd⟩ : ∃ y, y = min xq (1 - rr ^ 2) := ⟨_, rfl⟩
  rw [← hxpd]
  by_cases hc : 1 - rr ^ 2 ≤ xm
  · rw [if_pos (Or.inr (hcond.mpr hc))]
    have hle : xp ≤ xm := by rw [hxpd]; exact (min_le_right _ _).trans hc
    refine ⟨?_, ?_, rfl⟩ <;>
    · split_ifs with h
      · have : massMu / 2 * xm = massMu / 2 * xp := le_antisymm h (by gcongr)
        rw [this, intervalIntegral.integral_same]; rfl
      · rfl
  · rw [if_neg (by push Not; exact ⟨hxp, not_le.mp (fun h => hc (hcond.mp h))⟩)]
    push Not at hc
    have hlt : xm < xp := by rw [hxpd]; exact lt_min hxmq hc
    have hple : xp ≤ 1 - rr ^ 2 := by rw [hxpd]; exact min_le_right _ _
    have hp1 : xp < 1 := by nlinarith [sq_pos_of_pos hr]
    have hle : massMu / 2 * xm ≤ massMu / 2 * xp := by gcongr
    rw [if_pos hle, if_pos hle]
    have hc2 : (2 : ℝ) / massMu * (massMu / 2 * xp) = xp := by field_simp
    have hc1 : (2 : ℝ) / massMu * (massMu / 2 * xm) = xm := by field_simp
    have hin : ∀ y, massMu / 2 * xm < y → y < massMu / 2 * xp →
        0 < y ∧ 2 / massMu * y < 1 - rr ^ 2 ∧ 0 < 1 - 2 / massMu * y := by
      intro y h1 h2
      have hy : 2 / massMu * y < xp := by
        calc 2 / massMu * y < 2 / massMu * (massMu / 2 * xp) :=
              mul_lt_mul_of_pos_left h2 (by positivity)
          _ = xp := hc2
      refine ⟨lt_trans (by positivity) h1, by linarith, by linarith⟩
    have hlog : Real.log ((1 - xp) / (1 - xm)) = Real.log (1 - xp) - Real.log (1 - xm) :=
      Real.log_div (by linarith) (by linarith)
    have hmomy : ∀ y : ℝ, 0 < y → momentum y 0 = y := by
      intro y hy; unfold momentum; rw [show y ^ 2 - 0 ^ 2 = y ^ 2 by ring]; exact Real.sqrt_sq hy.le
    have hemu0 : emu = g * massMu := by rw [hg]; field_simp
    have hxp1 : 1 - xp ≠ 0 := by linarith
    have hxm1 : 1 - xm ≠ 0 := by linarith
    refine ⟨?_, ?_, rfl⟩
    · rw [integral_congr_Ioo (g := fun e' => (2 / massMu) ^ 2 * rFactor / (2 * g * beta) * 2 *
        (6 * (2 / massMu * e') * (1 - rr ^ 2 - 2 / massMu * e') ^ 2 / (1 - 2 / massMu * e'))) hle]
      · rw [intervalIntegral.integral_const_mul, integral_scaled (u := 1) (by positivity) hle
          (by rw [hc2]; exact hp1) (fun x h => hasDerivAt_nuePrim h), hc1, hc2]
        · unfold nuePrim
          simp only [hlog]
          rw [hemu0]
          field_simp
          ring
        · intro y hy
          have : 1 - y ≠ 0 := by have : y < 1 := hy; linarith
          exact ContinuousAt.continuousWithinAt (by fun_prop (disch := assumption))
      · intro y h1 h2
        obtain ⟨hy0, hy1, hy2⟩ := hin y h1 h2
        rw [hmomy y hy0, (nu_rest_eq hy0 hy1).1]
        field_simp
        ring
    · rw [integral_congr_Ioo (g := fun e' => (2 / massMu) ^ 2 * rFactor / (2 * g * beta) *
        (2 * (2 / massMu * e') * (1 - rr ^ 2 - 2 / massMu * e') ^ 2 *
          (3 + rr ^ 2 * (3 - 2 / massMu * e') - 5 * (2 / massMu * e') + 2 * (2 / massMu * e') ^ 2)
           / (1 - 2 / massMu * e') ^ 3)) hle]
      · rw [intervalIntegral.integral_const_mul, integral_scaled (u := 1) (by positivity) hle
          (by rw [hc2]; exact hp1) (fun x h => hasDerivAt_numuPrim h), hc1, hc2]
        · unfold numuPrim
          simp only [hlog]
          rw [hemu0]
          field_simp
          ring
        · intro y hy
          have : (1 - y) ^ 3 ≠ 0 := by have : y < 1 := hy; exact pow_ne_zero 3 (by linarith)
          exact ContinuousAt.continuousWithinAt (by fun_prop (disch := assumption))
      · intro y h1 h2
        obtain ⟨hy0, hy1, hy2⟩ := hin y h1 h2
        rw [hmomy y hy0, (nu_rest_eq hy0 hy1).2]
        field_simp

/-! ### Numbers of neutrinos -/

/-- Antiderivatives of the rest-frame rows. -/
noncomputable def nueRestPrim (x : ℝ) : ℝ :=
  4 * x ^ 3 - 3 * x ^ 4 - 8 * rr ^ 2 * x ^ 3 - 6 * rr ^ 4 * x ^ 2 - 12 * rr ^ 4 * x
    - 12 * rr ^ 4 * Real.log (1 - x)
noncomputable def numuRestPrim (x : ℝ) : ℝ :=
  2 * (1 - rr ^ 2) * x ^ 3 - x ^ 4 + 2 * (rr ^ 6 - 3 * rr ^ 4) * x
    + (2 * (rr ^ 6 - 3 * rr ^ 4) - 8 * rr ^ 6) * (1 - x)⁻¹
    + 2 * rr ^ 6 * ((1 - x) ^ 2)⁻¹ - 12 * rr ^ 4 * Real.log (1 - x)

theorem hasDerivAt_nueRestPrim {x : ℝ} (h : x < 1) :
    HasDerivAt nueRestPrim (12 * x ^ 2 * (1 - rr ^ 2 - x) ^ 2 / (1 - x)) x := by
  have H : HasDerivAt nueRestPrim (4 * ((3 : ℕ) * x ^ (3 - 1)) - 3 * ((4 : ℕ) * x ^ (4 - 1))
      - 8 * rr ^ 2 * ((3 : ℕ) * x ^ (3 - 1)) - 6 * rr ^ 4 * ((2 : ℕ) * x ^ (2 - 1))
      - 12 * rr ^ 4 * 1 - 12 * rr ^ 4 * (-1 / (1 - x))) x :=
    ((((((hasDerivAt_pow 3 x).const_mul 4).sub ((hasDerivAt_pow 4 x).const_mul 3)).sub
      ((hasDerivAt_pow 3 x).const_mul (8 * rr ^ 2))).sub
      ((hasDerivAt_pow 2 x).const_mul (6 * rr ^ 4))).sub
      ((hasDerivAt_id x).const_mul (12 * rr ^ 4))).sub
      ((hasDerivAt_log_one_sub h).const_mul (12 * rr ^ 4))
  have e : 12 * x ^ 2 * (1 - rr ^ 2 - x) ^ 2 / (1 - x) = 4 * ((3 : ℕ) * x ^ (3 - 1)) - 3 * ((4 : ℕ) * x ^ (4 - 1))
      - 8 * rr ^ 2 * ((3 : ℕ) * x ^ (3 - 1)) - 6 * rr ^ 4 * ((2 : ℕ) * x ^ (2 - 1))
      - 12 * rr ^ 4 * 1 - 12 * rr ^ 4 * (-1 / (1 - x)) := by
    have : 1 - x ≠ 0 := by linarith
    push_cast
    field_simp
    ring
  rw [e]; exact H

theorem hasDerivAt_numuRestPrim {x : ℝ} (h : x < 1) :
    HasDerivAt numuRestPrim (2 * x ^ 2 * (1 - rr ^ 2 - x) ^ 2 *
      (3 + rr ^ 2 * (3 - x) - 5 * x + 2 * x ^ 2) / (1 - x) ^ 3) x := by
  have hne : 1 - x ≠ 0 := by linarith
  have hsq : HasDerivAt (fun y : ℝ => (1 - y) ^ 2) ((2 : ℕ) * (1 - x) ^ (2 - 1) * -1) x :=
    (hasDerivAt_sub (x := x)).pow 2
  have hi : HasDerivAt (fun y : ℝ => (1 - y)⁻¹) (-(-1) / (1 - x) ^ 2) x :=
    (hasDerivAt_sub (x := x)).inv hne
  have hi2 : HasDerivAt (fun y : ℝ => ((1 - y) ^ 2)⁻¹)
      (-((2 : ℕ) * (1 - x) ^ (2 - 1) * -1) / ((1 - x) ^ 2) ^ 2) x := hsq.inv (pow_ne_zero 2 hne)
  have H : HasDerivAt numuRestPrim (2 * (1 - rr ^ 2) * ((3 : ℕ) * x ^ (3 - 1)) - ((4 : ℕ) * x ^ (4 - 1))
      + 2 * (rr ^ 6 - 3 * rr ^ 4) * 1
      + (2 * (rr ^ 6 - 3 * rr ^ 4) - 8 * rr ^ 6) * (-(-1) / (1 - x) ^ 2)
      + 2 * rr ^ 6 * (-((2 : ℕ) * (1 - x) ^ (2 - 1) * -1) / ((1 - x) ^ 2) ^ 2)
      - 12 * rr ^ 4 * (-1 / (1 - x))) x :=
    ((((((hasDerivAt_pow 3 x).const_mul (2 * (1 - rr ^ 2))).sub (hasDerivAt_pow 4 x)).add
      ((hasDerivAt_id x).const_mul _)).add (hi.const_mul _)).add (hi2.const_mul _)).sub
      ((hasDerivAt_log_one_sub h).const_mul (12 * rr ^ 4))
  have e : 2 * x ^ 2 * (1 - rr ^ 2 - x) ^ 2 *
      (3 + rr ^ 2 * (3 - x) - 5 * x + 2 * x ^ 2) / (1 - x) ^ 3
      = 2 * (1 - rr ^ 2) * ((3 : ℕ) * x ^ (3 - 1)) - ((4 : ℕ) * x ^ (4 - 1))
      + 2 * (rr ^ 6 - 3 * rr ^ 4) * 1
      + (2 * (rr ^ 6 - 3 * rr ^ 4) - 8 * rr ^ 6) * (-(-1) / (1 - x) ^ 2)
      + 2 * rr ^ 6 * (-((2 : ℕ) * (1 - x) ^ (2 - 1) * -1) / ((1 - x) ^ 2) ^ 2)
      - 12 * rr ^ 4 * (-1 / (1 - x)) := by
    push_cast
    field_simp
    ring
  rw [e]; exact H

theorem nu_xmax : 2 / massMu * (massMu / 2 * (1 - rr ^ 2)) = 1 - rr ^ 2 := by
  have := massMu_pos
  field_simp

theorem nu_in {e : ℝ} (h2 : e < massMu / 2 * (1 - rr ^ 2)) : 2 / massMu * e < 1 - rr ^ 2 := by
  have := massMu_pos
  rw [← nu_xmax]; exact mul_lt_mul_of_pos_left h2 (by positivity)

theorem nu_out {e : ℝ} (h : e ≤ 0 ∨ massMu / 2 * (1 - rr ^ 2) ≤ e) :
    e ≤ 0 ∨ 1 - rr ^ 2 ≤ 2 / massMu * e := by
  have := massMu_pos
  refine h.imp_right fun h => ?_
  rw [← nu_xmax]; gcongr

theorem nu_xmax_lt : 1 - rr ^ 2 < 1 := by nlinarith [sq_pos_of_pos rr_pos]

theorem nu_xmax_pos : 0 ≤ massMu / 2 * (1 - rr ^ 2) := by
  have h := massMu_pos
  have h1 := rr_pos
  have h2 := rr_small
  have : 0 ≤ 1 - rr ^ 2 := by nlinarith
  positivity

theorem nu_rest_ne {e : ℝ} (h : e ∈ Set.Icc 0 (massMu / 2 * (1 - rr ^ 2))) :
    1 - 2 / massMu * e ≠ 0 := by
  have hm := massMu_pos
  have : 2 / massMu * e ≤ 1 - rr ^ 2 := by rw [← nu_xmax]; gcongr; exact h.2
  linarith [nu_xmax_lt]

theorem nueRest_integrable : Integrable nueRest := by
  refine supported_integrable (a := 0) (b := massMu / 2 * (1 - rr ^ 2)) ?_
    (fun x h1 h2 => (nu_rest_eq h1 (nu_in h2)).1) (fun x h => (nu_rest_zero (nu_out h)).1)
  intro e he
  have := nu_rest_ne he
  exact ContinuousAt.continuousWithinAt (by fun_prop (disch := assumption))

theorem numuRest_integrable : Integrable numuRest := by
  refine supported_integrable (a := 0) (b := massMu / 2 * (1 - rr ^ 2)) ?_
    (fun x h1 h2 => (nu_rest_eq h1 (nu_in h2)).2) (fun x h => (nu_rest_zero (nu_out h)).2)
  intro e he
  have := pow_ne_zero 3 (nu_rest_ne he)
  exact ContinuousAt.continuousWithinAt (by fun_prop (disch := assumption))

theorem nue_rest_total : ∫ e in Set.Ioi 0, nueRest e = michel * rFactor := by
  have hm := massMu_pos
  have hr := rr_pos
  rw [supported_integral le_rfl nu_xmax_pos (fun x h1 h2 => (nu_rest_eq h1 (nu_in h2)).1)
    (fun x h => (nu_rest_zero (nu_out h)).1), intervalIntegral.integral_const_mul,
    integral_scaled (p := fun x => 12 * x ^ 2 * (1 - rr ^ 2 - x) ^ 2 / (1 - x)) (u := 1)
      (by positivity) nu_xmax_pos (by rw [nu_xmax]; exact nu_xmax_lt)
      (fun x h => hasDerivAt_nueRestPrim h), nu_xmax]
  · unfold nueRestPrim michel
    rw [show 1 - (1 - rr ^ 2) = rr ^ 2 by ring]
    simp only [mul_zero, sub_zero, Real.log_one]
    field_simp
    ring
  · intro y hy
    have : 1 - y ≠ 0 := by have : y < 1 := hy; linarith
    exact ContinuousAt.continuousWithinAt (by fun_prop (disch := assumption))

theorem numu_rest_total : ∫ e in Set.Ioi 0, numuRest e = michel * rFactor := by
  have hm := massMu_pos
  have hr := rr_pos
  rw [supported_integral le_rfl nu_xmax_pos (fun x h1 h2 => (nu_rest_eq h1 (nu_in h2)).2)
    (fun x h => (nu_rest_zero (nu_out h)).2), intervalIntegral.integral_const_mul,
    integral_scaled (p := fun x => 2 * x ^ 2 * (1 - rr ^ 2 - x) ^ 2 *
      (3 + rr ^ 2 * (3 - x) - 5 * x + 2 * x ^ 2) / (1 - x) ^ 3) (u := 1)
      (by positivity) nu_xmax_pos (by rw [nu_xmax]; exact nu_xmax_lt)
      (fun x h => hasDerivAt_numuRestPrim h), nu_xmax]
  · unfold numuRestPrim michel
    rw [show 1 - (1 - rr ^ 2) = rr ^ 2 by ring]
    simp only [mul_zero, sub_zero, Real.log_one]
    field_simp
    ring
  · intro y hy
    have : (1 - y) ^ 3 ≠ 0 := by have : y < 1 := hy; exact pow_ne_zero 3 (by linarith)
    exact ContinuousAt.continuousWithinAt (by fun_prop (disch := assumption))

/-- C80: one electron neutrino and one muon neutrino per muon, to 1e-8, at every muon energy. -/
theorem neutrino_muon_numbers (emu : ℝ) (h : massMu ≤ emu) :
    |(∫ e in Set.Ioi 0, (dndeNeutrinoMuon e emu).electron) - 1| < 1e-8
    ∧ |(∫ e in Set.Ioi 0, (dndeNeutrinoMuon e emu).muon) - 1| < 1e-8 := by
  have key : (∫ e in Set.Ioi 0, (dndeNeutrinoMuon e emu).electron) = michel * rFactor
      ∧ (∫ e in Set.Ioi 0, (dndeNeutrinoMuon e emu).muon) = michel * rFactor := by
    by_cases hr : emu - massMu < f64eps
    · have : ∀ e, dndeNeutrinoMuon e emu = neutrinoMuonRest e := by
        intro e; unfold dndeNeutrinoMuon; rw [if_neg (by linarith), if_pos hr]
      simp only [this]
      exact ⟨nue_rest_total, numu_rest_total⟩
    · push Not at hr
      have hlt : massMu < emu := by linarith [eps_pos]
      obtain ⟨hb0, hb1, -, -⟩ := parent_boost massMu_pos hlt
      rw [← nue_rest_total, ← boost_conserves_number nueRest 0 _ hb0 hb1 le_rfl
        nueRest_integrable.integrableOn]
      constructor
      · exact setIntegral_congr_fun measurableSet_Ioi
          fun e he => (neutrino_muon_is_boost e emu he hr).1
      · rw [boost_conserves_number nueRest 0 _ hb0 hb1 le_rfl nueRest_integrable.integrableOn,
          nue_rest_total, ← numu_rest_total, ← boost_conserves_number numuRest 0 _ hb0 hb1 le_rfl
          numuRest_integrable.integrableOn]
        exact setIntegral_congr_fun measurableSet_Ioi
          fun e he => (neutrino_muon_is_boost e emu he hr).2.1
  rw [key.1, key.2]
  exact ⟨michel_bounds.2.2, michel_bounds.2.2⟩

/-! ### Signs and supports -/

theorem positronRestE_nonneg (e : ℝ) : 0 ≤ positronRestE e := by
  have hm := massMu_pos
  have hr := rr_pos
  have hR := rFactor_pos
  have hrs := rr_small
  unfold positronRestE positronMuonRest
  refine mul_nonneg (by positivity) ?_
  split_ifs with h
  · exact le_rfl
  · push Not at h
    obtain ⟨x, hx⟩ : ∃ x, x = 2 / massMu * e := ⟨_, rfl⟩
    simp only [← hx] at h ⊢
    refine div_nonneg ?_ hR.le
    have hs := Real.sqrt_nonneg (x * x - 4 * rr ^ 2)
    have hp : x * (x * 2 + (-3 - 3 * rr ^ 2)) + 4 * rr ^ 2 ≤ 0 := by
      have h1 : 0 ≤ (x - 2 * rr) * (1 + rr ^ 2 - x) :=
        mul_nonneg (by linarith [h.1]) (by linarith [h.2])
      nlinarith [sq_nonneg (rr - 1), mul_pos hr (sub_pos.mpr h.1)]
    nlinarith

theorem nu_rest_nonneg (e : ℝ) : 0 ≤ nueRest e ∧ 0 ≤ numuRest e := by
  have hm := massMu_pos
  have hr := rr_pos
  have hR := rFactor_pos
  by_cases h : e ≤ 0 ∨ 1 - rr ^ 2 ≤ 2 / massMu * e
  · rw [(nu_rest_zero h).1, (nu_rest_zero h).2]; exact ⟨le_rfl, le_rfl⟩
  · push Not at h
    rw [(nu_rest_eq h.1 h.2).1, (nu_rest_eq h.1 h.2).2]
    obtain ⟨x, hx⟩ : ∃ x, x = 2 / massMu * e := ⟨_, rfl⟩
    rw [← hx] at h ⊢
    have hx0 : 0 < x := by rw [hx]; exact mul_pos (by positivity) h.1
    have h1 : 0 < 1 - x := by linarith [h.2, nu_xmax_lt]
    have h2 : 0 ≤ 3 + rr ^ 2 * (3 - x) - 5 * x + 2 * x ^ 2 := by
      have : 3 + rr ^ 2 * (3 - x) - 5 * x + 2 * x ^ 2
        = (1 - x) * (1 + 2 * (1 - x)) + rr ^ 2 * (2 + (1 - x)) := by ring
      rw [this]; positivity
    constructor <;> positivity

/-- C81: positron and neutrino spectra of a muon are never negative, for all arguments. -/
theorem muon_spectra_nonneg (e emu : ℝ) :
    0 ≤ dndePositronMuon e emu ∧ 0 ≤ (dndeNeutrinoMuon e emu).electron
      ∧ 0 ≤ (dndeNeutrinoMuon e emu).muon := by
  by_cases h : emu < massMu
  · unfold dndePositronMuon dndeNeutrinoMuon
    rw [if_pos (Or.inl h), if_pos h]; exact ⟨le_rfl, le_rfl, le_rfl⟩
  push Not at h
  by_cases hr : emu - massMu < f64eps
  · rw [dndePositronMuon_rest h hr]
    have : dndeNeutrinoMuon e emu = neutrinoMuonRest e := by
      unfold dndeNeutrinoMuon; rw [if_neg (by linarith), if_pos hr]
    rw [this]
    exact ⟨positronRestE_nonneg e, nu_rest_nonneg e⟩
  · push Not at hr
    have hlt : massMu < emu := by linarith [eps_pos]
    obtain ⟨hb0, hb1, -, -⟩ := parent_boost massMu_pos hlt
    constructor
    · by_cases he : e ≤ massE
      · unfold dndePositronMuon; rw [if_pos (Or.inr he)]
      · rw [positron_muon_is_boost e emu (not_le.mp he) hr]
        exact boost_nonneg _ _ _ _ hb0 hb1 positronRestE_nonneg
    · by_cases he : e ≤ 0
      · have hemu : 0 < emu := massMu_pos.trans hlt
        have : dndeNeutrinoMuon e emu = NuPoint.zero := by
          unfold dndeNeutrinoMuon
          rw [if_neg (by linarith), if_neg (by linarith)]
          exact if_pos (Or.inl (mul_nonpos_of_nonneg_of_nonpos (by positivity) he))
        rw [this]; exact ⟨le_rfl, le_rfl⟩
      · obtain ⟨h1, h2, -⟩ := neutrino_muon_is_boost e emu (not_le.mp he) hr
        rw [h1, h2]
        exact ⟨boost_nonneg _ _ _ _ hb0 hb1 fun x => (nu_rest_nonneg x).1,
          boost_nonneg _ _ _ _ hb0 hb1 fun x => (nu_rest_nonneg x).2⟩

/-- The tau row vanishes for all arguments, and so does every row below the muon mass. -/
theorem neutrino_muon_tau (e emu : ℝ) :
    (dndeNeutrinoMuon e emu).tau = 0 ∧ (emu < massMu → dndeNeutrinoMuon e emu = NuPoint.zero) := by
  constructor
  · unfold dndeNeutrinoMuon neutrinoMuonRest NuPoint.zero
    split_ifs <;> simp only <;> split_ifs <;> rfl
  · intro h; unfold dndeNeutrinoMuon; rw [if_pos h]

/-- A muon at twice its rest energy satisfies the hypotheses, with positive spectrum at 30 MeV. -/
example : f64eps ≤ 2 * massMu - massMu ∧ massE < 30 ∧ massMu ≤ 2 * massMu
    ∧ 0 < positronRestE 30 ∧ 0 < nueRest 30 := by
  refine ⟨by unfold f64eps massMu; norm_num, by unfold massE; norm_num,
    by unfold massMu; norm_num, ?_, ?_⟩
  · have h1 : massE < 30 := by unfold massE; norm_num
    have h2 : (30 : ℝ) < massMu / 2 * (1 + rr ^ 2) := by unfold massMu rr massE massMu; norm_num
    rw [positronRestE_eq h1 h2]
    have hs : 0 < hyp (2 * rr) (2 / massMu * 30) :=
      hyp_pos (by have := rr_pos; positivity) (by unfold rr massE massMu; norm_num)
    have hp : 0 < -((2 / massMu * 30) * ((2 / massMu * 30) * 2 + (-3 - 3 * rr ^ 2)) + 4 * rr ^ 2) := by
      unfold rr massE massMu; norm_num
    have hm := massMu_pos
    have hR := rFactor_pos
    have : 0 < 2 / massMu / rFactor := by positivity
    refine mul_pos this ?_
    nlinarith [mul_pos hs hp]
  · have hm := massMu_pos
    have hR := rFactor_pos
    rw [(nu_rest_eq (e := 30) (by norm_num) (by unfold rr massE massMu; norm_num)).1]
    refine mul_pos (by positivity) ?_
    unfold rr massE massMu; norm_num

end Hazma.Spectra
