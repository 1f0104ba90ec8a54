import Verif.Model.Boost
import Mathlib.Analysis.SpecialFunctions.Integrals.Basic
import Mathlib.MeasureTheory.Integral.IntervalIntegral.FundThmCalculus
import Mathlib.Tactic

/-!
# Boosting lines (C13, C14, C63, C64)
-/

namespace Hazma.Boost

open MeasureTheory

/-- Lorentz factor of a velocity (specification). -/
noncomputable def lorentz (beta : ℝ) : ℝ := 1 / Real.sqrt (1 - beta ^ 2)

/-- Momentum of a particle of energy `e` and mass `m` (specification). -/
noncomputable def momentum (e m : ℝ) : ℝ := Real.sqrt (e ^ 2 - m ^ 2)

/-- Lab energy of a particle emitted with rest-frame energy `e0` at cosine `c` from a parent of
velocity `beta` (specification). -/
noncomputable def labEnergy (e0 m beta c : ℝ) : ℝ := lorentz beta * (e0 + beta * c * momentum e0 m)

theorem one_sub_sq_pos {beta : ℝ} (h0 : 0 < beta) (h1 : beta < 1) : 0 < 1 - beta ^ 2 := by nlinarith

theorem lorentz_pos {beta : ℝ} (h0 : 0 < beta) (h1 : beta < 1) : 0 < lorentz beta :=
  div_pos one_pos (Real.sqrt_pos.mpr (one_sub_sq_pos h0 h1))

theorem lorentz_sq {beta : ℝ} (h0 : 0 < beta) (h1 : beta < 1) :
    lorentz beta ^ 2 * (1 - beta ^ 2) = 1 := by
  unfold lorentz
  have h := one_sub_sq_pos h0 h1
  rw [div_pow, Real.sq_sqrt h.le]
  field_simp

theorem momentum_sq {e m : ℝ} (hm : 0 ≤ m) (h : m ≤ e) : momentum e m ^ 2 = e ^ 2 - m ^ 2 :=
  Real.sq_sqrt (by nlinarith)

theorem momentum_pos {e m : ℝ} (hm : 0 ≤ m) (h : m < e) : 0 < momentum e m :=
  Real.sqrt_pos.mpr (by nlinarith)

theorem window_iff_quadratic {e e0 m beta : ℝ} (h0 : 0 < beta) (h1 : beta < 1) (hm : 0 ≤ m)
    (he : m ≤ e) :
    (lorentz beta * (e - beta * momentum e m) < e0 ∧ e0 < lorentz beta * (e + beta * momentum e m))
      ↔ e0 ^ 2 - 2 * lorentz beta * e * e0 + e ^ 2 + (lorentz beta ^ 2 - 1) * m ^ 2 < 0 := by
  have hg := lorentz_pos h0 h1
  have hgs := lorentz_sq h0 h1
  have hk := momentum_sq hm he
  have hk0 : 0 ≤ momentum e m := Real.sqrt_nonneg _
  set g := lorentz beta
  set k := momentum e m
  have key : (e0 - g * e) ^ 2 - (g * beta * k) ^ 2
      = e0 ^ 2 - 2 * g * e * e0 + e ^ 2 + (g ^ 2 - 1) * m ^ 2 := by
    have h2 : g ^ 2 * beta ^ 2 = g ^ 2 - 1 := by linarith
    calc (e0 - g * e) ^ 2 - (g * beta * k) ^ 2
        = e0 ^ 2 - 2 * g * e * e0 + g ^ 2 * e ^ 2 - (g ^ 2 * beta ^ 2) * k ^ 2 := by ring
      _ = _ := by rw [h2, hk]; ring
  have hnn : 0 ≤ g * beta * k := by positivity
  rw [← key, sub_neg, sq_lt_sq, abs_of_nonneg hnn, abs_lt]
  constructor
  · rintro ⟨ha, hb⟩; constructor <;> nlinarith
  · rintro ⟨ha, hb⟩; constructor <;> nlinarith

theorem window_symm {e e0 m beta : ℝ} (h0 : 0 < beta) (h1 : beta < 1) (hm : 0 ≤ m)
    (he : m ≤ e) (he0 : m ≤ e0) :
    (lorentz beta * (e - beta * momentum e m) < e0 ∧ e0 < lorentz beta * (e + beta * momentum e m))
      ↔ labEnergy e0 m beta (-1) < e ∧ e < labEnergy e0 m beta 1 := by
  rw [window_iff_quadratic h0 h1 hm he]
  have := window_iff_quadratic (e := e0) (e0 := e) h0 h1 hm he0
  unfold labEnergy
  have e1 : e0 + beta * (-1) * momentum e0 m = e0 - beta * momentum e0 m := by ring
  have e2 : e0 + beta * 1 * momentum e0 m = e0 + beta * momentum e0 m := by ring
  rw [e1, e2, this]
  constructor <;> intro h <;> nlinarith

theorem mass_le_labEnergy {e0 m beta : ℝ} (h0 : 0 < beta) (h1 : beta < 1) (hm : 0 ≤ m)
    (he0 : m ≤ e0) : m ≤ labEnergy e0 m beta (-1) := by
  have hg := lorentz_pos h0 h1
  have hgs := lorentz_sq h0 h1
  have hk := momentum_sq hm he0
  have hk0 : 0 ≤ momentum e0 m := Real.sqrt_nonneg _
  unfold labEnergy
  set g := lorentz beta
  set k := momentum e0 m
  have hke : k ≤ e0 := by nlinarith
  have hpos : 0 ≤ g * (e0 + beta * (-1) * k) := by
    apply mul_nonneg hg.le; nlinarith
  have hsq : m ^ 2 ≤ (g * (e0 + beta * (-1) * k)) ^ 2 := by
    have h2 : g ^ 2 * beta ^ 2 = g ^ 2 - 1 := by linarith
    have : (g * (e0 + beta * (-1) * k)) ^ 2 - m ^ 2 = (g * (k - beta * e0)) ^ 2 := by
      have : (g * (e0 + beta * (-1) * k)) ^ 2 - (g * (k - beta * e0)) ^ 2
          = (g ^ 2 - g ^ 2 * beta ^ 2) * (e0 ^ 2 - k ^ 2) := by ring
      rw [h2, hk] at this
      linarith
    nlinarith [sq_nonneg (g * (k - beta * e0))]
  exact abs_le_of_sq_le_sq' hsq hpos |>.2

/-- The boosted line as a set indicator: the form both implementations reduce to. -/
noncomputable def box (e0 m beta : ℝ) : ℝ → ℝ :=
  (Set.Ioo (labEnergy e0 m beta (-1)) (labEnergy e0 m beta 1)).indicator
    fun _ => 1 / (2 * lorentz beta * beta * momentum e0 m)

theorem boostDeltaPy_eq_box {e e0 m beta : ℝ} (h0 : 0 < beta) (h1 : beta < 1) (hm : 0 ≤ m)
    (he0 : m ≤ e0) : boostDeltaPy e e0 m beta = box e0 m beta e := by
  have hsq : Real.sqrt (1 - beta * beta) = Real.sqrt (1 - beta ^ 2) := by ring_nf
  have hk0 : Real.sqrt (e0 * e0 - m * m) = momentum e0 m := by unfold momentum; ring_nf
  unfold boostDeltaPy box
  rw [if_pos ⟨h0, h1⟩]
  simp only [hsq, hk0]
  rw [show 1 / Real.sqrt (1 - beta ^ 2) = lorentz beta from rfl,
    show Real.sqrt (e ^ 2 - m ^ 2) = momentum e m from rfl]
  by_cases he : m ≤ e
  · by_cases hw : e ∈ Set.Ioo (labEnergy e0 m beta (-1)) (labEnergy e0 m beta 1)
    · rw [Set.indicator_of_mem hw, if_pos]
      exact ⟨he, (window_symm h0 h1 hm he he0).mpr hw⟩
    · rw [Set.indicator_of_notMem hw, if_neg]
      rintro ⟨-, h⟩
      exact hw ((window_symm h0 h1 hm he he0).mp h)
  · have hw : e ∉ Set.Ioo (labEnergy e0 m beta (-1)) (labEnergy e0 m beta 1) := by
      intro hw
      exact he ((mass_le_labEnergy h0 h1 hm he0).trans hw.1.le)
    rw [Set.indicator_of_notMem hw, if_neg]
    rintro ⟨h, -⟩; exact he h

/-- **C13.** The Python and the Rust implementation agree everywhere in the physical range. -/
theorem boost_delta_implementations_agree (e e0 m beta : ℝ) :
    boostDeltaRust e0 e m beta = boostDeltaPy e e0 m beta := by
  unfold boostDeltaRust boostDeltaPy
  by_cases hb : 0 < beta ∧ beta < 1
  · have e1 : -beta * beta + 1 = 1 - beta * beta := by ring
    have e2 : e * e + -(m * m) = e ^ 2 - m ^ 2 := by ring
    have e3 : e0 * e0 + -(m * m) = e0 * e0 - m * m := by ring
    have e4 : ∀ k, -beta * k + e = e - beta * k := by intro k; ring
    have e5 : ∀ k, beta * k + e = e + beta * k := by intro k; ring
    simp only [e1, e2, e3, e4, e5]
    rw [if_pos hb]
    by_cases he : e < m
    · rw [if_pos (Or.inr (Or.inr he)), if_neg]
      rintro ⟨h, -⟩; exact absurd he (not_lt.mpr h)
    · rw [if_neg (by
        rintro (h | h | h)
        · linarith [hb.2]
        · linarith [hb.1]
        · exact he h)]
      simp only [not_lt.mp he, true_and]
  · rw [if_neg hb]
    by_cases h1 : beta = 1
    · subst h1
      have hz : -(1 : ℝ) * 1 + 1 = 0 := by norm_num
      simp only [hz, Real.sqrt_zero, div_zero, zero_mul]
      split_ifs with h2 h3
      · rfl
      · exact absurd (h3.1.trans h3.2) (lt_irrefl _)
      · rfl
    · rw [if_pos]
      by_contra hcon
      push Not at hcon
      exact hb ⟨hcon.2.1, lt_of_le_of_ne hcon.1 h1⟩

/-- **C13.** The boosted line is non-negative; it is non-zero exactly at the energies strictly
between the lab energies of backward and forward emission; it integrates to one particle; and its
mean energy is `γ e0`. -/
theorem boost_delta_normalised_box (e0 m beta : ℝ) (h0 : 0 < beta) (h1 : beta < 1) (hm : 0 ≤ m)
    (he0 : m < e0) :
    (∀ e, 0 ≤ boostDeltaPy e e0 m beta) ∧
    (∀ e, boostDeltaPy e e0 m beta ≠ 0 ↔
      labEnergy e0 m beta (-1) < e ∧ e < labEnergy e0 m beta 1) ∧
    (∫ e, boostDeltaPy e e0 m beta = 1) ∧
    (∫ e, e * boostDeltaPy e e0 m beta = lorentz beta * e0) := by
  have hg := lorentz_pos h0 h1
  have hk := momentum_pos hm he0
  have hh : 0 < 1 / (2 * lorentz beta * beta * momentum e0 m) := by positivity
  have hfun : (fun e => boostDeltaPy e e0 m beta) = box e0 m beta :=
    funext fun e => boostDeltaPy_eq_box h0 h1 hm he0.le
  have hlen : labEnergy e0 m beta 1 - labEnergy e0 m beta (-1)
      = 2 * lorentz beta * beta * momentum e0 m := by unfold labEnergy; ring
  have hle : labEnergy e0 m beta (-1) ≤ labEnergy e0 m beta 1 := by
    have : 0 < 2 * lorentz beta * beta * momentum e0 m := by positivity
    linarith
  refine ⟨?_, ?_, ?_, ?_⟩
  · intro e
    rw [boostDeltaPy_eq_box h0 h1 hm he0.le]
    exact Set.indicator_nonneg (fun _ _ => hh.le) e
  · intro e
    rw [boostDeltaPy_eq_box h0 h1 hm he0.le]
    unfold box
    by_cases hw : e ∈ Set.Ioo (labEnergy e0 m beta (-1)) (labEnergy e0 m beta 1)
    · rw [Set.indicator_of_mem hw]
      exact ⟨fun _ => hw, fun _ => hh.ne'⟩
    · rw [Set.indicator_of_notMem hw]
      exact ⟨fun h => absurd rfl h, fun h => absurd h hw⟩
  · rw [hfun]
    unfold box
    rw [integral_indicator measurableSet_Ioo, ← integral_Ioc_eq_integral_Ioo,
      ← intervalIntegral.integral_of_le hle, intervalIntegral.integral_const, hlen, smul_eq_mul]
    field_simp
  · have : (fun e => e * boostDeltaPy e e0 m beta)
        = (Set.Ioo (labEnergy e0 m beta (-1)) (labEnergy e0 m beta 1)).indicator
          fun e => e * (1 / (2 * lorentz beta * beta * momentum e0 m)) := by
      funext e
      rw [boostDeltaPy_eq_box h0 h1 hm he0.le]
      unfold box
      by_cases hw : e ∈ Set.Ioo (labEnergy e0 m beta (-1)) (labEnergy e0 m beta 1)
      · rw [Set.indicator_of_mem hw, Set.indicator_of_mem hw]
      · rw [Set.indicator_of_notMem hw, Set.indicator_of_notMem hw, mul_zero]
    rw [this, integral_indicator measurableSet_Ioo, ← integral_Ioc_eq_integral_Ioo,
      ← intervalIntegral.integral_of_le hle, intervalIntegral.integral_mul_const, integral_id]
    have : labEnergy e0 m beta 1 ^ 2 - labEnergy e0 m beta (-1) ^ 2
        = (2 * lorentz beta * beta * momentum e0 m) * (2 * lorentz beta * e0) := by
      unfold labEnergy; ring
    rw [this]
    field_simp

/-- **C13.** Outside `0 < β < 1` the boosted line is zero everywhere. -/
theorem boost_delta_unphysical_beta (e e0 m beta : ℝ) (h : ¬ (0 < beta ∧ beta < 1)) :
    boostDeltaPy e e0 m beta = 0 ∧ boostDeltaRust e0 e m beta = 0 := by
  have : boostDeltaPy e e0 m beta = 0 := by unfold boostDeltaPy; rw [if_neg h]
  exact ⟨this, by rw [boost_delta_implementations_agree, this]⟩

example : ∫ e, boostDeltaPy e 5 4 (3 / 5) = 1 :=
  (boost_delta_normalised_box 5 4 (3 / 5) (by norm_num) (by norm_num) (by norm_num)
    (by norm_num)).2.2.1

example : boostDeltaPy 5 5 4 (3 / 5) = 2 / 9 := by
  rw [boostDeltaPy_eq_box (by norm_num) (by norm_num) (by norm_num) (by norm_num)]
  have hm : momentum 5 4 = 3 := by
    unfold momentum
    rw [show (5 : ℝ) ^ 2 - 4 ^ 2 = 3 ^ 2 by norm_num, Real.sqrt_sq (by norm_num)]
  have hl : lorentz (3 / 5) = 5 / 4 := by
    unfold lorentz
    rw [show (1 : ℝ) - (3 / 5) ^ 2 = (4 / 5) ^ 2 by norm_num, Real.sqrt_sq (by norm_num)]
    norm_num
  unfold box labEnergy
  rw [hm, hl, Set.indicator_of_mem (by constructor <;> norm_num)]
  norm_num

/-! ## C14 -/

/-- **C14.** Lorentz factor and velocity of a particle of energy at least its mass. -/
theorem boost_kinematics (energy mass : ℝ) (hm : 0 < mass) (he : mass ≤ energy) :
    1 ≤ boostGamma energy mass ∧ 0 ≤ boostBeta energy mass ∧ boostBeta energy mass < 1 ∧
    boostGamma energy mass ^ 2 * (1 - boostBeta energy mass ^ 2) = 1 ∧
    (boostBeta energy mass = 0 ↔ energy = mass) ∧
    boostGamma energy mass * boostBeta energy mass * mass = Real.sqrt (energy ^ 2 - mass ^ 2) := by
  have hE : 0 < energy := hm.trans_le he
  have hr0 : 0 < mass / energy := div_pos hm hE
  have hr1 : mass / energy ≤ 1 := (div_le_one hE).mpr he
  have hnn : 0 ≤ 1 - mass / energy * (mass / energy) := by nlinarith
  unfold boostGamma boostBeta
  simp only
  refine ⟨(one_le_div hm).mpr he, Real.sqrt_nonneg _, ?_, ?_, ?_, ?_⟩
  · rw [Real.sqrt_lt' one_pos]; nlinarith
  · rw [Real.sq_sqrt hnn]; field_simp; ring
  · rw [Real.sqrt_eq_zero hnn]
    constructor
    · intro h
      have h1 : mass / energy = 1 := by nlinarith
      rw [div_eq_one_iff_eq hE.ne'] at h1
      exact h1.symm
    · rintro rfl
      rw [div_self hE.ne']; ring
  · have hs : energy ^ 2 - mass ^ 2 = energy ^ 2 * (1 - mass / energy * (mass / energy)) := by
      field_simp
    rw [hs, Real.sqrt_mul (sq_nonneg _), Real.sqrt_sq hE.le]
    field_simp

example : boostGamma 5 4 ^ 2 * (1 - boostBeta 5 4 ^ 2) = 1 :=
  (boost_kinematics 5 4 (by norm_num) (by norm_num)).2.2.2.1

/-! ## C63: double boosts -/

/-- Specification: the energy distribution after a second boost of velocity `beta2`, applied to the
box obtained from the first boost of a line, `∫ dε f(ε)/(2 γ₂ β₂ k(ε))` over the rest-frame
energies that can produce `e2`. -/
noncomputable def boostTwice (e2 e0 m beta1 beta2 : ℝ) : ℝ :=
  ∫ eps in (lorentz beta2 * (e2 - beta2 * momentum e2 m))..
      (lorentz beta2 * (e2 + beta2 * momentum e2 m)),
    box e0 m beta1 eps / (2 * lorentz beta2 * beta2 * momentum eps m)

theorem hasDerivAt_log_momentum {m x : ℝ} (hm : 0 ≤ m) (hxm : m < x) :
    HasDerivAt (fun x => Real.log (x + momentum x m)) (1 / momentum x m) x := by
  have hk := momentum_pos hm hxm
  have hrad : 0 < x ^ 2 - m ^ 2 := by nlinarith
  have h1 : HasDerivAt (fun x : ℝ => x ^ 2 - m ^ 2) (2 * x) x := by
    simpa using (hasDerivAt_pow 2 x).sub_const (m ^ 2)
  have h2 : HasDerivAt (fun x => momentum x m) (2 * x / (2 * momentum x m)) x :=
    h1.sqrt hrad.ne'
  have h3 : HasDerivAt (fun x => x + momentum x m) (1 + 2 * x / (2 * momentum x m)) x :=
    (hasDerivAt_id' x).add h2
  have hpos : 0 < x + momentum x m := by linarith
  have h4 := h3.log hpos.ne'
  convert h4 using 1
  field_simp
  rw [add_comm]

theorem integral_inv_momentum {m a b : ℝ} (hm : 0 ≤ m) (ha : m ≤ a) (ha0 : 0 < a) (hab : a ≤ b) :
    ∫ x in a..b, 1 / momentum x m
      = Real.log (b + momentum b m) - Real.log (a + momentum a m) := by
  have hcont : ContinuousOn (fun x => Real.log (x + momentum x m)) (Set.Icc a b) := by
    apply ContinuousOn.log
    · unfold momentum; fun_prop
    · intro x hx
      have : 0 ≤ momentum x m := Real.sqrt_nonneg _
      have : 0 < x := ha0.trans_le hx.1
      positivity
  have hd : ∀ x ∈ Set.Ioo a b,
      HasDerivAt (fun x => Real.log (x + momentum x m)) (1 / momentum x m) x :=
    fun x hx => hasDerivAt_log_momentum hm (ha.trans_lt hx.1)
  apply intervalIntegral.integral_eq_sub_of_hasDerivAt_of_le hab hcont hd
  apply intervalIntegral.intervalIntegrable_deriv_of_nonneg (g := fun x => Real.log (x + momentum x m))
  · rwa [Set.uIcc_of_le hab]
  · intro x hx
    rw [min_eq_left hab, max_eq_right hab] at hx
    exact hd x hx
  · intro x hx
    have : 0 ≤ momentum x m := Real.sqrt_nonneg _
    positivity

theorem log_momentum_massive {m a b : ℝ} (hm : 0 < m) (ha : m ≤ a) (hb : m ≤ b) :
    0.5 * Real.log (((a - momentum a m) * (b + momentum b m))
        / ((a + momentum a m) * (b - momentum b m)))
      = Real.log (b + momentum b m) - Real.log (a + momentum a m) := by
  have hka := momentum_sq hm.le ha
  have hkb := momentum_sq hm.le hb
  have hka0 : 0 ≤ momentum a m := Real.sqrt_nonneg _
  have hkb0 : 0 ≤ momentum b m := Real.sqrt_nonneg _
  set ka := momentum a m
  set kb := momentum b m
  have hpa : 0 < a + ka := by linarith
  have hpb : 0 < b + kb := by linarith
  have hma : 0 < a - ka := by nlinarith
  have hmb : 0 < b - kb := by nlinarith
  have hr : ((a - ka) * (b + kb)) / ((a + ka) * (b - kb)) = ((b + kb) / (a + ka)) ^ 2 := by
    rw [div_pow, div_eq_div_iff (by positivity) (by positivity)]
    have h1 : (a - ka) * (a + ka) = m ^ 2 := by ring_nf; nlinarith
    have h2 : (b - kb) * (b + kb) = m ^ 2 := by ring_nf; nlinarith
    calc (a - ka) * (b + kb) * (a + ka) ^ 2
        = ((a - ka) * (a + ka)) * ((b + kb) * (a + ka)) := by ring
      _ = ((b - kb) * (b + kb)) * ((b + kb) * (a + ka)) := by rw [h1, h2]
      _ = _ := by ring
  rw [hr, Real.log_pow, Real.log_div hpb.ne' hpa.ne']
  push_cast
  ring

theorem log_massless {a b : ℝ} (ha : 0 < a) (hb : 0 < b) :
    1 * Real.log (b / a) = Real.log (b + momentum b 0) - Real.log (a + momentum a 0) := by
  have h : ∀ x : ℝ, 0 < x → momentum x 0 = x := by
    intro x hx
    unfold momentum
    rw [show x ^ 2 - 0 ^ 2 = x ^ 2 by ring, Real.sqrt_sq hx.le]
  rw [h a ha, h b hb, ← two_mul, ← two_mul, Real.log_mul (by norm_num) hb.ne',
    Real.log_mul (by norm_num) ha.ne', Real.log_div hb.ne' ha.ne']
  ring

/-- **C63 (what the code does).** For every pair of velocities, every product mass `m ≥ 0`, line
energy `e0 > m` and lab energy `e2 > m`, the code returns the twice-boosted spectrum multiplied by
`k₀/e₀`: it divides by the line *energy* where the momentum belongs. -/
theorem double_boost_delta_value (e2 e0 m beta1 beta2 : ℝ) (h10 : 0 < beta1) (h11 : beta1 < 1)
    (h20 : 0 < beta2) (h21 : beta2 < 1) (hm : 0 ≤ m) (he0 : m < e0) (he2 : m < e2) :
    doubleBoostDelta e2 e0 m beta1 beta2
      = momentum e0 m / e0 * boostTwice e2 e0 m beta1 beta2 := by
  have hg1 := lorentz_pos h10 h11
  have hg2 := lorentz_pos h20 h21
  have hk0 := momentum_pos hm he0
  have hk2 := momentum_pos hm he2
  have hepos : 0 < e0 := hm.trans_lt he0
  -- abbreviations matching the code
  have hepsM : labEnergy e0 m beta1 (-1) = lorentz beta1 * (e0 - beta1 * momentum e0 m) := by
    unfold labEnergy; ring
  have hepsP : labEnergy e0 m beta1 1 = lorentz beta1 * (e0 + beta1 * momentum e0 m) := by
    unfold labEnergy; ring
  have heM : labEnergy e2 m beta2 (-1) = lorentz beta2 * (e2 - beta2 * momentum e2 m) := by
    unfold labEnergy; ring
  have heP : labEnergy e2 m beta2 1 = lorentz beta2 * (e2 + beta2 * momentum e2 m) := by
    unfold labEnergy; ring
  have hcode : doubleBoostDelta e2 e0 m beta1 beta2
      = (if labEnergy e2 m beta2 1 > labEnergy e0 m beta1 (-1) ∧
            labEnergy e2 m beta2 (-1) < labEnergy e0 m beta1 1 then
          if m > 0 then
            0.5 * Real.log (((max (labEnergy e0 m beta1 (-1)) (labEnergy e2 m beta2 (-1))
                - momentum (max (labEnergy e0 m beta1 (-1)) (labEnergy e2 m beta2 (-1))) m)
              * (min (labEnergy e0 m beta1 1) (labEnergy e2 m beta2 1)
                + momentum (min (labEnergy e0 m beta1 1) (labEnergy e2 m beta2 1)) m))
              / ((max (labEnergy e0 m beta1 (-1)) (labEnergy e2 m beta2 (-1))
                + momentum (max (labEnergy e0 m beta1 (-1)) (labEnergy e2 m beta2 (-1))) m)
              * (min (labEnergy e0 m beta1 1) (labEnergy e2 m beta2 1)
                - momentum (min (labEnergy e0 m beta1 1) (labEnergy e2 m beta2 1)) m)))
          else 1 * Real.log (min (labEnergy e0 m beta1 1) (labEnergy e2 m beta2 1)
            / max (labEnergy e0 m beta1 (-1)) (labEnergy e2 m beta2 (-1)))
        else 0) / (4 * lorentz beta1 * lorentz beta2 * beta1 * beta2 * e0) := by
    rw [hepsM, hepsP, heM, heP]; rfl
  have hepsMm : m ≤ labEnergy e0 m beta1 (-1) := mass_le_labEnergy h10 h11 hm he0.le
  have heMm : m ≤ labEnergy e2 m beta2 (-1) := mass_le_labEnergy h20 h21 hm he2.le
  have hposM : ∀ {e b : ℝ}, 0 < b → b < 1 → m < e → 0 < labEnergy e m b (-1) := by
    intro e b hb0 hb1 he
    rcases hm.eq_or_lt with hm0 | hm0
    · have hme : momentum e m = e := by
        rw [← hm0]; unfold momentum
        rw [show e ^ 2 - 0 ^ 2 = e ^ 2 by ring, Real.sqrt_sq (by linarith)]
      have : 0 < e := by linarith
      unfold labEnergy
      rw [hme]
      apply mul_pos (lorentz_pos hb0 hb1)
      nlinarith
    · exact hm0.trans_le (mass_le_labEnergy hb0 hb1 hm he.le)
  have hle1 : labEnergy e0 m beta1 (-1) < labEnergy e0 m beta1 1 := by
    unfold labEnergy
    have : 0 < lorentz beta1 * (beta1 * momentum e0 m) := by positivity
    nlinarith
  have hle2 : labEnergy e2 m beta2 (-1) < labEnergy e2 m beta2 1 := by
    unfold labEnergy
    have : 0 < lorentz beta2 * (beta2 * momentum e2 m) := by positivity
    nlinarith
  have hint : boostTwice e2 e0 m beta1 beta2
      = (if labEnergy e2 m beta2 1 > labEnergy e0 m beta1 (-1) ∧
            labEnergy e2 m beta2 (-1) < labEnergy e0 m beta1 1 then
          ∫ x in (max (labEnergy e0 m beta1 (-1)) (labEnergy e2 m beta2 (-1)))..
              (min (labEnergy e0 m beta1 1) (labEnergy e2 m beta2 1)), 1 / momentum x m
        else 0) / (4 * lorentz beta1 * lorentz beta2 * beta1 * beta2 * momentum e0 m) := by
    unfold boostTwice
    rw [← heM, ← heP, intervalIntegral.integral_of_le hle2.le]
    have hrew : (fun eps => box e0 m beta1 eps / (2 * lorentz beta2 * beta2 * momentum eps m))
        = (Set.Ioo (labEnergy e0 m beta1 (-1)) (labEnergy e0 m beta1 1)).indicator
          fun eps => (1 / (4 * lorentz beta1 * lorentz beta2 * beta1 * beta2 * momentum e0 m))
            * (1 / momentum eps m) := by
      funext eps
      unfold box
      by_cases hw : eps ∈ Set.Ioo (labEnergy e0 m beta1 (-1)) (labEnergy e0 m beta1 1)
      · rw [Set.indicator_of_mem hw, Set.indicator_of_mem hw]
        have hk : 0 < momentum eps m := momentum_pos hm (hepsMm.trans_lt hw.1)
        field_simp
        norm_num
      · rw [Set.indicator_of_notMem hw, Set.indicator_of_notMem hw, zero_div]
    rw [hrew, setIntegral_indicator measurableSet_Ioo]
    have hset : ∀ᵐ x ∂(volume : Measure ℝ),
        x ∈ Set.Ioc (labEnergy e2 m beta2 (-1)) (labEnergy e2 m beta2 1) ∩
          Set.Ioo (labEnergy e0 m beta1 (-1)) (labEnergy e0 m beta1 1) ↔
        x ∈ Set.Ioc (max (labEnergy e0 m beta1 (-1)) (labEnergy e2 m beta2 (-1)))
          (min (labEnergy e0 m beta1 1) (labEnergy e2 m beta2 1)) := by
      have hz : ∀ᵐ x ∂(volume : Measure ℝ), x ≠ labEnergy e0 m beta1 1 := by
        simp [ae_iff]
      filter_upwards [hz] with x hx
      simp only [Set.mem_inter_iff, Set.mem_Ioc, Set.mem_Ioo, max_lt_iff, le_min_iff]
      constructor
      · rintro ⟨⟨a, b⟩, c, d⟩; exact ⟨⟨c, a⟩, d.le, b⟩
      · rintro ⟨⟨a, b⟩, c, d⟩; exact ⟨⟨b, d⟩, a, lt_of_le_of_ne c hx⟩
    rw [setIntegral_congr_set (Filter.eventuallyEq_set.mpr hset), integral_const_mul]
    split_ifs with hov
    · rw [intervalIntegral.integral_of_le]
      · ring
      · rw [max_le_iff, le_min_iff, le_min_iff]
        exact ⟨⟨hle1.le, hov.1.le⟩, hov.2.le, hle2.le⟩
    · rw [Set.Ioc_eq_empty, Measure.restrict_empty, integral_zero_measure]
      · simp
      · rw [max_lt_iff, lt_min_iff, lt_min_iff]
        rintro ⟨⟨-, h1⟩, h2, -⟩
        exact hov ⟨h1, h2⟩
  rw [hcode, hint]
  have hval : ∀ {A B : ℝ}, A = B → A / (4 * lorentz beta1 * lorentz beta2 * beta1 * beta2 * e0)
      = momentum e0 m / e0
        * (B / (4 * lorentz beta1 * lorentz beta2 * beta1 * beta2 * momentum e0 m)) := by
    rintro A B rfl
    field_simp
  apply hval
  split_ifs with hov hmp
  · rw [log_momentum_massive hmp (hepsMm.trans (le_max_left _ _))
      (le_min (hepsMm.trans hle1.le) (heMm.trans hle2.le)),
      integral_inv_momentum hm (hepsMm.trans (le_max_left _ _))
        (lt_max_of_lt_left (hposM h10 h11 he0))]
    rw [max_le_iff, le_min_iff, le_min_iff]
    exact ⟨⟨hle1.le, hov.1.le⟩, hov.2.le, hle2.le⟩
  · have hm0 : m = 0 := le_antisymm (not_lt.mp hmp) hm
    have hpa : 0 < max (labEnergy e0 m beta1 (-1)) (labEnergy e2 m beta2 (-1)) :=
      lt_max_of_lt_left (hposM h10 h11 he0)
    have hab : max (labEnergy e0 m beta1 (-1)) (labEnergy e2 m beta2 (-1))
        ≤ min (labEnergy e0 m beta1 1) (labEnergy e2 m beta2 1) := by
      rw [max_le_iff, le_min_iff, le_min_iff]
      exact ⟨⟨hle1.le, hov.1.le⟩, hov.2.le, hle2.le⟩
    rw [integral_inv_momentum hm (hepsMm.trans (le_max_left _ _)) hpa hab]
    subst hm0
    rw [log_massless hpa (hpa.trans_le hab)]
  · rfl

/-- **C63 (partial).** For a massless product the double boost is exact.  Missing: massive
products, for which the result is too small by `k₀/e₀ < 1` (`double_boost_delta_wrong_massive`). -/
theorem double_boost_delta_massless_partial (e2 e0 beta1 beta2 : ℝ) (h10 : 0 < beta1)
    (h11 : beta1 < 1) (h20 : 0 < beta2) (h21 : beta2 < 1) (he0 : 0 < e0) (he2 : 0 < e2) :
    doubleBoostDelta e2 e0 0 beta1 beta2 = boostTwice e2 e0 0 beta1 beta2 := by
  rw [double_boost_delta_value e2 e0 0 beta1 beta2 h10 h11 h20 h21 le_rfl he0 he2]
  have : momentum e0 0 = e0 := by
    unfold momentum
    rw [show e0 ^ 2 - 0 ^ 2 = e0 ^ 2 by ring, Real.sqrt_sq he0.le]
  rw [this, div_self he0.ne', one_mul]

/-- **C63 (violated).** For every massive product the code's value is strictly smaller than the
twice-boosted spectrum wherever the latter is positive. -/
theorem double_boost_delta_wrong_massive (e2 e0 m beta1 beta2 : ℝ) (h10 : 0 < beta1)
    (h11 : beta1 < 1) (h20 : 0 < beta2) (h21 : beta2 < 1) (hm : 0 < m) (he0 : m < e0)
    (he2 : m < e2) (hpos : 0 < boostTwice e2 e0 m beta1 beta2) :
    doubleBoostDelta e2 e0 m beta1 beta2 < boostTwice e2 e0 m beta1 beta2 := by
  rw [double_boost_delta_value e2 e0 m beta1 beta2 h10 h11 h20 h21 hm.le he0 he2]
  have hsq := momentum_sq hm.le he0.le
  have hk := momentum_pos hm.le he0
  have hlt : momentum e0 m < e0 := by nlinarith
  have : momentum e0 m / e0 < 1 := (div_lt_one (by linarith)).mpr hlt
  nlinarith

/-- Concrete case: a muon-like product. -/
example : doubleBoostDelta 6 5 4 (3 / 5) (3 / 5) = 3 / 5 * boostTwice 6 5 4 (3 / 5) (3 / 5) := by
  have hm : momentum 5 4 = 3 := by
    unfold momentum
    rw [show (5 : ℝ) ^ 2 - 4 ^ 2 = 3 ^ 2 by norm_num, Real.sqrt_sq (by norm_num)]
  have := double_boost_delta_value 6 5 4 (3 / 5) (3 / 5) (by norm_num) (by norm_num) (by norm_num)
    (by norm_num) (by norm_num) (by norm_num) (by norm_num)
  rwa [hm] at this

/-! ## C64 -/

/-- **C64 (violated).** The documentation promises zeros for a velocity outside `[0, 1)`; for every
negative velocity the spectrum comes back unboosted. -/
theorem boost_array_negative_beta_unchanged (eps : ℝ) (heps : 0 < eps)
    (splineInt : List ℝ → List ℝ → ℝ → ℝ → ℝ) (dnde energies : List ℝ) (beta mass : ℝ)
    (hb : beta < 0) : dndeBoostArray eps splineInt dnde energies beta mass = dnde := by
  unfold dndeBoostArray
  rw [if_pos (by linarith)]

/-- Specification: the rows of the table above the product mass, with `dN/dE` divided by the
momentum. -/
noncomputable def rowsAbove (energies dnde : List ℝ) (mass : ℝ) : List ℝ × List ℝ :=
  (((energies.zip dnde).filter fun p => p.1 > mass).map Prod.fst,
   ((energies.zip dnde).filter fun p => p.1 > mass).map fun p => p.2 / momentum p.1 mass)

/-- **C64 (partial).** A velocity above one gives zeros; a physical velocity gives, at each energy
above the product mass, the spline integral of `dN/dE / k` over the reachable rest-frame window
divided by `2γβ`, and zero at or below the mass.  Missing: the negative-velocity half of the
documented guard, which does not hold. -/
theorem boost_array_spec_partial (eps : ℝ) (heps : 0 < eps)
    (splineInt : List ℝ → List ℝ → ℝ → ℝ → ℝ) (dnde energies : List ℝ) (beta mass : ℝ)
    (heb : eps ≤ beta) :
    (1 < beta → dndeBoostArray eps splineInt dnde energies beta mass = energies.map fun _ => 0) ∧
    (beta < 1 → dndeBoostArray eps splineInt dnde energies beta mass
      = energies.map fun e => if e ≤ mass then 0 else
          splineInt (rowsAbove energies dnde mass).1 (rowsAbove energies dnde mass).2
            (lorentz beta * (e - beta * momentum e mass))
            (lorentz beta * (e + beta * momentum e mass)) / (2 * lorentz beta * beta)) := by
  have hb : 0 < beta := heps.trans_le heb
  constructor
  · intro h1
    unfold dndeBoostArray
    rw [if_neg (not_lt.mpr heb), if_pos (Or.inr h1)]
  · intro h1
    unfold dndeBoostArray
    rw [if_neg (not_lt.mpr heb), if_neg (by rintro (h | h) <;> linarith)]
    apply List.map_congr_left
    intro e _
    by_cases he : e ≤ mass
    · rw [if_neg (not_lt.mpr he), if_pos he, mul_zero]
    · rw [if_pos (not_le.mp he), if_neg he]
      simp only [lorentz, momentum, rowsAbove]
      rw [div_eq_mul_inv (splineInt _ _ _ _), mul_comm]
      congr 1
      rw [one_div]
      congr 1
      ring

example : dndeBoostArray (1 / 2 ^ 52) (fun _ _ _ _ => 0) [1, 2] [3, 4] (-1 / 2) 0 = [1, 2] :=
  boost_array_negative_beta_unchanged _ (by norm_num) _ _ _ _ _ (by norm_num)

end Hazma.Boost
