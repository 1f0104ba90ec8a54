import Verif.Model.RelicDensity
import Mathlib.Analysis.Calculus.ParametricIntegral
import Mathlib.MeasureTheory.Integral.IntegralEqImproper
import Mathlib.Analysis.SpecialFunctions.ImproperIntegrals
import Mathlib.Analysis.SpecialFunctions.Trigonometric.DerivHyp
import Mathlib.MeasureTheory.Function.JacobianOneDim
import Mathlib.Analysis.SpecialFunctions.Arsinh
import Mathlib.Tactic

/-! # Modified Bessel functions from their integral representation -/

namespace Hazma.Relic

open MeasureTheory Set Filter Topology

/-- Moments of `exp (−z cosh t)`. -/
noncomputable def mom (k : ℕ) (z : ℝ) : ℝ := ∫ t in Ioi (0 : ℝ), Real.exp (-(z * Real.cosh t)) * Real.cosh t ^ k

theorem mom_bound (k : ℕ) {z : ℝ} (hz : 0 < z) (t : ℝ) :
    Real.exp (-(z * Real.cosh t)) * Real.cosh t ^ k
      ≤ ((k + 1).factorial / z ^ (k + 1) * 2) * Real.exp (-t) := by
  have hc : 0 < Real.cosh t := Real.cosh_pos t
  have h := Real.pow_div_factorial_le_exp (z * Real.cosh t) (by positivity) (k + 1)
  have hf : (0 : ℝ) < (k + 1).factorial := by exact_mod_cast Nat.factorial_pos _
  have h1 : Real.exp (-(z * Real.cosh t)) ≤ (k + 1).factorial / (z * Real.cosh t) ^ (k + 1) := by
    rw [Real.exp_neg, inv_le_comm₀ (Real.exp_pos _) (by positivity), inv_div]
    exact h
  have h2 : (Real.cosh t)⁻¹ ≤ 2 * Real.exp (-t) := by
    rw [inv_le_iff_one_le_mul₀ hc, Real.cosh_eq]
    have : Real.exp (-t) * Real.exp t = 1 := by rw [← Real.exp_add]; simp
    nlinarith [Real.exp_pos (-t), sq_nonneg (Real.exp (-t))]
  calc Real.exp (-(z * Real.cosh t)) * Real.cosh t ^ k
      ≤ (k + 1).factorial / (z * Real.cosh t) ^ (k + 1) * Real.cosh t ^ k := by gcongr
    _ = (k + 1).factorial / z ^ (k + 1) * (Real.cosh t)⁻¹ := by
        rw [mul_pow, pow_succ (Real.cosh t)]; field_simp
    _ ≤ (k + 1).factorial / z ^ (k + 1) * (2 * Real.exp (-t)) := by gcongr
    _ = _ := by ring

theorem mom_continuous (k : ℕ) (z : ℝ) :
    Continuous fun t : ℝ => Real.exp (-(z * Real.cosh t)) * Real.cosh t ^ k := by fun_prop

theorem exp_int (c : ℝ) : IntegrableOn (fun t : ℝ => c * Real.exp (-t)) (Ioi 0) :=
  (integrableOn_exp_neg_Ioi 0).const_mul c

theorem mom_integrable (k : ℕ) {z : ℝ} (hz : 0 < z) :
    IntegrableOn (fun t : ℝ => Real.exp (-(z * Real.cosh t)) * Real.cosh t ^ k) (Ioi 0) := by
  refine Integrable.mono' (exp_int ((k + 1).factorial / z ^ (k + 1) * 2)) (mom_continuous k z).aestronglyMeasurable ?_
  filter_upwards with t
  have hc := Real.cosh_pos t
  rw [Real.norm_of_nonneg (by positivity)]
  exact mom_bound k hz t

theorem mom_pos (k : ℕ) {z : ℝ} (hz : 0 < z) : 0 < mom k z := by
  unfold mom
  rw [setIntegral_pos_iff_support_of_nonneg_ae]
  · have : (Function.support fun t : ℝ => Real.exp (-(z * Real.cosh t)) * Real.cosh t ^ k) = univ := by
      ext t
      have hc := Real.cosh_pos t
      simp only [Function.mem_support, mem_univ, iff_true]
      positivity
    rw [this, univ_inter]
    simp
  · filter_upwards with t
    have hc := Real.cosh_pos t
    simp only [Pi.zero_apply]
    positivity
  · exact mom_integrable k hz

theorem mom_hasDerivAt (k : ℕ) {z : ℝ} (hz : 0 < z) : HasDerivAt (mom k) (-mom (k + 1) z) z := by
  have hs : Ioi (z / 2) ∈ 𝓝 z := Ioi_mem_nhds (by linarith)
  have key := hasDerivAt_integral_of_dominated_loc_of_deriv_le (μ := volume.restrict (Ioi (0 : ℝ)))
    (F := fun (z : ℝ) (t : ℝ) => Real.exp (-(z * Real.cosh t)) * Real.cosh t ^ k)
    (F' := fun (z : ℝ) (t : ℝ) => -(Real.exp (-(z * Real.cosh t)) * Real.cosh t ^ (k + 1)))
    (x₀ := z) (s := Ioi (z / 2))
    (bound := fun t => ((k + 1 + 1).factorial / (z / 2) ^ (k + 1 + 1) * 2) * Real.exp (-t))
    hs (Eventually.of_forall fun z => (mom_continuous k z).aestronglyMeasurable)
    (mom_integrable k hz)
    ((mom_continuous (k + 1) z).neg.aestronglyMeasurable)
    (by
      filter_upwards with t y hy
      have hc := Real.cosh_pos t
      rw [norm_neg, Real.norm_of_nonneg (by positivity)]
      refine le_trans ?_ (mom_bound (k + 1) (half_pos hz) t)
      have : z / 2 * Real.cosh t ≤ y * Real.cosh t := by
        have := le_of_lt (mem_Ioi.mp hy); gcongr
      gcongr)
    (exp_int _)
    (by
      filter_upwards with t y hy
      have d := (((hasDerivAt_id y).mul_const (Real.cosh t)).neg.exp).mul_const (Real.cosh t ^ k)
      refine d.congr_deriv ?_
      simp only [id, Pi.neg_apply]
      ring)
  have h2 := key.2
  simp only [integral_neg] at h2
  exact h2

/-- Integration by parts. -/
theorem mom_parts {z : ℝ} (hz : 0 < z) : z * (mom 3 z - mom 1 z) = 2 * mom 2 z - mom 0 z := by
  let F : ℝ → ℝ := fun t => -(Real.exp (-(z * Real.cosh t)) * (Real.sinh t * Real.cosh t))
  let F' : ℝ → ℝ := fun t => z * (Real.exp (-(z * Real.cosh t)) * Real.cosh t ^ 3
      - Real.exp (-(z * Real.cosh t)) * Real.cosh t ^ 1)
    - (2 * (Real.exp (-(z * Real.cosh t)) * Real.cosh t ^ 2)
      - Real.exp (-(z * Real.cosh t)) * Real.cosh t ^ 0)
  have hF : ∀ t, HasDerivAt F (F' t) t := by
    intro t
    have d1 := (((Real.hasDerivAt_cosh t).const_mul z).neg.exp).mul
      ((Real.hasDerivAt_sinh t).mul (Real.hasDerivAt_cosh t))
    refine d1.neg.congr_deriv ?_
    have h := Real.cosh_sq t
    have h2 : Real.sinh t ^ 2 = Real.cosh t ^ 2 - 1 := by linarith
    simp only [F', Pi.neg_apply, Pi.mul_apply]
    linear_combination (Real.exp (-(z * Real.cosh t)) * (z * Real.cosh t - 1)) * h2
  have hint : IntegrableOn F' (Ioi 0) :=
    (((mom_integrable 3 hz).sub (mom_integrable 1 hz)).const_mul z).sub
      (((mom_integrable 2 hz).const_mul 2).sub (mom_integrable 0 hz))
  have hlim : Tendsto F atTop (𝓝 0) := by
    have hb : Tendsto (fun t : ℝ => ((2 + 1).factorial / z ^ (2 + 1) * 2) * Real.exp (-t)) atTop (𝓝 0) := by
      have := (Real.tendsto_exp_neg_atTop_nhds_zero).const_mul (((2 + 1).factorial : ℝ) / z ^ (2 + 1) * 2)
      simpa using this
    refine squeeze_zero_norm (fun t => ?_) hb
    refine le_trans ?_ (mom_bound 2 hz t)
    have hc := Real.cosh_pos t
    have hs : |Real.sinh t| ≤ Real.cosh t := by
      rw [abs_le]; constructor
      · have := Real.sinh_lt_cosh (-t)
        rw [Real.sinh_neg, Real.cosh_neg] at this
        linarith
      · exact (Real.sinh_lt_cosh t).le
    simp only [F, norm_neg, norm_mul, Real.norm_eq_abs, abs_of_pos hc, Real.abs_exp]
    have : |Real.sinh t| * Real.cosh t ≤ Real.cosh t ^ 2 := by nlinarith
    gcongr
  have h := integral_Ioi_of_hasDerivAt_of_tendsto (hF 0).continuousAt.continuousWithinAt
    (fun t _ => hF t) hint hlim
  have hF0 : F 0 = 0 := by simp [F]
  rw [hF0, sub_zero] at h
  have h3 : ∫ t in Ioi (0 : ℝ), F' t = z * (mom 3 z - mom 1 z) - (2 * mom 2 z - mom 0 z) := by
    simp only [F', mom]
    rw [integral_sub, integral_const_mul, integral_sub (mom_integrable 3 hz) (mom_integrable 1 hz),
      integral_sub, integral_const_mul]
    · exact (mom_integrable 2 hz).const_mul 2
    · exact mom_integrable 0 hz
    · exact ((mom_integrable 3 hz).sub (mom_integrable 1 hz)).const_mul z
    · exact ((mom_integrable 2 hz).const_mul 2).sub (mom_integrable 0 hz)
  linarith

theorem besselK_one (z : ℝ) : besselK 1 z = mom 1 z := by
  unfold besselK mom; simp

theorem besselK_two {z : ℝ} (hz : 0 < z) : besselK 2 z = 2 * mom 2 z - mom 0 z := by
  unfold besselK mom
  rw [← integral_const_mul, ← integral_sub ((mom_integrable 2 hz).const_mul 2) (mom_integrable 0 hz)]
  congr 1
  ext t
  have : Real.cosh ((2 : ℕ) * t) = 2 * Real.cosh t ^ 2 - 1 := by
    push_cast
    rw [Real.cosh_two_mul, Real.sinh_sq]; ring
  rw [this]; ring

theorem besselK_one_pos {z : ℝ} (hz : 0 < z) : 0 < besselK 1 z := by
  rw [besselK_one]; exact mom_pos 1 hz

theorem besselK_two_pos {z : ℝ} (hz : 0 < z) : 0 < besselK 2 z := by
  unfold besselK
  rw [setIntegral_pos_iff_support_of_nonneg_ae]
  · have : (Function.support fun t : ℝ => Real.exp (-(z * Real.cosh t)) * Real.cosh ((2 : ℕ) * t)) = univ := by
      ext t
      have hc := Real.cosh_pos ((2 : ℕ) * t)
      simp only [Function.mem_support, mem_univ, iff_true]
      positivity
    rw [this, univ_inter]
    simp
  · filter_upwards with t
    have hc := Real.cosh_pos ((2 : ℕ) * t)
    simp only [Pi.zero_apply]
    positivity
  · have h : IntegrableOn (fun t : ℝ => 2 * (Real.exp (-(z * Real.cosh t)) * Real.cosh t ^ 2)
        - Real.exp (-(z * Real.cosh t)) * Real.cosh t ^ 0) (Ioi 0) :=
      ((mom_integrable 2 hz).const_mul 2).sub (mom_integrable 0 hz)
    refine h.congr_fun ?_ measurableSet_Ioi
    intro t _
    have : Real.cosh ((2 : ℕ) * t) = 2 * Real.cosh t ^ 2 - 1 := by
      push_cast
      rw [Real.cosh_two_mul, Real.sinh_sq]; ring
    simp only [this]
    ring

/-- `d/dz (z² K₂) = − z² K₁`. -/
theorem besselK_deriv {z : ℝ} (hz : 0 < z) :
    HasDerivAt (fun z => z ^ 2 * besselK 2 z) (-(z ^ 2 * besselK 1 z)) z := by
  have d1 : HasDerivAt (fun z => z ^ 2 * (2 * mom 2 z - mom 0 z))
      (2 * z * (2 * mom 2 z - mom 0 z) + z ^ 2 * (2 * (-mom 3 z) - (-mom 1 z))) z := by
    have := (hasDerivAt_pow 2 z).mul (((mom_hasDerivAt 2 hz).const_mul 2).sub (mom_hasDerivAt 0 hz))
    refine this.congr_deriv ?_
    simp
  have h := mom_parts hz
  have e : HasDerivAt (fun z => z ^ 2 * (2 * mom 2 z - mom 0 z)) (-(z ^ 2 * besselK 1 z)) z := by
    refine d1.congr_deriv ?_
    rw [besselK_one]
    linear_combination (-2 * z) * h
  refine e.congr_of_eventuallyEq ?_
  filter_upwards [lt_mem_nhds hz] with y hy
  rw [besselK_two hy]

/-- The thermal momentum integral: `∫ p² exp(−n E / T) dp = m² T K₂(n m / T) / n`. -/
theorem momentum_integral {m b : ℝ} (hm : 0 < m) (hb : 0 < b) :
    IntegrableOn (fun p : ℝ => p ^ 2 * Real.exp (-(b * Real.sqrt (p ^ 2 + m ^ 2)))) (Ioi 0)
    ∧ ∫ p in Ioi (0 : ℝ), p ^ 2 * Real.exp (-(b * Real.sqrt (p ^ 2 + m ^ 2))) = m ^ 2 * besselK 2 (b * m) / b := by
  have himg : (fun t => m * Real.sinh t) '' Ioi 0 = Ioi 0 := by
    ext p
    simp only [mem_image, mem_Ioi]
    constructor
    · rintro ⟨t, ht, rfl⟩
      exact mul_pos hm (Real.sinh_pos_iff.mpr ht)
    · intro hp
      refine ⟨Real.arsinh (p / m), ?_, ?_⟩
      · rw [← Real.sinh_pos_iff, Real.sinh_arsinh]; positivity
      · rw [Real.sinh_arsinh]; field_simp
  have hd : ∀ t ∈ Ioi (0 : ℝ), HasDerivWithinAt (fun t => m * Real.sinh t) (m * Real.cosh t) (Ioi 0) t :=
    fun t _ => ((Real.hasDerivAt_sinh t).const_mul m).hasDerivWithinAt
  have hinj : InjOn (fun t => m * Real.sinh t) (Ioi 0) := by
    intro a _ c _ h
    exact Real.sinh_injective (mul_left_cancel₀ hm.ne' h)
  have hpt : ∀ t : ℝ, |m * Real.cosh t| • ((m * Real.sinh t) ^ 2
        * Real.exp (-(b * Real.sqrt ((m * Real.sinh t) ^ 2 + m ^ 2))))
      = m ^ 3 * (Real.exp (-(b * m * Real.cosh t)) * Real.cosh t ^ 3
        - Real.exp (-(b * m * Real.cosh t)) * Real.cosh t ^ 1) := by
    intro t
    have hc := Real.cosh_pos t
    have : (m * Real.sinh t) ^ 2 + m ^ 2 = (m * Real.cosh t) ^ 2 := by
      have := Real.cosh_sq t
      rw [mul_pow, mul_pow, this]; ring
    rw [this, Real.sqrt_sq (by positivity), abs_of_pos (by positivity), smul_eq_mul, mul_pow m (Real.sinh t),
      Real.sinh_sq, show b * (m * Real.cosh t) = b * m * Real.cosh t by ring]
    ring
  have hbm : 0 < b * m := by positivity
  constructor
  · rw [← himg, integrableOn_image_iff_integrableOn_abs_deriv_smul measurableSet_Ioi hd hinj]
    simp only [hpt]
    exact ((mom_integrable 3 hbm).sub (mom_integrable 1 hbm)).const_mul _
  · conv_lhs => rw [← himg]
    rw [integral_image_eq_integral_abs_deriv_smul measurableSet_Ioi hd hinj]
    simp only [hpt]
    rw [integral_const_mul, integral_sub (mom_integrable 3 hbm) (mom_integrable 1 hbm)]
    have h := mom_parts hbm
    rw [besselK_two hbm, ← h]
    unfold mom
    field_simp

/-- `K₁` is antitone. -/
theorem besselK_one_anti {a c : ℝ} (ha : 0 < a) (hac : a ≤ c) : besselK 1 c ≤ besselK 1 a := by
  rw [besselK_one, besselK_one]
  unfold mom
  apply integral_mono (mom_integrable 1 (lt_of_lt_of_le ha hac)) (mom_integrable 1 ha)
  intro t
  have hc := Real.cosh_pos t
  simp only
  gcongr

end Hazma.Relic
