import Verif.Lemmas.RamboUniform

/-! # The integral over the velocity of the centre of mass -/

namespace Hazma.RamboMeasure

open MeasureTheory Set Filter
open scoped ENNReal Topology

/-- `√(1 + y²)`. -/
noncomputable def sg (y : ℝ) : ℝ := Real.sqrt (1 + y ^ 2)

theorem sg_sq (y : ℝ) : sg y ^ 2 = 1 + y ^ 2 := Real.sq_sqrt (by positivity)

theorem sg_pos (y : ℝ) : 0 < sg y := Real.sqrt_pos.mpr (by positivity)

theorem sg_deriv (y : ℝ) : HasDerivAt sg (y / sg y) y := by
  have h0 : HasDerivAt (fun y : ℝ => 1 + y ^ 2) (2 * y) y := by
    have := (hasDerivAt_pow 2 y).const_add 1
    refine this.congr_deriv ?_
    norm_num
  have h := h0.sqrt (by positivity)
  refine h.congr_deriv ?_
  change 2 * y / (2 * sg y) = y / sg y
  have := sg_pos y
  field_simp

theorem cube_deriv (m : ℕ) (y : ℝ) :
    HasDerivAt (fun y => y ^ 3 / sg y ^ (m + 1)) (3 * y ^ 2 / sg y ^ (m + 1) - (m + 1) * y ^ 4 / sg y ^ (m + 3)) y := by
  have hs := sg_pos y
  have h := (hasDerivAt_pow 3 y).div ((sg_deriv y).pow (m + 1)) (pow_pos hs _).ne'
  refine h.congr_deriv ?_
  simp only [Nat.add_sub_cancel, Pi.pow_apply]
  push_cast
  have e1 : sg y ^ (m + 1) = sg y ^ m * sg y := pow_succ _ _
  have e2 : sg y ^ (m + 3) = sg y ^ m * sg y ^ 3 := pow_add _ _ _
  rw [e1, e2]
  have hm : sg y ^ m ≠ 0 := by positivity
  generalize sg y ^ m = p at *
  field_simp

/-- The value of the radial integral. -/
noncomputable def iv (N : ℕ) : ℝ := 2 ^ (2 * N + 1) * (N + 1).factorial * N.factorial / (2 * N + 3).factorial

theorem ratio_tendsto : Tendsto (fun y => y / sg y) atTop (𝓝 1) := by
  have h1 : Tendsto (fun y : ℝ => (Real.sqrt (1 + (y⁻¹) ^ 2))⁻¹) atTop (𝓝 1) := by
    have h2 : Tendsto (fun y : ℝ => 1 + (y⁻¹) ^ 2) atTop (𝓝 1) := by
      have := (tendsto_inv_atTop_zero (𝕜 := ℝ)).pow 2
      have := this.const_add 1
      simpa using this
    have h3 := (Real.continuous_sqrt.tendsto 1).comp h2
    have h4 := h3.inv₀ (by simp)
    simpa using h4
  refine h1.congr' ?_
  filter_upwards [eventually_gt_atTop 0] with y hy
  have h : 1 + (y⁻¹) ^ 2 = (sg y / y) ^ 2 := by
    rw [div_pow, sg_sq]
    field_simp
    ring
  rw [h, Real.sqrt_sq (by have := sg_pos y; positivity), inv_div]

theorem inv_sg_tendsto : Tendsto (fun y => (sg y)⁻¹) atTop (𝓝 0) := by
  refine tendsto_inv_atTop_zero.comp (tendsto_atTop_mono (fun y => ?_) tendsto_id)
  exact Real.le_sqrt_of_sq_le (by simp only [id]; linarith)

theorem primitive (N : ℕ) : ∃ G : ℝ → ℝ, (∀ y, HasDerivAt G (y ^ 2 / sg y ^ (2 * N + 5)) y) ∧ G 0 = 0
    ∧ Tendsto G atTop (𝓝 (iv N)) := by
  induction N with
  | zero =>
    refine ⟨fun y => y ^ 3 / sg y ^ 3 / 3, fun y => ?_, by simp, ?_⟩
    · have h := (cube_deriv 2 y).div_const 3
      refine h.congr_deriv ?_
      have hs := sg_pos y
      have h2 := sg_sq y
      push_cast
      field_simp
      rw [h2]
      ring
    · have h := (ratio_tendsto.pow 3).div_const 3
      have e : iv 0 = 1 ^ 3 / 3 := by norm_num [iv, Nat.factorial]
      rw [e]
      refine h.congr fun y => ?_
      rw [div_pow]
  | succ N ih =>
    obtain ⟨G, h1, h2, h3⟩ := ih
    refine ⟨fun y => ((2 * N + 2) * G y + y ^ 3 / sg y ^ (2 * N + 5)) / (2 * N + 5), fun y => ?_, by simp [h2], ?_⟩
    · have h := (((h1 y).const_mul (2 * (N : ℝ) + 2)).add (cube_deriv (2 * N + 4) y)).div_const (2 * (N : ℝ) + 5)
      refine h.congr_deriv ?_
      have hs := sg_pos y
      have h2 := sg_sq y
      push_cast
      have e1 : sg y ^ (2 * N + 4 + 1) = sg y ^ (2 * N + 5) := by ring_nf
      have e2 : sg y ^ (2 * N + 4 + 3) = sg y ^ (2 * N + 5) * sg y ^ 2 := by rw [← pow_add]
      have e3 : sg y ^ (2 * (N + 1) + 5) = sg y ^ (2 * N + 5) * sg y ^ 2 := by rw [← pow_add]; ring_nf
      rw [e1, e2, e3]
      have hp : sg y ^ (2 * N + 5) ≠ 0 := by positivity
      generalize sg y ^ (2 * N + 5) = p at *
      field_simp
      rw [h2]
      ring
    · have hc : Tendsto (fun y => y ^ 3 / sg y ^ (2 * N + 5)) atTop (𝓝 0) := by
        have := (ratio_tendsto.pow 3).mul (inv_sg_tendsto.pow (2 * N + 2))
        rw [zero_pow (by omega), mul_zero] at this
        refine this.congr fun y => ?_
        have hs := sg_pos y
        rw [div_pow, show sg y ^ (2 * N + 5) = sg y ^ 3 * sg y ^ (2 * N + 2) by rw [← pow_add]; ring_nf, inv_pow]
        field_simp
      have h := ((h3.const_mul (2 * (N : ℝ) + 2)).add hc).div_const (2 * (N : ℝ) + 5)
      have e : iv (N + 1) = ((2 * (N : ℝ) + 2) * iv N + 0) / (2 * N + 5) := by
        unfold iv
        have f1 : ((2 * (N + 1) + 3).factorial : ℝ) = (2 * N + 5) * ((2 * N + 4) * (2 * N + 3).factorial) := by
          rw [show 2 * (N + 1) + 3 = (2 * N + 4) + 1 by ring, Nat.factorial_succ, show 2 * N + 4 = (2 * N + 3) + 1 by ring,
            Nat.factorial_succ]
          push_cast
          ring
        have f2 : ((N + 1 + 1).factorial : ℝ) = (N + 2) * (N + 1).factorial := by
          rw [Nat.factorial_succ]; push_cast; ring
        have f3 : ((N + 1).factorial : ℝ) = (N + 1) * N.factorial := by
          rw [Nat.factorial_succ]; push_cast; ring
        rw [f1, f2, show 2 * (N + 1) + 1 = (2 * N + 1) + 2 by ring, pow_add, f3]
        have : ((2 * N + 3).factorial : ℝ) ≠ 0 := by positivity
        field_simp
        ring
      rw [e]
      exact h

/-- The integral over the velocity of the centre of mass of `N + 2` particles. -/
theorem gam_lintegral (N : ℕ) :
    ∫⁻ b : V, ENNReal.ofReal ((2 * (N + 1) + 1).factorial / gam b ^ (2 * (N + 1) + 3))
      = ENNReal.ofReal (2 ^ (2 * N + 3) * Real.pi * (N + 1).factorial * N.factorial) := by
  obtain ⟨G, h1, h2, h3⟩ := primitive N
  have hnn : ∀ y ∈ Ioi (0 : ℝ), 0 ≤ y ^ 2 / sg y ^ (2 * N + 5) := fun y _ => by have := sg_pos y; positivity
  have hi := integrableOn_Ioi_deriv_of_nonneg' (fun y _ => h1 y) hnn h3
  have hv := integral_Ioi_of_hasDerivAt_of_nonneg' (fun y _ => h1 y) hnn h3
  rw [h2, sub_zero] at hv
  obtain ⟨f, hf⟩ : ∃ f : ℝ → ℝ, f = fun y => (2 * (N + 1) + 1).factorial / sg y ^ (2 * N + 5) := ⟨_, rfl⟩
  have hdim : Module.finrank ℝ V - 1 = 2 := by simp
  have hfun : (fun y : ℝ => y ^ (Module.finrank ℝ V - 1) • f y)
      = fun y => ((2 * (N + 1) + 1).factorial : ℝ) * (y ^ 2 / sg y ^ (2 * N + 5)) := by
    funext y
    rw [hdim, hf, smul_eq_mul]
    ring
  have hint : Integrable (fun b : V => f ‖b‖) := by
    rw [integrable_fun_norm_addHaar (μ := (volume : Measure V)), hfun]
    exact hi.const_mul _
  have hval := integral_fun_norm_addHaar (volume : Measure V) f
  rw [hfun, integral_const_mul, hv] at hval
  have e : ∀ b : V, ((2 * (N + 1) + 1).factorial : ℝ) / gam b ^ (2 * (N + 1) + 3) = f ‖b‖ := by
    intro b; rw [hf]; rfl
  simp only [e]
  rw [← ofReal_integral_eq_lintegral_ofReal hint, hval]
  · congr 1
    have hb : (volume : Measure V).real (Metric.ball 0 1) = Real.pi * 4 / 3 := by
      unfold Measure.real
      rw [EuclideanSpace.volume_ball_fin_three]
      simp
      positivity
    rw [hb]
    simp only [finrank_euclideanSpace, Fintype.card_fin, nsmul_eq_mul, smul_eq_mul, iv]
    have f1 : (2 * (N + 1) + 1).factorial = (2 * N + 3).factorial := by ring_nf
    rw [f1]
    have : ((2 * N + 3).factorial : ℝ) ≠ 0 := by positivity
    push_cast
    field_simp
    ring
  · refine ae_of_all _ fun b => ?_
    rw [hf]
    have := sg_pos ‖b‖
    simp only [Pi.zero_apply]
    positivity

end Hazma.RamboMeasure
