import Verif.Lemmas.PhaseThree
import Mathlib.MeasureTheory.Constructions.HaarToSphere
import Mathlib.Tactic

/-! # Archimedes: the projection of the sphere onto an axis is uniform -/

namespace Hazma.RamboMeasure

open MeasureTheory Set
open scoped ENNReal Pointwise

/-- The surface of the unit sphere, the set of directions. -/
noncomputable abbrev surface : Measure (Metric.sphere (0 : V) 1) := (volume : Measure V).toSphere

theorem archimedes_map {n : V} (hn : ‖n‖ = 1) :
    surface.map (fun x : Metric.sphere (0 : V) 1 => (inner ℝ n (x : V) : ℝ)) = ENNReal.ofReal (2 * Real.pi) • volume.restrict (Ioo (-1 : ℝ) 1) := by
  have hmeas : Measurable fun x : Metric.sphere (0 : V) 1 => (inner ℝ n (x : V) : ℝ) := by fun_prop
  ext s hs
  rw [Measure.map_apply hmeas hs, Measure.toSphere_apply' _ (hmeas hs), Measure.smul_apply, Measure.restrict_apply hs]
  have hset : Ioo (0 : ℝ) 1 • ((↑) '' ((fun x : Metric.sphere (0 : V) 1 => (inner ℝ n (x : V) : ℝ)) ⁻¹' s) : Set V)
      = {k : V | 0 < ‖k‖ ∧ ‖k‖ < 1 ∧ (inner ℝ n k : ℝ) / ‖k‖ ∈ s} := by
    ext k
    constructor
    · rintro ⟨r, hr, y, ⟨x, hx, rfl⟩, rfl⟩
      have hx1 : ‖(x : V)‖ = 1 := by simpa using x.2
      have hrn : ‖r • (x : V)‖ = r := by rw [norm_smul, hx1, mul_one, Real.norm_of_nonneg hr.1.le]
      show 0 < ‖r • (x : V)‖ ∧ ‖r • (x : V)‖ < 1 ∧ (inner ℝ n (r • (x : V)) : ℝ) / ‖r • (x : V)‖ ∈ s
      rw [hrn, inner_smul_right, mul_div_cancel_left₀ _ hr.1.ne']
      exact ⟨hr.1, hr.2, hx⟩
    · rintro ⟨h0, h1, h2⟩
      refine ⟨‖k‖, ⟨h0, h1⟩, ‖k‖⁻¹ • k, ⟨⟨‖k‖⁻¹ • k, ?_⟩, ?_, rfl⟩, ?_⟩
      · rw [mem_sphere_zero_iff_norm, norm_smul, norm_inv, norm_norm, inv_mul_cancel₀ h0.ne']
      · show (inner ℝ n (‖k‖⁻¹ • k) : ℝ) ∈ s
        rw [inner_smul_right, inv_mul_eq_div]
        exact h2
      · show ‖k‖ • ‖k‖⁻¹ • k = k
        rw [smul_smul, mul_inv_cancel₀ h0.ne', one_smul]
  rw [hset]
  let F : ℝ → ℝ → ℝ≥0∞ := fun r t => {p : ℝ × ℝ | 0 < p.1 ∧ p.1 < 1 ∧ p.2 / p.1 ∈ s}.indicator (fun _ => 1) (r, t)
  have hS : MeasurableSet {p : ℝ × ℝ | 0 < p.1 ∧ p.1 < 1 ∧ p.2 / p.1 ∈ s} := by
    refine (measurableSet_lt measurable_const measurable_fst).inter ((measurableSet_lt measurable_fst measurable_const).inter ?_)
    exact (measurable_snd.div measurable_fst) hs
  have hF : Measurable (Function.uncurry F) := by
    exact measurable_const.indicator hS
  have h1 := axis_lintegral n hF
  have hk : MeasurableSet {k : V | 0 < ‖k‖ ∧ ‖k‖ < 1 ∧ (inner ℝ n k : ℝ) / ‖k‖ ∈ s} := by
    have : Measurable fun k : V => (‖k‖, (inner ℝ n k : ℝ)) := by fun_prop
    exact this hS
  have h2 : ∫⁻ k : V, F ‖k‖ (inner ℝ n k) = volume {k : V | 0 < ‖k‖ ∧ ‖k‖ < 1 ∧ (inner ℝ n k : ℝ) / ‖k‖ ∈ s} := by
    rw [← lintegral_indicator_one hk]
    rfl
  have h3 : ∫⁻ e in Ioi (0 : ℝ), ∫⁻ c in Ioo (-1 : ℝ) 1, ENNReal.ofReal (e ^ 2) * F e (‖n‖ * e * c)
      = ∫⁻ e in Ioo (0 : ℝ) 1, ENNReal.ofReal (e ^ 2) * volume (s ∩ Ioo (-1) 1) := by
    rw [← lintegral_indicator measurableSet_Ioi, ← lintegral_indicator measurableSet_Ioo]
    refine lintegral_congr fun e => ?_
    by_cases he : 0 < e
    · rw [indicator_of_mem (show e ∈ Ioi (0 : ℝ) from he)]
      by_cases he1 : e < 1
      · rw [indicator_of_mem (show e ∈ Ioo (0 : ℝ) 1 from ⟨he, he1⟩), ← Measure.restrict_apply hs, ← lintegral_indicator_one hs,
          ← lintegral_const_mul _ (measurable_one.indicator hs)]
        refine lintegral_congr fun c => ?_
        simp only [F, hn, one_mul]
        congr 1
        have : e * c / e = c := mul_div_cancel_left₀ _ he.ne'
        by_cases hc : c ∈ s
        · rw [indicator_of_mem hc, indicator_of_mem]
          · rfl
          · exact ⟨he, he1, by rw [this]; exact hc⟩
        · rw [indicator_of_notMem hc, indicator_of_notMem]
          rintro ⟨-, -, h⟩
          rw [this] at h
          exact hc h
      · rw [indicator_of_notMem (fun h => he1 h.2)]
        simp [F, he1]
    · rw [indicator_of_notMem (show e ∉ Ioi (0 : ℝ) from he), indicator_of_notMem (show e ∉ Ioo (0 : ℝ) 1 from fun h => he h.1)]
  rw [h2, h3] at h1
  rw [h1, lintegral_mul_const _ (by fun_prop)]
  have h4 : ∫⁻ e in Ioo (0 : ℝ) 1, ENNReal.ofReal (e ^ 2) = ENNReal.ofReal (1 / 3) := by
    rw [← ofReal_integral_eq_lintegral_ofReal]
    · rw [← integral_Ioc_eq_integral_Ioo, ← intervalIntegral.integral_of_le (by norm_num)]
      norm_num
    · exact (continuous_pow 2).integrableOn_Icc.mono_set Ioo_subset_Icc_self
    · exact Filter.Eventually.of_forall fun e => sq_nonneg e
  rw [h4, finrank_euclideanSpace_fin, smul_eq_mul]
  have h5 : ((3 : ℕ) : ℝ≥0∞) * ENNReal.ofReal (1 / 3) = 1 := by
    rw [show ((3 : ℕ) : ℝ≥0∞) = ENNReal.ofReal 3 by norm_num, ← ENNReal.ofReal_mul (by norm_num)]
    norm_num
  calc ((3 : ℕ) : ℝ≥0∞) * (ENNReal.ofReal (2 * Real.pi) * (ENNReal.ofReal (1 / 3) * volume (s ∩ Ioo (-1) 1)))
      = (((3 : ℕ) : ℝ≥0∞) * ENNReal.ofReal (1 / 3)) * (ENNReal.ofReal (2 * Real.pi) * volume (s ∩ Ioo (-1) 1)) := by ring
    _ = _ := by rw [h5, one_mul]

theorem archimedes {n : V} (hn : ‖n‖ = 1) {g : ℝ → ℝ≥0∞} (hg : Measurable g) :
    ∫⁻ x : Metric.sphere (0 : V) 1, g (inner ℝ n (x : V)) ∂surface = ENNReal.ofReal (2 * Real.pi) * ∫⁻ c in Ioo (-1 : ℝ) 1, g c := by
  have hmeas : Measurable fun x : Metric.sphere (0 : V) 1 => (inner ℝ n (x : V) : ℝ) := by fun_prop
  rw [← lintegral_map hg hmeas, archimedes_map hn, lintegral_smul_measure, smul_eq_mul]

end Hazma.RamboMeasure
