import Verif.Model.SolidAngle
import Verif.Lemmas.Archimedes
import Mathlib.Geometry.Euclidean.Angle.Unoriented.Basic
import Mathlib.Tactic

/-!
# The solid angle of a cone (C307)
-/

namespace Hazma.SolidAngle

open MeasureTheory Set Hazma.RamboMeasure
open scoped ENNReal

/-- **C307.** `solid_angle_cone` is the area of the part of the unit sphere seen within `radius` degrees of a direction. -/
theorem cone {n : V} (hn : ‖n‖ = 1) {radius : ℝ} (h0 : 0 ≤ radius) (h1 : radius ≤ 180) :
    surface {x : Metric.sphere (0 : V) 1 | InnerProductGeometry.angle n (x : V) ≤ radius * (Real.pi / 180)}
      = ENNReal.ofReal (solidAngleCone radius) := by
  have hpi := Real.pi_pos
  obtain ⟨θ, hθ⟩ : ∃ θ, θ = radius * (Real.pi / 180) := ⟨_, rfl⟩
  have t0 : 0 ≤ θ := by rw [hθ]; positivity
  have t1 : θ ≤ Real.pi := by rw [hθ]; nlinarith
  rw [← hθ]
  have hset : {x : Metric.sphere (0 : V) 1 | InnerProductGeometry.angle n (x : V) ≤ θ}
      = (fun x : Metric.sphere (0 : V) 1 => (inner ℝ n (x : V) : ℝ)) ⁻¹' Ici (Real.cos θ) := by
    ext x
    have hx : ‖(x : V)‖ = 1 := by simp
    simp only [mem_ofPred_eq, mem_preimage, mem_Ici]
    have hc : Real.cos (InnerProductGeometry.angle n (x : V)) = inner ℝ n (x : V) := by
      rw [InnerProductGeometry.cos_angle, hn, hx]; simp
    rw [← hc]
    constructor
    · intro h
      exact Real.cos_le_cos_of_nonneg_of_le_pi (InnerProductGeometry.angle_nonneg _ _) t1 h
    · intro h
      by_contra hlt
      exact absurd (Real.cos_lt_cos_of_nonneg_of_le_pi t0 (InnerProductGeometry.angle_le_pi _ _) (not_le.mp hlt)) (not_lt.mpr h)
  have hmeas : Measurable fun x : Metric.sphere (0 : V) 1 => (inner ℝ n (x : V) : ℝ) := by fun_prop
  rw [hset, ← Measure.map_apply hmeas measurableSet_Ici, archimedes_map hn, Measure.smul_apply, Measure.restrict_apply measurableSet_Ici,
    smul_eq_mul]
  have hv : volume (Ici (Real.cos θ) ∩ Ioo (-1) 1) = ENNReal.ofReal (1 - Real.cos θ) := by
    refine le_antisymm ?_ ?_
    · rw [← Real.volume_Icc]
      exact measure_mono fun y hy => ⟨hy.1, hy.2.2.le⟩
    · rw [← Real.volume_Ioo]
      exact measure_mono fun y hy => ⟨hy.1.le, lt_of_le_of_lt (Real.neg_one_le_cos θ) hy.1, hy.2⟩
  rw [hv, ← ENNReal.ofReal_mul (by positivity)]
  congr 1
  unfold solidAngleCone
  rw [show radius * Real.pi / 180 / 2 = θ / 2 by rw [hθ]; ring]
  have h2 : Real.cos θ = 2 * Real.cos (θ / 2) ^ 2 - 1 := by rw [← Real.cos_two_mul]; congr 1; ring
  rw [h2, Real.sin_sq]
  ring

/-- **C307.** The whole sphere and half of it; the area grows with the radius. -/
theorem cone_values : solidAngleCone 0 = 0 ∧ solidAngleCone 90 = 2 * Real.pi ∧ solidAngleCone 180 = 4 * Real.pi := by
  unfold solidAngleCone
  refine ⟨by simp, ?_, ?_⟩
  · rw [show (90 : ℝ) * Real.pi / 180 / 2 = Real.pi / 4 by ring, Real.sin_pi_div_four, div_pow, Real.sq_sqrt (by norm_num)]
    ring
  · rw [show (180 : ℝ) * Real.pi / 180 / 2 = Real.pi / 2 by ring, Real.sin_pi_div_two]
    ring

/-- A cone of 60 degrees covers a quarter of the sky. -/
example {n : V} (hn : ‖n‖ = 1) : surface {x : Metric.sphere (0 : V) 1 | InnerProductGeometry.angle n (x : V) ≤ Real.pi / 3}
    = ENNReal.ofReal Real.pi := by
  have h := cone hn (radius := 60) (by norm_num) (by norm_num)
  rw [show (60 : ℝ) * (Real.pi / 180) = Real.pi / 3 by ring] at h
  rw [h]
  unfold solidAngleCone
  rw [show (60 : ℝ) * Real.pi / 180 / 2 = Real.pi / 6 by ring, Real.sin_pi_div_six]
  congr 1
  ring

end Hazma.SolidAngle
