import Mathlib.Analysis.SpecialFunctions.Trigonometric.Basic

/-! # `solid_angle_cone` -/

namespace Hazma.SolidAngle

/-- `solid_angle_cone(radius)`, `hazma/gamma_ray_parameters.py:42-56`; the radius is in degrees. -/
noncomputable def solidAngleCone (radius : ℝ) : ℝ := 4 * Real.pi * Real.sin (radius * Real.pi / 180 / 2) ^ 2

end Hazma.SolidAngle
