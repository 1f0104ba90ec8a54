import Verif.Props.SelfScattering
import Verif.Props.FeynmanRules

/-! # C287: the self-scattering cross sections from the amplitudes

`sigma_xx_to_s_to_xx` and `sigma_xx_to_v_to_xx` of `_scalar_mediator_cross_sections.py:188-270` and
`_vector_mediator_cross_sections.py:183-258` against the textbook formula for elastic scattering. -/

namespace Hazma.SelfSigma

open Hazma Hazma.Xs Hazma.SelfScattering Hazma.FeynmanRules

/-- Elastic cross section of two particles of mass `m` at energy `e`: the flux and the two-body phase space give
`1 / (32 pi s)` times the integral over the cosine of the scattering angle of the squared amplitude, the integral
being evaluated with a quadrature rule. -/
noncomputable def elastic (v : Vertex) (rule : List (ℝ × ℝ)) (g M w m e : ℝ) : ℝ :=
  1 / (32 * Real.pi * e ^ 2)
    * (rule.map fun p => p.2 * amplitudeSq v g M w m (comP e m 1) (comN e m 1) (comP e m p.1) (comN e m p.1)).sum

theorem kin_com {m e z : ℝ} (hm : 0 ≤ m) (he : 2 * m ≤ e) (hz : z ^ 2 ≤ 1) :
    Kin m e z (comP e m 1) (comN e m 1) (comP e m z) (comN e m z) := by
  have h := com_kinematics m e (mom e m) z (Real.sqrt (1 - z ^ 2)) (mom_sq hm he)
    (by rw [Real.sq_sqrt (by linarith)]; ring)
  simpa [comP, comN] using h

/-- Neither propagator of the two graphs has a pole at a physical angle if the mediator has a mass and a width. -/
theorem prop_ne_zero {q2 M w : ℝ} (h : M * w ≠ 0) : prop q2 M w ≠ 0 := by
  intro h0
  have := prop_im q2 M w
  rw [h0] at this
  exact h (by simpa using this.symm)

theorem self_sum {v : Vertex} {f : ℝ → ℝ} {g M w m e : ℝ} (rule : List (ℝ × ℝ)) (he : e ≠ 0)
    (h : ∀ p ∈ rule, f p.1 = amplitudeSq v g M w m (comP e m 1) (comN e m 1) (comP e m p.1) (comN e m p.1)) :
    (rule.map fun p => p.2 * f p.1).sum / (32 * Real.pi * e) = e * elastic v rule g M w m e := by
  unfold elastic
  rw [List.map_congr_left fun p hp => by rw [h p hp]]
  have := Real.pi_pos
  field_simp

/-- C287 (violated by a factor): above threshold the self-scattering cross sections are the Feynman rules' ones, the
angle integrated with the rule, times the centre-of-mass energy. -/
theorem self_cross_sections {m M w e : ℝ} (g : ℝ) (rule : List (ℝ × ℝ)) (hr : ∀ p ∈ rule, p.1 ^ 2 ≤ 1)
    (hm : 0 ≤ m) (h : 2 * m < e) (hw : M * w ≠ 0) :
    scalarSelf rule e m M g w = e * elastic scalarVertex rule g M w m e
    ∧ vectorSelf rule e m M g w = e * elastic vectorVertex rule g M w m e := by
  have he : 0 < e := by linarith
  unfold scalarSelf vectorSelf
  rw [if_pos h, if_pos h]
  constructor
  · exact self_sum rule he.ne' fun p hp =>
      scalar_self_msq g M w he (kin_com hm h.le (hr p hp)) (prop_ne_zero hw) (prop_ne_zero hw)
  · exact self_sum rule he.ne' fun p hp =>
      vector_self_msq g M w he (kin_com hm h.le (hr p hp)) (prop_ne_zero hw) (prop_ne_zero hw)

/-- C287: at or below threshold both are zero. -/
theorem self_below_threshold {m e : ℝ} (rule : List (ℝ × ℝ)) (M g w : ℝ) (h : e ≤ 2 * m) :
    scalarSelf rule e m M g w = 0 ∧ vectorSelf rule e m M g w = 0 := by
  simp [scalarSelf, vectorSelf, not_lt.mpr h]

/-- C287: the part that holds as documented: dividing by the energy gives the cross section, for every rule with
nodes in `[-1, 1]`. -/
theorem self_cross_sections_partial {m M w e : ℝ} (g : ℝ) (rule : List (ℝ × ℝ)) (hr : ∀ p ∈ rule, p.1 ^ 2 ≤ 1)
    (hm : 0 ≤ m) (h : 2 * m < e) (hw : M * w ≠ 0) :
    (scalarSelf rule e m M g w = elastic scalarVertex rule g M w m e
      ↔ e = 1 ∨ elastic scalarVertex rule g M w m e = 0)
    ∧ (vectorSelf rule e m M g w = elastic vectorVertex rule g M w m e
      ↔ e = 1 ∨ elastic vectorVertex rule g M w m e = 0) := by
  obtain ⟨a, b⟩ := self_cross_sections g rule hr hm h hw
  rw [a, b]
  constructor <;> exact mul_left_eq_self₀

/-- The middle node at 10 MeV for a 4 MeV particle: ten times too large for the scalar mediator. -/
example : scalarSelf [(0, 2)] 10 4 1 1 1 = 10 * elastic scalarVertex [(0, 2)] 1 1 1 4 10
    ∧ elastic scalarVertex [(0, 2)] 1 1 1 4 10 ≠ 0 := by
  have h := (self_cross_sections (m := 4) (M := 1) (w := 1) (e := 10) 1 [(0, 2)] (by simp) (by norm_num)
    (by norm_num) (by norm_num)).1
  refine ⟨h, fun h0 => ?_⟩
  rw [h0] at h
  have hp := Real.pi_pos
  unfold scalarSelf scalarSelfMsq at h
  norm_num at h

end Hazma.SelfSigma
