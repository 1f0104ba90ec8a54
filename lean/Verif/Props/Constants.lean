import Verif.Model.EndToEnd
import Mathlib.Tactic

/-! # C288: the constants of the Python and of the compiled part

`parameters.py` and the kernels `scalar_xs.rs`, `vector_xs.rs` and `legacy_parameters.pxd` carry different values of
the masses of the light particles. -/

namespace Hazma.Constants

open Hazma Hazma.Xs

/-- Relative distance from the first number. -/
noncomputable def apart (x y : ℝ) : ℝ := |x - y| / x

/-- The square of the pion mass that the quark condensate gives, `B (m_u + m_d)`. -/
noncomputable def pionMassSq (c : ScalarModel.Consts) : ℝ := c.b0 * (c.muq + c.mdq)

/-- C288: in the Python part the condensate is fixed by the mean pion mass. -/
theorem python_condensate : pionMassSq pythonConsts = ((pythonConsts.mpi0 + pythonConsts.mpi) / 2) ^ 2 := by
  unfold pionMassSq pythonConsts
  norm_num

/-- C288: what enters the cross sections (the couplings, the masses, and the condensate times the quark masses)
differs by less than four parts in a million between the two parts. -/
theorem constants_close :
    kernelConsts.alpha = pythonConsts.alpha ∧ kernelConsts.vh = pythonConsts.vh
    ∧ apart pythonConsts.me kernelConsts.me < 4e-6 ∧ apart pythonConsts.mmu kernelConsts.mmu < 4e-6
    ∧ apart pythonConsts.mpi kernelConsts.mpi < 4e-6 ∧ apart pythonConsts.mpi0 kernelConsts.mpi0 < 4e-6
    ∧ apart (pionMassSq pythonConsts) (pionMassSq kernelConsts) < 4e-6 := by
  refine ⟨rfl, rfl, ?_, ?_, ?_, ?_, ?_⟩ <;>
    · unfold apart
      simp only [pionMassSq, pythonConsts, kernelConsts]
      rw [abs_of_pos (by norm_num)]
      norm_num

/-- C288 (violated): none of the masses agrees, and the quark masses and the condensate differ by percents. -/
theorem constants_differ :
    kernelConsts.me < pythonConsts.me ∧ kernelConsts.mmu < pythonConsts.mmu
    ∧ kernelConsts.mpi < pythonConsts.mpi ∧ kernelConsts.mpi0 < pythonConsts.mpi0
    ∧ 0.02 < apart pythonConsts.mdq kernelConsts.mdq ∧ 0.06 < apart pythonConsts.muq kernelConsts.muq
    ∧ 0.03 < apart pythonConsts.b0 kernelConsts.b0 := by
  refine ⟨?_, ?_, ?_, ?_, ?_, ?_, ?_⟩
  · norm_num [pythonConsts, kernelConsts]
  · norm_num [pythonConsts, kernelConsts]
  · norm_num [pythonConsts, kernelConsts]
  · norm_num [pythonConsts, kernelConsts]
  · unfold apart; simp only [pythonConsts, kernelConsts]; rw [abs_of_neg (by norm_num)]; norm_num
  · unfold apart; simp only [pythonConsts, kernelConsts]; rw [abs_of_neg (by norm_num)]; norm_num
  · unfold apart; simp only [pythonConsts, kernelConsts]; rw [abs_of_pos (by norm_num)]; norm_num

/-- C288: the charges of the kernels behind mediator decays belong to a fine-structure constant of 1/137, those of
`parameters.py` to 1/137.04. -/
theorem charges : CythonKernels.legacyQe ^ 2 / (4 * Real.pi) = 1 / 137
    ∧ EndToEnd.pyVector.qe ^ 2 / (4 * Real.pi) = EndToEnd.pyVector.alpha
    ∧ EndToEnd.pyVector.alpha = pythonConsts.alpha ∧ pythonConsts.alpha < 1 / 137 := by
  have hp := Real.pi_pos
  refine ⟨?_, ?_, rfl, by norm_num [pythonConsts]⟩
  · unfold CythonKernels.legacyQe
    rw [Real.sq_sqrt (by positivity)]
    field_simp
  · simp only [EndToEnd.pyVector]
    rw [Real.sq_sqrt (by positivity)]
    field_simp

/-- A scalar mediator of mass `ms` that couples to gluons only. -/
def gluonic (mx ms : ℝ) : ScalarModel.Base := ⟨mx, ms, 1, 0, 1, 0, 1, 0, 1⟩

/-- C288 (violated): between the two pion thresholds dark matter annihilates into pions through a scalar mediator
that cannot decay into them. -/
theorem pion_window (mx e : ℝ) (hmx : 0 ≤ mx) (h1 : 2 * kernelConsts.mpi < e) (h2 : e ≤ 2 * pythonConsts.mpi)
    (h3 : 2 * mx < e) (norm : ℝ) :
    ScalarModel.widthPi pythonConsts pythonConsts.mpi norm (gluonic mx e) = .ok 0
    ∧ 0 < scalarPiPi kernelConsts (gluonic mx 1000) e := by
  constructor
  · unfold ScalarModel.widthPi gluonic
    rw [if_neg (not_lt.mpr h2)]
  · have hm : (kernelConsts.mpi : ℝ) = 139.57018 := rfl
    unfold scalarPiPi scalarPi gluonic
    rw [if_neg (by push Not; constructor <;> linarith)]
    simp only
    rw [hm] at h1
    have he : 0 < e := by linarith
    have hr : 0 < (-4 * kernelConsts.mpi ^ 2 + e ^ 2) * (-4 * mx ^ 2 + e ^ 2) := by
      rw [hm]
      exact mul_pos (by nlinarith) (by nlinarith)
    have hv : (kernelConsts.vh : ℝ) = 246227.95 := rfl
    have hpi := Real.pi_pos
    have hP : 0 < propagator 1000 e 1 := by
      unfold propagator
      nlinarith [sq_nonneg (e ^ 2 - 1000 ^ 2), sq_nonneg (1000 ^ 2 - e ^ 2)]
    refine div_pos (mul_pos (mul_pos (by norm_num) (Real.sqrt_pos.mpr hr)) (sq_pos_of_ne_zero ?_)) ?_
    · have : 2 * kernelConsts.mpi ^ 2 - e ^ 2 < 0 := by rw [hm]; nlinarith
      rw [hv]
      have h0 : 162 * (1 : ℝ) * 1 ^ 3 * (2 * kernelConsts.mpi ^ 2 - e ^ 2) * 246227.95 ^ 2 < 0 := by nlinarith
      simp only [mul_zero, zero_mul, add_zero, mul_one, one_pow, sub_zero] at h0 ⊢
      have hb : (kernelConsts.b0 : ℝ) = 2654.082197477761 := rfl
      have hd : (kernelConsts.mdq : ℝ) = 4.8 := rfl
      have hu : (kernelConsts.muq : ℝ) = 2.3 := rfl
      rw [hb, hd, hu]
      rw [hm] at h0 ⊢
      nlinarith
    · rw [hv]
      positivity

end Hazma.Constants
