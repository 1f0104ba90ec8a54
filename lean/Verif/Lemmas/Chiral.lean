import Verif.Props.SelfScattering

/-!
# Chiral projectors and products of weak currents

Used to state the weak interaction; nothing here is part of the code.
-/

namespace Hazma.Dirac

open Matrix Hazma.SelfScattering

/-- `P_L`, in the representation of `gamma`. -/
def projL : M4 := !![1, 0, 0, 0; 0, 1, 0, 0; 0, 0, 0, 0; 0, 0, 0, 0]
/-- `P_R`. -/
def projR : M4 := !![0, 0, 0, 0; 0, 0, 0, 0; 0, 0, 1, 0; 0, 0, 0, 1]

/-- They are complementary projectors, and `γ^μ` exchanges them. -/
theorem proj_rules : projL * projL = projL ∧ projR * projR = projR ∧ projL * projR = 0 ∧ projL + projR = 1
    ∧ ∀ μ, gamma μ * projL = projR * gamma μ := by
  refine ⟨?_, ?_, ?_, ?_, ?_⟩
  · ext i j; fin_cases i <;> fin_cases j <;> simp [projL, Matrix.mul_apply, Fin.sum_univ_four]
  · ext i j; fin_cases i <;> fin_cases j <;> simp [projR, Matrix.mul_apply, Fin.sum_univ_four]
  · ext i j; fin_cases i <;> fin_cases j <;> simp [projL, projR, Matrix.mul_apply, Fin.sum_univ_four]
  · ext i j; fin_cases i <;> fin_cases j <;> simp [projL, projR]
  · intro μ
    fin_cases μ <;> ext i j <;> fin_cases i <;> fin_cases j <;>
      simp [gamma, projL, projR, Matrix.mul_apply, Fin.sum_univ_four]

/-- `ū(a) γ^μ (gL P_L + gR P_R) u(b)` times its conjugate with index `ν`, summed over spins. -/
noncomputable def line (gL gR : ℝ) (a : Fin 4 → ℝ) (k : ℝ) (b : Fin 4 → ℝ) (l : ℝ) (i j : Fin 4) : ℂ :=
  trace (spinSum a k * gamma i * ((gL : ℂ) • projL + (gR : ℂ) • projR) * spinSum b l
    * (((gL : ℂ) • projR + (gR : ℂ) • projL) * gamma j))

theorem spinSum_eq (p : Fin 4 → ℝ) (m : ℝ) : spinSum p m =
    !![(m : ℂ), 0, p 0 - p 3, -p 1 + Complex.I * p 2;
       0, (m : ℂ), -p 1 - Complex.I * p 2, p 0 + p 3;
       p 0 + p 3, p 1 - Complex.I * p 2, (m : ℂ), 0;
       p 1 + Complex.I * p 2, p 0 - p 3, 0, (m : ℂ)] := by
  unfold spinSum
  rw [slash_eq]
  ext i j
  fin_cases i <;> fin_cases j <;> simp

/-- The totally antisymmetric part of a line. -/
noncomputable def anti (a b : Fin 4 → ℝ) : Fin 4 → Fin 4 → ℝ :=
  ![![0, -(a 2 * b 3 - a 3 * b 2), a 1 * b 3 - a 3 * b 1, -(a 1 * b 2 - a 2 * b 1)],
    ![a 2 * b 3 - a 3 * b 2, 0, a 0 * b 3 - a 3 * b 0, -(a 0 * b 2 - a 2 * b 0)],
    ![-(a 1 * b 3 - a 3 * b 1), -(a 0 * b 3 - a 3 * b 0), 0, a 0 * b 1 - a 1 * b 0],
    ![a 1 * b 2 - a 2 * b 1, a 0 * b 2 - a 2 * b 0, -(a 0 * b 1 - a 1 * b 0), 0]]

/-- The metric with real entries. -/
def metric (i j : Fin 4) : ℝ := if i = j then (![1, -1, -1, -1] : Fin 4 → ℝ) i else 0

/-- The symmetric part of a line. -/
noncomputable def symPart (gL gR : ℝ) (a : Fin 4 → ℝ) (k : ℝ) (b : Fin 4 → ℝ) (l : ℝ) (i j : Fin 4) : ℝ :=
  2 * (gL ^ 2 + gR ^ 2) * (a i * b j + a j * b i - metric i j * mink a b)
    + 4 * (gL * gR * k * l * metric i j)

set_option maxHeartbeats 4000000 in
theorem line_eq (gL gR : ℝ) (a : Fin 4 → ℝ) (k : ℝ) (b : Fin 4 → ℝ) (l : ℝ) (i j : Fin 4) :
    line gL gR a k b l i j
      = (symPart gL gR a k b l i j : ℂ)
        + Complex.I * ((2 * (gL ^ 2 - gR ^ 2) * anti a b i j : ℝ) : ℂ) := by
  unfold line
  rw [spinSum_eq, spinSum_eq]
  have hI : Complex.I ^ 2 = -1 := Complex.I_sq
  have hI4 : Complex.I ^ 4 = 1 := Complex.I_pow_four
  have hI3 : Complex.I ^ 3 = -Complex.I := Complex.I_pow_three
  fin_cases i <;> fin_cases j <;>
    simp [gamma, projL, projR, trace, Fin.sum_univ_four, Matrix.vecHead, Matrix.vecTail, mink, anti,
      symPart, metric] <;>
    first | ring1 | (ring_nf; simp only [hI, hI3, hI4]; ring1)

set_option maxHeartbeats 4000000 in
/-- The product of a left-handed current with a general one. -/
theorem line_line_chiral (gL gR : ℝ) (a b c d : Fin 4 → ℝ) (k l m n : ℝ) :
    ∑ i, ∑ j, eta i * eta j * (line 1 0 a k b l i j * line gL gR c m d n i j)
      = ((16 * gL ^ 2 * (mink a c * mink b d) + 16 * gR ^ 2 * (mink a d * mink b c)
          - 16 * gL * gR * m * n * mink a b : ℝ) : ℂ) := by
  have hI : Complex.I ^ 2 = -1 := Complex.I_sq
  have key : ∀ x y x' y' w : ℂ, w * ((x + Complex.I * y) * (x' + Complex.I * y'))
      = w * (x * x' - y * y') + Complex.I * (w * (x * y' + y * x')) := by
    intro x y x' y' w
    linear_combination (w * y * y') * hI
  simp only [line_eq, key, Finset.sum_add_distrib, ← Finset.mul_sum]
  have h0 : ∑ i, ∑ j, eta i * eta j * ((symPart 1 0 a k b l i j : ℂ)
      * ((2 * (gL ^ 2 - gR ^ 2) * anti c d i j : ℝ) : ℂ)
      + ((2 * ((1 : ℝ) ^ 2 - 0 ^ 2) * anti a b i j : ℝ) : ℂ) * (symPart gL gR c m d n i j : ℂ)) = 0 := by
    simp only [Fin.sum_univ_four]
    simp [eta, symPart, anti, metric, mink]
    ring
  rw [h0, mul_zero, add_zero]
  simp only [Fin.sum_univ_four]
  simp [eta, symPart, anti, metric, mink]
  ring

end Hazma.Dirac
