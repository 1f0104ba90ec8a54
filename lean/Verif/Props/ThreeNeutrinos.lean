import Verif.Props.WeakDecays

/-! # C284: three neutrinos of one generation

Two identical neutrinos: two graphs of opposite sign, and one half for identical particles. -/

namespace Hazma.WeakDecays

open Matrix Hazma.Dirac Hazma.SelfScattering Hazma.RhNeutrino

/-- The product of a graph with the conjugate of the graph in which the two neutrinos `a` and `c` are exchanged: one
trace through both currents. -/
noncomputable def crossed (a b c d : Fin 4 → ℝ) (l : ℝ) : ℂ :=
  ∑ i, ∑ j, eta i * eta j * trace (spinSum a 0 * gamma i * projL * spinSum b l * (projR * gamma j)
    * spinSum c 0 * (gamma i * projL) * spinSum d 0 * (projR * gamma j))

/-- Squared amplitude of `N(P) → ν(1) ν(2) ν̄(3)` with all three of the generation of `N`. -/
noncomputable def sameSq (G : ℝ) (P : Fin 4 → ℝ) (M : ℝ) (p1 p2 p3 : Fin 4 → ℝ) : ℂ :=
  currents G (1 / 2) 0 p1 0 P M p2 0 p3 0 + currents G (1 / 2) 0 p2 0 P M p1 0 p3 0
    - 2 * (8 * (G : ℂ) ^ 2 / 2 * (1 / 2) ^ 2 * crossed p1 P p2 p3 M)

/-- The 4 × 4 matrix with given blocks of two columns. -/
theorem entries (X : M4) : X = !![X 0 0, X 0 1, X 0 2, X 0 3; X 1 0, X 1 1, X 1 2, X 1 3;
    X 2 0, X 2 1, X 2 2, X 2 3; X 3 0, X 3 1, X 3 2, X 3 3] := by
  ext r s; fin_cases r <;> fin_cases s <;> rfl

theorem fierz_entries (a b c d e f g h i j k l m n o p : ℂ) :
    ∑ t, eta t • (gamma t * projL * !![a, b, c, d; e, f, g, h; i, j, k, l; m, n, o, p] * (gamma t * projL))
    = !![0, 0, 0, 0; 0, 0, 0, 0; -2 * h, 2 * d, 0, 0; 2 * g, -2 * c, 0, 0] := by
  have hI : Complex.I ^ 2 = -1 := Complex.I_sq
  ext r s
  fin_cases r <;> fin_cases s <;>
    simp [Fin.sum_univ_four, eta, gamma, projL] <;>
    first | ring1 | (ring_nf; simp only [hI]; ring1)

/-- Two left-handed vertices around a matrix. -/
theorem fierz (X : M4) : ∑ i, eta i • (gamma i * projL * X * (gamma i * projL))
    = !![0, 0, 0, 0; 0, 0, 0, 0; -2 * X 1 3, 2 * X 0 3, 0, 0; 2 * X 1 2, -2 * X 0 2, 0, 0] := by
  conv_lhs => rw [entries X]
  exact fierz_entries _ _ _ _ _ _ _ _ _ _ _ _ _ _ _ _

set_option maxHeartbeats 2000000 in
/-- The interference has the size of the squares and the opposite sign. -/
theorem crossed_eq (a b c d : Fin 4 → ℝ) (l : ℝ) :
    crossed a b c d l = ((-16 * (mink a c * mink b d) : ℝ) : ℂ) := by
  have h1 : crossed a b c d l = ∑ j, eta j * trace (spinSum a 0
      * (∑ i, eta i • (gamma i * projL * (spinSum b l * (projR * gamma j) * spinSum c 0) * (gamma i * projL)))
      * (spinSum d 0 * (projR * gamma j))) := by
    unfold crossed
    rw [Finset.sum_comm]
    refine Finset.sum_congr rfl fun j _ => ?_
    rw [Finset.mul_sum, Finset.sum_mul, trace_sum, Finset.mul_sum]
    refine Finset.sum_congr rfl fun i _ => ?_
    rw [Matrix.mul_smul, Matrix.smul_mul, trace_smul, smul_eq_mul]
    simp only [Matrix.mul_assoc]
    ring
  have hI : Complex.I ^ 2 = -1 := Complex.I_sq
  have hI4 : Complex.I ^ 4 = 1 := Complex.I_pow_four
  have hI3 : Complex.I ^ 3 = -Complex.I := Complex.I_pow_three
  have hI5 : Complex.I ^ 5 = Complex.I := by rw [pow_succ, hI4, one_mul]
  have hI6 : Complex.I ^ 6 = -1 := by rw [pow_succ, hI5, Complex.I_mul_I]
  rw [h1]
  simp only [fierz, spinSum_eq]
  simp [Fin.sum_univ_four, eta, gamma, projR, trace, Matrix.vecHead, Matrix.vecTail, mink]
  ring_nf
  simp only [hI, hI3, hI4, hI5, hI6]
  ring

/-- C284: the width for three neutrinos of the generation of `N` is that of the two graphs with one half for the
identical neutrinos, twice that of the other generations. -/
theorem same_generation (c : Core) (hM : 0 < c.mx) (W : ℝ → ℝ → ℝ)
    (hW : W = fun s t => 8 * (gf * c.u) ^ 2 * (c.mx ^ 2 - s - t) * (s + t)) :
    (∀ P p1 p2 p3, Decay c.mx 0 0 0 P p1 p2 p3 →
      1 / 2 * sameSq (gf * c.u) P c.mx p1 p2 p3 = (W (sOf p2 p3) (tOf p1 p3) : ℂ))
    ∧ widthVVV c c.gen = phaseSpaceWidth c.mx (0, 0, 0) W := by
  constructor
  · intro P p1 p2 p3 h
    obtain ⟨h23, h13, h12, hP1, hP2, hP3⟩ := products h
    have e12 : mink p1 p2 = (c.mx ^ 2 + 0 ^ 2 - sOf p2 p3 - tOf p1 p3) / 2 := by linarith
    have e21 : mink p2 p1 = (c.mx ^ 2 + 0 ^ 2 - sOf p2 p3 - tOf p1 p3) / 2 := by rw [mink_comm, e12]
    have eP3 : mink P p3 = (sOf p2 p3 + tOf p1 p3 - 0 ^ 2 - 0 ^ 2) / 2 := by linarith
    rw [sameSq, currents_eq, currents_eq, crossed_eq, e12, e21, eP3, hW]
    push_cast
    ring
  · obtain ⟨g, hg⟩ : ∃ g : Gen, g ≠ c.gen := by
      cases hc : c.gen
      · exact ⟨.trd, by simp⟩
      all_goals exact ⟨.fst, by simp⟩
    have h := (three_neutrinos c g hg hM _ rfl).2
    have e : phaseSpaceWidth c.mx (0, 0, 0) W
        = 2 * phaseSpaceWidth c.mx (0, 0, 0) fun s t => 4 * (gf * c.u) ^ 2 * (c.mx ^ 2 - s - t) * (s + t) := by
      have hf : W = fun s t => 2 * (4 * (gf * c.u) ^ 2 * (c.mx ^ 2 - s - t) * (s + t)) := by
        rw [hW]; funext s t; ring
      rw [hf]
      unfold phaseSpaceWidth ThreeBody.integrateQuad ThreeBody.create
      simp only [intervalIntegral.integral_const_mul]
      ring
    rw [e, ← h]
    simp [widthVVV, hg]

/-- Four massless momenta: two back-to-back pairs. -/
example : crossed ![1, 0, 0, 1] ![1, 0, 0, 1] ![1, 0, 0, -1] ![1, 0, 0, -1] 5 = ((-64 : ℝ) : ℂ) := by
  rw [crossed_eq]
  congr 1
  simp [mink]
  norm_num

end Hazma.WeakDecays
