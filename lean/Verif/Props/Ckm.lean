import Verif.Model.Ckm
import Mathlib.Tactic

/-!
# The CKM matrix: unitarity and the Wolfenstein parameters

C54 and C117.
-/

namespace Hazma.Ckm

open Matrix ComplexConjugate

theorem rot23_unitary {c s : ℝ} (h : c ^ 2 + s ^ 2 = 1) : (rot23 c s)ᴴ * rot23 c s = 1 := by
  have h' : (c : ℂ) ^ 2 + (s : ℂ) ^ 2 = 1 := by exact_mod_cast h
  ext i j
  fin_cases i <;> fin_cases j <;>
    simp [rot23, Matrix.mul_apply, Fin.sum_univ_three, Matrix.conjTranspose_apply] <;>
    first | ring1 | linear_combination h'

theorem rot12_unitary {c s : ℝ} (h : c ^ 2 + s ^ 2 = 1) : (rot12 c s)ᴴ * rot12 c s = 1 := by
  have h' : (c : ℂ) ^ 2 + (s : ℂ) ^ 2 = 1 := by exact_mod_cast h
  ext i j
  fin_cases i <;> fin_cases j <;>
    simp [rot12, Matrix.mul_apply, Fin.sum_univ_three, Matrix.conjTranspose_apply] <;>
    first | ring1 | linear_combination h'

theorem rot13_unitary {c : ℝ} {s : ℂ} (h : c ^ 2 + ‖s‖ ^ 2 = 1) : (rot13 c s)ᴴ * rot13 c s = 1 := by
  have h' : (c : ℂ) ^ 2 + s * conj s = 1 := by
    rw [Complex.mul_conj, Complex.normSq_eq_norm_sq]; exact_mod_cast h
  ext i j
  fin_cases i <;> fin_cases j <;>
    simp [rot13, Matrix.mul_apply, Fin.sum_univ_three, Matrix.conjTranspose_apply] <;>
    first | ring1 | linear_combination h'

/-- What a defined matrix looks like. -/
theorem ckm_defined {lam a rhob etab : ℝ} {V : Matrix (Fin 3) (Fin 3) ℂ} (hV : ckm lam a rhob etab = some V) :
    0 ≤ 1 - (a * lam ^ 2) ^ 2 ∧ 0 < 1 - lam ^ 2
      ∧ (1 : ℂ) - ((a * lam ^ 2) ^ 2 : ℝ) * (⟨rhob, etab⟩ : ℂ) ≠ 0
      ∧ 0 ≤ 1 - ‖s13d lam a rhob etab‖ ^ 2
      ∧ V = (rot23 (Real.sqrt (1 - (a * lam ^ 2) ^ 2)) (a * lam ^ 2)
          * rot13 (Real.sqrt (1 - ‖s13d lam a rhob etab‖ ^ 2)) (s13d lam a rhob etab))
          * rot12 (Real.sqrt (1 - lam ^ 2)) lam := by
  simp only [ckm] at hV
  split at hV
  · simp at hV
  · rename_i h1
    split at hV
    · simp at hV
    · rename_i h2
      push Not at h1 h2
      exact ⟨h1.1, h1.2.1, h1.2.2, h2, by simpa using hV.symm⟩

/-- C54: whenever the matrix is made of numbers it is exactly unitary. -/
theorem ckm_unitary (lam a rhob etab : ℝ) (V : Matrix (Fin 3) (Fin 3) ℂ)
    (hV : ckm lam a rhob etab = some V) : Vᴴ * V = 1 ∧ V * Vᴴ = 1 := by
  obtain ⟨h1, h2, -, h4, rfl⟩ := ckm_defined hV
  have u1 := rot23_unitary (c := Real.sqrt (1 - (a * lam ^ 2) ^ 2)) (s := a * lam ^ 2)
    (by rw [Real.sq_sqrt h1]; ring)
  have u2 := rot13_unitary (c := Real.sqrt (1 - ‖s13d lam a rhob etab‖ ^ 2)) (s := s13d lam a rhob etab)
    (by rw [Real.sq_sqrt h4]; ring)
  have u3 := rot12_unitary (c := Real.sqrt (1 - lam ^ 2)) (s := lam) (by rw [Real.sq_sqrt h2.le]; ring)
  generalize rot23 _ _ = A at *
  generalize rot13 _ _ = B at *
  generalize rot12 _ _ = C at *
  have key : (A * B * C)ᴴ * (A * B * C) = 1 := by
    rw [Matrix.conjTranspose_mul, Matrix.conjTranspose_mul]
    calc Cᴴ * (Bᴴ * Aᴴ) * (A * B * C) = Cᴴ * (Bᴴ * (Aᴴ * A) * B) * C := by simp only [Matrix.mul_assoc]
      _ = 1 := by rw [u1, Matrix.mul_one, u2, Matrix.mul_one, u3]
  exact ⟨key, mul_eq_one_comm.mp key⟩

/-- The entries used below. -/
theorem entries (c12 s12 c23 s23 c13 : ℝ) (s : ℂ) :
    let V := (rot23 c23 s23 * rot13 c13 s) * rot12 c12 s12
    V 0 0 = c12 * c13 ∧ V 0 1 = s12 * c13 ∧ V 0 2 = conj s ∧ V 1 0 = -s12 * c23 - c12 * s23 * s
      ∧ V 1 2 = s23 * c13 := by
  refine ⟨?_, ?_, ?_, ?_, ?_⟩ <;>
    simp [rot23, rot13, rot12, Matrix.mul_apply, Fin.sum_univ_three] <;> ring

/-- C117: the matrix has the Wolfenstein parameters it was built from, by their defining formulas:
`lambda = |Vus| / sqrt(|Vud|^2 + |Vus|^2)`, `A lambda^2 = lambda |Vcb / Vus|` and
`rhobar + i etabar = - Vud Vub* / (Vcd Vcb*)`. -/
theorem ckm_wolfenstein (lam a rhob etab : ℝ) (V : Matrix (Fin 3) (Fin 3) ℂ)
    (hV : ckm lam a rhob etab = some V) (hlam : 0 < lam) (ha : 0 < a) (ha1 : a * lam ^ 2 < 1)
    (hs : ‖s13d lam a rhob etab‖ < 1) :
    lam = ‖V 0 1‖ / Real.sqrt (‖V 0 0‖ ^ 2 + ‖V 0 1‖ ^ 2)
      ∧ a * lam ^ 2 = lam * ‖V 1 2 / V 0 1‖
      ∧ (⟨rhob, etab⟩ : ℂ) = -(V 0 0 * conj (V 0 2)) / (V 1 0 * conj (V 1 2)) := by
  obtain ⟨h1, h2, h3, h4, rfl⟩ := ckm_defined hV
  obtain ⟨e00, e01, e02, e10, e12⟩ := entries (Real.sqrt (1 - lam ^ 2)) lam
    (Real.sqrt (1 - (a * lam ^ 2) ^ 2)) (a * lam ^ 2) (Real.sqrt (1 - ‖s13d lam a rhob etab‖ ^ 2))
    (s13d lam a rhob etab)
  rw [e00, e01, e02, e10, e12]
  have hA : 0 < a * lam ^ 2 := by positivity
  have c12 : 0 < Real.sqrt (1 - lam ^ 2) := Real.sqrt_pos.mpr h2
  have c23 : 0 < Real.sqrt (1 - (a * lam ^ 2) ^ 2) := Real.sqrt_pos.mpr (by nlinarith)
  have c13 : 0 < Real.sqrt (1 - ‖s13d lam a rhob etab‖ ^ 2) :=
    Real.sqrt_pos.mpr (by nlinarith [norm_nonneg (s13d lam a rhob etab)])
  have q12 : Real.sqrt (1 - lam ^ 2) ^ 2 = 1 - lam ^ 2 := Real.sq_sqrt h2.le
  have hS : s13d lam a rhob etab = (a * lam ^ 3 : ℝ) * (⟨rhob, etab⟩ : ℂ)
      * (Real.sqrt (1 - (a * lam ^ 2) ^ 2) : ℝ)
      / ((Real.sqrt (1 - lam ^ 2) : ℝ) * (1 - ((a * lam ^ 2) ^ 2 : ℝ) * (⟨rhob, etab⟩ : ℂ))) := rfl
  generalize Real.sqrt (1 - ‖s13d lam a rhob etab‖ ^ 2) = k13 at *
  generalize s13d lam a rhob etab = S at *
  generalize Real.sqrt (1 - lam ^ 2) = k12 at *
  generalize Real.sqrt (1 - (a * lam ^ 2) ^ 2) = k23 at *
  generalize (⟨rhob, etab⟩ : ℂ) = z at *
  have n12 : (k12 : ℂ) ≠ 0 := by exact_mod_cast c12.ne'
  have n23 : (k23 : ℂ) ≠ 0 := by exact_mod_cast c23.ne'
  have n13 : (k13 : ℂ) ≠ 0 := by exact_mod_cast c13.ne'
  have nl : (lam : ℂ) ≠ 0 := by exact_mod_cast hlam.ne'
  have na : (a : ℂ) ≠ 0 := by exact_mod_cast ha.ne'
  refine ⟨?_, ?_, ?_⟩
  · have f1 : ‖(lam : ℂ) * (k13 : ℂ)‖ = lam * k13 := by
      rw [norm_mul, Complex.norm_real, Complex.norm_real, Real.norm_of_nonneg hlam.le,
        Real.norm_of_nonneg c13.le]
    have f2 : ‖(k12 : ℂ) * (k13 : ℂ)‖ = k12 * k13 := by
      rw [norm_mul, Complex.norm_real, Complex.norm_real, Real.norm_of_nonneg c12.le,
        Real.norm_of_nonneg c13.le]
    rw [f1, f2]
    have : (k12 * k13) ^ 2 + (lam * k13) ^ 2 = k13 ^ 2 := by
      rw [mul_pow, mul_pow, q12]; ring
    rw [this, Real.sqrt_sq c13.le]
    field_simp
  · have f : ((a * lam ^ 2 : ℝ) : ℂ) * (k13 : ℂ) / ((lam : ℂ) * (k13 : ℂ)) = ((a * lam : ℝ) : ℂ) := by
      push_cast
      field_simp
    rw [f, Complex.norm_real, Real.norm_of_nonneg (by positivity)]
    ring
  · have hz : (1 : ℂ) - (a : ℂ) ^ 2 * (lam : ℂ) ^ 4 * z ≠ 0 := by
      have : (1 : ℂ) - (a : ℂ) ^ 2 * (lam : ℂ) ^ 4 * z = 1 - ((a * lam ^ 2) ^ 2 : ℝ) * z := by
        push_cast; ring
      rw [this]; exact h3
    have hS' : S * ((k12 : ℂ) * (1 - (a : ℂ) ^ 2 * (lam : ℂ) ^ 4 * z)) = (a : ℂ) * (lam : ℂ) ^ 3 * z * k23 := by
      rw [hS]
      push_cast
      have : (1 : ℂ) - ((a : ℂ) * (lam : ℂ) ^ 2) ^ 2 * z = 1 - (a : ℂ) ^ 2 * (lam : ℂ) ^ 4 * z := by ring
      rw [this]
      field_simp
    have hcd : (-(lam : ℂ) * k23 - k12 * ((a * lam ^ 2 : ℝ) : ℂ) * S)
        * (1 - (a : ℂ) ^ 2 * (lam : ℂ) ^ 4 * z) = -(lam : ℂ) * k23 := by
      push_cast
      linear_combination (-(a : ℂ) * (lam : ℂ) ^ 2) * hS'
    have ncd : -(lam : ℂ) * k23 - k12 * ((a * lam ^ 2 : ℝ) : ℂ) * S ≠ 0 := by
      intro h
      rw [h, zero_mul] at hcd
      have : (lam : ℂ) * k23 = 0 := by linear_combination hcd
      simp [nl, n23] at this
    have ncb : conj ((((a * lam ^ 2 : ℝ) : ℂ)) * (k13 : ℂ)) ≠ 0 := by
      rw [map_mul, Complex.conj_ofReal, Complex.conj_ofReal]
      push_cast
      positivity
    rw [eq_div_iff (mul_ne_zero ncd ncb), Complex.conj_conj, map_mul, Complex.conj_ofReal, Complex.conj_ofReal]
    apply mul_right_cancel₀ hz
    have : z * ((-(lam : ℂ) * k23 - k12 * ((a * lam ^ 2 : ℝ) : ℂ) * S) * (((a * lam ^ 2 : ℝ) : ℂ) * k13))
        * (1 - (a : ℂ) ^ 2 * (lam : ℂ) ^ 4 * z)
        = z * (((a * lam ^ 2 : ℝ) : ℂ) * k13) * ((-(lam : ℂ) * k23 - k12 * ((a * lam ^ 2 : ℝ) : ℂ) * S)
        * (1 - (a : ℂ) ^ 2 * (lam : ℂ) ^ 4 * z)) := by ring
    rw [this, hcd]
    push_cast
    linear_combination (k13 : ℂ) * hS'

/-- A bound on `s13d`. -/
theorem s13d_norm_sq (lam a rhob etab : ℝ) :
    ‖s13d lam a rhob etab‖ ^ 2 = (a * lam ^ 3) ^ 2 * (rhob ^ 2 + etab ^ 2) * (Real.sqrt (1 - (a * lam ^ 2) ^ 2)) ^ 2
      / ((Real.sqrt (1 - lam ^ 2)) ^ 2
        * ((1 - (a * lam ^ 2) ^ 2 * rhob) ^ 2 + ((a * lam ^ 2) ^ 2 * etab) ^ 2)) := by
  rw [← Complex.normSq_eq_norm_sq]
  simp only [s13d, map_div₀, map_mul, Complex.normSq_ofReal]
  have hre : ∀ k : ℝ, Complex.normSq (1 - (k : ℂ) * (⟨rhob, etab⟩ : ℂ)) = (1 - k * rhob) ^ 2 + (k * etab) ^ 2 := by
    intro k
    rw [Complex.normSq_apply]
    simp only [Complex.sub_re, Complex.sub_im, Complex.one_re, Complex.one_im, Complex.re_ofReal_mul,
      Complex.im_ofReal_mul]
    ring
  rw [hre, Complex.normSq_mk]
  ring

theorem shipped_small : ‖s13d 0.225 0.826 0.159 0.348‖ ^ 2 < 1 := by
  rw [s13d_norm_sq, Real.sq_sqrt (by norm_num), Real.sq_sqrt (by norm_num)]
  norm_num

/-- C54: the shipped matrix is made of numbers, hence unitary. -/
theorem shipped_unitary : ∃ V, shipped = some V ∧ Vᴴ * V = 1 ∧ V * Vᴴ = 1 := by
  have hz : (1 : ℂ) - (((0.826 : ℝ) * 0.225 ^ 2) ^ 2 : ℝ) * (⟨0.159, 0.348⟩ : ℂ) ≠ 0 := by
    intro h
    have := congrArg Complex.re h
    simp at this
    norm_num at this
  have hex : ∃ V, shipped = some V := by
    simp only [shipped, ckm]
    rw [if_neg (by push Not; exact ⟨by norm_num, by norm_num, hz⟩),
      if_neg (by push Not; linarith [shipped_small])]
    exact ⟨_, rfl⟩
  obtain ⟨V, hV⟩ := hex
  exact ⟨V, hV, ckm_unitary _ _ _ _ V hV⟩

/-- C117 for the shipped matrix. -/
theorem shipped_wolfenstein : ∃ V, shipped = some V
    ∧ (0.225 : ℝ) = ‖V 0 1‖ / Real.sqrt (‖V 0 0‖ ^ 2 + ‖V 0 1‖ ^ 2)
    ∧ (0.826 : ℝ) * 0.225 ^ 2 = 0.225 * ‖V 1 2 / V 0 1‖
    ∧ (⟨0.159, 0.348⟩ : ℂ) = -(V 0 0 * conj (V 0 2)) / (V 1 0 * conj (V 1 2)) := by
  obtain ⟨V, hV, -⟩ := shipped_unitary
  refine ⟨V, hV, ckm_wolfenstein _ _ _ _ V hV (by norm_num) (by norm_num) (by norm_num) ?_⟩
  have := shipped_small
  nlinarith [norm_nonneg (s13d 0.225 0.826 0.159 0.348)]

/-- Each row of a unitary matrix has unit norm: the first one, for every defined matrix. -/
theorem first_row (lam a rhob etab : ℝ) (V : Matrix (Fin 3) (Fin 3) ℂ) (hV : ckm lam a rhob etab = some V) :
    ‖V 0 0‖ ^ 2 + ‖V 0 1‖ ^ 2 + ‖V 0 2‖ ^ 2 = 1 := by
  have h := congrFun (congrFun (ckm_unitary _ _ _ _ V hV).2 0) 0
  simp only [Matrix.mul_apply, Fin.sum_univ_three, Matrix.conjTranspose_apply, Matrix.one_apply_eq,
    RCLike.star_def, Complex.mul_conj, Complex.normSq_eq_norm_sq] at h
  exact_mod_cast h

/-- With `a = 0` the matrix is the Cabibbo rotation: no mixing with the third family. -/
example : ckm 0.6 0 0.1 0.3 = some (rot12 (Real.sqrt (1 - 0.6 ^ 2)) 0.6) := by
  have h0 : s13d 0.6 0 0.1 0.3 = 0 := by simp [s13d]
  simp only [ckm, h0]
  rw [if_neg (by push Not; exact ⟨by norm_num, by norm_num, by norm_num⟩), if_neg (by norm_num)]
  have e1 : rot23 (Real.sqrt (1 - (0 * 0.6 ^ 2) ^ 2)) (0 * 0.6 ^ 2) = 1 := by
    ext i j; fin_cases i <;> fin_cases j <;> simp [rot23]
  have e2 : rot13 (Real.sqrt (1 - ‖(0 : ℂ)‖ ^ 2)) 0 = 1 := by
    ext i j; fin_cases i <;> fin_cases j <;> simp [rot13]
  rw [e1, e2, Matrix.one_mul, Matrix.one_mul]

end Hazma.Ckm
