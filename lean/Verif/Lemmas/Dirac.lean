import Mathlib.Data.Matrix.Basic
import Mathlib.LinearAlgebra.Matrix.Trace
import Mathlib.LinearAlgebra.Matrix.Notation
import Mathlib.Data.Complex.Basic
import Mathlib.Tactic

/-!
# Dirac matrices and their traces

Used to state Feynman rules; nothing here is part of the code.
-/

namespace Hazma.Dirac

open Matrix

/-- `4 × 4` complex matrices. -/
abbrev M4 := Matrix (Fin 4) (Fin 4) ℂ

/-- The metric, signature `(+,-,-,-)`. -/
def eta : Fin 4 → ℂ := ![1, -1, -1, -1]

/-- Minkowski product. -/
def dot (a b : Fin 4 → ℂ) : ℂ := ∑ μ, eta μ * a μ * b μ

/-- `γ^μ`, chiral representation. -/
def gamma : Fin 4 → M4 :=
  ![!![0, 0, 1, 0; 0, 0, 0, 1; 1, 0, 0, 0; 0, 1, 0, 0],
    !![0, 0, 0, 1; 0, 0, 1, 0; 0, -1, 0, 0; -1, 0, 0, 0],
    !![0, 0, 0, -Complex.I; 0, 0, Complex.I, 0; 0, Complex.I, 0, 0; -Complex.I, 0, 0, 0],
    !![0, 0, 1, 0; 0, 0, 0, -1; -1, 0, 0, 0; 0, 1, 0, 0]]

/-- `a̸ = γ^μ a_μ`. -/
def slash (a : Fin 4 → ℂ) : M4 := ∑ μ, (eta μ * a μ) • gamma μ

theorem slash_eq (a : Fin 4 → ℂ) : slash a =
    !![0, 0, a 0 - a 3, -a 1 + Complex.I * a 2;
       0, 0, -a 1 - Complex.I * a 2, a 0 + a 3;
       a 0 + a 3, a 1 - Complex.I * a 2, 0, 0;
       a 1 + Complex.I * a 2, a 0 - a 3, 0, 0] := by
  unfold slash
  rw [Fin.sum_univ_four]
  ext i j
  fin_cases i <;> fin_cases j <;> simp [eta, gamma] <;> ring

/-- The matrices satisfy the defining relation of the Dirac algebra. -/
theorem clifford (a b : Fin 4 → ℂ) : slash a * slash b + slash b * slash a = (2 * dot a b) • (1 : M4) := by
  have hI : Complex.I * Complex.I = -1 := Complex.I_mul_I
  rw [slash_eq, slash_eq]
  ext i j
  fin_cases i <;> fin_cases j <;> simp [dot, Fin.sum_univ_four, eta, Matrix.mul_apply] <;>
    first | ring1 | (linear_combination (2 * a 2 * b 2) * hI) | (linear_combination (-2 * a 2 * b 2) * hI)

/-- `γ^μ` is `e̸` for the `μ`-th contravariant basis vector. -/
theorem gamma_eq_slash (μ : Fin 4) : gamma μ = slash (fun ν => if ν = μ then eta μ else 0) := by
  rw [slash_eq]
  fin_cases μ <;> ext i j <;> fin_cases i <;> fin_cases j <;> simp [eta, gamma]

theorem tr_one : trace (1 : M4) = 4 := by simp

theorem tr_slash (a : Fin 4 → ℂ) : trace (slash a) = 0 := by
  rw [slash_eq]; simp [trace, Fin.sum_univ_four]

theorem tr_two (a b : Fin 4 → ℂ) : trace (slash a * slash b) = 4 * dot a b := by
  have h := congrArg trace (clifford a b)
  rw [trace_add, trace_mul_comm (slash b), trace_smul, tr_one, smul_eq_mul] at h
  linear_combination h / 2

theorem swap (a b : Fin 4 → ℂ) : slash a * slash b = (2 * dot a b) • (1 : M4) - slash b * slash a :=
  eq_sub_of_add_eq (clifford a b)

theorem tr_four (a b c d : Fin 4 → ℂ) : trace (slash a * slash b * slash c * slash d)
    = 4 * (dot a b * dot c d - dot a c * dot b d + dot a d * dot b c) := by
  have h : slash a * slash b * slash c * slash d
      = (2 * dot a b) • (slash c * slash d) - (2 * dot a c) • (slash b * slash d)
        + (2 * dot a d) • (slash b * slash c) - slash b * slash c * slash d * slash a := by
    have h1 := swap a b
    have h2 := swap a c
    have h3 := swap a d
    calc slash a * slash b * slash c * slash d
        = ((2 * dot a b) • (1 : M4) - slash b * slash a) * slash c * slash d := by rw [← h1]
      _ = (2 * dot a b) • (slash c * slash d) - slash b * (slash a * slash c) * slash d := by
          simp [sub_mul, mul_assoc]
      _ = (2 * dot a b) • (slash c * slash d) - (2 * dot a c) • (slash b * slash d)
          + slash b * slash c * (slash a * slash d) := by
          rw [h2]; simp [sub_mul, mul_sub, mul_assoc]; abel
      _ = _ := by rw [h3]; simp [mul_sub, mul_assoc]; abel
  have ht := congrArg trace h
  rw [trace_sub, trace_add, trace_sub, trace_smul, trace_smul, trace_smul, tr_two, tr_two, tr_two,
    trace_mul_comm _ (slash a)] at ht
  have e : slash a * (slash b * slash c * slash d) = slash a * slash b * slash c * slash d := by
    simp [mul_assoc]
  rw [e] at ht
  simp only [smul_eq_mul] at ht
  linear_combination ht / 2

theorem tr_three (a b c : Fin 4 → ℂ) : trace (slash a * slash b * slash c) = 0 := by
  rw [slash_eq, slash_eq, slash_eq]
  simp [trace, Fin.sum_univ_four, Matrix.mul_apply]

/-- `γ^μ x γ_μ`. -/
def contract (x : M4) : M4 := ∑ μ, eta μ • (gamma μ * x * gamma μ)

theorem contract_one : contract 1 = (4 : ℂ) • (1 : M4) := by
  unfold contract
  rw [Fin.sum_univ_four]
  ext i j
  fin_cases i <;> fin_cases j <;> simp [eta, gamma, Matrix.mul_apply, Fin.sum_univ_four] <;> norm_num

theorem slash_gamma (a : Fin 4 → ℂ) (μ : Fin 4) :
    slash a * gamma μ = (2 * a μ) • (1 : M4) - gamma μ * slash a := by
  rw [gamma_eq_slash, swap]
  congr 2
  fin_cases μ <;> simp [dot, Fin.sum_univ_four, eta]

/-- Moving a slashed vector through a contraction. -/
theorem contract_mul (x : M4) (a : Fin 4 → ℂ) :
    contract (x * slash a) = (2 : ℂ) • (slash a * x) - contract x * slash a := by
  unfold contract
  have h : ∀ μ, eta μ • (gamma μ * (x * slash a) * gamma μ)
      = (2 : ℂ) • (((eta μ * a μ) • gamma μ) * x) - eta μ • (gamma μ * x * gamma μ) * slash a := by
    intro μ
    have : gamma μ * (x * slash a) * gamma μ = gamma μ * x * (slash a * gamma μ) := by simp [mul_assoc]
    rw [this, slash_gamma, mul_sub, smul_sub, Matrix.mul_smul, mul_one, smul_smul, smul_mul_assoc, smul_smul,
      smul_mul_assoc]
    congr 1
    · congr 1; ring
    · simp [mul_assoc]
  rw [Finset.sum_congr rfl (fun μ _ => h μ), Finset.sum_sub_distrib, ← Finset.smul_sum, ← Finset.sum_mul,
    ← Finset.sum_mul]
  rfl

theorem contract_slash (a : Fin 4 → ℂ) : contract (slash a) = (-2 : ℂ) • slash a := by
  have h := contract_mul 1 a
  rw [one_mul, mul_one, contract_one, smul_mul_assoc, one_mul, ← sub_smul] at h
  rw [h]; norm_num

theorem contract_two (a b : Fin 4 → ℂ) : contract (slash a * slash b) = (4 * dot a b) • (1 : M4) := by
  rw [contract_mul, contract_slash, smul_mul_assoc, neg_smul, sub_neg_eq_add, ← smul_add,
    add_comm, clifford, smul_smul]
  congr 1; ring

theorem contract_three (a b c : Fin 4 → ℂ) :
    contract (slash a * slash b * slash c) = (-2 : ℂ) • (slash c * slash b * slash a) := by
  rw [contract_mul, contract_two, swap a b]
  simp only [mul_sub, smul_mul_assoc, one_mul, Matrix.mul_smul, mul_one, smul_sub, smul_smul, mul_assoc, neg_smul]
  rw [show (2 : ℂ) * (2 * dot a b) = 4 * dot a b by ring]
  abel

end Hazma.Dirac
