import Verif.Model.CrossSections
import Verif.Lemmas.Dirac
import Mathlib.Tactic

/-!
# Self-scattering of dark matter

The squared matrix elements typed into `sigma_xx_to_s_to_xx` and `sigma_xx_to_v_to_xx` are compared with
the Feynman rules: exchange of the mediator in the `s` and in the `t` channel, summed over spins with the
Dirac matrices.
-/

namespace Hazma.SelfScattering

open Hazma Hazma.Xs Hazma.Dirac
open Matrix ComplexConjugate

/-! ## Feynman rules -/

/-- Minkowski product of real vectors. -/
def mink (a b : Fin 4 → ℝ) : ℝ := a 0 * b 0 - a 1 * b 1 - a 2 * b 2 - a 3 * b 3

/-- `p̸ + m`, spin sum of a fermion of momentum `p` (`p̸ - m`, of an antifermion, has negative `m`). -/
noncomputable def spinSum (p : Fin 4 → ℝ) (m : ℝ) : M4 := slash (fun μ => (p μ : ℂ)) + (m : ℂ) • (1 : M4)

/-- A vertex: matrices `Γ_i` with the weights with which two of them are contracted. -/
structure Vertex where
  n : ℕ
  w : Fin n → ℂ
  mat : Fin n → M4

/-- Coupling to a scalar. -/
def scalarVertex : Vertex := ⟨1, fun _ => 1, fun _ => 1⟩
/-- Coupling to a vector; the terms of the propagator along the momentum vanish for conserved currents. -/
def vectorVertex : Vertex := ⟨4, eta, gamma⟩

/-- Annihilation graph of `x(1) x̄(2) → x(3) x̄(4)`, times its conjugate. -/
noncomputable def annAnn (v : Vertex) (p1 p2 p3 p4 : Fin 4 → ℝ) (m : ℝ) : ℂ :=
  ∑ i, ∑ j, v.w i * v.w j * (trace (spinSum p2 (-m) * v.mat i * spinSum p1 m * v.mat j)
    * trace (spinSum p3 m * v.mat i * spinSum p4 (-m) * v.mat j))

/-- Exchange graph, times its conjugate. -/
noncomputable def excExc (v : Vertex) (p1 p2 p3 p4 : Fin 4 → ℝ) (m : ℝ) : ℂ :=
  ∑ i, ∑ j, v.w i * v.w j * (trace (spinSum p3 m * v.mat i * spinSum p1 m * v.mat j)
    * trace (spinSum p2 (-m) * v.mat i * spinSum p4 (-m) * v.mat j))

/-- Annihilation graph times the conjugate of the exchange graph. -/
noncomputable def annExc (v : Vertex) (p1 p2 p3 p4 : Fin 4 → ℝ) (m : ℝ) : ℂ :=
  ∑ i, ∑ j, v.w i * v.w j * trace (spinSum p2 (-m) * v.mat i * spinSum p1 m * v.mat j
    * spinSum p3 m * v.mat i * spinSum p4 (-m) * v.mat j)

/-- Propagator denominator of a mediator of mass `M` and width `w` carrying squared momentum `q2`. -/
noncomputable def prop (q2 M w : ℝ) : ℂ := ((q2 - M ^ 2 : ℝ) : ℂ) + Complex.I * ((M * w : ℝ) : ℂ)

/-- Squared amplitude summed over final and averaged over initial spins; Fermi statistics gives the two
graphs opposite signs. -/
noncomputable def amplitudeSq (v : Vertex) (g M w m : ℝ) (p1 p2 p3 p4 : Fin 4 → ℝ) : ℝ :=
  let ds := prop (mink (p1 + p2) (p1 + p2)) M w
  let dt := prop (mink (p1 - p3) (p1 - p3)) M w
  g ^ 4 / 4 * ((annAnn v p1 p2 p3 p4 m).re / Complex.normSq ds
    + (excExc v p1 p2 p3 p4 m).re / Complex.normSq dt
    - 2 * (annExc v p1 p2 p3 p4 m / (ds * conj dt)).re)

/-- Momenta of four particles of mass `m` with total energy `e` in the centre-of-mass frame and scattering
angle of cosine `z`, in any frame. -/
structure Kin (m e z : ℝ) (p1 p2 p3 p4 : Fin 4 → ℝ) : Prop where
  s1 : mink p1 p1 = m ^ 2
  s2 : mink p2 p2 = m ^ 2
  s3 : mink p3 p3 = m ^ 2
  s4 : mink p4 p4 = m ^ 2
  cons : p1 + p2 = p3 + p4
  energy : mink (p1 + p2) (p1 + p2) = e ^ 2
  angle : mink (p1 - p3) (p1 - p3) = -(e ^ 2 - 4 * m ^ 2) * (1 - z) / 2

/-! ## Traces -/

theorem dot_cast (a b : Fin 4 → ℝ) : dot (fun μ => (a μ : ℂ)) (fun μ => (b μ : ℂ)) = (mink a b : ℝ) := by
  simp [dot, mink, Fin.sum_univ_four, eta]; ring

theorem tr_pair (a b : Fin 4 → ℝ) (m n : ℝ) :
    trace (spinSum a m * spinSum b n) = ((4 * (mink a b + m * n) : ℝ) : ℂ) := by
  unfold spinSum
  simp only [add_mul, mul_add, smul_mul_assoc, Matrix.mul_smul, one_mul, mul_one, trace_add, trace_smul,
    tr_two, tr_slash, tr_one, dot_cast, smul_eq_mul]
  push_cast; ring

theorem tr_quad (a b c d : Fin 4 → ℝ) (k l m n : ℝ) :
    trace (spinSum a k * spinSum b l * spinSum c m * spinSum d n)
      = ((4 * (mink a b * mink c d - mink a c * mink b d + mink a d * mink b c
        + mink a b * m * n + mink a c * l * n + mink a d * l * m
        + mink b c * k * n + mink b d * k * m + mink c d * k * l + k * l * m * n) : ℝ) : ℂ) := by
  unfold spinSum
  simp only [add_mul, mul_add, smul_mul_assoc, Matrix.mul_smul, one_mul, mul_one, trace_add, trace_smul,
    tr_four, tr_three, tr_two, tr_slash, tr_one, dot_cast, smul_eq_mul]
  push_cast; ring

/-- The tensor of a fermion line between two vector vertices. -/
theorem tr_gamma_gamma (a b : Fin 4 → ℝ) (m n : ℝ) (i j : Fin 4) :
    trace (spinSum a m * gamma i * spinSum b n * gamma j)
      = ((4 * (a i * b j + a j * b i + (if i = j then (![1, -1, -1, -1] : Fin 4 → ℝ) i else 0) * (m * n - mink a b)) : ℝ) : ℂ) := by
  have h1 : ∀ (a : Fin 4 → ℝ) i, dot (fun μ => (a μ : ℂ)) (fun ν => if ν = i then eta i else 0) = a i := by
    intro a i
    fin_cases i <;> simp [dot, Fin.sum_univ_four, eta]
  have h1' : ∀ (a : Fin 4 → ℝ) i, dot (fun ν => if ν = i then eta i else 0) (fun μ => (a μ : ℂ)) = a i := by
    intro a i
    fin_cases i <;> simp [dot, Fin.sum_univ_four, eta]
  have h2 : dot (fun ν => if ν = i then eta i else 0) (fun ν => if ν = j then eta j else 0)
      = ((if i = j then (![1, -1, -1, -1] : Fin 4 → ℝ) i else 0 : ℝ) : ℂ) := by
    fin_cases i <;> fin_cases j <;> simp [dot, Fin.sum_univ_four, eta]
  unfold spinSum
  rw [gamma_eq_slash i, gamma_eq_slash j]
  simp only [add_mul, mul_add, smul_mul_assoc, Matrix.mul_smul, one_mul, mul_one, trace_add, trace_smul,
    tr_four, tr_three, tr_two, tr_slash, tr_one, dot_cast, smul_eq_mul, h1, h1', h2]
  push_cast; ring

theorem contract_add (x y : M4) : contract (x + y) = contract x + contract y := by
  unfold contract
  rw [← Finset.sum_add_distrib]
  exact Finset.sum_congr rfl fun μ _ => by rw [mul_add, add_mul, smul_add]

theorem contract_smul (c : ℂ) (x : M4) : contract (c • x) = c • contract x := by
  unfold contract
  rw [Finset.smul_sum]
  exact Finset.sum_congr rfl fun μ _ => by rw [Matrix.mul_smul, smul_mul_assoc, smul_comm]

/-- A contraction inside a trace. -/
theorem sum_contract (x y : M4) : ∑ i, eta i * trace (x * (gamma i * y * gamma i)) = trace (x * contract y) := by
  unfold contract
  rw [Finset.mul_sum, trace_sum]
  exact Finset.sum_congr rfl fun μ _ => by rw [Matrix.mul_smul, trace_smul, smul_eq_mul]

theorem sum_slash (x : M4) (c : Fin 4 → ℂ) : ∑ i, eta i * (c i * trace (x * gamma i)) = trace (x * slash c) := by
  unfold slash
  rw [Finset.mul_sum, trace_sum]
  exact Finset.sum_congr rfl fun μ _ => by rw [Matrix.mul_smul, trace_smul, smul_eq_mul, mul_assoc]

/-- Three factors around `γ^j`, contracted. -/
theorem contract_line (b c : Fin 4 → ℂ) (l m : ℂ) (j : Fin 4) :
    contract ((slash b + l • (1 : M4)) * gamma j * (slash c + m • (1 : M4)))
      = (-2 : ℂ) • (slash c * gamma j * slash b) + (4 * (l * c j + m * b j)) • (1 : M4)
        + (-2 * l * m) • gamma j := by
  have h1 : ∀ (a : Fin 4 → ℂ) i, dot a (fun ν => if ν = i then eta i else 0) = a i := by
    intro a i
    fin_cases i <;> simp [dot, Fin.sum_univ_four, eta]
  have h1' : ∀ (a : Fin 4 → ℂ) i, dot (fun ν => if ν = i then eta i else 0) a = a i := by
    intro a i
    fin_cases i <;> simp [dot, Fin.sum_univ_four, eta]
  rw [gamma_eq_slash j]
  simp only [add_mul, mul_add, smul_mul_assoc, Matrix.mul_smul, one_mul, mul_one, contract_add, contract_smul,
    contract_three, contract_two, contract_slash, h1, h1', smul_smul, add_smul]
  rw [show (l * m * -2 : ℂ) = -2 * l * m by ring, show m * (4 * b j) = 4 * (m * b j) by ring,
    show l * (4 * c j) = 4 * (l * c j) by ring]
  abel

/-- `γ^i (…) γ^j (…) γ_i (…) γ_j` in a single trace. -/
theorem tr_crossed (a b c d : Fin 4 → ℝ) (k l m n : ℝ) :
    ∑ i, ∑ j, eta i * eta j * trace (spinSum a k * gamma i * spinSum b l * gamma j
        * spinSum c m * gamma i * spinSum d n * gamma j)
      = ((-32 * (mink b d * mink a c) + 16 * (k * n * mink c b + l * n * mink a c + l * k * mink d c
        + m * n * mink a b + m * k * mink d b + l * m * mink a d) - 32 * (k * l * m * n) : ℝ) : ℂ) := by
  have hj : ∀ j, ∑ i, eta i * eta j * trace (spinSum a k * gamma i * spinSum b l * gamma j
        * spinSum c m * gamma i * spinSum d n * gamma j)
      = -2 * (eta j * trace ((spinSum a k * slash (fun μ => (c μ : ℂ))) * (gamma j * (slash (fun μ => (b μ : ℂ)) * spinSum d n) * gamma j)))
        + 4 * l * (eta j * ((c j : ℂ) * trace (spinSum a k * spinSum d n * gamma j)))
        + 4 * m * (eta j * ((b j : ℂ) * trace (spinSum a k * spinSum d n * gamma j)))
        + -2 * l * m * (eta j * trace (spinSum a k * (gamma j * spinSum d n * gamma j))) := by
    intro j
    have e : ∀ i, eta i * eta j * trace (spinSum a k * gamma i * spinSum b l * gamma j
        * spinSum c m * gamma i * spinSum d n * gamma j)
        = eta j * (eta i * trace (spinSum d n * gamma j * spinSum a k
          * (gamma i * (spinSum b l * gamma j * spinSum c m) * gamma i))) := by
      intro i
      rw [show spinSum d n * gamma j * spinSum a k * (gamma i * (spinSum b l * gamma j * spinSum c m) * gamma i)
        = (spinSum d n * gamma j) * (spinSum a k * (gamma i * (spinSum b l * gamma j * spinSum c m) * gamma i)) by
          simp only [mul_assoc], trace_mul_comm (spinSum d n * gamma j)]
      rw [show spinSum a k * (gamma i * (spinSum b l * gamma j * spinSum c m) * gamma i) * (spinSum d n * gamma j)
        = spinSum a k * gamma i * spinSum b l * gamma j * spinSum c m * gamma i * spinSum d n * gamma j by
          simp only [mul_assoc]]
      ring
    rw [Finset.sum_congr rfl (fun i _ => e i), ← Finset.mul_sum, sum_contract]
    have h := contract_line (fun μ => (b μ : ℂ)) (fun μ => (c μ : ℂ)) l m j
    rw [show spinSum b l * gamma j * spinSum c m = (slash (fun μ => (b μ : ℂ)) + (l : ℂ) • (1 : M4)) * gamma j
      * (slash (fun μ => (c μ : ℂ)) + (m : ℂ) • (1 : M4)) from rfl, h]
    rw [mul_assoc, trace_mul_comm]
    rw [trace_mul_comm]
    simp only [mul_add, Matrix.mul_smul, mul_one, trace_add, trace_smul, smul_eq_mul]
    have c1 : ∀ x : M4, trace (spinSum d n * (gamma j * (spinSum a k * x))) = trace (spinSum a k * x * spinSum d n * gamma j) := by
      intro x
      rw [← mul_assoc, trace_mul_comm]; simp only [mul_assoc]
    have c2 : trace (spinSum d n * (gamma j * spinSum a k)) = trace (spinSum a k * spinSum d n * gamma j) := by
      rw [← mul_assoc, trace_mul_comm]; simp only [mul_assoc]
    simp only [mul_assoc] at c1 c2 ⊢
    rw [c1, c2, c1]
    simp only [mul_assoc]
    ring
  rw [Finset.sum_comm, Finset.sum_congr rfl (fun j _ => hj j)]
  simp only [Finset.sum_add_distrib, ← Finset.mul_sum]
  rw [sum_contract, sum_contract, sum_slash, sum_slash]
  have k1 : contract (slash (fun μ => (b μ : ℂ)) * spinSum d n)
      = (4 * (mink b d : ℂ)) • (1 : M4) + (-2 * (n : ℂ)) • slash (fun μ => (b μ : ℂ)) := by
    unfold spinSum
    rw [mul_add, contract_add, Matrix.mul_smul, mul_one, contract_smul, contract_two, contract_slash, dot_cast, smul_smul]
    congr 2; ring
  have k2 : contract (spinSum d n) = (-2 : ℂ) • slash (fun μ => (d μ : ℂ)) + (4 * (n : ℂ)) • (1 : M4) := by
    unfold spinSum
    rw [contract_add, contract_smul, contract_slash, contract_one, smul_smul]
    congr 2; ring
  rw [k1, k2]
  unfold spinSum
  simp only [add_mul, mul_add, smul_mul_assoc, Matrix.mul_smul, one_mul, mul_one, trace_add, trace_smul,
    tr_four, tr_three, tr_two, tr_slash, tr_one, dot_cast, smul_eq_mul]
  push_cast; ring

/-! ## The matrix elements of the code -/

variable {m e z : ℝ} {p1 p2 p3 p4 : Fin 4 → ℝ}

theorem mink_add_add (a b : Fin 4 → ℝ) : mink (a + b) (a + b) = mink a a + mink b b + 2 * mink a b := by
  simp [mink]; ring
theorem mink_sub_sub (a b : Fin 4 → ℝ) : mink (a - b) (a - b) = mink a a + mink b b - 2 * mink a b := by
  simp [mink]; ring
theorem mink_comm (a b : Fin 4 → ℝ) : mink a b = mink b a := by simp [mink]; ring
theorem mink_add (a b c : Fin 4 → ℝ) : mink a (b + c) = mink a b + mink a c := by simp [mink]; ring

/-- All scalar products in terms of energy and angle. -/
theorem products (h : Kin m e z p1 p2 p3 p4) :
    mink p1 p2 = (e ^ 2 - 2 * m ^ 2) / 2 ∧ mink p3 p4 = (e ^ 2 - 2 * m ^ 2) / 2
    ∧ mink p1 p3 = m ^ 2 + (e ^ 2 - 4 * m ^ 2) * (1 - z) / 4
    ∧ mink p2 p4 = m ^ 2 + (e ^ 2 - 4 * m ^ 2) * (1 - z) / 4
    ∧ mink p1 p4 = m ^ 2 + (e ^ 2 - 4 * m ^ 2) * (1 + z) / 4
    ∧ mink p2 p3 = m ^ 2 + (e ^ 2 - 4 * m ^ 2) * (1 + z) / 4 := by
  have a1 := h.energy
  have a2 := h.energy
  rw [mink_add_add, h.s1, h.s2] at a1
  rw [h.cons, mink_add_add, h.s3, h.s4] at a2
  have a3 := h.angle
  rw [mink_sub_sub, h.s1, h.s3] at a3
  have b : ∀ q, mink q p1 + mink q p2 = mink q p3 + mink q p4 := by
    intro q; rw [← mink_add, ← mink_add, h.cons]
  have b1 := b p1
  have b3 := b p3
  have b2 := b p2
  rw [h.s1] at b1
  rw [h.s3, mink_comm p3 p1, mink_comm p3 p2] at b3
  rw [h.s2, mink_comm p2 p1] at b2
  refine ⟨by linarith, by linarith, by linarith, by linarith, by linarith, by linarith⟩

theorem annAnn_scalar : annAnn scalarVertex p1 p2 p3 p4 m
    = trace (spinSum p2 (-m) * spinSum p1 m) * trace (spinSum p3 m * spinSum p4 (-m)) := by
  unfold annAnn
  change ∑ i : Fin 1, ∑ j : Fin 1, _ = _
  simp [scalarVertex]
theorem excExc_scalar : excExc scalarVertex p1 p2 p3 p4 m
    = trace (spinSum p3 m * spinSum p1 m) * trace (spinSum p2 (-m) * spinSum p4 (-m)) := by
  unfold excExc
  change ∑ i : Fin 1, ∑ j : Fin 1, _ = _
  simp [scalarVertex]
theorem annExc_scalar : annExc scalarVertex p1 p2 p3 p4 m
    = trace (spinSum p2 (-m) * spinSum p1 m * spinSum p3 m * spinSum p4 (-m)) := by
  unfold annExc
  change ∑ i : Fin 1, ∑ j : Fin 1, _ = _
  simp [scalarVertex]

/-- The three traces for a scalar. -/
theorem scalar_traces (h : Kin m e z p1 p2 p3 p4) :
    annAnn scalarVertex p1 p2 p3 p4 m = ((4 * (e ^ 2 - 4 * m ^ 2) ^ 2 : ℝ) : ℂ)
    ∧ excExc scalarVertex p1 p2 p3 p4 m = ((4 * (4 * m ^ 2 + (e ^ 2 - 4 * m ^ 2) * (1 - z) / 2) ^ 2 : ℝ) : ℂ)
    ∧ annExc scalarVertex p1 p2 p3 p4 m
      = ((4 * ((m ^ 2 + (e ^ 2 - 4 * m ^ 2) * (1 - z) / 4) ^ 2 - (m ^ 2 + (e ^ 2 - 4 * m ^ 2) * (1 + z) / 4) ^ 2
        + ((e ^ 2 - 2 * m ^ 2) / 2) ^ 2 + 2 * m ^ 2 * ((m ^ 2 + (e ^ 2 - 4 * m ^ 2) * (1 - z) / 4)
        - (m ^ 2 + (e ^ 2 - 4 * m ^ 2) * (1 + z) / 4) - (e ^ 2 - 2 * m ^ 2) / 2) + m ^ 4) : ℝ) : ℂ) := by
  obtain ⟨q1, q2, q3, q4, q5, q6⟩ := products h
  refine ⟨?_, ?_, ?_⟩
  · rw [annAnn_scalar, tr_pair, tr_pair]
    rw [mink_comm p2 p1, q1, q2]; push_cast; ring
  · rw [excExc_scalar, tr_pair, tr_pair]
    rw [mink_comm p3 p1, q3, q4]; push_cast; ring
  · rw [annExc_scalar, tr_quad]
    rw [mink_comm p2 p1, q1, q2, q3, q4, q5, q6]; push_cast; ring

/-- The two line tensors contracted. -/
theorem line_line (a b c d : Fin 4 → ℝ) (k l m n : ℝ) :
    ∑ i, ∑ j, eta i * eta j * (trace (spinSum a k * gamma i * spinSum b l * gamma j)
      * trace (spinSum c m * gamma i * spinSum d n * gamma j))
      = ((32 * (mink a c * mink b d + mink a d * mink b c - mink a b * m * n - mink c d * k * l
        + 2 * (k * l * m * n)) : ℝ) : ℂ) := by
  simp only [tr_gamma_gamma]
  simp [Fin.sum_univ_four, eta, mink]
  ring

/-- The three traces for a vector. -/
theorem vector_traces (h : Kin m e z p1 p2 p3 p4) :
    annAnn vectorVertex p1 p2 p3 p4 m
      = ((32 * ((m ^ 2 + (e ^ 2 - 4 * m ^ 2) * (1 - z) / 4) ^ 2 + (m ^ 2 + (e ^ 2 - 4 * m ^ 2) * (1 + z) / 4) ^ 2
        + m ^ 2 * (e ^ 2 - 2 * m ^ 2) + 2 * m ^ 4) : ℝ) : ℂ)
    ∧ excExc vectorVertex p1 p2 p3 p4 m
      = ((32 * (((e ^ 2 - 2 * m ^ 2) / 2) ^ 2 + (m ^ 2 + (e ^ 2 - 4 * m ^ 2) * (1 + z) / 4) ^ 2
        - 2 * m ^ 2 * (m ^ 2 + (e ^ 2 - 4 * m ^ 2) * (1 - z) / 4) + 2 * m ^ 4) : ℝ) : ℂ)
    ∧ annExc vectorVertex p1 p2 p3 p4 m
      = ((-8 * ((-(e ^ 2 - 4 * m ^ 2) * (1 + z) / 2) ^ 2 + 8 * m ^ 2 * ((e ^ 2 - 4 * m ^ 2) * (1 + z) / 2)
        + 12 * m ^ 4) : ℝ) : ℂ) := by
  obtain ⟨q1, q2, q3, q4, q5, q6⟩ := products h
  refine ⟨?_, ?_, ?_⟩
  · refine (line_line p2 p1 p3 p4 (-m) m m (-m)).trans ?_
    rw [mink_comm p2 p1, q1, q2, q3, q4, q5, q6]; push_cast; ring
  · refine (line_line p3 p1 p2 p4 m m (-m) (-m)).trans ?_
    rw [mink_comm p3 p1, mink_comm p3 p2, mink_comm p1 p2, mink_comm p2 p1, q1, q2, q3, q4, q5, q6]; push_cast; ring
  · refine (tr_crossed p2 p1 p3 p4 (-m) m m (-m)).trans ?_
    rw [mink_comm p3 p1, mink_comm p4 p3, mink_comm p4 p1, mink_comm p2 p1, q1, q2, q3, q4, q5, q6]; push_cast; ring

theorem prop_re (q2 M w : ℝ) : (prop q2 M w).re = q2 - M ^ 2 := by
  unfold prop
  rw [Complex.add_re, Complex.ofReal_re, Complex.I_mul_re, Complex.ofReal_im]; ring
theorem prop_im (q2 M w : ℝ) : (prop q2 M w).im = M * w := by
  unfold prop
  rw [Complex.add_im, Complex.ofReal_im, Complex.I_mul_im, Complex.ofReal_re]; ring

theorem normSq_prop (q2 M w : ℝ) : Complex.normSq (prop q2 M w) = (q2 - M ^ 2) ^ 2 + (M * w) ^ 2 := by
  rw [Complex.normSq_apply, prop_re, prop_im]; ring

theorem interference (x q2 q2' M w : ℝ) :
    ((x : ℂ) / (prop q2 M w * conj (prop q2' M w))).re
      = x * ((q2 - M ^ 2) * (q2' - M ^ 2) + (M * w) ^ 2)
        / (Complex.normSq (prop q2 M w) * Complex.normSq (prop q2' M w)) := by
  rw [Complex.div_re]
  have : Complex.normSq (prop q2 M w * conj (prop q2' M w))
      = Complex.normSq (prop q2 M w) * Complex.normSq (prop q2' M w) := by
    rw [map_mul, Complex.normSq_conj]
  rw [this, Complex.ofReal_re, Complex.ofReal_im, Complex.mul_re, Complex.conj_re, Complex.conj_im,
    prop_re, prop_re, prop_im, prop_im]
  ring

/-- C279: the squared matrix element integrated by `sigma_xx_to_s_to_xx` is the one of the Feynman rules. -/
theorem scalar_self_msq (g M w : ℝ) (he : 0 < e) (h : Kin m e z p1 p2 p3 p4)
    (hs : prop (e ^ 2) M w ≠ 0) (ht : prop (-(e ^ 2 - 4 * m ^ 2) * (1 - z) / 2) M w ≠ 0) :
    scalarSelfMsq (m / e) (M / e) (w / e) g z = amplitudeSq scalarVertex g M w m p1 p2 p3 p4 := by
  obtain ⟨t1, t2, t3⟩ := scalar_traces h
  unfold amplitudeSq
  rw [t1, t2, t3, h.energy, h.angle]
  have a := (Complex.normSq_pos.mpr hs).ne'
  have b := (Complex.normSq_pos.mpr ht).ne'
  simp only [interference, Complex.ofReal_re]
  rw [normSq_prop] at a b
  rw [normSq_prop, normSq_prop]
  unfold scalarSelfMsq
  have c1 : 1 + (M / e) ^ 4 + (M / e) ^ 2 * (-2 + (w / e) ^ 2) = ((e ^ 2 - M ^ 2) ^ 2 + (M * w) ^ 2) / e ^ 4 := by
    field_simp; ring
  have c2 : 4 * (M / e) ^ 4 + 4 * (M / e) ^ 2 * ((w / e) ^ 2 + (-1 + 4 * (m / e) ^ 2) * (-1 + z))
      + (1 - 4 * (m / e) ^ 2) ^ 2 * (-1 + z) ^ 2
      = 4 * ((-(e ^ 2 - 4 * m ^ 2) * (1 - z) / 2 - M ^ 2) ^ 2 + (M * w) ^ 2) / e ^ 4 := by
    field_simp; ring
  rw [c1, c2]
  generalize hA : (e ^ 2 - M ^ 2) ^ 2 + (M * w) ^ 2 = A at *
  generalize hB : (-(e ^ 2 - 4 * m ^ 2) * (1 - z) / 2 - M ^ 2) ^ 2 + (M * w) ^ 2 = B at *
  rw [div_mul_div_comm, div_div_eq_mul_div, div_eq_iff (by positivity)]
  field_simp
  rw [← hA, ← hB]
  ring

/-- C279: the squared matrix element integrated by `sigma_xx_to_v_to_xx` is the one of the Feynman rules. -/
theorem vector_self_msq (g M w : ℝ) (he : 0 < e) (h : Kin m e z p1 p2 p3 p4)
    (hs : prop (e ^ 2) M w ≠ 0) (ht : prop (-(e ^ 2 - 4 * m ^ 2) * (1 - z) / 2) M w ≠ 0) :
    vectorSelfMsq (m / e) (M / e) (w / e) g z = amplitudeSq vectorVertex g M w m p1 p2 p3 p4 := by
  obtain ⟨t1, t2, t3⟩ := vector_traces h
  unfold amplitudeSq
  rw [t1, t2, t3, h.energy, h.angle]
  have a := (Complex.normSq_pos.mpr hs).ne'
  have b := (Complex.normSq_pos.mpr ht).ne'
  simp only [interference, Complex.ofReal_re]
  rw [normSq_prop] at a b
  rw [normSq_prop, normSq_prop]
  unfold vectorSelfMsq
  have c1 : 1 + (M / e) ^ 4 + (M / e) ^ 2 * (-2 + (w / e) ^ 2) = ((e ^ 2 - M ^ 2) ^ 2 + (M * w) ^ 2) / e ^ 4 := by
    field_simp; ring
  have c2 : 4 * (M / e) ^ 4 + 4 * (M / e) ^ 2 * ((w / e) ^ 2 + (-1 + 4 * (m / e) ^ 2) * (-1 + z))
      + (1 - 4 * (m / e) ^ 2) ^ 2 * (-1 + z) ^ 2
      = 4 * ((-(e ^ 2 - 4 * m ^ 2) * (1 - z) / 2 - M ^ 2) ^ 2 + (M * w) ^ 2) / e ^ 4 := by
    field_simp; ring
  rw [c1, c2]
  generalize hA : (e ^ 2 - M ^ 2) ^ 2 + (M * w) ^ 2 = A at *
  generalize hB : (-(e ^ 2 - 4 * m ^ 2) * (1 - z) / 2 - M ^ 2) ^ 2 + (M * w) ^ 2 = B at *
  rw [div_mul_div_comm, div_div_eq_mul_div, div_eq_iff (by positivity)]
  field_simp
  rw [← hA, ← hB]
  ring

/-- The kinematics are those of the centre-of-mass frame with `z` the cosine of the scattering angle. -/
theorem com_kinematics (m e k z y : ℝ) (hk : k ^ 2 = e ^ 2 / 4 - m ^ 2) (hz : z ^ 2 + y ^ 2 = 1) :
    Kin m e z ![e / 2, 0, 0, k] ![e / 2, 0, 0, -k] ![e / 2, k * y, 0, k * z] ![e / 2, -(k * y), 0, -(k * z)] := by
  constructor
  · simp [mink]; linear_combination -hk
  · simp [mink]; linear_combination -hk
  · simp [mink]; linear_combination -hk - k ^ 2 * hz
  · simp [mink]; linear_combination -hk - k ^ 2 * hz
  · ext i; fin_cases i <;> simp
  · simp [mink]; ring
  · simp [mink]; linear_combination (2 * z - 2) * hk - k ^ 2 * hz

/-- Scattering by a right angle, above threshold. -/
example : ∃ p1 p2 p3 p4, Kin 4 10 0 p1 p2 p3 p4 ∧ prop (10 ^ 2) 1 1 ≠ 0
    ∧ prop (-(10 ^ 2 - 4 * 4 ^ 2) * (1 - 0) / 2) 1 1 ≠ 0 := by
  refine ⟨_, _, _, _, com_kinematics 4 10 3 0 1 (by norm_num) (by norm_num), ?_, ?_⟩
  · intro h; have := congrArg Complex.im h; rw [prop_im] at this; norm_num at this
  · intro h; have := congrArg Complex.im h; rw [prop_im] at this; norm_num at this

/-- Both matrix elements are non-zero there. -/
example : scalarSelfMsq (4 / 10) (1 / 10) (1 / 10) 1 0 ≠ 0 ∧ vectorSelfMsq (4 / 10) (1 / 10) (1 / 10) 1 0 ≠ 0 := by
  constructor
  · unfold scalarSelfMsq; norm_num
  · unfold vectorSelfMsq; norm_num

end Hazma.SelfScattering
