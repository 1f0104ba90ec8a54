import Verif.Props.SelfScattering
import Verif.Props.CrossSections
import Verif.Props.ScalarModel
import Verif.Props.VectorModel
import Mathlib.Analysis.SpecialFunctions.Integrals.Basic
import Mathlib.MeasureTheory.Integral.IntervalIntegral.FundThmCalculus

/-!
# Annihilation cross sections from the Feynman rules
-/

namespace Hazma.FeynmanRules

open Hazma Hazma.Xs Hazma.Dirac Hazma.SelfScattering
open Matrix ComplexConjugate

/-! ## Pair production of mediators: rules -/

/-- Amplitude of `x(1) x̄(2) → φ(q1) φ(q2)` between the spinors: the fermion emits the two mediators in
either order; `i`, `j` are the polarisations. -/
noncomputable def pairAmp (v : Vertex) (m : ℝ) (p1 q1 q2 : Fin 4 → ℝ) (i j : Fin v.n) : M4 :=
  ((mink (p1 - q1) (p1 - q1) - m ^ 2 : ℝ) : ℂ)⁻¹ • (v.mat j * spinSum (p1 - q1) m * v.mat i)
    + ((mink (p1 - q2) (p1 - q2) - m ^ 2 : ℝ) : ℂ)⁻¹ • (v.mat i * spinSum (p1 - q2) m * v.mat j)

/-- Its Dirac adjoint: the factors in the opposite order. -/
noncomputable def pairAdj (v : Vertex) (m : ℝ) (p1 q1 q2 : Fin 4 → ℝ) (i j : Fin v.n) : M4 :=
  ((mink (p1 - q1) (p1 - q1) - m ^ 2 : ℝ) : ℂ)⁻¹ • (v.mat i * spinSum (p1 - q1) m * v.mat j)
    + ((mink (p1 - q2) (p1 - q2) - m ^ 2 : ℝ) : ℂ)⁻¹ • (v.mat j * spinSum (p1 - q2) m * v.mat i)

/-- Squared amplitude, averaged over initial spins and summed over polarisations. -/
noncomputable def pairSq (v : Vertex) (g m : ℝ) (p1 p2 q1 q2 : Fin 4 → ℝ) : ℝ :=
  g ^ 4 / 4 * (∑ i, ∑ j, v.w i * v.w j
    * trace (spinSum p2 (-m) * pairAmp v m p1 q1 q2 i j * spinSum p1 m * pairAdj v m p1 q1 q2 i j)).re

/-- Momentum of each of two particles of mass `m` and total energy `e`. -/
noncomputable def mom (e m : ℝ) : ℝ := Real.sqrt (e ^ 2 / 4 - m ^ 2)

/-- Four-momentum in the centre-of-mass frame, along the beam for `z = 1`. -/
noncomputable def comP (e m z : ℝ) : Fin 4 → ℝ :=
  ![e / 2, mom e m * Real.sqrt (1 - z ^ 2), 0, mom e m * z]
/-- The opposite four-momentum. -/
noncomputable def comN (e m z : ℝ) : Fin 4 → ℝ :=
  ![e / 2, -(mom e m * Real.sqrt (1 - z ^ 2)), 0, -(mom e m * z)]

/-- Cross section of annihilation into two identical particles of mass `M`. -/
noncomputable def pairSigma (v : Vertex) (g m M e : ℝ) : ℝ :=
  1 / 2 * (mom e M / mom e m) / (32 * Real.pi * e ^ 2)
    * ∫ z in (-1 : ℝ)..1, pairSq v g m (comP e m 1) (comN e m 1) (comP e M z) (comN e M z)

/-! ## Kinematics -/

/-- Invariants of the process: `x` is the product of the momenta times the cosine, up to a factor. -/
structure PairKin (m M e x : ℝ) (p1 p2 q1 q2 : Fin 4 → ℝ) : Prop where
  s1 : mink p1 p1 = m ^ 2
  s2 : mink p2 p2 = m ^ 2
  m1 : mink q1 q1 = M ^ 2
  m2 : mink q2 q2 = M ^ 2
  cons : p1 + p2 = q1 + q2
  energy : mink (p1 + p2) (p1 + p2) = e ^ 2
  angle : mink p1 q1 = (e ^ 2 - 2 * x) / 4

theorem mom_sq {e m : ℝ} (hm : 0 ≤ m) (h : 2 * m ≤ e) : mom e m ^ 2 = e ^ 2 / 4 - m ^ 2 :=
  Real.sq_sqrt (by nlinarith)

theorem com_pair {m M e z : ℝ} (hm : 0 ≤ m) (h1 : 2 * m ≤ e) (hM : 0 ≤ M) (h2 : 2 * M ≤ e)
    (hz : z ^ 2 ≤ 1) :
    PairKin m M e (2 * mom e m * mom e M * z) (comP e m 1) (comN e m 1) (comP e M z) (comN e M z) := by
  have a := mom_sq hm h1
  have b := mom_sq hM h2
  have c : Real.sqrt (1 - z ^ 2) ^ 2 = 1 - z ^ 2 := Real.sq_sqrt (by linarith)
  constructor
  · simp [mink, comP]; linear_combination -a
  · simp [mink, comN]; linear_combination -a
  · simp [mink, comP]; linear_combination -b - mom e M ^ 2 * c
  · simp [mink, comN]; linear_combination -b - mom e M ^ 2 * c
  · ext i; fin_cases i <;> simp [comP, comN]
  · simp [mink, comP, comN]; ring
  · simp [mink, comP]; ring

variable {m M e x : ℝ} {p1 p2 q1 q2 : Fin 4 → ℝ}

theorem mink_sub (a b c : Fin 4 → ℝ) : mink a (b - c) = mink a b - mink a c := by simp [mink]; ring
theorem mink_sub_left (a b c : Fin 4 → ℝ) : mink (a - b) c = mink a c - mink b c := by simp [mink]; ring

/-- Scalar products between external and exchanged momenta. -/
theorem pair_products (h : PairKin m M e x p1 p2 q1 q2) :
    mink p1 p2 = e ^ 2 / 2 - m ^ 2
    ∧ mink (p1 - q1) (p1 - q1) - m ^ 2 = -(e ^ 2 / 2 - M ^ 2 - x)
    ∧ mink (p1 - q2) (p1 - q2) - m ^ 2 = -(e ^ 2 / 2 - M ^ 2 + x)
    ∧ mink p1 (p1 - q1) = -((M ^ 2 - 2 * m ^ 2 + (e ^ 2 / 2 - M ^ 2 - x)) / 2)
    ∧ mink p2 (p1 - q1) = (M ^ 2 - 2 * m ^ 2 + (e ^ 2 / 2 - M ^ 2 - x)) / 2
    ∧ mink p1 (p1 - q2) = -((M ^ 2 - 2 * m ^ 2 + (e ^ 2 / 2 - M ^ 2 + x)) / 2)
    ∧ mink p2 (p1 - q2) = (M ^ 2 - 2 * m ^ 2 + (e ^ 2 / 2 - M ^ 2 + x)) / 2
    ∧ mink (p1 - q1) (p1 - q2) = m ^ 2 - M ^ 2 := by
  have a1 := h.energy
  rw [mink_add_add, h.s1, h.s2] at a1
  have a2 := h.energy
  rw [h.cons, mink_add_add, h.m1, h.m2] at a2
  have a3 := h.angle
  have b : ∀ q, mink q p1 + mink q p2 = mink q q1 + mink q q2 := by
    intro q; rw [← mink_add, ← mink_add, h.cons]
  have b1 := b p1
  have b2 := b p2
  have b3 := b q1
  have b4 := b q2
  rw [h.s1] at b1
  rw [h.s2, mink_comm p2 p1] at b2
  rw [h.m1, mink_comm q1 p1, mink_comm q1 p2] at b3
  rw [h.m2, mink_comm q2 p1, mink_comm q2 p2, mink_comm q2 q1] at b4
  simp only [mink_sub, mink_sub_left, h.s1, h.m1, h.m2, mink_comm p2 p1, mink_comm q1 p1, mink_comm q2 p1]
  refine ⟨by linarith, by linarith, by linarith, by linarith, by linarith, by linarith, by linarith, by linarith⟩

/-! ## Squared amplitudes -/

/-- Sum over polarisations, written with four traces. -/
theorem pairSum_eq (v : Vertex) (k l : ℂ) (A P L K : M4) :
    ∑ i, ∑ j, v.w i * v.w j * trace (A * (k • (v.mat j * L * v.mat i) + l • (v.mat i * K * v.mat j)) * P
        * (k • (v.mat i * L * v.mat j) + l • (v.mat j * K * v.mat i)))
      = k ^ 2 * ∑ i, ∑ j, v.w i * v.w j * trace (A * v.mat j * L * v.mat i * P * v.mat i * L * v.mat j)
        + l ^ 2 * ∑ i, ∑ j, v.w i * v.w j * trace (A * v.mat j * K * v.mat i * P * v.mat i * K * v.mat j)
        + k * l * ∑ i, ∑ j, v.w i * v.w j * trace (A * v.mat i * L * v.mat j * P * v.mat i * K * v.mat j)
        + k * l * ∑ i, ∑ j, v.w i * v.w j * trace (A * v.mat i * K * v.mat j * P * v.mat i * L * v.mat j) := by
  have e1 : ∀ f : Fin v.n → Fin v.n → ℂ, ∑ i, ∑ j, f i j = ∑ i, ∑ j, f j i := fun f => Finset.sum_comm
  rw [e1 (fun i j => v.w i * v.w j * trace (A * v.mat j * K * v.mat i * P * v.mat i * K * v.mat j)),
    e1 (fun i j => v.w i * v.w j * trace (A * v.mat i * L * v.mat j * P * v.mat i * K * v.mat j))]
  simp only [Finset.mul_sum, ← Finset.sum_add_distrib]
  refine Finset.sum_congr rfl fun i _ => Finset.sum_congr rfl fun j _ => ?_
  simp only [mul_add, add_mul, smul_mul_assoc, Matrix.mul_smul, trace_add, trace_smul, smul_eq_mul, mul_assoc]
  ring

/-- Two equal orders of emission of a vector. -/
theorem tr_nested (a b c d : Fin 4 → ℝ) (k l m n : ℝ) :
    ∑ i, ∑ j, eta i * eta j * trace (spinSum a k * gamma j * spinSum b l * gamma i
        * spinSum c m * gamma i * spinSum d n * gamma j)
      = 4 * trace (spinSum a (-2 * k) * spinSum b l * spinSum c (-2 * m) * spinSum d n) := by
  have hc : ∀ (p : Fin 4 → ℝ) (m : ℝ), contract (spinSum p m) = (-2 : ℂ) • spinSum p (-2 * m) := by
    intro p m
    unfold spinSum
    rw [contract_add, contract_smul, contract_slash, contract_one, smul_add, smul_smul, smul_smul]
    congr 2; push_cast; ring
  have e1 : ∀ i j, eta i * eta j * trace (spinSum a k * gamma j * spinSum b l * gamma i
        * spinSum c m * gamma i * spinSum d n * gamma j)
      = eta j * (eta i * trace ((spinSum d n * (gamma j * spinSum a k * gamma j) * spinSum b l)
        * (gamma i * spinSum c m * gamma i))) := by
    intro i j
    rw [show spinSum a k * gamma j * spinSum b l * gamma i * spinSum c m * gamma i * spinSum d n * gamma j
      = (spinSum a k * gamma j * spinSum b l * gamma i * spinSum c m * gamma i) * (spinSum d n * gamma j) by
        simp only [mul_assoc], trace_mul_comm _ (spinSum d n * gamma j)]
    simp only [mul_assoc]
    ring
  rw [Finset.sum_comm]
  simp only [e1, ← Finset.mul_sum, sum_contract]
  have e2 : ∀ j, trace (spinSum d n * (gamma j * spinSum a k * gamma j) * spinSum b l * contract (spinSum c m))
      = trace ((spinSum b l * contract (spinSum c m) * spinSum d n) * (gamma j * spinSum a k * gamma j)) := by
    intro j
    rw [show spinSum d n * (gamma j * spinSum a k * gamma j) * spinSum b l * contract (spinSum c m)
      = (spinSum d n * (gamma j * spinSum a k * gamma j)) * (spinSum b l * contract (spinSum c m)) by
        simp only [mul_assoc], trace_mul_comm]
    simp only [mul_assoc]
  simp only [e2, sum_contract]
  rw [hc, hc, trace_mul_comm]
  simp only [Matrix.mul_smul, smul_mul_assoc, trace_smul, smul_eq_mul, mul_assoc]
  ring

/-- Squared amplitude for two scalars. -/
theorem scalar_pairSq (g : ℝ) (h : PairKin m M e x p1 p2 q1 q2) (h1 : e ^ 2 / 2 - M ^ 2 - x ≠ 0)
    (h2 : e ^ 2 / 2 - M ^ 2 + x ≠ 0) (hD : e ^ 2 / 2 - M ^ 2 ≠ 0) :
    pairSq scalarVertex g m p1 p2 q1 q2
      = g ^ 4 * (-2 + ((e ^ 2 / 2 - M ^ 2) + 8 * m ^ 2 + (M ^ 4 / 2 + 4 * m ^ 2 * M ^ 2 - 8 * m ^ 4) / (e ^ 2 / 2 - M ^ 2))
          * (1 / (e ^ 2 / 2 - M ^ 2 - x) + 1 / (e ^ 2 / 2 - M ^ 2 + x))
        - (M ^ 2 - 4 * m ^ 2) ^ 2 / 2
          * (1 / (e ^ 2 / 2 - M ^ 2 - x) ^ 2 + 1 / (e ^ 2 / 2 - M ^ 2 + x) ^ 2)) := by
  obtain ⟨r1, r2, r3, r4, r5, r6, r7, r8⟩ := pair_products h
  have hs : ∀ c : ℂ, ∑ _i : Fin scalarVertex.n, ∑ _j : Fin scalarVertex.n, c = c := by
    intro c
    change ∑ _i : Fin 1, ∑ _j : Fin 1, c = c
    simp
  have t1 := r2
  have t2 := r3
  rw [sub_eq_iff_eq_add] at t1 t2
  unfold pairSq pairAmp pairAdj
  rw [pairSum_eq]
  change g ^ 4 / 4 * (_ * (∑ _i : Fin scalarVertex.n, ∑ _j : Fin scalarVertex.n, 1 * 1 * trace (spinSum p2 (-m) * 1 * spinSum (p1 - q1) m * 1
      * spinSum p1 m * 1 * spinSum (p1 - q1) m * 1))
    + _ * (∑ _i : Fin scalarVertex.n, ∑ _j : Fin scalarVertex.n, 1 * 1 * trace (spinSum p2 (-m) * 1 * spinSum (p1 - q2) m * 1
      * spinSum p1 m * 1 * spinSum (p1 - q2) m * 1))
    + _ * (∑ _i : Fin scalarVertex.n, ∑ _j : Fin scalarVertex.n, 1 * 1 * trace (spinSum p2 (-m) * 1 * spinSum (p1 - q1) m * 1
      * spinSum p1 m * 1 * spinSum (p1 - q2) m * 1))
    + _ * (∑ _i : Fin scalarVertex.n, ∑ _j : Fin scalarVertex.n, 1 * 1 * trace (spinSum p2 (-m) * 1 * spinSum (p1 - q2) m * 1
      * spinSum p1 m * 1 * spinSum (p1 - q1) m * 1))).re = _
  simp only [hs, mul_one, one_mul, tr_quad]
  simp only [mink_comm p2 p1, mink_comm (p1 - q1) p1, mink_comm (p1 - q2) p1, mink_comm (p1 - q2) (p1 - q1),
    r1, r2, r3, t1, t2, r4, r5, r6, r7, r8]
  rw [← Complex.ofReal_inv, ← Complex.ofReal_inv]
  simp only [← Complex.ofReal_pow, ← Complex.ofReal_mul, ← Complex.ofReal_add, Complex.ofReal_re]
  obtain ⟨y, hy⟩ : ∃ y, y = e ^ 2 / 2 - M ^ 2 - x := ⟨_, rfl⟩
  obtain ⟨w, hw⟩ : ∃ w, w = e ^ 2 / 2 - M ^ 2 + x := ⟨_, rfl⟩
  rw [← hy] at h1
  rw [← hw] at h2
  have hd : e ^ 2 / 2 - M ^ 2 = (y + w) / 2 := by rw [hy, hw]; ring
  have hx : x = (w - y) / 2 := by rw [hy, hw]; ring
  have he : e ^ 2 / 2 = (y + w) / 2 + M ^ 2 := by linarith
  rw [hd] at hD
  have hD' : y + w ≠ 0 := fun h => hD (by rw [h]; simp)
  rw [hd, ← hd, ← hy, ← hw, hd, he]
  simp only [add_sub_cancel_right, inv_neg]
  field_simp
  ring

/-- Squared amplitude for two vectors. -/
theorem vector_pairSq (g : ℝ) (h : PairKin m M e x p1 p2 q1 q2) (h1 : e ^ 2 / 2 - M ^ 2 - x ≠ 0)
    (h2 : e ^ 2 / 2 - M ^ 2 + x ≠ 0) (hD : e ^ 2 / 2 - M ^ 2 ≠ 0) :
    pairSq vectorVertex g m p1 p2 q1 q2
      = g ^ 4 * (-4 + (4 * (e ^ 2 / 2 - M ^ 2) + 4 * m ^ 2
            + (-8 * (e ^ 2 / 2 - m ^ 2) * (m ^ 2 - M ^ 2)
              + 4 * m ^ 2 * (2 * (e ^ 2 / 2 - 2 * m ^ 2) + e ^ 2 / 2 - 2 * m ^ 2 + M ^ 2) + 8 * m ^ 4) / (e ^ 2 / 2 - M ^ 2))
          * (1 / (e ^ 2 / 2 - M ^ 2 - x) + 1 / (e ^ 2 / 2 - M ^ 2 + x))
        - 2 * (M ^ 2 + 2 * m ^ 2) ^ 2
          * (1 / (e ^ 2 / 2 - M ^ 2 - x) ^ 2 + 1 / (e ^ 2 / 2 - M ^ 2 + x) ^ 2)) := by
  obtain ⟨r1, r2, r3, r4, r5, r6, r7, r8⟩ := pair_products h
  have t1 := r2
  have t2 := r3
  rw [sub_eq_iff_eq_add] at t1 t2
  unfold pairSq pairAmp pairAdj
  rw [pairSum_eq]
  change g ^ 4 / 4 * (_ * (∑ i, ∑ j, eta i * eta j * trace (spinSum p2 (-m) * gamma j * spinSum (p1 - q1) m * gamma i
      * spinSum p1 m * gamma i * spinSum (p1 - q1) m * gamma j))
    + _ * (∑ i, ∑ j, eta i * eta j * trace (spinSum p2 (-m) * gamma j * spinSum (p1 - q2) m * gamma i
      * spinSum p1 m * gamma i * spinSum (p1 - q2) m * gamma j))
    + _ * (∑ i, ∑ j, eta i * eta j * trace (spinSum p2 (-m) * gamma i * spinSum (p1 - q1) m * gamma j
      * spinSum p1 m * gamma i * spinSum (p1 - q2) m * gamma j))
    + _ * (∑ i, ∑ j, eta i * eta j * trace (spinSum p2 (-m) * gamma i * spinSum (p1 - q2) m * gamma j
      * spinSum p1 m * gamma i * spinSum (p1 - q1) m * gamma j))).re = _
  rw [tr_nested, tr_nested, tr_crossed, tr_crossed]
  simp only [tr_quad]
  simp only [mink_comm p2 p1, mink_comm (p1 - q1) p1, mink_comm (p1 - q2) p1, mink_comm (p1 - q2) (p1 - q1),
    r1, r2, r3, t1, t2, r4, r5, r6, r7, r8]
  rw [← Complex.ofReal_inv, ← Complex.ofReal_inv, show (4 : ℂ) = ((4 : ℝ) : ℂ) by norm_num]
  simp only [← Complex.ofReal_pow, ← Complex.ofReal_mul, ← Complex.ofReal_add, Complex.ofReal_re]
  obtain ⟨y, hy⟩ : ∃ y, y = e ^ 2 / 2 - M ^ 2 - x := ⟨_, rfl⟩
  obtain ⟨w, hw⟩ : ∃ w, w = e ^ 2 / 2 - M ^ 2 + x := ⟨_, rfl⟩
  rw [← hy] at h1
  rw [← hw] at h2
  have hd : e ^ 2 / 2 - M ^ 2 = (y + w) / 2 := by rw [hy, hw]; ring
  have hx : x = (w - y) / 2 := by rw [hy, hw]; ring
  have he : e ^ 2 / 2 = (y + w) / 2 + M ^ 2 := by linarith
  rw [hd] at hD
  have hD' : y + w ≠ 0 := fun h => hD (by rw [h]; simp)
  rw [hd, ← hd, ← hy, ← hw, hd, he]
  simp only [add_sub_cancel_right, inv_neg]
  field_simp
  ring

/-! ## Cross sections -/

/-- The integral over the angle. -/
theorem angle_integral (a b r D c : ℝ) (hc : 0 < c) (hD : c < D) :
    ∫ z in (-1 : ℝ)..1, (r + a * (1 / (D - c * z) + 1 / (D + c * z)) - b * (1 / (D - c * z) ^ 2 + 1 / (D + c * z) ^ 2))
      = 2 * r + a * (2 / c * Real.log ((D + c) / (D - c))) - b * (4 / (D ^ 2 - c ^ 2)) := by
  have hp : ∀ z ∈ Set.uIcc (-1 : ℝ) 1, 0 < D - c * z ∧ 0 < D + c * z := by
    intro z hz
    rw [Set.uIcc_of_le (by norm_num)] at hz
    constructor <;> nlinarith [hz.1, hz.2]
  have hd : ∀ z ∈ Set.uIcc (-1 : ℝ) 1, HasDerivAt
      (fun z => r * z + a * ((Real.log (D + c * z) - Real.log (D - c * z)) / c)
        - b * ((1 / (D - c * z) - 1 / (D + c * z)) / c))
      (r + a * (1 / (D - c * z) + 1 / (D + c * z)) - b * (1 / (D - c * z) ^ 2 + 1 / (D + c * z) ^ 2)) z := by
    intro z hz
    obtain ⟨h1, h2⟩ := hp z hz
    have d1 : HasDerivAt (fun z => D - c * z) (-c) z := by
      simpa using ((hasDerivAt_id z).const_mul c).const_sub D
    have d2 : HasDerivAt (fun z => D + c * z) c z := by
      simpa using ((hasDerivAt_id z).const_mul c).const_add D
    have l1 := d1.log h1.ne'
    have l2 := d2.log h2.ne'
    have i1 := (hasDerivAt_const z (1 : ℝ)).div d1 h1.ne'
    have i2 := (hasDerivAt_const z (1 : ℝ)).div d2 h2.ne'
    have := (((hasDerivAt_id z).const_mul r).add (((l2.sub l1).div_const c).const_mul a)).sub
      (((i1.sub i2).div_const c).const_mul b)
    refine this.congr_deriv ?_
    field_simp
    ring
  rw [intervalIntegral.integral_eq_sub_of_hasDerivAt hd]
  · have h1 : 0 < D - c := by linarith
    have h2 : 0 < D + c := by linarith
    rw [Real.log_div h2.ne' h1.ne']
    have h3 : D ^ 2 - c ^ 2 ≠ 0 := by rw [sq_sub_sq]; positivity
    simp only [mul_one, mul_neg, sub_neg_eq_add, ← sub_eq_add_neg]
    have : 1 / (D - c) - 1 / (D + c) = 2 * c / (D ^ 2 - c ^ 2) := by
      rw [eq_div_iff h3]; field_simp; ring
    have t : 1 / (D + c) - 1 / (D - c) = -(2 * c / (D ^ 2 - c ^ 2)) := by rw [← this]; ring
    rw [this, t]
    field_simp
    ring
  · apply ContinuousOn.intervalIntegrable
    intro z hz
    obtain ⟨h1, h2⟩ := hp z hz
    apply ContinuousAt.continuousWithinAt
    have := h1.ne'
    have := h2.ne'
    fun_prop (disch := first | assumption | exact pow_ne_zero _ (by assumption))

theorem pair_angle (hm : 0 ≤ m) (hM : 0 ≤ M) (hmM : 0 < m ∨ 0 < M) (h1 : 2 * m < e) (h2 : 2 * M < e) :
    0 < 2 * mom e m * mom e M ∧ 2 * mom e m * mom e M < e ^ 2 / 2 - M ^ 2
    ∧ (2 * mom e m * mom e M) ^ 2 = (e ^ 2 / 2 - M ^ 2) ^ 2 - (m ^ 2 * e ^ 2 + (-(4 * M ^ 2) * m ^ 2 + M ^ 4)) := by
  have a := mom_sq hm h1.le
  have b := mom_sq hM h2.le
  have pa : 0 < mom e m := Real.sqrt_pos.mpr (by nlinarith)
  have pb : 0 < mom e M := Real.sqrt_pos.mpr (by nlinarith)
  have hsq : (2 * mom e m * mom e M) ^ 2
      = (e ^ 2 / 2 - M ^ 2) ^ 2 - (m ^ 2 * e ^ 2 + (-(4 * M ^ 2) * m ^ 2 + M ^ 4)) := by
    rw [mul_pow, mul_pow, a, b]; ring
  have hpos : 0 < m ^ 2 * e ^ 2 + (-(4 * M ^ 2) * m ^ 2 + M ^ 4) := by
    have : 0 < e ^ 2 - 4 * M ^ 2 := by nlinarith
    rcases hmM with h | h
    · have := mul_pos (pow_pos h 2) this
      nlinarith [sq_nonneg (M ^ 2)]
    · have := mul_nonneg (sq_nonneg m) this.le
      nlinarith [pow_pos h 4]
  refine ⟨by positivity, ?_, hsq⟩
  have hD : 0 < e ^ 2 / 2 - M ^ 2 := by nlinarith
  exact lt_of_pow_lt_pow_left₀ 2 hD.le (by rw [hsq]; linarith)

theorem root_eq (hm : 0 ≤ m) (hM : 0 ≤ M) (h1 : 2 * m < e) (h2 : 2 * M < e) :
    Real.sqrt ((-4 * M ^ 2 + e ^ 2) * (-4 * m ^ 2 + e ^ 2)) = 2 * (2 * mom e m * mom e M) := by
  have a := mom_sq hm h1.le
  have b := mom_sq hM h2.le
  rw [show (-4 * M ^ 2 + e ^ 2) * (-4 * m ^ 2 + e ^ 2) = (2 * (2 * mom e m * mom e M)) ^ 2 by
    rw [mul_pow, mul_pow, mul_pow, a, b]; ring]
  exact Real.sqrt_sq (by unfold mom; positivity)

/-- C280: `sigma_xx_to_ss` is the cross section of the Feynman rules. -/
theorem scalar_pair_sigma (g : ℝ) (hm : 0 ≤ m) (hM : 0 ≤ M) (hmM : 0 < m ∨ 0 < M) (h1 : 2 * m < e) (h2 : 2 * M < e) :
    scalarSS e m M g = pairSigma scalarVertex g m M e := by
  obtain ⟨c0, cD, csq⟩ := pair_angle hm hM hmM h1 h2
  have hr := root_eq hm hM h1 h2
  have a := mom_sq hm h1.le
  have pa : 0 < mom e m := Real.sqrt_pos.mpr (by nlinarith)
  have he : 0 < e := by linarith
  have hint : ∀ z ∈ Set.uIcc (-1 : ℝ) 1, pairSq scalarVertex g m (comP e m 1) (comN e m 1) (comP e M z) (comN e M z)
      = g ^ 4 * (-2 + ((e ^ 2 / 2 - M ^ 2) + 8 * m ^ 2 + (M ^ 4 / 2 + 4 * m ^ 2 * M ^ 2 - 8 * m ^ 4) / (e ^ 2 / 2 - M ^ 2))
          * (1 / (e ^ 2 / 2 - M ^ 2 - 2 * mom e m * mom e M * z) + 1 / (e ^ 2 / 2 - M ^ 2 + 2 * mom e m * mom e M * z))
        - (M ^ 2 - 4 * m ^ 2) ^ 2 / 2
          * (1 / (e ^ 2 / 2 - M ^ 2 - 2 * mom e m * mom e M * z) ^ 2
            + 1 / (e ^ 2 / 2 - M ^ 2 + 2 * mom e m * mom e M * z) ^ 2)) := by
    intro z hz
    rw [Set.uIcc_of_le (by norm_num)] at hz
    refine scalar_pairSq g (com_pair hm h1.le hM h2.le (by nlinarith [hz.1, hz.2])) ?_ ?_ (by linarith)
    · nlinarith [hz.1, hz.2]
    · nlinarith [hz.1, hz.2]
  unfold pairSigma
  rw [intervalIntegral.integral_congr hint, intervalIntegral.integral_const_mul, angle_integral _ _ _ _ _ c0 cD]
  unfold scalarSS
  rw [if_neg (by push Not; exact ⟨h2.le, h1.le⟩)]
  simp only [hr]
  rw [show (-2 * M ^ 2 + e ^ 2 + 2 * (2 * mom e m * mom e M)) / (-2 * M ^ 2 + e ^ 2 - 2 * (2 * mom e m * mom e M))
    = (e ^ 2 / 2 - M ^ 2 + 2 * mom e m * mom e M) / (e ^ 2 / 2 - M ^ 2 - 2 * mom e m * mom e M) by
      rw [div_eq_div_iff (by linarith) (by linarith)]; ring]
  generalize Real.log _ = L
  have hq : mom e M / mom e m = (2 * mom e m * mom e M) / (2 * (e ^ 2 / 4 - m ^ 2)) := by
    rw [← a]; field_simp
  rw [hq]
  have hx : 0 < e ^ 2 / 4 - m ^ 2 := by nlinarith
  have hE : m ^ 2 * e ^ 2 + (-(4 * M ^ 2) * m ^ 2 + M ^ 4) = (e ^ 2 / 2 - M ^ 2) ^ 2 - (2 * mom e m * mom e M) ^ 2 := by
    rw [csq]; ring
  have hE0 : (e ^ 2 / 2 - M ^ 2) ^ 2 - (2 * mom e m * mom e M) ^ 2 ≠ 0 := by
    rw [sq_sub_sq]
    exact (mul_pos (by linarith) (by linarith)).ne'
  have hDs : -2 * M ^ 2 + e ^ 2 = 2 * (e ^ 2 / 2 - M ^ 2) := by ring
  have hxs : -4 * m ^ 2 + e ^ 2 = 4 * (e ^ 2 / 4 - m ^ 2) := by ring
  have hP : 2 * m ^ 2 * (8 * m ^ 2 + e ^ 2) + (3 * M ^ 4 - 16 * M ^ 2 * m ^ 2)
      = 2 * ((e ^ 2 / 2 - M ^ 2) ^ 2 - (2 * mom e m * mom e M) ^ 2) + (M ^ 2 - 4 * m ^ 2) ^ 2 := by
    rw [csq]; ring
  have hQ : -(4 * M ^ 2) * (4 * m ^ 2 + e ^ 2) + (16 * m ^ 2 * e ^ 2 + (6 * M ^ 4 - 32 * m ^ 4) + e ^ 4)
      = 4 * (e ^ 2 / 2 - M ^ 2) ^ 2 + 32 * m ^ 2 * (e ^ 2 / 2 - M ^ 2) + 2 * M ^ 4 + 16 * m ^ 2 * M ^ 2 - 32 * m ^ 4 := by
    ring
  rw [hE, hDs, hxs, hP, hQ]
  have hpi := Real.pi_pos
  have D0 : 0 < e ^ 2 / 2 - M ^ 2 := by linarith
  generalize 2 * mom e m * mom e M = c at *
  generalize e ^ 2 / 4 - m ^ 2 = X at *
  generalize e ^ 2 / 2 - M ^ 2 = D at *
  field_simp
  ring

/-- C280: `sigma_xx_to_vv` is the cross section of the Feynman rules. -/
theorem vector_pair_sigma (g : ℝ) (hm : 0 ≤ m) (hM : 0 ≤ M) (hmM : 0 < m ∨ 0 < M) (h1 : 2 * m < e) (h2 : 2 * M < e) :
    vectorVV e m M g = pairSigma vectorVertex g m M e := by
  obtain ⟨c0, cD, csq⟩ := pair_angle hm hM hmM h1 h2
  have a := mom_sq hm h1.le
  have b := mom_sq hM h2.le
  have pa : 0 < mom e m := Real.sqrt_pos.mpr (by nlinarith)
  have pb : 0 < mom e M := Real.sqrt_pos.mpr (by nlinarith)
  have he : 0 < e := by linarith
  have ra : Real.sqrt (-4 * m ^ 2 + e ^ 2) = 2 * mom e m := by
    rw [show -4 * m ^ 2 + e ^ 2 = (2 * mom e m) ^ 2 by rw [mul_pow, a]; ring]
    exact Real.sqrt_sq (by positivity)
  have rb : Real.sqrt (-4 * M ^ 2 + e ^ 2) = 2 * mom e M := by
    rw [show -4 * M ^ 2 + e ^ 2 = (2 * mom e M) ^ 2 by rw [mul_pow, b]; ring]
    exact Real.sqrt_sq (by positivity)
  have hint : ∀ z ∈ Set.uIcc (-1 : ℝ) 1, pairSq vectorVertex g m (comP e m 1) (comN e m 1) (comP e M z) (comN e M z)
      = g ^ 4 * (-4 + (4 * (e ^ 2 / 2 - M ^ 2) + 4 * m ^ 2
            + (-8 * (e ^ 2 / 2 - m ^ 2) * (m ^ 2 - M ^ 2)
              + 4 * m ^ 2 * (2 * (e ^ 2 / 2 - 2 * m ^ 2) + e ^ 2 / 2 - 2 * m ^ 2 + M ^ 2) + 8 * m ^ 4) / (e ^ 2 / 2 - M ^ 2))
          * (1 / (e ^ 2 / 2 - M ^ 2 - 2 * mom e m * mom e M * z) + 1 / (e ^ 2 / 2 - M ^ 2 + 2 * mom e m * mom e M * z))
        - 2 * (M ^ 2 + 2 * m ^ 2) ^ 2
          * (1 / (e ^ 2 / 2 - M ^ 2 - 2 * mom e m * mom e M * z) ^ 2
            + 1 / (e ^ 2 / 2 - M ^ 2 + 2 * mom e m * mom e M * z) ^ 2)) := by
    intro z hz
    rw [Set.uIcc_of_le (by norm_num)] at hz
    refine vector_pairSq g (com_pair hm h1.le hM h2.le (by nlinarith [hz.1, hz.2])) ?_ ?_ (by linarith)
    · nlinarith [hz.1, hz.2]
    · nlinarith [hz.1, hz.2]
  unfold pairSigma
  rw [intervalIntegral.integral_congr hint, intervalIntegral.integral_const_mul, angle_integral _ _ _ _ _ c0 cD]
  unfold vectorVV
  rw [if_neg (by push Not; exact ⟨h2.le, h1.le⟩)]
  simp only [ra, rb]
  rw [show (2 * mom e M * (2 * mom e m) + (-2 * M ^ 2 + e ^ 2)) / (-(2 * mom e M) * (2 * mom e m) + (-2 * M ^ 2 + e ^ 2))
    = (e ^ 2 / 2 - M ^ 2 + 2 * mom e m * mom e M) / (e ^ 2 / 2 - M ^ 2 - 2 * mom e m * mom e M) by
      rw [div_eq_div_iff (by linarith) (by linarith)]; ring]
  generalize Real.log _ = L
  have hq : mom e M / mom e m = (2 * mom e m * mom e M) / (2 * (e ^ 2 / 4 - m ^ 2)) := by
    rw [← a]; field_simp
  rw [hq]
  have hx : 0 < e ^ 2 / 4 - m ^ 2 := by nlinarith
  have hE : m ^ 2 * e ^ 2 + (-(4 * M ^ 2) * m ^ 2 + M ^ 4) = (e ^ 2 / 2 - M ^ 2) ^ 2 - (2 * mom e m * mom e M) ^ 2 := by
    rw [csq]; ring
  have hE0 : (e ^ 2 / 2 - M ^ 2) ^ 2 - (2 * mom e m * mom e M) ^ 2 ≠ 0 := by
    rw [sq_sub_sq]
    exact (mul_pos (by linarith) (by linarith)).ne'
  have hDs : -2 * M ^ 2 + e ^ 2 = 2 * (e ^ 2 / 2 - M ^ 2) := by ring
  have hxs : -4 * m ^ 2 + e ^ 2 = 4 * (e ^ 2 / 4 - m ^ 2) := by ring
  have hN : m ^ 2 * e ^ 2 + (2 * M ^ 4 + m ^ 4 * 4)
      = ((e ^ 2 / 2 - M ^ 2) ^ 2 - (2 * mom e m * mom e M) ^ 2) + (M ^ 2 + 2 * m ^ 2) ^ 2 := by
    rw [csq]; ring
  have hQ : 4 * m ^ 2 * e ^ 2 + (-8 * m ^ 4 + (4 * M ^ 4 + M ^ 2 * -8 * m ^ 2)) + e ^ 4
      = 4 * (e ^ 2 / 2 - M ^ 2) ^ 2 + 4 * m ^ 2 * (e ^ 2 / 2 - M ^ 2)
        + (-8 * (e ^ 2 / 2 - m ^ 2) * (m ^ 2 - M ^ 2)
          + 4 * m ^ 2 * (2 * (e ^ 2 / 2 - 2 * m ^ 2) + e ^ 2 / 2 - 2 * m ^ 2 + M ^ 2) + 8 * m ^ 4) := by
    ring
  have hr : 2 * mom e m * (2 * mom e M + 2 * mom e M) = 4 * (2 * mom e m * mom e M) := by ring
  rw [show m ^ 2 * e ^ 2 + (-4 * M ^ 2 * m ^ 2 + M ^ 4) = m ^ 2 * e ^ 2 + (-(4 * M ^ 2) * m ^ 2 + M ^ 4) by ring,
    hE, hDs, hxs, hN, hQ, hr]
  have hpi := Real.pi_pos
  have D0 : 0 < e ^ 2 / 2 - M ^ 2 := by linarith
  generalize 2 * mom e m * mom e M = c at *
  generalize -8 * (e ^ 2 / 2 - m ^ 2) * (m ^ 2 - M ^ 2)
          + 4 * m ^ 2 * (2 * (e ^ 2 / 2 - 2 * m ^ 2) + e ^ 2 / 2 - 2 * m ^ 2 + M ^ 2) + 8 * m ^ 4 = K at *
  generalize e ^ 2 / 4 - m ^ 2 = X at *
  generalize e ^ 2 / 2 - M ^ 2 = D at *
  field_simp
  ring

/-! ## Leptons -/

/-- Squared amplitude of `x(1) x̄(2) → f(3) f̄(4)` through a mediator of mass `M` and width `w` that couples
with `g` and `h`. -/
noncomputable def fermionSq (v : Vertex) (g h M w m n : ℝ) (p1 p2 p3 p4 : Fin 4 → ℝ) : ℝ :=
  g ^ 2 * h ^ 2 / 4 * (∑ i, ∑ j, v.w i * v.w j * (trace (spinSum p2 (-m) * v.mat i * spinSum p1 m * v.mat j)
    * trace (spinSum p3 n * v.mat i * spinSum p4 (-n) * v.mat j))).re
    / Complex.normSq (prop (mink (p1 + p2) (p1 + p2)) M w)

/-- Cross section of annihilation into a pair of fermions of mass `n`. -/
noncomputable def fermionSigma (v : Vertex) (g h M w m n e : ℝ) : ℝ :=
  mom e n / mom e m / (32 * Real.pi * e ^ 2)
    * ∫ z in (-1 : ℝ)..1, fermionSq v g h M w m n (comP e m 1) (comN e m 1) (comP e n z) (comN e n z)

/-- Width of a mediator of mass `M` into a pair of fermions of mass `n`, with `d` polarisations whose sum is
`sign` times the contraction of the vertices. -/
noncomputable def fermionWidth (v : Vertex) (sign d h M n : ℝ) : ℝ :=
  mom M n / (8 * Real.pi * M ^ 2) * (h ^ 2 / d * (sign * (∑ i, v.w i
    * trace (spinSum (comP M n 1) n * v.mat i * spinSum (comN M n 1) (-n) * v.mat i)).re))

theorem scalar_fermionSq {m n : ℝ} (g h M w : ℝ) (k : PairKin m n e x p1 p2 q1 q2) :
    fermionSq scalarVertex g h M w m n p1 p2 q1 q2
      = g ^ 2 * h ^ 2 * ((e ^ 2 - 4 * m ^ 2) * (e ^ 2 - 4 * n ^ 2)) / propagator M e w := by
  obtain ⟨r1, -⟩ := pair_products k
  have a2 := k.energy
  rw [k.cons, mink_add_add, k.m1, k.m2] at a2
  have r2 : mink q1 q2 = e ^ 2 / 2 - n ^ 2 := by linarith
  unfold fermionSq
  have hs : ∀ c : ℂ, ∑ _i : Fin scalarVertex.n, ∑ _j : Fin scalarVertex.n, c = c := by
    intro c
    change ∑ _i : Fin 1, ∑ _j : Fin 1, c = c
    simp
  change g ^ 2 * h ^ 2 / 4 * (∑ _i : Fin scalarVertex.n, ∑ _j : Fin scalarVertex.n, 1 * 1
    * (trace (spinSum p2 (-m) * 1 * spinSum p1 m * 1) * trace (spinSum q1 n * 1 * spinSum q2 (-n) * 1))).re / _ = _
  simp only [hs, mul_one, one_mul, tr_pair]
  rw [mink_comm p2 p1, r1, r2, k.energy, ← Complex.ofReal_mul, Complex.ofReal_re, normSq_prop]
  unfold propagator
  rw [show (e ^ 2 - M ^ 2) ^ 2 + (M * w) ^ 2 = M ^ 2 * w ^ 2 + (M ^ 2 - e ^ 2) ^ 2 by ring]
  congr 1
  ring

theorem vector_fermionSq {m n : ℝ} (g h M w : ℝ) (k : PairKin m n e x p1 p2 q1 q2) :
    fermionSq vectorVertex g h M w m n p1 p2 q1 q2
      = g ^ 2 * h ^ 2 * (e ^ 4 + 4 * e ^ 2 * (m ^ 2 + n ^ 2) + 4 * x ^ 2) / propagator M e w := by
  obtain ⟨r1, -⟩ := pair_products k
  have a2 := k.energy
  rw [k.cons, mink_add_add, k.m1, k.m2] at a2
  have r2 : mink q1 q2 = e ^ 2 / 2 - n ^ 2 := by linarith
  have b : ∀ q, mink q p1 + mink q p2 = mink q q1 + mink q q2 := by
    intro q; rw [← mink_add, ← mink_add, k.cons]
  have b1 := b p1
  have b2 := b q1
  have b3 := b q2
  have a3 := k.angle
  rw [k.s1] at b1
  rw [k.m1, mink_comm q1 p1, mink_comm q1 p2] at b2
  rw [k.m2, mink_comm q2 p1, mink_comm q2 p2, mink_comm q2 q1] at b3
  have c1 : mink p1 q2 = (e ^ 2 + 2 * x) / 4 := by linarith
  have c2 : mink p2 q1 = (e ^ 2 + 2 * x) / 4 := by linarith
  have c3 : mink p2 q2 = (e ^ 2 - 2 * x) / 4 := by linarith
  unfold fermionSq
  change g ^ 2 * h ^ 2 / 4 * (∑ i, ∑ j, eta i * eta j * (trace (spinSum p2 (-m) * gamma i * spinSum p1 m * gamma j)
    * trace (spinSum q1 n * gamma i * spinSum q2 (-n) * gamma j))).re / _ = _
  rw [line_line, mink_comm p2 p1, r1, r2, a3, c1, c2, c3, k.energy, Complex.ofReal_re, normSq_prop]
  unfold propagator
  rw [show (e ^ 2 - M ^ 2) ^ 2 + (M * w) ^ 2 = M ^ 2 * w ^ 2 + (M ^ 2 - e ^ 2) ^ 2 by ring]
  congr 1
  ring

theorem rpow_three_half {y : ℝ} (hy : 0 < y) : y ^ (3 / 2 : ℝ) = y * Real.sqrt y := by
  rw [show (3 / 2 : ℝ) = 1 + 1 / 2 by norm_num, Real.rpow_add hy, Real.rpow_one, ← Real.sqrt_eq_rpow]

theorem sqrt_mom {e m : ℝ} (hm : 0 ≤ m) (h : 2 * m ≤ e) : Real.sqrt (-4 * m ^ 2 + e ^ 2) = 2 * mom e m := by
  have a := mom_sq hm h
  rw [show -4 * m ^ 2 + e ^ 2 = (2 * mom e m) ^ 2 by rw [mul_pow, a]; ring]
  exact Real.sqrt_sq (by unfold mom; positivity)

/-- C281: `sigma_xx_to_s_to_ff` is the cross section of the Feynman rules with the Yukawa coupling
`gsff mf / vh`. -/
theorem scalar_fermion_sigma {n : ℝ} (vh g h w : ℝ) (hm : 0 ≤ m) (hn : 0 ≤ n) (h1 : 2 * m < e) (h2 : 2 * n < e)
    (hv : vh ≠ 0) (hp : propagator M e w ≠ 0) :
    scalarFF vh e m M g h w n = .ok (fermionSigma scalarVertex g (h * n / vh) M w m n e) := by
  have a := mom_sq hm h1.le
  have b := mom_sq hn h2.le
  have pa : 0 < mom e m := Real.sqrt_pos.mpr (by nlinarith)
  have pb : 0 < mom e n := Real.sqrt_pos.mpr (by nlinarith)
  have he : 0 < e := by linarith
  have hpi := Real.pi_pos
  have hint : ∀ z ∈ Set.uIcc (-1 : ℝ) 1, fermionSq scalarVertex g (h * n / vh) M w m n (comP e m 1) (comN e m 1) (comP e n z) (comN e n z)
      = g ^ 2 * (h * n / vh) ^ 2 * ((e ^ 2 - 4 * m ^ 2) * (e ^ 2 - 4 * n ^ 2)) / propagator M e w := by
    intro z hz
    rw [Set.uIcc_of_le (by norm_num)] at hz
    exact scalar_fermionSq g _ M w (com_pair hm h1.le hn h2.le (by nlinarith [hz.1, hz.2]))
  unfold fermionSigma
  rw [intervalIntegral.integral_congr hint, intervalIntegral.integral_const]
  unfold scalarFF
  rw [if_neg (by push Not; exact ⟨h2.le, h1.le⟩), quotient_ok (by positivity), rpow_three_half (by nlinarith),
    sqrt_mom hm h1.le, sqrt_mom hn h2.le]
  congr 1
  rw [show e ^ 2 - 4 * m ^ 2 = 4 * mom e m ^ 2 by rw [a]; ring, smul_eq_mul]
  field_simp
  ring

/-- C281: `sigma_xx_to_v_to_ff` is the cross section of the Feynman rules. -/
theorem vector_fermion_sigma {n : ℝ} (g h w : ℝ) (hm : 0 ≤ m) (hn : 0 ≤ n) (h1 : 2 * m < e) (h2 : 2 * n < e)
    (hp : propagator M e w ≠ 0) :
    vectorFF e m M g h w n = fermionSigma vectorVertex g h M w m n e := by
  have a := mom_sq hm h1.le
  have b := mom_sq hn h2.le
  have pa : 0 < mom e m := Real.sqrt_pos.mpr (by nlinarith)
  have pb : 0 < mom e n := Real.sqrt_pos.mpr (by nlinarith)
  have he : 0 < e := by linarith
  have hpi := Real.pi_pos
  have hint : ∀ z ∈ Set.uIcc (-1 : ℝ) 1, fermionSq vectorVertex g h M w m n (comP e m 1) (comN e m 1) (comP e n z) (comN e n z)
      = g ^ 2 * h ^ 2 / propagator M e w * (e ^ 4 + 4 * e ^ 2 * (m ^ 2 + n ^ 2) + 4 * (2 * mom e m * mom e n) ^ 2 * z ^ 2) := by
    intro z hz
    rw [Set.uIcc_of_le (by norm_num)] at hz
    rw [vector_fermionSq g _ M w (com_pair hm h1.le hn h2.le (by nlinarith [hz.1, hz.2]))]
    ring
  unfold fermionSigma
  rw [intervalIntegral.integral_congr hint, intervalIntegral.integral_const_mul,
    intervalIntegral.integral_add (by apply Continuous.intervalIntegrable; fun_prop) (by apply Continuous.intervalIntegrable; fun_prop),
    intervalIntegral.integral_const, intervalIntegral.integral_const_mul, integral_pow]
  unfold vectorFF
  rw [if_neg (by push Not; exact ⟨h2.le, h1.le⟩), Real.sqrt_div (by nlinarith), sqrt_mom hm h1.le, sqrt_mom hn h2.le,
    mul_pow, mul_pow, a, b]
  simp only [smul_eq_mul]
  field_simp
  ring

theorem mink_com {M n : ℝ} (hn : 0 ≤ n) (h : 2 * n ≤ M) : mink (comP M n 1) (comN M n 1) = M ^ 2 / 2 - n ^ 2 := by
  have a := mom_sq hn h
  simp [mink, comP, comN]
  linear_combination a

theorem scalar_fermionWidth {n : ℝ} (h : ℝ) (hn : 0 ≤ n) (hM : 2 * n < M) :
    fermionWidth scalarVertex 1 1 h M n = h ^ 2 * (M ^ 2 - 4 * n ^ 2) ^ (3 / 2 : ℝ) / (8 * M ^ 2 * Real.pi) := by
  have a := mom_sq hn hM.le
  have hM0 : 0 < M := by linarith
  have hpi := Real.pi_pos
  unfold fermionWidth
  have hs : ∀ c : ℂ, ∑ _i : Fin scalarVertex.n, c = c := by
    intro c
    change ∑ _i : Fin 1, c = c
    simp
  change _ * (h ^ 2 / 1 * (1 * (∑ _i : Fin scalarVertex.n, 1
    * trace (spinSum (comP M n 1) n * 1 * spinSum (comN M n 1) (-n) * 1)).re)) = _
  simp only [hs, mul_one, one_mul, tr_pair]
  rw [mink_com hn hM.le, Complex.ofReal_re, show M ^ 2 - 4 * n ^ 2 = -4 * n ^ 2 + M ^ 2 by ring,
    rpow_three_half (by nlinarith), sqrt_mom hn hM.le]
  field_simp
  ring

theorem vector_fermionWidth {n : ℝ} (h : ℝ) (hn : 0 ≤ n) (hM : 2 * n < M) :
    fermionWidth vectorVertex (-1) 3 h M n
      = h ^ 2 * Real.sqrt (M ^ 2 - 4 * n ^ 2) * (M ^ 2 + 2 * n ^ 2) / (12 * M ^ 2 * Real.pi) := by
  have a := mom_sq hn hM.le
  have hM0 : 0 < M := by linarith
  have hpi := Real.pi_pos
  unfold fermionWidth
  have hs : ∑ i, eta i * trace (spinSum (comP M n 1) n * gamma i * spinSum (comN M n 1) (-n) * gamma i)
      = ((-8 * mink (comP M n 1) (comN M n 1) - 16 * n ^ 2 : ℝ) : ℂ) := by
    simp only [tr_gamma_gamma]
    simp [Fin.sum_univ_four, eta, mink]
    ring
  change _ * (h ^ 2 / 3 * (-1 * (∑ i, eta i
    * trace (spinSum (comP M n 1) n * gamma i * spinSum (comN M n 1) (-n) * gamma i)).re)) = _
  rw [hs, mink_com hn hM.le, Complex.ofReal_re, show M ^ 2 - 4 * n ^ 2 = -4 * n ^ 2 + M ^ 2 by ring, sqrt_mom hn hM.le]
  field_simp
  ring

/-- C282: the widths of the scalar into dark matter and into leptons are those of the Feynman rules. -/
theorem scalar_widths (c : ScalarModel.Consts) (s : ScalarModel.Base) (f : String) (mf : ℝ) (hv : c.vh ≠ 0)
    (hf : f = "e" ∧ mf = c.me ∨ f = "mu" ∧ mf = c.mmu) (hmf : 0 < mf) (hm : 0 ≤ s.mx) :
    (2 * s.mx < s.ms → ScalarModel.widthXX s = .ok (fermionWidth scalarVertex 1 1 s.gsxx s.ms s.mx))
    ∧ (2 * mf < s.ms → ScalarModel.widthFF c s f = .ok (fermionWidth scalarVertex 1 1 (s.gsff * mf / c.vh) s.ms mf)) := by
  constructor
  · intro h
    obtain ⟨w, e1, -, -, e2⟩ := ScalarModel.widthXX_spec s (Or.inl hm)
    rw [e1, e2 h, scalar_fermionWidth _ hm h]
  · intro h
    obtain ⟨w, e1, -, -, -, e2⟩ := ScalarModel.widthFF_spec c s f mf hv hf hmf
    rw [e1, e2 h, scalar_fermionWidth _ hmf.le h]
    have : s.ms ≠ 0 := by linarith
    have hpi := Real.pi_pos
    congr 1
    field_simp

/-- C282: the widths of the vector into dark matter and into leptons are those of the Feynman rules. -/
theorem vector_widths (c : VectorModel.Consts) (s : VectorModel.Base) (f : String) (mf g : ℝ)
    (hf : f = "e" ∧ mf = c.me ∧ g = s.gvee ∨ f = "mu" ∧ mf = c.mmu ∧ g = s.gvmumu) (hmf : 0 < mf) (hm : 0 ≤ s.mx) :
    (2 * s.mx < s.mv → VectorModel.widthXX s = .ok (fermionWidth vectorVertex (-1) 3 s.gvxx s.mv s.mx))
    ∧ (2 * mf < s.mv → VectorModel.widthFF c s f = .ok (fermionWidth vectorVertex (-1) 3 g s.mv mf)) := by
  constructor
  · intro h
    obtain ⟨w, e1, -, -, e2⟩ := VectorModel.widthXX_spec s (Or.inl hm)
    rw [e1, e2 h, vector_fermionWidth _ hm h]
  · intro h
    obtain ⟨w, e1, -, -, -, e2⟩ := VectorModel.widthFF_spec c s f mf g hf hmf
    rw [e1, e2 h, vector_fermionWidth _ hmf.le h]

/-- Dark matter of mass one at energy three, mediators of mass one half. -/
example : 0 < pairSigma scalarVertex 1 1 (1 / 2) 3 ∧ 0 < pairSigma vectorVertex 1 1 (1 / 2) 3 := by
  rw [← scalar_pair_sigma 1 zero_le_one (by norm_num) (Or.inl one_pos) (by norm_num) (by norm_num),
    ← vector_pair_sigma 1 zero_le_one (by norm_num) (Or.inl one_pos) (by norm_num) (by norm_num)]
  exact ⟨(scalarSS_sign 3 1 (1 / 2) 1 one_pos (by norm_num) (by norm_num)).2.mpr ⟨by norm_num, by norm_num, one_ne_zero⟩,
    (vectorVV_sign 3 1 (1 / 2) 1 zero_le_one (by norm_num) (by norm_num)).2.mpr ⟨by norm_num, by norm_num, one_ne_zero⟩⟩

/-- Annihilation into lighter fermions, away from the pole. -/
example : 0 < fermionSigma vectorVertex 1 1 5 1 1 (1 / 2) 3 := by
  rw [← vector_fermion_sigma 1 1 1 zero_le_one (by norm_num) (by norm_num) (by norm_num) (by unfold propagator; norm_num)]
  unfold vectorFF propagator
  rw [if_neg (by norm_num)]
  have := Real.pi_pos
  have : 0 < Real.sqrt ((-4 * (1 / 2) ^ 2 + 3 ^ 2) / (-4 * 1 ^ 2 + 3 ^ 2)) := Real.sqrt_pos.mpr (by norm_num)
  norm_num
  positivity

end Hazma.FeynmanRules
