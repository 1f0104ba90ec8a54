import Verif.Props.FeynmanRules
import Verif.Props.Fsr

/-!
# Final-state radiation from the Feynman rules

The radiation spectra of the mediator models are compared with the tree-level decay of the (off-shell)
mediator into two charged particles and a photon.
-/

namespace Hazma.Radiation

open Hazma Hazma.Dirac Hazma.SelfScattering Hazma.FeynmanRules
open Matrix

/-! ## Rules -/

/-- Mediator to `f(p3) f̄(p4) γ(k)`, between the spinors: the photon is emitted by the fermion or by the
antifermion; `i` is the polarisation of the mediator, `μ` that of the photon. -/
noncomputable def radAmp (v : Vertex) (m : ℝ) (p3 p4 k : Fin 4 → ℝ) (i : Fin v.n) (μ : Fin 4) : M4 :=
  ((mink (p3 + k) (p3 + k) - m ^ 2 : ℝ) : ℂ)⁻¹ • (gamma μ * spinSum (p3 + k) m * v.mat i)
    + ((mink (p4 + k) (p4 + k) - m ^ 2 : ℝ) : ℂ)⁻¹ • (v.mat i * spinSum (-(p4 + k)) m * gamma μ)

/-- Its Dirac adjoint. -/
noncomputable def radAdj (v : Vertex) (m : ℝ) (p3 p4 k : Fin 4 → ℝ) (i : Fin v.n) (μ : Fin 4) : M4 :=
  ((mink (p3 + k) (p3 + k) - m ^ 2 : ℝ) : ℂ)⁻¹ • (v.mat i * spinSum (p3 + k) m * gamma μ)
    + ((mink (p4 + k) (p4 + k) - m ^ 2 : ℝ) : ℂ)⁻¹ • (gamma μ * spinSum (-(p4 + k)) m * v.mat i)

/-- Squared amplitude for unit charge and coupling, summed over spins and over the polarisations of photon
(`-η`) and mediator (`sign` times the contraction). -/
noncomputable def radSq (v : Vertex) (sign m : ℝ) (p3 p4 k : Fin 4 → ℝ) : ℝ :=
  sign * -(∑ i, ∑ μ, v.w i * eta μ
    * trace (spinSum p3 m * radAmp v m p3 p4 k i μ * spinSum p4 (-m) * radAdj v m p3 p4 k i μ)).re

/-- Metric, real. -/
def etaR : Fin 4 → ℝ := ![1, -1, -1, -1]

/-- Scalar mediator with a constant coupling to `π(p3) π(p4)`, and a photon. -/
noncomputable def pionScalarSq (m : ℝ) (p3 p4 k : Fin 4 → ℝ) : ℝ :=
  -∑ μ, etaR μ * ((2 * p3 μ + k μ) / (mink (p3 + k) (p3 + k) - m ^ 2)
    - (2 * p4 μ + k μ) / (mink (p4 + k) (p4 + k) - m ^ 2)) ^ 2

/-- Vector mediator coupled to the current of `π(p3) π(p4)`, and a photon: two emissions and the seagull. -/
noncomputable def pionVectorSq (m : ℝ) (p3 p4 k : Fin 4 → ℝ) : ℝ :=
  ∑ i, ∑ μ, etaR i * etaR μ
    * ((2 * p3 μ + k μ) / (mink (p3 + k) (p3 + k) - m ^ 2) * (p3 i + k i - p4 i)
      - (2 * p4 μ + k μ) / (mink (p4 + k) (p4 + k) - m ^ 2) * (p3 i - (p4 i + k i))
      - 2 * (if i = μ then etaR i else 0)) ^ 2

/-- Momenta in the rest frame of the mediator of mass `Q`, photon of energy `E` along the third axis and
charged particle of energy `E3`; `l` and `t` are the components of its momentum. -/
noncomputable def long (Q E E3 : ℝ) : ℝ := ((Q - E - E3) ^ 2 - E3 ^ 2 - E ^ 2) / (2 * E)
noncomputable def tran (m Q E E3 : ℝ) : ℝ := Real.sqrt (E3 ^ 2 - m ^ 2 - long Q E E3 ^ 2)
noncomputable def momK (E : ℝ) : Fin 4 → ℝ := ![E, 0, 0, E]
noncomputable def mom3 (m Q E E3 : ℝ) : Fin 4 → ℝ := ![E3, tran m Q E E3, 0, long Q E E3]
noncomputable def mom4 (m Q E E3 : ℝ) : Fin 4 → ℝ := ![Q - E - E3, -tran m Q E E3, 0, -(E + long Q E E3)]

/-- Velocity of the charged particles in their own rest frame. -/
noncomputable def beta (m Q E : ℝ) : ℝ := Real.sqrt (1 - 4 * m ^ 2 / (Q ^ 2 - 2 * Q * E))

/-- Photon spectrum of the decay, per decay without photon of width `w0`: three-body phase space, coupling
`4 π α` to the photon. -/
noncomputable def radSpectrum (alpha w0 m Q E : ℝ) (sq : (Fin 4 → ℝ) → (Fin 4 → ℝ) → (Fin 4 → ℝ) → ℝ) : ℝ :=
  1 / w0 * (1 / (64 * Real.pi ^ 3 * Q))
    * ∫ E3 in ((Q - E) / 2 - E / 2 * beta m Q E)..((Q - E) / 2 + E / 2 * beta m Q E),
        4 * Real.pi * alpha * sq (mom3 m Q E E3) (mom4 m Q E E3) (momK E)

/-- Width into two pions of momentum `mom Q m`, from the squared amplitude without photon. -/
noncomputable def pionWidth (sq0 m Q : ℝ) : ℝ := mom Q m / (8 * Real.pi * Q ^ 2) * sq0

/-- Squared amplitude of a vector decaying to two pions: the current is the difference of the momenta. -/
noncomputable def pionCurrentSq (m Q : ℝ) : ℝ :=
  -mink (comP Q m 1 - comN Q m 1) (comP Q m 1 - comN Q m 1)

/-! ## Kinematics -/

/-- On-shell momenta of the decay, with the invariants the amplitudes depend on. -/
structure RadKin (m Q a c : ℝ) (p3 p4 k : Fin 4 → ℝ) : Prop where
  s3 : mink p3 p3 = m ^ 2
  s4 : mink p4 p4 = m ^ 2
  k0 : mink k k = 0
  tot : mink (p3 + p4 + k) (p3 + p4 + k) = Q ^ 2
  c3 : 2 * mink p3 k = c
  a4 : 2 * mink p4 k = a

variable {m Q a c E E3 : ℝ} {p3 p4 k : Fin 4 → ℝ}

theorem mink_add_left (a b c : Fin 4 → ℝ) : mink (a + b) c = mink a c + mink b c := by simp [mink]; ring
theorem mink_neg (a b : Fin 4 → ℝ) : mink a (-b) = -mink a b := by simp [mink]; ring
theorem mink_neg_left (a b : Fin 4 → ℝ) : mink (-a) b = -mink a b := by simp [mink]; ring

theorem rad_products (h : RadKin m Q a c p3 p4 k) :
    mink p3 p4 = (Q ^ 2 - a - c) / 2 - m ^ 2 ∧ mink p3 k = c / 2 ∧ mink p4 k = a / 2 := by
  have := h.tot
  rw [mink_add_add, mink_add_add, h.s3, h.s4, h.k0, mink_add_left] at this
  have h1 := h.c3
  have h2 := h.a4
  refine ⟨by linarith, by linarith, by linarith⟩

/-- The range of integration is where on-shell momenta exist. -/
theorem tran_sq (hE : 0 < E) (hQ : 0 < Q) (hs : 2 * Q * E < Q ^ 2 - 4 * m ^ 2) :
    E3 ^ 2 - m ^ 2 - long Q E E3 ^ 2
      = (Q ^ 2 - 2 * Q * E) / E ^ 2 * ((E / 2 * beta m Q E) ^ 2 - (E3 - (Q - E) / 2) ^ 2) := by
  have h1 : 0 < Q ^ 2 - 2 * Q * E := by nlinarith [sq_nonneg m]
  have h2 : 0 ≤ 1 - 4 * m ^ 2 / (Q ^ 2 - 2 * Q * E) := by
    rw [sub_nonneg, div_le_one h1]; linarith
  have h3 : Q - 2 * E ≠ 0 := by
    intro h
    have : Q ^ 2 - 2 * Q * E = 0 := by linear_combination Q * h
    linarith
  have h4 : Q ^ 2 - 2 * Q * E = Q * (Q - 2 * E) := by ring
  unfold beta long
  rw [mul_pow, Real.sq_sqrt h2, h4]
  obtain ⟨d, hd⟩ : ∃ d, d = Q - 2 * E := ⟨_, rfl⟩
  rw [← hd] at h3 ⊢
  field_simp
  rw [hd]
  ring

theorem kin_of_range (hE : 0 < E) (hQ : 0 < Q) (hs : 2 * Q * E < Q ^ 2 - 4 * m ^ 2)
    (h1 : (Q - E) / 2 - E / 2 * beta m Q E ≤ E3) (h2 : E3 ≤ (Q - E) / 2 + E / 2 * beta m Q E) :
    RadKin m Q (Q * (Q - 2 * E3)) (Q * (2 * E3 + 2 * E - Q)) (mom3 m Q E E3) (mom4 m Q E E3) (momK E) := by
  have ht : 0 ≤ E3 ^ 2 - m ^ 2 - long Q E E3 ^ 2 := by
    rw [tran_sq hE hQ hs]
    apply mul_nonneg
    · have : 0 < Q ^ 2 - 2 * Q * E := by nlinarith [sq_nonneg m]
      positivity
    · nlinarith
  have hT : tran m Q E E3 ^ 2 = E3 ^ 2 - m ^ 2 - long Q E E3 ^ 2 := Real.sq_sqrt ht
  have hl : 2 * E * long Q E E3 = (Q - E - E3) ^ 2 - E3 ^ 2 - E ^ 2 := by unfold long; field_simp
  constructor
  · simp [mink, mom3]; linear_combination -hT
  · simp [mink, mom4]; linear_combination -hT - hl
  · simp [mink, momK]
  · simp [mink, mom3, mom4, momK]; ring
  · simp [mink, mom3, momK]; linear_combination -hl
  · simp [mink, mom4, momK]; linear_combination hl

/-! ## Squared amplitudes -/

theorem denominators (h : RadKin m Q a c p3 p4 k) :
    mink (p3 + k) (p3 + k) - m ^ 2 = c ∧ mink (p4 + k) (p4 + k) - m ^ 2 = a := by
  rw [mink_add_add, mink_add_add, h.s3, h.s4, h.k0]
  have h1 := h.c3
  have h2 := h.a4
  constructor <;> linarith

/-- Pions from a scalar. -/
theorem pionScalarSq_eq (h : RadKin m Q a c p3 p4 k) (ha : a ≠ 0) (hc : c ≠ 0) (hac : a + c ≠ 0) :
    pionScalarSq m p3 p4 k
      = 0 + -4 * (a + c - Q ^ 2 + 2 * m ^ 2) / (a + c) * (1 / a + 1 / c) - 4 * m ^ 2 * (1 / a ^ 2 + 1 / c ^ 2) := by
  obtain ⟨e1, e2⟩ := denominators h
  obtain ⟨r1, r2, r3⟩ := rad_products h
  unfold pionScalarSq
  rw [e1, e2]
  have : -∑ μ, etaR μ * ((2 * p3 μ + k μ) / c - (2 * p4 μ + k μ) / a) ^ 2
      = -((4 * mink p3 p3 + 4 * mink p3 k + mink k k) / c ^ 2 + (4 * mink p4 p4 + 4 * mink p4 k + mink k k) / a ^ 2
        - 2 * (4 * mink p3 p4 + 2 * mink p3 k + 2 * mink p4 k + mink k k) / (a * c)) := by
    simp [Fin.sum_univ_four, etaR, mink]
    field_simp
    ring
  rw [this, h.s3, h.s4, h.k0, r1, r2, r3]
  field_simp
  ring

/-- Pions from a vector. -/
theorem pionVectorSq_eq (h : RadKin m Q a c p3 p4 k) (ha : a ≠ 0) (hc : c ≠ 0) (hac : a + c ≠ 0) :
    pionVectorSq m p3 p4 k
      = 8 + 4 * (a + c - Q ^ 2 + 2 * m ^ 2) * (4 * m ^ 2 - Q ^ 2) / (a + c) * (1 / a + 1 / c)
        - 4 * m ^ 2 * (Q ^ 2 - 4 * m ^ 2) * (1 / a ^ 2 + 1 / c ^ 2) := by
  obtain ⟨e1, e2⟩ := denominators h
  obtain ⟨r1, r2, r3⟩ := rad_products h
  unfold pionVectorSq
  rw [e1, e2]
  obtain ⟨A, hA⟩ : ∃ A : Fin 4 → ℝ, A = fun μ => (2 * p3 μ + k μ) / c := ⟨_, rfl⟩
  obtain ⟨B, hB⟩ : ∃ B : Fin 4 → ℝ, B = fun μ => (2 * p4 μ + k μ) / a := ⟨_, rfl⟩
  obtain ⟨S, hS⟩ : ∃ S : Fin 4 → ℝ, S = fun i => p3 i + k i - p4 i := ⟨_, rfl⟩
  obtain ⟨T, hT⟩ : ∃ T : Fin 4 → ℝ, T = fun i => p3 i - (p4 i + k i) := ⟨_, rfl⟩
  have gen : ∀ A B S T : Fin 4 → ℝ, ∑ i, ∑ μ, etaR i * etaR μ * (A μ * S i - B μ * T i - 2 * (if i = μ then etaR i else 0)) ^ 2
      = mink A A * mink S S + mink B B * mink T T - 2 * (mink A B * mink S T) - 4 * mink A S + 4 * mink B T + 16 := by
    intro A B S T
    simp [Fin.sum_univ_four, etaR, mink]
    ring
  have g := gen (fun μ => (2 * p3 μ + k μ) / c) (fun μ => (2 * p4 μ + k μ) / a) (fun i => p3 i + k i - p4 i)
    (fun i => p3 i - (p4 i + k i))
  rw [g]
  have i1 : mink (fun μ => (2 * p3 μ + k μ) / c) (fun μ => (2 * p3 μ + k μ) / c)
      = (4 * mink p3 p3 + 4 * mink p3 k + mink k k) / c ^ 2 := by simp [mink]; field_simp; ring
  have i2 : mink (fun μ => (2 * p4 μ + k μ) / a) (fun μ => (2 * p4 μ + k μ) / a)
      = (4 * mink p4 p4 + 4 * mink p4 k + mink k k) / a ^ 2 := by simp [mink]; field_simp; ring
  have i3 : mink (fun μ => (2 * p3 μ + k μ) / c) (fun μ => (2 * p4 μ + k μ) / a)
      = (4 * mink p3 p4 + 2 * mink p3 k + 2 * mink p4 k + mink k k) / (a * c) := by simp [mink]; field_simp; ring
  have i4 : mink (fun i => p3 i + k i - p4 i) (fun i => p3 i + k i - p4 i)
      = mink p3 p3 + mink p4 p4 + mink k k + 2 * mink p3 k - 2 * mink p3 p4 - 2 * mink p4 k := by simp [mink]; ring
  have i5 : mink (fun i => p3 i - (p4 i + k i)) (fun i => p3 i - (p4 i + k i))
      = mink p3 p3 + mink p4 p4 + mink k k - 2 * mink p3 k - 2 * mink p3 p4 + 2 * mink p4 k := by simp [mink]; ring
  have i6 : mink (fun i => p3 i + k i - p4 i) (fun i => p3 i - (p4 i + k i))
      = mink p3 p3 + mink p4 p4 - mink k k - 2 * mink p3 p4 := by simp [mink]; ring
  have i7 : mink (fun μ => (2 * p3 μ + k μ) / c) (fun i => p3 i + k i - p4 i)
      = (2 * mink p3 p3 + 3 * mink p3 k - 2 * mink p3 p4 + mink k k - mink p4 k) / c := by simp [mink]; field_simp; ring
  have i8 : mink (fun μ => (2 * p4 μ + k μ) / a) (fun i => p3 i - (p4 i + k i))
      = (2 * mink p3 p4 - 2 * mink p4 p4 - 3 * mink p4 k + mink p3 k - mink k k) / a := by simp [mink]; field_simp; ring
  rw [i1, i2, i3, i4, i5, i6, i7, i8, h.s3, h.s4, h.k0, r1, r2, r3]
  field_simp
  ring

theorem tr_contract_pair (a b c d : Fin 4 → ℝ) (k l m n : ℝ) :
    trace (spinSum a k * spinSum b l * contract (spinSum c m * spinSum d n))
      = ((16 * (mink c d + m * n) * (mink a b + k * l) - 8 * n * (k * mink b c + l * mink a c)
        - 8 * m * (k * mink b d + l * mink a d) : ℝ) : ℂ) := by
  have e : contract (spinSum c m * spinSum d n)
      = ((4 * (mink c d + m * n) : ℝ) : ℂ) • (1 : M4) + ((-2 * n : ℝ) : ℂ) • slash (fun μ => (c μ : ℂ))
        + ((-2 * m : ℝ) : ℂ) • slash (fun μ => (d μ : ℂ)) := by
    unfold spinSum
    simp only [add_mul, mul_add, smul_mul_assoc, Matrix.mul_smul, one_mul, mul_one, contract_add, contract_smul,
      contract_two, contract_slash, contract_one, dot_cast, smul_smul]
    push_cast
    module
  rw [e]
  unfold spinSum
  simp only [add_mul, mul_add, smul_mul_assoc, Matrix.mul_smul, one_mul, mul_one, trace_add, trace_smul,
    tr_three, tr_two, tr_slash, tr_one, dot_cast, smul_eq_mul]
  push_cast
  ring

theorem contract_spinSum (p : Fin 4 → ℝ) (m : ℝ) : contract (spinSum p m) = (-2 : ℂ) • spinSum p (-2 * m) := by
  unfold spinSum
  rw [contract_add, contract_smul, contract_slash, contract_one, smul_add, smul_smul, smul_smul]
  congr 2; push_cast; ring

/-- Sum over the polarisations of the photon for a scalar, written with four traces. -/
theorem scalar_radSum (k l : ℂ) (p3 p4 P K : Fin 4 → ℝ) (m : ℝ) :
    ∑ μ, 1 * eta μ * trace (spinSum p3 m * (k • (gamma μ * spinSum P m * 1) + l • (1 * spinSum K m * gamma μ))
        * spinSum p4 (-m) * (k • (1 * spinSum P m * gamma μ) + l • (gamma μ * spinSum K m * 1)))
      = k ^ 2 * (-2 * trace (spinSum P m * spinSum p4 (-m) * spinSum P m * spinSum p3 (-2 * m)))
        + l ^ 2 * (-2 * trace (spinSum K m * spinSum p3 m * spinSum K m * spinSum p4 (-2 * -m)))
        + k * l * trace (spinSum K m * spinSum p3 m * contract (spinSum P m * spinSum p4 (-m)))
        + k * l * trace (spinSum p3 m * spinSum K m * contract (spinSum p4 (-m) * spinSum P m)) := by
  obtain ⟨A, hA⟩ : ∃ A, A = spinSum p3 m := ⟨_, rfl⟩
  obtain ⟨B, hB⟩ : ∃ B, B = spinSum p4 (-m) := ⟨_, rfl⟩
  have c1 : -2 * trace (spinSum P m * B * spinSum P m * spinSum p3 (-2 * m))
      = trace (spinSum P m * B * spinSum P m * contract A) := by
    rw [hA, contract_spinSum, Matrix.mul_smul, trace_smul, smul_eq_mul]
  have c2 : -2 * trace (spinSum K m * A * spinSum K m * spinSum p4 (-2 * -m))
      = trace (spinSum K m * A * spinSum K m * contract B) := by
    rw [hB, contract_spinSum, Matrix.mul_smul, trace_smul, smul_eq_mul]
  rw [← hA, ← hB, c1, c2, ← sum_contract, ← sum_contract, ← sum_contract, ← sum_contract]
  simp only [Finset.mul_sum, ← Finset.sum_add_distrib]
  refine Finset.sum_congr rfl fun μ _ => ?_
  generalize spinSum P m = X
  generalize spinSum K m = Y
  have t1 : trace (A * (gamma μ * X) * B * (X * gamma μ)) = trace (X * B * X * (gamma μ * A * gamma μ)) := by
    rw [show A * (gamma μ * X) * B * (X * gamma μ) = (A * gamma μ) * (X * B * X * gamma μ) by simp only [mul_assoc],
      trace_mul_comm]
    simp only [mul_assoc]
  have t2 : trace (A * (Y * gamma μ) * B * (gamma μ * Y)) = trace (Y * A * Y * (gamma μ * B * gamma μ)) := by
    rw [show A * (Y * gamma μ) * B * (gamma μ * Y) = (A * Y * gamma μ * B * gamma μ) * Y by simp only [mul_assoc],
      trace_mul_comm]
    simp only [mul_assoc]
  have t3 : trace (A * (gamma μ * X) * B * (gamma μ * Y)) = trace (Y * A * (gamma μ * (X * B) * gamma μ)) := by
    rw [show A * (gamma μ * X) * B * (gamma μ * Y) = (A * gamma μ * X * B * gamma μ) * Y by simp only [mul_assoc],
      trace_mul_comm]
    simp only [mul_assoc]
  have t4 : trace (A * (Y * gamma μ) * B * (X * gamma μ)) = trace (A * Y * (gamma μ * (B * X) * gamma μ)) := by
    simp only [mul_assoc]
  simp only [mul_one, one_mul, mul_add, add_mul, smul_mul_assoc, Matrix.mul_smul, trace_add, trace_smul,
    smul_eq_mul, t1, t2, t3, t4]
  ring

/-- Scalar products of the internal momenta. -/
theorem internal_products (h : RadKin m Q a c p3 p4 k) :
    mink (p3 + k) (p3 + k) = m ^ 2 + c ∧ mink (-(p4 + k)) (-(p4 + k)) = m ^ 2 + a
    ∧ mink p3 (p3 + k) = m ^ 2 + c / 2 ∧ mink p4 (p3 + k) = (Q ^ 2 - a - c) / 2 - m ^ 2 + a / 2
    ∧ mink p3 (-(p4 + k)) = -((Q ^ 2 - a - c) / 2 - m ^ 2 + c / 2) ∧ mink p4 (-(p4 + k)) = -(m ^ 2 + a / 2)
    ∧ mink (p3 + k) (-(p4 + k)) = -(Q ^ 2 / 2 - m ^ 2) := by
  obtain ⟨e1, e2⟩ := denominators h
  obtain ⟨r1, r2, r3⟩ := rad_products h
  have h0 := h.k0
  have h3 := h.s3
  have h4 := h.s4
  simp only [mink_neg, mink_neg_left, neg_neg]
  simp only [mink_add, mink_add_left, mink_comm p4 p3, mink_comm k p3, mink_comm k p4, h0, h3, h4, r1, r2, r3]
  constructorm* _ ∧ _ <;> first | trivial | ring1

/-- Fermions from a scalar. -/
theorem scalar_radSq (h : RadKin m Q a c p3 p4 k) (ha : a ≠ 0) (hc : c ≠ 0) (hac : a + c ≠ 0) :
    radSq scalarVertex 1 m p3 p4 k
      = 0 + 4 * ((a + c + 4 * m ^ 2) ^ 2 - 2 * Q ^ 2 * (a + c - Q ^ 2 + 6 * m ^ 2)) / (a + c) * (1 / a + 1 / c)
        - 8 * m ^ 2 * (Q ^ 2 - 4 * m ^ 2) * (1 / a ^ 2 + 1 / c ^ 2) := by
  obtain ⟨e1, e2⟩ := denominators h
  obtain ⟨r1, r2, r3⟩ := rad_products h
  obtain ⟨i1, i2, i3, i4, i5, i6, i7⟩ := internal_products h
  unfold radSq radAmp radAdj
  have hs : ∀ c : ℂ, ∑ _i : Fin scalarVertex.n, c = c := by
    intro c
    change ∑ _i : Fin 1, c = c
    simp
  change 1 * -(∑ _i : Fin scalarVertex.n, ∑ μ, 1 * eta μ * trace (spinSum p3 m
    * (_ • (gamma μ * spinSum (p3 + k) m * 1) + _ • (1 * spinSum (-(p4 + k)) m * gamma μ)) * spinSum p4 (-m)
    * (_ • (1 * spinSum (p3 + k) m * gamma μ) + _ • (gamma μ * spinSum (-(p4 + k)) m * 1)))).re = _
  rw [hs, scalar_radSum, tr_contract_pair, tr_contract_pair, tr_quad, tr_quad]
  simp only [mink_comm (p3 + k) p3, mink_comm (p3 + k) p4, mink_comm (-(p4 + k)) p3, mink_comm (-(p4 + k)) p4,
    mink_comm (-(p4 + k)) (p3 + k), mink_comm p4 p3, e1, e2, i1, i2, i3, i4, i5, i6, i7, r1, h.s3, h.s4, add_sub_cancel_left]
  rw [← Complex.ofReal_inv, ← Complex.ofReal_inv, show (-2 : ℂ) = ((-2 : ℝ) : ℂ) by norm_num]
  simp only [← Complex.ofReal_pow, ← Complex.ofReal_mul, ← Complex.ofReal_add, Complex.ofReal_re]
  field_simp
  ring

/-- Fermions from a vector. -/
theorem vector_radSq (h : RadKin m Q a c p3 p4 k) (ha : a ≠ 0) (hc : c ≠ 0) (hac : a + c ≠ 0) :
    radSq vectorVertex (-1) m p3 p4 k
      = -16 + 8 * (2 * Q ^ 4 + (a + c - 2 * Q ^ 2) * (a + c) - 4 * (a + c) * m ^ 2 - 8 * m ^ 4) / (a + c) * (1 / a + 1 / c)
        - 16 * m ^ 2 * (Q ^ 2 + 2 * m ^ 2) * (1 / a ^ 2 + 1 / c ^ 2) := by
  obtain ⟨e1, e2⟩ := denominators h
  obtain ⟨r1, r2, r3⟩ := rad_products h
  obtain ⟨i1, i2, i3, i4, i5, i6, i7⟩ := internal_products h
  unfold radSq radAmp radAdj
  change -1 * -(∑ i, ∑ μ, vectorVertex.w i * vectorVertex.w μ * trace (spinSum p3 m
    * (_ • (vectorVertex.mat μ * spinSum (p3 + k) m * vectorVertex.mat i)
      + _ • (vectorVertex.mat i * spinSum (-(p4 + k)) m * vectorVertex.mat μ)) * spinSum p4 (-m)
    * (_ • (vectorVertex.mat i * spinSum (p3 + k) m * vectorVertex.mat μ)
      + _ • (vectorVertex.mat μ * spinSum (-(p4 + k)) m * vectorVertex.mat i)))).re = _
  rw [pairSum_eq]
  change -1 * -(_ * (∑ i, ∑ j, eta i * eta j * trace (spinSum p3 m * gamma j * spinSum (p3 + k) m * gamma i
      * spinSum p4 (-m) * gamma i * spinSum (p3 + k) m * gamma j))
    + _ * (∑ i, ∑ j, eta i * eta j * trace (spinSum p3 m * gamma j * spinSum (-(p4 + k)) m * gamma i
      * spinSum p4 (-m) * gamma i * spinSum (-(p4 + k)) m * gamma j))
    + _ * (∑ i, ∑ j, eta i * eta j * trace (spinSum p3 m * gamma i * spinSum (p3 + k) m * gamma j
      * spinSum p4 (-m) * gamma i * spinSum (-(p4 + k)) m * gamma j))
    + _ * (∑ i, ∑ j, eta i * eta j * trace (spinSum p3 m * gamma i * spinSum (-(p4 + k)) m * gamma j
      * spinSum p4 (-m) * gamma i * spinSum (p3 + k) m * gamma j))).re = _
  rw [tr_nested, tr_nested, tr_crossed, tr_crossed]
  simp only [tr_quad]
  simp only [mink_comm (p3 + k) p3, mink_comm (p3 + k) p4, mink_comm (-(p4 + k)) p3, mink_comm (-(p4 + k)) p4,
    mink_comm (-(p4 + k)) (p3 + k), mink_comm p4 p3, e1, e2, i1, i2, i3, i4, i5, i6, i7, r1, h.s3, h.s4, add_sub_cancel_left]
  rw [← Complex.ofReal_inv, ← Complex.ofReal_inv, show (4 : ℂ) = ((4 : ℝ) : ℂ) by norm_num]
  simp only [← Complex.ofReal_pow, ← Complex.ofReal_mul, ← Complex.ofReal_add, Complex.ofReal_re]
  field_simp
  ring

/-! ## Spectra -/

/-- The integral over the energy of the charged particle. -/
theorem rad_integral (r A B b : ℝ) (sq : ℝ → ℝ) (hQ : 0 < Q) (hE : 0 < E) (hb : 0 < b) (hb1 : b < 1)
    (h : ∀ E3, (Q - E) / 2 - E / 2 * b ≤ E3 → E3 ≤ (Q - E) / 2 + E / 2 * b → sq E3
      = r + A * (1 / (Q * (Q - 2 * E3)) + 1 / (Q * (2 * E3 + 2 * E - Q)))
        - B * (1 / (Q * (Q - 2 * E3)) ^ 2 + 1 / (Q * (2 * E3 + 2 * E - Q)) ^ 2)) :
    ∫ E3 in ((Q - E) / 2 - E / 2 * b)..((Q - E) / 2 + E / 2 * b), sq E3
      = E / 2 * b * (2 * r + A * (2 / (Q * E * b) * Fsr.lr b) - B * (4 / (Q ^ 2 * E ^ 2 * (1 - b ^ 2)))) := by
  have hEb : 0 < E / 2 * b := by positivity
  have e := intervalIntegral.integral_comp_mul_add (a := -1) (b := 1) sq hEb.ne' ((Q - E) / 2)
  rw [show E / 2 * b * -1 + (Q - E) / 2 = (Q - E) / 2 - E / 2 * b by ring,
    show E / 2 * b * 1 + (Q - E) / 2 = (Q - E) / 2 + E / 2 * b by ring, smul_eq_mul, eq_inv_mul_iff_mul_eq₀ hEb.ne'] at e
  rw [← e]
  have hz : ∀ z ∈ Set.uIcc (-1 : ℝ) 1, sq (E / 2 * b * z + (Q - E) / 2)
      = r + A * (1 / (Q * E - Q * E * b * z) + 1 / (Q * E + Q * E * b * z))
        - B * (1 / (Q * E - Q * E * b * z) ^ 2 + 1 / (Q * E + Q * E * b * z) ^ 2) := by
    intro z hz
    rw [Set.uIcc_of_le (by norm_num)] at hz
    rw [h _ (by nlinarith [hz.1, hz.2]) (by nlinarith [hz.1, hz.2]),
      show Q * (Q - 2 * (E / 2 * b * z + (Q - E) / 2)) = Q * E - Q * E * b * z by ring,
      show Q * (2 * (E / 2 * b * z + (Q - E) / 2) + 2 * E - Q) = Q * E + Q * E * b * z by ring]
  have hQE : 0 < Q * E := by positivity
  rw [intervalIntegral.integral_congr hz, angle_integral _ _ _ _ _ (by positivity) (by nlinarith)]
  unfold Fsr.lr
  rw [show (Q * E + Q * E * b) / (Q * E - Q * E * b) = (1 + b) / (1 - b) by
    rw [show Q * E + Q * E * b = Q * E * (1 + b) by ring, show Q * E - Q * E * b = Q * E * (1 - b) by ring,
      mul_div_mul_left _ _ hQE.ne'],
    show (Q * E) ^ 2 - (Q * E * b) ^ 2 = Q ^ 2 * E ^ 2 * (1 - b ^ 2) by ring]

/-- In the interior of the support. -/
theorem beta_facts (hQ : 0 < Q) (hm : 0 < m) (hE : 0 < E) (hs : 2 * Q * E < Q ^ 2 - 4 * m ^ 2) :
    beta m Q E = Fsr.vel (m / Q) (2 * E / Q) ∧ 0 < beta m Q E ∧ beta m Q E < 1
    ∧ 1 - beta m Q E ^ 2 = 4 * m ^ 2 / (Q ^ 2 - 2 * Q * E) := by
  have h1 : 0 < Q ^ 2 - 2 * Q * E := by nlinarith [sq_nonneg m]
  have e : beta m Q E = Fsr.vel (m / Q) (2 * E / Q) := by
    unfold beta Fsr.vel
    congr 1
    have : -1 + 2 * E / Q = -((Q ^ 2 - 2 * Q * E) / Q ^ 2) := by field_simp; ring
    rw [this, div_neg]
    field_simp
    ring
  have hx := (Fsr.x_lt_iff (e := E) (m := m) hQ).mpr hs
  obtain ⟨b0, b1, b2, b3, -⟩ := Fsr.vel_facts (mu := m / Q) (by positivity) hx.le
  refine ⟨e, by rw [e]; exact b3 hx, by rw [e]; exact b1, ?_⟩
  unfold beta
  rw [Real.sq_sqrt]
  · ring
  · rw [sub_nonneg, div_le_one h1]; linarith

theorem denominators_pos (hQ : 0 < Q) (hE : 0 < E) {b : ℝ} (hb1 : b < 1)
    (h1 : (Q - E) / 2 - E / 2 * b ≤ E3) (h2 : E3 ≤ (Q - E) / 2 + E / 2 * b) :
    Q * (Q - 2 * E3) ≠ 0 ∧ Q * (2 * E3 + 2 * E - Q) ≠ 0
    ∧ Q * (Q - 2 * E3) + Q * (2 * E3 + 2 * E - Q) = 2 * Q * E := by
  have : 0 < Q - 2 * E3 := by nlinarith
  have : 0 < 2 * E3 + 2 * E - Q := by nlinarith
  refine ⟨by positivity, by positivity, by ring⟩

/-- From a squared amplitude of the common form to the spectrum. -/
theorem spectrum_of (alpha w0 r A B : ℝ) (sq : (Fin 4 → ℝ) → (Fin 4 → ℝ) → (Fin 4 → ℝ) → ℝ)
    (hQ : 0 < Q) (hm : 0 < m) (hE : 0 < E) (hs : 2 * Q * E < Q ^ 2 - 4 * m ^ 2)
    (h : ∀ {a c : ℝ} {p3 p4 k : Fin 4 → ℝ}, RadKin m Q a c p3 p4 k → a ≠ 0 → c ≠ 0 → a + c = 2 * Q * E →
      sq p3 p4 k = r + A * (1 / a + 1 / c) - B * (1 / a ^ 2 + 1 / c ^ 2)) :
    radSpectrum alpha w0 m Q E sq
      = alpha / (16 * Real.pi ^ 2 * Q * w0) * (E / 2 * Fsr.vel (m / Q) (2 * E / Q)
        * (2 * r - B * (Q ^ 2 - 2 * Q * E) / (Q ^ 2 * E ^ 2 * m ^ 2)) + A / Q * Fsr.lr (Fsr.vel (m / Q) (2 * E / Q))) := by
  obtain ⟨e, b0, b1, bb⟩ := beta_facts hQ hm hE hs
  unfold radSpectrum
  rw [intervalIntegral.integral_const_mul, rad_integral r A B _ _ hQ hE b0 b1, bb]
  · rw [← e]
    have h1 : Q ^ 2 - 2 * Q * E ≠ 0 := by nlinarith [sq_nonneg m]
    have hpi := Real.pi_pos
    generalize Fsr.lr _ = L
    generalize beta m Q E = b at *
    generalize Q ^ 2 - 2 * Q * E = D at *
    by_cases hw : w0 = 0
    · simp [hw]
    field_simp
    ring
  · intro E3 h1 h2
    obtain ⟨d1, d2, d3⟩ := denominators_pos hQ hE b1 h1 h2
    exact h (kin_of_range hE hQ hs h1 h2) d1 d2 d3

theorem mom_root (hQ : 0 < Q) : mom Q m = Q / 2 * Real.sqrt (1 - 4 * (m / Q) ^ 2) := by
  unfold mom
  rw [show Q ^ 2 / 4 - m ^ 2 = (Q / 2) ^ 2 * (1 - 4 * (m / Q) ^ 2) by field_simp; ring,
    Real.sqrt_mul (by positivity), Real.sqrt_sq (by positivity)]

variable {alpha mx : ℝ}

/-- C283: fermions from the scalar mediator. -/
theorem scalar_ff_radiation (h : ℝ) (hh : h ≠ 0) (ha : 0 < alpha) (hQ : 0 < Q) (hm : 0 < m) (hE : 0 < E)
    (hs : 2 * Q * E < Q ^ 2 - 4 * m ^ 2) (hx : 2 * mx < Q) :
    Fsr.scalarFF alpha mx E Q m = .ok (radSpectrum alpha (fermionWidth scalarVertex 1 1 h Q m) m Q E
      (fun p3 p4 k => h ^ 2 / 1 * radSq scalarVertex 1 m p3 p4 k)) := by
  have hmQ := Fsr.two_m_lt hQ hE hs.le
  rw [Fsr.scalarFF_val ha hQ hm hE hs hx, scalar_fermionWidth h hm.le hmQ]
  congr 1
  have hms := Fsr.mu_small hQ hE hs.le
  rw [spectrum_of alpha _ 0 (h ^ 2 * (4 * ((2 * Q * E + 4 * m ^ 2) ^ 2 - 2 * Q ^ 2 * (2 * Q * E - Q ^ 2 + 6 * m ^ 2)) / (2 * Q * E)))
    (h ^ 2 * (8 * m ^ 2 * (Q ^ 2 - 4 * m ^ 2))) _ hQ hm hE hs]
  · rw [show (Q ^ 2 - 4 * m ^ 2) = Q ^ 2 * (1 - 4 * (m / Q) ^ 2) by field_simp,
      Real.mul_rpow (by positivity) hms.le, Fsr.rpow32 hms, Fsr.rpow32 (by positivity : 0 < Q ^ 2), Real.sqrt_sq hQ.le]
    unfold Fsr.numSF
    have hr := Real.sqrt_pos.mpr hms
    have hr2 := Real.sq_sqrt hms.le
    have hpi := Real.pi_pos
    obtain ⟨s, hs⟩ : ∃ s, s = Real.sqrt (1 - 4 * (m / Q) ^ 2) := ⟨_, rfl⟩
    rw [← hs] at hr hr2 ⊢
    generalize Fsr.lr _ = L
    generalize Fsr.vel _ _ = b
    field_simp
    ring
  · intro a c p3 p4 k hk h1 h2 h3
    rw [scalar_radSq hk h1 h2 (by rw [h3]; positivity), h3]
    ring

/-- C283: pions from the scalar mediator. -/
theorem scalar_pipi_radiation (g : ℝ) (hg : g ≠ 0) (ha : 0 < alpha) (hQ : 0 < Q) (hm : 0 < m) (hE : 0 < E)
    (hs : 2 * Q * E < Q ^ 2 - 4 * m ^ 2) (hx : 2 * mx ≤ Q) :
    Fsr.scalarPiPi alpha m mx E Q = .ok (radSpectrum alpha (pionWidth (g ^ 2) m Q) m Q E
      (fun p3 p4 k => g ^ 2 * pionScalarSq m p3 p4 k)) := by
  have hmQ := Fsr.two_m_lt hQ hE hs.le
  rw [Fsr.scalarPiPi_val ha hQ hm hE hs.le hx]
  congr 1
  have hms := Fsr.mu_small hQ hE hs.le
  rw [spectrum_of alpha _ 0 (g ^ 2 * (-4 * (2 * Q * E - Q ^ 2 + 2 * m ^ 2) / (2 * Q * E)))
    (g ^ 2 * (4 * m ^ 2)) _ hQ hm hE hs]
  · unfold pionWidth Fsr.numSP
    rw [mom_root hQ]
    have hr := Real.sqrt_pos.mpr hms
    have hpi := Real.pi_pos
    generalize Real.sqrt (1 - 4 * (m / Q) ^ 2) = s at *
    generalize Fsr.lr _ = L
    generalize Fsr.vel _ _ = b
    field_simp
    ring
  · intro a c p3 p4 k hk h1 h2 h3
    rw [pionScalarSq_eq hk h1 h2 (by rw [h3]; positivity), h3]
    ring

/-- C283: fermions from the vector mediator. -/
theorem vector_ff_radiation (h : ℝ) (hh : h ≠ 0) (ha : 0 < alpha) (hQ : 0 < Q) (hm : 0 < m) (hE : 0 < E)
    (hs : 2 * Q * E < Q ^ 2 - 4 * m ^ 2) (hx : 2 * mx < Q) :
    Fsr.vectorFF alpha mx E Q m = .ok (radSpectrum alpha (fermionWidth vectorVertex (-1) 3 h Q m) m Q E
      (fun p3 p4 k => h ^ 2 / 3 * radSq vectorVertex (-1) m p3 p4 k)) := by
  have hmQ := Fsr.two_m_lt hQ hE hs.le
  rw [Fsr.vectorFF_val ha hQ hm hE hs.le hx, vector_fermionWidth h hm.le hmQ]
  congr 1
  have hms := Fsr.mu_small hQ hE hs.le
  rw [spectrum_of alpha _ (h ^ 2 / 3 * -16)
    (h ^ 2 / 3 * (8 * (2 * Q ^ 4 + (2 * Q * E - 2 * Q ^ 2) * (2 * Q * E) - 4 * (2 * Q * E) * m ^ 2 - 8 * m ^ 4) / (2 * Q * E)))
    (h ^ 2 / 3 * (16 * m ^ 2 * (Q ^ 2 + 2 * m ^ 2))) _ hQ hm hE hs]
  · rw [show (Q ^ 2 - 4 * m ^ 2) = Q ^ 2 * (1 - 4 * (m / Q) ^ 2) by field_simp,
      Real.sqrt_mul (by positivity), Real.sqrt_sq hQ.le]
    unfold Fsr.numVF
    have hr := Real.sqrt_pos.mpr hms
    have hpi := Real.pi_pos
    generalize Real.sqrt (1 - 4 * (m / Q) ^ 2) = s at *
    generalize Fsr.lr _ = L
    generalize Fsr.vel _ _ = b
    field_simp
    ring
  · intro a c p3 p4 k hk h1 h2 h3
    rw [vector_radSq hk h1 h2 (by rw [h3]; positivity), h3]
    ring

/-- C283: pions from the vector mediator. -/
theorem vector_pipi_radiation (g : ℝ) (hg : g ≠ 0) (ha : 0 < alpha) (hQ : 0 < Q) (hm : 0 < m) (hE : 0 < E)
    (hs : 2 * Q * E < Q ^ 2 - 4 * m ^ 2) (hx : 2 * mx ≤ Q) :
    Fsr.vectorPiPi alpha m mx E Q = .ok (radSpectrum alpha (pionWidth (g ^ 2 / 3 * pionCurrentSq m Q) m Q) m Q E
      (fun p3 p4 k => g ^ 2 / 3 * pionVectorSq m p3 p4 k)) := by
  have hmQ := Fsr.two_m_lt hQ hE hs.le
  rw [Fsr.vectorPiPi_val ha hQ hm hE hs.le hx]
  congr 1
  have hms := Fsr.mu_small hQ hE hs.le
  have hcur : pionCurrentSq m Q = 4 * mom Q m ^ 2 := by
    unfold pionCurrentSq
    simp [mink, comP, comN]
    ring
  rw [spectrum_of alpha _ (g ^ 2 / 3 * 8)
    (g ^ 2 / 3 * (4 * (2 * Q * E - Q ^ 2 + 2 * m ^ 2) * (4 * m ^ 2 - Q ^ 2) / (2 * Q * E)))
    (g ^ 2 / 3 * (4 * m ^ 2 * (Q ^ 2 - 4 * m ^ 2))) _ hQ hm hE hs]
  · unfold pionWidth Fsr.numVP
    rw [hcur, mom_root hQ, Fsr.rpow32 hms]
    have hr := Real.sqrt_pos.mpr hms
    have hpi := Real.pi_pos
    generalize Real.sqrt (1 - 4 * (m / Q) ^ 2) = s at *
    generalize Fsr.lr _ = L
    generalize Fsr.vel _ _ = b
    field_simp
    ring
  · intro a c p3 p4 k hk h1 h2 h3
    rw [pionVectorSq_eq hk h1 h2 (by rw [h3]; positivity), h3]
    ring

/-- The range of energies of `radSpectrum` is exactly where momenta on the mass shell exist. -/
theorem range_iff (hE : 0 < E) (hQ : 0 < Q) (hs : 2 * Q * E < Q ^ 2 - 4 * m ^ 2) :
    0 ≤ E3 ^ 2 - m ^ 2 - long Q E E3 ^ 2
      ↔ (Q - E) / 2 - E / 2 * beta m Q E ≤ E3 ∧ E3 ≤ (Q - E) / 2 + E / 2 * beta m Q E := by
  have h1 : 0 < Q ^ 2 - 2 * Q * E := by nlinarith [sq_nonneg m]
  have h2 : 0 ≤ E / 2 * beta m Q E := by unfold beta; positivity
  rw [tran_sq hE hQ hs, mul_nonneg_iff_of_pos_left (by positivity), sub_nonneg, sq_le_sq, abs_of_nonneg h2, abs_le]
  constructor
  · rintro ⟨a, b⟩; exact ⟨by linarith, by linarith⟩
  · rintro ⟨a, b⟩; exact ⟨by linarith, by linarith⟩

/-- The same for the radiation inside mediator decays: the vector agrees with the Feynman rules, the scalar is half. -/
theorem rest_radiation (g qe : ℝ) (hg : g ≠ 0) (hq : qe ^ 2 = 4 * Real.pi * alpha) (ha : 0 < alpha) (hQ : 0 < Q)
    (hm : 0 < m) (hE : 0 < E) (hs : 2 * Q * E < Q ^ 2 - 4 * m ^ 2) :
    Fsr.vectorLepRest qe m E Q = radSpectrum alpha (fermionWidth vectorVertex (-1) 3 g Q m) m Q E
      (fun p3 p4 k => g ^ 2 / 3 * radSq vectorVertex (-1) m p3 p4 k)
    ∧ Fsr.vectorPiRest qe m E Q = radSpectrum alpha (pionWidth (g ^ 2 / 3 * pionCurrentSq m Q) m Q) m Q E
      (fun p3 p4 k => g ^ 2 / 3 * pionVectorSq m p3 p4 k)
    ∧ 2 * Fsr.scalarLepRest qe m E Q = radSpectrum alpha (fermionWidth scalarVertex 1 1 g Q m) m Q E
      (fun p3 p4 k => g ^ 2 / 1 * radSq scalarVertex 1 m p3 p4 k)
    ∧ 2 * Fsr.scalarPiRest qe m E Q = radSpectrum alpha (pionWidth (g ^ 2) m Q) m Q E
      (fun p3 p4 k => g ^ 2 * pionScalarSq m p3 p4 k) := by
  have h0 : 2 * (0 : ℝ) < Q := by simpa using hQ
  obtain ⟨v1, v2⟩ := Fsr.vector_rest_agrees alpha qe 0 E Q m ha hq hQ hm hE h0
  obtain ⟨s1, s2⟩ := Fsr.scalar_rest_is_half alpha qe 0 E Q m ha hq hQ hm hE h0
  rw [vector_ff_radiation g hg ha hQ hm hE hs h0] at v2
  rw [vector_pipi_radiation g hg ha hQ hm hE hs h0.le] at v1
  rw [scalar_ff_radiation g hg ha hQ hm hE hs h0] at s2
  rw [scalar_pipi_radiation g hg ha hQ hm hE hs h0.le] at s1
  exact ⟨(Except.ok.inj v2).symm, (Except.ok.inj v1).symm, (Except.ok.inj s2).symm, (Except.ok.inj s1).symm⟩

/-- Both sides are positive: a mediator of mass 10 decaying to fermions of mass 1 and a photon of energy 1. -/
example : ∃ v, 0 < v ∧ radSpectrum (1 / 137) (fermionWidth vectorVertex (-1) 3 2 10 1) 1 10 1
    (fun p3 p4 k => 2 ^ 2 / 3 * radSq vectorVertex (-1) 1 p3 p4 k) = v := by
  obtain ⟨v, h1, -, h3⟩ := Fsr.vector_ff_sign (1 / 137) 1 1 10 1 (by norm_num) (by norm_num) (by norm_num) (by norm_num)
  rw [vector_ff_radiation 2 (by norm_num) (by norm_num) (by norm_num) (by norm_num) (by norm_num) (by norm_num)
    (by norm_num)] at h1
  exact ⟨v, h3.mpr (by norm_num), Except.ok.inj h1⟩

end Hazma.Radiation
