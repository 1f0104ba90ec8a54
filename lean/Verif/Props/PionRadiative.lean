import Verif.Props.Anomaly
import Verif.Lemmas.Chiral
import Verif.Props.CythonKernels

/-! # C294: photons of the radiative decay of the charged pion

`dnde_pi_to_lnug` (`_photon/_pion.pyx:34-62`, `photon_pion.rs:163-272`) against the decay `π → ℓ ν γ`: emission by the
pion, by the lepton and from the weak vertex, and the two structure-dependent terms. -/

namespace Hazma.PionRadiative

open Hazma Hazma.Dirac Hazma.SelfScattering
open Hazma.Anomaly (epsilon)
open Matrix

/-! ## Rules -/

/-- `v̸` for a real vector. -/
noncomputable def sl (v : Fin 4 → ℝ) : M4 := slash (fun μ => (v μ : ℂ))

/-- Dirac adjoint. -/
noncomputable def adj (x : M4) : M4 := gamma 0 * xᴴ * gamma 0

/-- `ε^{nabc} e_a P_b k_c`. -/
noncomputable def curl (e P k : Fin 4 → ℝ) (n : Fin 4) : ℝ :=
  ∑ a, ∑ b, ∑ c, epsilon n a b c * (Anomaly.metric a * e a) * (Anomaly.metric b * P b) * (Anomaly.metric c * k c)

/-- `π(P) → ℓ⁺(q) ν(p)` between the spinors, for unit weak coupling: the decay constant is `f`. -/
noncomputable def weakAmp (f : ℝ) (P : Fin 4 → ℝ) : M4 := (f : ℂ) • (sl P * projL)

/-- `π(P) → ℓ⁺(q) ν(p) γ(k)` between the spinors, for unit charge and weak coupling and polarisation `e`: emission by
the pion, by the lepton (mass `m`) and from the vertex; vector and axial form factors `V`, `A` over the mass of the
pion. -/
noncomputable def radAmp (f V A M m : ℝ) (P q k e : Fin 4 → ℝ) : M4 :=
  (f : ℂ) • (-(((2 * mink P e - mink k e) / (2 * mink P k) : ℝ) : ℂ) • (sl (P - k) * projL)
      - ((mink (q + k) (q + k) - m ^ 2 : ℝ) : ℂ)⁻¹ • (sl P * projL * spinSum (-(q + k)) m * sl e)
      - sl e * projL)
    + (Complex.I * ((V / M : ℝ) : ℂ)) • (sl (curl e P k) * projL)
    + ((A / M : ℝ) : ℂ) • (sl (mink P k • e - mink P e • k) * projL)

/-- Square of an amplitude, summed over the spins. -/
noncomputable def spinSq (m : ℝ) (p q : Fin 4 → ℝ) (x : M4) : ℝ :=
  (trace (sl p * x * spinSum q (-m) * adj x)).re

/-- Polarisations of a photon along the third axis. -/
def pol : Fin 2 → Fin 4 → ℝ := ![![0, 1, 0, 0], ![0, 0, 1, 0]]

/-! ## Gauge invariance -/

theorem sl_sub (a b : Fin 4 → ℝ) : sl (a - b) = sl a - sl b := by
  unfold sl
  rw [slash_eq, slash_eq, slash_eq]
  ext i j
  fin_cases i <;> fin_cases j <;> simp <;> ring

theorem sl_sq (a : Fin 4 → ℝ) : sl a * sl a = ((mink a a : ℝ) : ℂ) • (1 : M4) := by
  have h := clifford (fun μ => (a μ : ℂ)) (fun μ => (a μ : ℂ))
  rw [dot_cast] at h
  have h2 : (2 : ℂ) • (sl a * sl a) = (2 : ℂ) • (((mink a a : ℝ) : ℂ) • (1 : M4)) := by
    rw [smul_smul, two_smul]; exact h
  exact smul_right_injective M4 (two_ne_zero (α := ℂ)) h2

theorem curl_self (P k : Fin 4 → ℝ) : curl k P k = 0 := by
  funext n
  fin_cases n <;>
    · unfold curl epsilon Anomaly.metric
      simp [Fin.sum_univ_four]
      try ring

/-- A photon polarised along its momentum decouples. -/
theorem ward (f V A M m : ℝ) (P q k : Fin 4 → ℝ) (hk : mink k k = 0) (hq : mink q q = m ^ 2)
    (hP : mink P k ≠ 0) (hd : mink q k ≠ 0) :
    radAmp f V A M m P q k k * spinSum q (-m) = 0 := by
  have e1 : (2 * mink P k - mink k k) / (2 * mink P k) = 1 := by rw [hk]; field_simp; ring
  have e2 : mink (q + k) (q + k) - m ^ 2 = 2 * mink q k := by
    simp only [mink, Pi.add_apply] at *; linear_combination hq + hk
  have e3 : spinSum (-(q + k)) m * sl k * spinSum q (-m)
      = ((-(2 * mink q k) : ℝ) : ℂ) • spinSum q (-m) := by
    have hqq := sl_sq q
    have hkk := sl_sq k
    rw [hq] at hqq
    rw [hk, Complex.ofReal_zero, zero_smul] at hkk
    have hqk : sl k * sl q = (2 * (mink q k : ℂ)) • (1 : M4) - sl q * sl k := by
      have := swap (fun μ => (k μ : ℂ)) (fun μ => (q μ : ℂ))
      rw [dot_cast, mink_comm k q] at this
      exact this
    have s1 : spinSum (-(q + k)) m = (m : ℂ) • (1 : M4) - sl q - sl k := by
      unfold spinSum sl
      rw [slash_eq, slash_eq, slash_eq]
      ext i j
      fin_cases i <;> fin_cases j <;> simp <;> ring
    have s2 : spinSum q (-m) = sl q - (m : ℂ) • (1 : M4) := by
      unfold spinSum sl; push_cast; rw [neg_smul]; abel
    rw [s1, s2]
    have : ((m : ℂ) • (1 : M4) - sl q - sl k) * sl k * (sl q - (m : ℂ) • (1 : M4))
        = (m : ℂ) • (sl k * sl q) - ((m : ℂ) * m) • sl k - sl q * (sl k * sl q) + (m : ℂ) • (sl q * sl k)
          - sl k * sl k * (sl q - (m : ℂ) • (1 : M4)) := by
      simp only [sub_mul, mul_sub, smul_mul_assoc, Matrix.mul_smul, one_mul, mul_one, smul_sub, smul_smul, mul_assoc]
      abel
    rw [this, hkk, hqk, mul_sub, ← mul_assoc, hqq]
    simp only [zero_mul, sub_zero, Matrix.mul_smul, mul_one, smul_mul_assoc, one_mul]
    push_cast
    module
  have e4 : sl (mink P k • k - mink P k • k) = 0 := by
    rw [sub_self]; unfold sl; rw [slash_eq]; ext i j; fin_cases i <;> fin_cases j <;> simp
  have e5 : sl (0 : Fin 4 → ℝ) = 0 := by
    unfold sl; rw [slash_eq]; ext i j; fin_cases i <;> fin_cases j <;> simp
  unfold radAmp
  rw [e1, e2, curl_self, e4, e5]
  simp only [zero_mul, smul_zero, add_zero, smul_mul_assoc]
  rw [sub_mul, sub_mul, smul_mul_assoc, smul_mul_assoc, mul_assoc (sl P * projL * _), mul_assoc (sl P * projL),
    ← mul_assoc (spinSum (-(q + k)) m), e3, Matrix.mul_smul, smul_smul, sl_sub, sub_mul]
  have : (((2 * mink q k : ℝ) : ℂ))⁻¹ * ((-(2 * mink q k) : ℝ) : ℂ) = -1 := by
    have : ((2 * mink q k : ℝ) : ℂ) ≠ 0 := by
      rw [Complex.ofReal_ne_zero]; positivity
    rw [Complex.ofReal_neg, mul_neg, inv_mul_cancel₀ this]
  rw [this]
  simp only [sub_mul]
  push_cast
  module

/-! ## Squared amplitude -/

/-- The distribution in `x = 2 E_γ / M`, `y = 2 E_ℓ / M` with `r = m² / M²`: inner bremsstrahlung, structure-dependent
emission of photons of either helicity, interference. -/
noncomputable def ib (x y r : ℝ) : ℝ :=
  (1 - y + r) / (x ^ 2 * (x + y - 1 - r)) * (x ^ 2 + 2 * (1 - x) * (1 - r) - 2 * x * r * (1 - r) / (x + y - 1 - r))
noncomputable def sdPlus (x y r : ℝ) : ℝ := (x + y - 1 - r) * ((x + y - 1) * (1 - x) - r)
noncomputable def sdMinus (x y r : ℝ) : ℝ := (1 - y + r) * ((1 - x) * (1 - y) + r)
noncomputable def intPlus (x y r : ℝ) : ℝ := (1 - y + r) / (x * (x + y - 1 - r)) * ((1 - x) * (1 - x - y) + r)
noncomputable def intMinus (x y r : ℝ) : ℝ :=
  (1 - y + r) / (x * (x + y - 1 - r)) * (x ^ 2 - (1 - x) * (1 - x - y) - r)

noncomputable def distribution (f V A M m x y r : ℝ) : ℝ :=
  2 * (f ^ 2 * m ^ 2 * ib x y r + M ^ 4 / 4 * ((V + A) ^ 2 * sdPlus x y r + (V - A) ^ 2 * sdMinus x y r)
    + f * m ^ 2 * M * ((V + A) * intPlus x y r + (V - A) * intMinus x y r))

variable {f V A M m E a b : ℝ}

/-- Momenta with light-cone components `a²`, `b²` of the neutrino. -/
noncomputable def lepton (M E a b : ℝ) : Fin 4 → ℝ :=
  ![M - E - (a ^ 2 + b ^ 2) / 2, a * b, 0, -E - (a ^ 2 - b ^ 2) / 2]
noncomputable def neutrino (a b : ℝ) : Fin 4 → ℝ := ![(a ^ 2 + b ^ 2) / 2, -(a * b), 0, (a ^ 2 - b ^ 2) / 2]

theorem adj_eq (x00 x01 x10 x11 y00 y01 y10 y11 : ℂ) :
    adj !![0, 0, 0, 0; 0, 0, 0, 0; x00, x01, y00, y01; x10, x11, y10, y11]
      = !![star y00, star y10, 0, 0; star y01, star y11, 0, 0; star x00, star x10, 0, 0; star x01, star x11, 0, 0] := by
  have h : (!![0, 0, 0, 0; 0, 0, 0, 0; x00, x01, y00, y01; x10, x11, y10, y11] : M4)ᴴ
      = !![0, 0, star x00, star x10; 0, 0, star x01, star x11; 0, 0, star y00, star y10; 0, 0, star y01, star y11] := by
    ext i j
    fin_cases i <;> fin_cases j <;> simp [Matrix.conjTranspose_apply]
  unfold adj
  rw [h]
  ext i j
  fin_cases i <;> fin_cases j <;> simp [gamma]

theorem sl_projL (v : Fin 4 → ℝ) : sl v * projL
    = !![0, 0, 0, 0; 0, 0, 0, 0; (v 0 : ℂ) + v 3, v 1 - Complex.I * v 2, 0, 0; v 1 + Complex.I * v 2, v 0 - v 3, 0, 0] := by
  unfold sl projL
  rw [slash_eq]
  ext i j
  fin_cases i <;> fin_cases j <;> simp

theorem emission_eq (M m : ℝ) (n : Fin 4 → ℝ) (hn : n 2 = 0) (e1 e2 : ℝ) :
    sl ![M, 0, 0, 0] * projL * spinSum n m * sl ![0, e1, e2, 0]
      = !![0, 0, 0, 0; 0, 0, 0, 0;
          -((M : ℂ) * n 1) * (e1 + Complex.I * e2), M * (n 0 - n 3) * (e1 - Complex.I * e2), 0, -(M * m) * (e1 - Complex.I * e2);
          M * (n 0 + n 3) * (e1 + Complex.I * e2), -(M * n 1) * (e1 - Complex.I * e2), -(M * m) * (e1 + Complex.I * e2), 0] := by
  rw [sl_projL, spinSum_eq]
  unfold sl
  rw [slash_eq]
  ext i j
  fin_cases i <;> fin_cases j <;> simp [hn] <;> ring

theorem curl_eq (M E e1 e2 : ℝ) :
    curl ![0, e1, e2, 0] ![M, 0, 0, 0] ![E, 0, 0, E] = ![0, M * E * e2, -(M * E * e1), 0] := by
  funext n
  fin_cases n <;>
    · unfold curl epsilon Anomaly.metric
      simp [Fin.sum_univ_four]
      try ring

theorem spinSq_real (m : ℝ) (p q : Fin 4 → ℝ) (hp : p 2 = 0) (hq : q 2 = 0) (x00 x01 x10 x11 y01 y10 : ℝ) :
    spinSq m p q !![0, 0, 0, 0; 0, 0, 0, 0; (x00 : ℂ), (x01 : ℂ), 0, (y01 : ℂ); (x10 : ℂ), (x11 : ℂ), (y10 : ℂ), 0]
      = (p 0 - p 3) * ((q 0 - q 3) * x00 ^ 2 - 2 * q 1 * x00 * x01 + (q 0 + q 3) * x01 ^ 2 + (q 0 - q 3) * y01 ^ 2
          - 2 * m * x01 * y01)
        + (p 0 + p 3) * ((q 0 - q 3) * x10 ^ 2 - 2 * q 1 * x10 * x11 + (q 0 + q 3) * x11 ^ 2 + (q 0 + q 3) * y10 ^ 2
          - 2 * m * x10 * y10)
        - 2 * p 1 * ((q 0 - q 3) * x00 * x10 - q 1 * (x00 * x11 + x01 * x10) + (q 0 + q 3) * x01 * x11
          + q 1 * y01 * y10 - m * (x00 * y10 + x11 * y01)) := by
  unfold spinSq sl
  rw [adj_eq, slash_eq, spinSum_eq]
  simp [trace, Fin.sum_univ_four, hp, hq, Matrix.vecHead, Matrix.vecTail]
  ring

theorem spinSq_imag (m : ℝ) (p q : Fin 4 → ℝ) (hp : p 2 = 0) (hq : q 2 = 0) (x00 x01 x10 x11 y01 y10 : ℝ) :
    spinSq m p q !![0, 0, 0, 0; 0, 0, 0, 0; Complex.I * x00, Complex.I * x01, 0, Complex.I * y01;
        Complex.I * x10, Complex.I * x11, Complex.I * y10, 0]
      = (p 0 - p 3) * ((q 0 - q 3) * x00 ^ 2 - 2 * q 1 * x00 * x01 + (q 0 + q 3) * x01 ^ 2 + (q 0 - q 3) * y01 ^ 2
          - 2 * m * x01 * y01)
        + (p 0 + p 3) * ((q 0 - q 3) * x10 ^ 2 - 2 * q 1 * x10 * x11 + (q 0 + q 3) * x11 ^ 2 + (q 0 + q 3) * y10 ^ 2
          - 2 * m * x10 * y10)
        - 2 * p 1 * ((q 0 - q 3) * x00 * x10 - q 1 * (x00 * x11 + x01 * x10) + (q 0 + q 3) * x01 * x11
          + q 1 * y01 * y10 - m * (x00 * y10 + x11 * y01)) := by
  unfold spinSq sl
  rw [adj_eq, slash_eq, spinSum_eq]
  simp [trace, Fin.sum_univ_four, hp, hq, Matrix.vecHead, Matrix.vecTail]
  ring

/-- The amplitude for a transverse photon. -/
theorem amp_eq (hd : mink (lepton M E a b + ![E, 0, 0, E]) (lepton M E a b + ![E, 0, 0, E]) - m ^ 2 = 2 * E * (M - b ^ 2))
    (hM : M ≠ 0) (hE : E ≠ 0) (hb : M - b ^ 2 ≠ 0) (e1 e2 : ℝ) :
    radAmp f V A M m ![M, 0, 0, 0] (lepton M E a b) ![E, 0, 0, E] ![0, e1, e2, 0]
      = !![0, 0, 0, 0; 0, 0, 0, 0;
          ((-(f * M * (a * b) / (2 * E * (M - b ^ 2))) : ℝ) : ℂ) * (e1 + Complex.I * e2),
          ((f * M / (2 * E) - f + (A - V) * E : ℝ) : ℂ) * (e1 - Complex.I * e2), 0,
          ((f * M * m / (2 * E * (M - b ^ 2)) : ℝ) : ℂ) * (e1 - Complex.I * e2);
          ((f * M * (M - a ^ 2) / (2 * E * (M - b ^ 2)) - f + (A + V) * E : ℝ) : ℂ) * (e1 + Complex.I * e2),
          ((-(f * M * (a * b) / (2 * E * (M - b ^ 2))) : ℝ) : ℂ) * (e1 - Complex.I * e2),
          ((f * M * m / (2 * E * (M - b ^ 2)) : ℝ) : ℂ) * (e1 + Complex.I * e2), 0] := by
  have p1 : mink ![M, 0, 0, 0] ![0, e1, e2, 0] = 0 := by simp [mink]
  have p2 : mink ![E, 0, 0, E] ![0, e1, e2, 0] = 0 := by simp [mink]
  have p3 : mink ![M, 0, 0, 0] ![E, 0, 0, E] = M * E := by simp [mink]
  have hM' : (M : ℂ) ≠ 0 := Complex.ofReal_ne_zero.mpr hM
  have hE' : (E : ℂ) ≠ 0 := Complex.ofReal_ne_zero.mpr hE
  have hb' : (M : ℂ) - (b : ℂ) ^ 2 ≠ 0 := by exact_mod_cast hb
  have hI : Complex.I ^ 2 = -1 := Complex.I_sq
  unfold radAmp
  rw [hd, emission_eq _ _ _ (by simp [lepton]), curl_eq, p1, p2, p3]
  simp only [sl_projL]
  ext i j
  fin_cases i <;> fin_cases j <;> simp [lepton] <;> field_simp <;> ring_nf <;> simp only [hI] <;> ring_nf

theorem shell (hm : m ^ 2 = (M - 2 * E - a ^ 2) * (M - b ^ 2) - (a * b) ^ 2) :
    mink (lepton M E a b) (lepton M E a b) = m ^ 2 ∧ mink (neutrino a b) (neutrino a b) = 0
    ∧ mink (lepton M E a b + ![E, 0, 0, E]) (lepton M E a b + ![E, 0, 0, E]) - m ^ 2 = 2 * E * (M - b ^ 2)
    ∧ lepton M E a b + neutrino a b + ![E, 0, 0, E] = ![M, 0, 0, 0] := by
  refine ⟨?_, ?_, ?_, ?_⟩
  · rw [hm]; simp [mink, lepton]; ring
  · simp [mink, neutrino]; ring
  · rw [hm]; simp [mink, lepton]; ring
  · funext i; fin_cases i <;> simp [lepton, neutrino] <;> ring

/-- The sum over the polarisations of the photon. -/
noncomputable def radSq (f V A M m : ℝ) (P p q k : Fin 4 → ℝ) : ℝ :=
  ∑ i, spinSq m p q (radAmp f V A M m P q k (pol i))

theorem radSq_eq (hm : m ^ 2 = (M - 2 * E - a ^ 2) * (M - b ^ 2) - (a * b) ^ 2)
    (hM : M ≠ 0) (hE : E ≠ 0) (hb : M - b ^ 2 ≠ 0) :
    radSq f V A M m ![M, 0, 0, 0] (neutrino a b) (lepton M E a b) ![E, 0, 0, E]
      = distribution f V A M m (2 * E / M) (2 * lepton M E a b 0 / M) (m ^ 2 / M ^ 2) := by
  obtain ⟨-, -, hd, -⟩ := shell hm
  unfold radSq
  rw [Fin.sum_univ_two]
  have q1 : pol 0 = ![0, 1, 0, 0] := rfl
  have q2 : pol 1 = ![0, 0, 1, 0] := rfl
  rw [q1, q2, amp_eq hd hM hE hb, amp_eq hd hM hE hb]
  obtain ⟨x0, hx0⟩ : ∃ x, x = -(f * M * (a * b) / (2 * E * (M - b ^ 2))) := ⟨_, rfl⟩
  obtain ⟨x1, hx1⟩ : ∃ x, x = f * M / (2 * E) - f + (A - V) * E := ⟨_, rfl⟩
  obtain ⟨x2, hx2⟩ : ∃ x, x = f * M * (M - a ^ 2) / (2 * E * (M - b ^ 2)) - f + (A + V) * E := ⟨_, rfl⟩
  obtain ⟨y, hy⟩ : ∃ x, x = f * M * m / (2 * E * (M - b ^ 2)) := ⟨_, rfl⟩
  rw [← hx0, ← hx1, ← hx2, ← hy]
  have r1 : (!![0, 0, 0, 0; 0, 0, 0, 0;
      (x0 : ℂ) * (((1 : ℝ) : ℂ) + Complex.I * ((0 : ℝ) : ℂ)), (x1 : ℂ) * (((1 : ℝ) : ℂ) - Complex.I * ((0 : ℝ) : ℂ)), 0,
      (y : ℂ) * (((1 : ℝ) : ℂ) - Complex.I * ((0 : ℝ) : ℂ));
      (x2 : ℂ) * (((1 : ℝ) : ℂ) + Complex.I * ((0 : ℝ) : ℂ)), (x0 : ℂ) * (((1 : ℝ) : ℂ) - Complex.I * ((0 : ℝ) : ℂ)),
      (y : ℂ) * (((1 : ℝ) : ℂ) + Complex.I * ((0 : ℝ) : ℂ)), 0] : M4)
      = !![0, 0, 0, 0; 0, 0, 0, 0; (x0 : ℂ), (x1 : ℂ), 0, (y : ℂ); (x2 : ℂ), (x0 : ℂ), (y : ℂ), 0] := by simp
  have r2 : (!![0, 0, 0, 0; 0, 0, 0, 0;
      (x0 : ℂ) * (((0 : ℝ) : ℂ) + Complex.I * ((1 : ℝ) : ℂ)), (x1 : ℂ) * (((0 : ℝ) : ℂ) - Complex.I * ((1 : ℝ) : ℂ)), 0,
      (y : ℂ) * (((0 : ℝ) : ℂ) - Complex.I * ((1 : ℝ) : ℂ));
      (x2 : ℂ) * (((0 : ℝ) : ℂ) + Complex.I * ((1 : ℝ) : ℂ)), (x0 : ℂ) * (((0 : ℝ) : ℂ) - Complex.I * ((1 : ℝ) : ℂ)),
      (y : ℂ) * (((0 : ℝ) : ℂ) + Complex.I * ((1 : ℝ) : ℂ)), 0] : M4)
      = !![0, 0, 0, 0; 0, 0, 0, 0; Complex.I * (x0 : ℂ), Complex.I * ((-x1 : ℝ) : ℂ), 0, Complex.I * ((-y : ℝ) : ℂ);
        Complex.I * (x2 : ℂ), Complex.I * ((-x0 : ℝ) : ℂ), Complex.I * (y : ℂ), 0] := by
    simp [mul_comm]
  rw [r1, r2, spinSq_real _ _ _ (by simp [neutrino]) (by simp [lepton]),
    spinSq_imag _ _ _ (by simp [neutrino]) (by simp [lepton])]
  have n0 : neutrino a b 0 = (a ^ 2 + b ^ 2) / 2 := rfl
  have n1 : neutrino a b 1 = -(a * b) := rfl
  have n3 : neutrino a b 3 = (a ^ 2 - b ^ 2) / 2 := rfl
  have l0 : lepton M E a b 0 = M - E - (a ^ 2 + b ^ 2) / 2 := rfl
  have l1 : lepton M E a b 1 = a * b := rfl
  have l3 : lepton M E a b 3 = -E - (a ^ 2 - b ^ 2) / 2 := rfl
  rw [n0, n1, n3, l0, l1, l3]
  have hu : 2 * E / M + 2 * (M - E - (a ^ 2 + b ^ 2) / 2) / M - 1 - m ^ 2 / M ^ 2 = 2 * E * (M - b ^ 2) / M ^ 2 := by
    rw [hm]; field_simp; ring
  have hv : 1 - 2 * (M - E - (a ^ 2 + b ^ 2) / 2) / M + m ^ 2 / M ^ 2 = 2 * E * b ^ 2 / M ^ 2 := by
    rw [hm]; field_simp; ring
  have hmy : m * y = f * M * m ^ 2 / (2 * E * (M - b ^ 2)) := by rw [hy]; ring
  have hyy : y ^ 2 = f ^ 2 * M ^ 2 * m ^ 2 / (2 * E * (M - b ^ 2)) ^ 2 := by rw [hy, div_pow]; ring
  unfold distribution ib sdPlus sdMinus intPlus intMinus
  rw [hu, hv]
  obtain ⟨c, hc⟩ : ∃ c, c = M - 2 * E - a ^ 2 := ⟨_, rfl⟩
  obtain ⟨w, hw⟩ : ∃ w, w = M - b ^ 2 := ⟨_, rfl⟩
  have e : (((a ^ 2 + b ^ 2) / 2 - (a ^ 2 - b ^ 2) / 2) * ((M - E - (a ^ 2 + b ^ 2) / 2 - (-E - (a ^ 2 - b ^ 2) / 2)) * x0 ^ 2
        - 2 * (a * b) * x0 * x1 + (M - E - (a ^ 2 + b ^ 2) / 2 + (-E - (a ^ 2 - b ^ 2) / 2)) * x1 ^ 2
        + (M - E - (a ^ 2 + b ^ 2) / 2 - (-E - (a ^ 2 - b ^ 2) / 2)) * y ^ 2 - 2 * m * x1 * y)
      + ((a ^ 2 + b ^ 2) / 2 + (a ^ 2 - b ^ 2) / 2) * ((M - E - (a ^ 2 + b ^ 2) / 2 - (-E - (a ^ 2 - b ^ 2) / 2)) * x2 ^ 2
        - 2 * (a * b) * x2 * x0 + (M - E - (a ^ 2 + b ^ 2) / 2 + (-E - (a ^ 2 - b ^ 2) / 2)) * x0 ^ 2
        + (M - E - (a ^ 2 + b ^ 2) / 2 + (-E - (a ^ 2 - b ^ 2) / 2)) * y ^ 2 - 2 * m * x2 * y)
      - 2 * -(a * b) * ((M - E - (a ^ 2 + b ^ 2) / 2 - (-E - (a ^ 2 - b ^ 2) / 2)) * x0 * x2 - a * b * (x0 * x0 + x1 * x2)
        + (M - E - (a ^ 2 + b ^ 2) / 2 + (-E - (a ^ 2 - b ^ 2) / 2)) * x1 * x0 + a * b * y * y - m * (x0 * y + x0 * y)))
      + (((a ^ 2 + b ^ 2) / 2 - (a ^ 2 - b ^ 2) / 2) * ((M - E - (a ^ 2 + b ^ 2) / 2 - (-E - (a ^ 2 - b ^ 2) / 2)) * x0 ^ 2
        - 2 * (a * b) * x0 * -x1 + (M - E - (a ^ 2 + b ^ 2) / 2 + (-E - (a ^ 2 - b ^ 2) / 2)) * (-x1) ^ 2
        + (M - E - (a ^ 2 + b ^ 2) / 2 - (-E - (a ^ 2 - b ^ 2) / 2)) * (-y) ^ 2 - 2 * m * -x1 * -y)
      + ((a ^ 2 + b ^ 2) / 2 + (a ^ 2 - b ^ 2) / 2) * ((M - E - (a ^ 2 + b ^ 2) / 2 - (-E - (a ^ 2 - b ^ 2) / 2)) * x2 ^ 2
        - 2 * (a * b) * x2 * -x0 + (M - E - (a ^ 2 + b ^ 2) / 2 + (-E - (a ^ 2 - b ^ 2) / 2)) * (-x0) ^ 2
        + (M - E - (a ^ 2 + b ^ 2) / 2 + (-E - (a ^ 2 - b ^ 2) / 2)) * y ^ 2 - 2 * m * x2 * y)
      - 2 * -(a * b) * ((M - E - (a ^ 2 + b ^ 2) / 2 - (-E - (a ^ 2 - b ^ 2) / 2)) * x0 * x2 - a * b * (x0 * -x0 + -x1 * x2)
        + (M - E - (a ^ 2 + b ^ 2) / 2 + (-E - (a ^ 2 - b ^ 2) / 2)) * -x1 * -x0 + a * b * -y * y - m * (x0 * y + -x0 * -y)))
      = 2 * (b ^ 2 * (w * x0 ^ 2 + c * x1 ^ 2 + w * y ^ 2 - 2 * x1 * (m * y))
        + a ^ 2 * (w * x2 ^ 2 + c * x0 ^ 2 + c * y ^ 2 - 2 * x2 * (m * y))
        + 2 * (a * b * x0) * (w * x2 + c * x1 - 2 * (m * y))) := by
    rw [hc, hw]; ring
  rw [e, hmy, hyy, hx0, hx1, hx2]
  rw [← hc, ← hw] at hm
  rw [← hw] at hb
  rw [← hw, hm]
  field_simp
  have hcw : a ^ 2 = M - 2 * E - c := by rw [hc]; ring
  have hbw : b ^ 2 = M - w := by rw [hw]; ring
  rw [hc, hw]
  ring

/-! ## Phase space -/

/-- Momentum of the lepton of energy `L` along the photon of energy `E`, and transverse to it. -/
noncomputable def long (M m E L : ℝ) : ℝ := ((M - E - L) ^ 2 - E ^ 2 - L ^ 2 + m ^ 2) / (2 * E)
noncomputable def tranSq (M m E L : ℝ) : ℝ := L ^ 2 - m ^ 2 - long M m E L ^ 2
noncomputable def momQ (M m E L : ℝ) : Fin 4 → ℝ := ![L, Real.sqrt (tranSq M m E L), 0, long M m E L]
noncomputable def momP (M m E L : ℝ) : Fin 4 → ℝ :=
  ![M - E - L, -Real.sqrt (tranSq M m E L), 0, -(E + long M m E L)]

/-- Energies of the lepton for which there are momenta. -/
def allowed (M m E : ℝ) : Set ℝ := {L | m ≤ L ∧ E + L ≤ M ∧ 0 ≤ tranSq M m E L}

/-- Width without photon. -/
noncomputable def width (f M m : ℝ) : ℝ :=
  (M ^ 2 - m ^ 2) / (2 * M) / (8 * Real.pi * M ^ 2)
    * spinSq m ![(M ^ 2 - m ^ 2) / (2 * M), 0, 0, (M ^ 2 - m ^ 2) / (2 * M)]
        ![(M ^ 2 + m ^ 2) / (2 * M), 0, 0, -((M ^ 2 - m ^ 2) / (2 * M))] (weakAmp f ![M, 0, 0, 0])

/-- Photons of energy `E` per decay without photon. -/
noncomputable def spectrum (alpha f V A M m E : ℝ) : ℝ :=
  1 / width f M m * (1 / (64 * Real.pi ^ 3 * M))
    * ∫ L in allowed M m E, 4 * Real.pi * alpha
        * radSq f V A M m ![M, 0, 0, 0] (momP M m E L) (momQ M m E L) ![E, 0, 0, E]

theorem width_eq (hM : M ≠ 0) : width f M m = f ^ 2 * m ^ 2 * (M ^ 2 - m ^ 2) ^ 2 / (16 * Real.pi * M ^ 3) := by
  have h : spinSq m ![(M ^ 2 - m ^ 2) / (2 * M), 0, 0, (M ^ 2 - m ^ 2) / (2 * M)]
        ![(M ^ 2 + m ^ 2) / (2 * M), 0, 0, -((M ^ 2 - m ^ 2) / (2 * M))] (weakAmp f ![M, 0, 0, 0])
      = f ^ 2 * m ^ 2 * (M ^ 2 - m ^ 2) := by
    have e : weakAmp f ![M, 0, 0, 0] = !![0, 0, 0, 0; 0, 0, 0, 0; ((f * M : ℝ) : ℂ), ((0 : ℝ) : ℂ), 0, ((0 : ℝ) : ℂ);
        ((0 : ℝ) : ℂ), ((f * M : ℝ) : ℂ), ((0 : ℝ) : ℂ), 0] := by
      unfold weakAmp
      rw [sl_projL]
      ext i j
      fin_cases i <;> fin_cases j <;> simp
    rw [e, spinSq_real _ _ _ (by simp) (by simp)]
    simp
    field_simp
    ring
  unfold width
  rw [h]
  have := Real.pi_ne_zero
  field_simp
  ring

/-- Light-cone components of the neutrino. -/
noncomputable def plus (M m E L : ℝ) : ℝ := (2 * L * (M - 2 * E) - (M - 2 * E) ^ 2 - m ^ 2) / (2 * E)
noncomputable def minus (M m E L : ℝ) : ℝ := (M ^ 2 + m ^ 2 - 2 * M * L) / (2 * E)

theorem cone (hE : E ≠ 0) (L : ℝ) : tranSq M m E L = plus M m E L * minus M m E L
    ∧ plus M m E L + minus M m E L = 2 * (M - E - L)
    ∧ plus M m E L - minus M m E L = -2 * (E + long M m E L) := by
  unfold tranSq long plus minus
  refine ⟨?_, ?_, ?_⟩ <;> · field_simp; ring

theorem mem_allowed (hM : 0 < M) (hm : 0 < m) (hE : 0 < E) (L : ℝ) :
    L ∈ allowed M m E ↔ 0 ≤ plus M m E L ∧ 0 ≤ minus M m E L ∧ m ≤ L := by
  obtain ⟨h1, h2, -⟩ := cone (M := M) (m := m) hE.ne' L
  simp only [allowed, Set.mem_setOf_eq, h1]
  constructor
  · rintro ⟨hL, hs, hp⟩
    rcases mul_nonneg_iff.mp hp with h | h
    · exact ⟨h.1, h.2, hL⟩
    · exact ⟨by linarith [h.1, h.2], by linarith [h.1, h.2], hL⟩
  · rintro ⟨a, b, hL⟩
    exact ⟨hL, by linarith, mul_nonneg a b⟩

noncomputable def lo (M m E : ℝ) : ℝ := (M - 2 * E) / 2 + m ^ 2 / (2 * (M - 2 * E))
noncomputable def hi (M m : ℝ) : ℝ := (M ^ 2 + m ^ 2) / (2 * M)

theorem minus_iff (hM : 0 < M) (hE : 0 < E) (L : ℝ) : 0 ≤ minus M m E L ↔ L ≤ hi M m := by
  unfold minus hi
  rw [le_div_iff₀ (a := L) (by positivity), div_nonneg_iff]
  constructor
  · rintro (h | h)
    · linarith [h.1]
    · linarith [h.2]
  · intro h; left; exact ⟨by linarith, by positivity⟩

theorem plus_iff (hE : 0 < E) (h2 : 2 * E < M) (L : ℝ) : 0 ≤ plus M m E L ↔ lo M m E ≤ L := by
  have hw : 0 < M - 2 * E := by linarith
  have e : plus M m E L = (M - 2 * E) / E * (L - lo M m E) := by
    unfold plus lo
    obtain ⟨w, hw'⟩ : ∃ w, w = M - 2 * E := ⟨_, rfl⟩
    rw [← hw'] at hw ⊢
    field_simp
    ring
  rw [e, mul_nonneg_iff_of_pos_left (by positivity), sub_nonneg]

theorem allowed_eq (hM : 0 < M) (hm : 0 < m) (hE : 0 < E) (h2 : 2 * E < M) :
    allowed M m E = Set.Icc (lo M m E) (hi M m) := by
  ext L
  rw [mem_allowed hM hm hE, minus_iff hM hE, plus_iff hE h2, Set.mem_Icc]
  constructor
  · rintro ⟨a, b, -⟩; exact ⟨a, b⟩
  · rintro ⟨a, b⟩
    refine ⟨a, b, le_trans ?_ a⟩
    have hw : 0 < M - 2 * E := by linarith
    unfold lo
    obtain ⟨w, hw'⟩ : ∃ w, w = M - 2 * E := ⟨_, rfl⟩
    rw [← hw'] at hw ⊢
    rw [show w / 2 + m ^ 2 / (2 * w) = (w ^ 2 + m ^ 2) / (2 * w) by field_simp, le_div_iff₀ (by positivity)]
    nlinarith [sq_nonneg (w - m)]

theorem allowed_empty (hM : 0 < M) (hm : 0 < m) (hE : 0 < E) (h : M ^ 2 - m ^ 2 < 2 * M * E) :
    allowed M m E = ∅ := by
  rw [Set.eq_empty_iff_forall_notMem]
  intro L hL
  rw [mem_allowed hM hm hE, minus_iff hM hE] at hL
  obtain ⟨h1, h3, h4⟩ := hL
  by_cases h2 : 2 * E < M
  · rw [plus_iff hE h2] at h1
    have hw : 0 < M - 2 * E := by linarith
    have h5 := h1.trans h3
    unfold lo hi at h5
    obtain ⟨w, hw'⟩ : ∃ w, w = M - 2 * E := ⟨_, rfl⟩
    rw [← hw'] at hw h5
    rw [show w / 2 + m ^ 2 / (2 * w) = (w ^ 2 + m ^ 2) / (2 * w) by field_simp,
      div_le_div_iff₀ (by positivity) (by positivity)] at h5
    have : 2 * ((w * M - m ^ 2) * (w - M)) ≤ 0 := by nlinarith
    have h6 : w - M < 0 := by linarith
    have h7 : w * M - m ^ 2 < 0 := by rw [hw']; nlinarith
    nlinarith [mul_pos_of_neg_of_neg h7 h6]
  · unfold plus at h1
    have : 2 * L * (M - 2 * E) - (M - 2 * E) ^ 2 - m ^ 2 < 0 := by
      have : L * (M - 2 * E) ≤ 0 := mul_nonpos_of_nonneg_of_nonpos (by linarith) (by linarith)
      nlinarith [sq_nonneg (M - 2 * E), mul_pos hm hm]
    have := div_neg_of_neg_of_pos this (show (0 : ℝ) < 2 * E by linarith)
    linarith

theorem radSq_allowed (hM : 0 < M) (hm : 0 < m) (hE : 0 < E) {L : ℝ} (hL : L ∈ allowed M m E)
    (hu : 0 < M - minus M m E L) :
    radSq f V A M m ![M, 0, 0, 0] (momP M m E L) (momQ M m E L) ![E, 0, 0, E]
      = distribution f V A M m (2 * E / M) (2 * L / M) (m ^ 2 / M ^ 2) := by
  obtain ⟨hp, hn, -⟩ := (mem_allowed hM hm hE L).mp hL
  obtain ⟨h1, h2, h3⟩ := cone (M := M) (m := m) hE.ne' L
  obtain ⟨a, ha⟩ : ∃ a, a = Real.sqrt (plus M m E L) := ⟨_, rfl⟩
  obtain ⟨b, hb⟩ : ∃ b, b = Real.sqrt (minus M m E L) := ⟨_, rfl⟩
  have ha2 : a ^ 2 = plus M m E L := by rw [ha]; exact Real.sq_sqrt hp
  have hb2 : b ^ 2 = minus M m E L := by rw [hb]; exact Real.sq_sqrt hn
  have hab : Real.sqrt (tranSq M m E L) = a * b := by rw [h1, Real.sqrt_mul hp, ha, hb]
  have eP : momP M m E L = neutrino a b := by
    unfold momP neutrino
    rw [hab, ha2, hb2]
    funext i
    fin_cases i
    · simp; linarith
    · rfl
    · rfl
    · simp; linarith
  have eQ : momQ M m E L = lepton M E a b := by
    unfold momQ lepton
    rw [hab, ha2, hb2]
    funext i
    fin_cases i
    · simp; linarith
    · rfl
    · rfl
    · simp; linarith
  have hmm : m ^ 2 = (M - 2 * E - a ^ 2) * (M - b ^ 2) - (a * b) ^ 2 := by
    rw [mul_pow, ha2, hb2]
    unfold plus minus
    field_simp
    ring
  have e0 : lepton M E a b 0 = L := by rw [← eQ]; rfl
  rw [eP, eQ, radSq_eq hmm hM.ne' hE.ne' (by rw [hb2]; exact hu.ne'), e0]

/-! ## Spectrum -/

theorem integral_powers (c2 c1 d0 d1 d2 : ℝ) {l h : ℝ} (hl : 0 < l) (hh : l ≤ h) :
    ∫ u in l..h, (c2 / u ^ 2 + c1 / u + d0 + d1 * u + d2 * u ^ 2)
      = c2 * (1 / l - 1 / h) + c1 * Real.log (h / l) + d0 * (h - l) + d1 * (h ^ 2 - l ^ 2) / 2 + d2 * (h ^ 3 - l ^ 3) / 3 := by
  have hpos : ∀ u ∈ Set.uIcc l h, 0 < u := by
    intro u hu
    rw [Set.uIcc_of_le hh] at hu
    linarith [hu.1]
  have hder : ∀ u ∈ Set.uIcc l h, HasDerivAt (fun u => -c2 * u⁻¹ + c1 * Real.log u + d0 * u + d1 / 2 * u ^ 2 + d2 / 3 * u ^ 3)
      (c2 / u ^ 2 + c1 / u + d0 + d1 * u + d2 * u ^ 2) u := by
    intro u hu
    have hu0 := (hpos u hu).ne'
    have h1 := (hasDerivAt_inv hu0).const_mul (-c2)
    have h2 := (Real.hasDerivAt_log hu0).const_mul c1
    have h3 := (hasDerivAt_id u).const_mul d0
    have h4 := (hasDerivAt_pow 2 u).const_mul (d1 / 2)
    have h5 := (hasDerivAt_pow 3 u).const_mul (d2 / 3)
    refine ((((h1.add h2).add h3).add h4).add h5).congr_deriv ?_
    push_cast
    field_simp
  rw [intervalIntegral.integral_eq_sub_of_hasDerivAt hder]
  · rw [Real.log_div (by linarith) hl.ne']
    have : 0 < h := by linarith
    field_simp
    ring
  · apply ContinuousOn.intervalIntegrable
    intro u hu
    have hu0 := (hpos u hu).ne'
    apply ContinuousAt.continuousWithinAt
    fun_prop (disch := positivity)

theorem dist_powers (x r : ℝ) (hx : x ≠ 0) {u : ℝ} (hu : u ≠ 0) :
    distribution f V A M m x (u + 1 + r - x) r
      = (2 * f ^ 2 * m ^ 2 * (-(2 * r * (1 - r)))) / u ^ 2
        + (2 * f ^ 2 * m ^ 2 * ((x ^ 2 + 2 * (1 - x) * (1 - r) + 2 * r * (1 - r)) / x)
          + 2 * f * m ^ 2 * M * ((V + A) * (r * x) + (V - A) * (x ^ 2 - r * x))) / u
        + (2 * f ^ 2 * m ^ 2 * (-(x ^ 2 + 2 * (1 - x) * (1 - r)) / x ^ 2)
          + M ^ 4 / 2 * (V - A) ^ 2 * (x ^ 2 * (1 - x + r))
          + 2 * f * m ^ 2 * M * ((V + A) * (-(r + (1 - x))) + (V - A) * (-(x - r) + (1 - x))))
        + (M ^ 4 / 2 * ((V + A) ^ 2 * (-(r * x)) + (V - A) ^ 2 * (-(2 * x * (1 - x) + r * x)))
          + 2 * f * m ^ 2 * M * ((V + A) * ((1 - x) / x) - (V - A) * ((1 - x) / x))) * u
        + M ^ 4 / 2 * ((V + A) ^ 2 * (1 - x) + (V - A) ^ 2 * (1 - x)) * u ^ 2 := by
  unfold distribution ib sdPlus sdMinus intPlus intMinus
  rw [show x + (u + 1 + r - x) - 1 - r = u by ring]
  field_simp
  ring

/-- The closed form of the spectrum. -/
noncomputable def closed (f V A M x r : ℝ) : ℝ :=
  (r + x - 1) * (M ^ 2 * x ^ 4 * (A ^ 2 + V ^ 2) * (r ^ 2 - r * x + r - 2 * (x - 1) ^ 2)
      - 12 * f * M * r * (x - 1) * x ^ 2 * (A * (r - 2 * x + 1) + V * x)
      - 12 * f ^ 2 * r * (x - 1) * (4 * r * (x - 1) + (x - 2) ^ 2))
    + 12 * f * r * (x - 1) ^ 2 * Real.log (r / (1 - x)) * (M * x ^ 2 * (A * (x - 2 * r) - V * x)
      + f * (2 * r ^ 2 - 2 * r * x - x ^ 2 + 2 * x - 2))

theorem dist_integral (x r : ℝ) (hx : 0 < x) (hx1 : x ≤ 1 - r) (hr : 0 < r) (hm : m ^ 2 = r * M ^ 2) :
    ∫ u in (r * x / (1 - x))..x, distribution f V A M m x (u + 1 + r - x) r
      = M ^ 2 * closed f V A M x r / (6 * (x - 1) ^ 2 * x) := by
  have h1 : 0 < 1 - x := by linarith
  have hl : 0 < r * x / (1 - x) := by positivity
  have hh : r * x / (1 - x) ≤ x := by rw [div_le_iff₀ h1]; nlinarith
  have hc : ∀ u ∈ Set.uIcc (r * x / (1 - x)) x, distribution f V A M m x (u + 1 + r - x) r = _ :=
    fun u hu => dist_powers x r hx.ne' (by rw [Set.uIcc_of_le hh] at hu; linarith [hu.1])
  rw [intervalIntegral.integral_congr hc, integral_powers _ _ _ _ _ hl hh]
  have hlog : Real.log (x / (r * x / (1 - x))) = -Real.log (r / (1 - x)) := by
    rw [← Real.log_inv]; congr 1; field_simp
  rw [hlog, hm]
  unfold closed
  generalize Real.log (r / (1 - x)) = ell
  obtain ⟨w, hw⟩ : ∃ w, w = 1 - x := ⟨_, rfl⟩
  rw [← hw] at h1 ⊢
  rw [show (x - 1) = -w by rw [hw]; ring]
  field_simp
  rw [hw]
  ring

/-- The code's formula. -/
theorem code_closed (e ml : ℝ) (hx : 0 ≤ 2 * e / Spectra.massPi)
    (hx1 : 2 * e / Spectra.massPi ≤ 1 - (ml / Spectra.massPi) ^ 2) :
    Spectra.dndePiLNuG e ml
      = Spectra.alphaEM * closed Spectra.decayConstPi
          (Spectra.fVPi * (1 + Spectra.fVPiSlope * (1 - 2 * e / Spectra.massPi))) Spectra.fAPi Spectra.massPi
          (2 * e / Spectra.massPi) ((ml / Spectra.massPi) ^ 2)
        / (12 * Real.pi * Spectra.massPi * Spectra.decayConstPi ^ 2 * ((ml / Spectra.massPi) ^ 2 - 1) ^ 2
          * (2 * e / Spectra.massPi - 1) ^ 2 * (ml / Spectra.massPi) ^ 2 * (2 * e / Spectra.massPi)) := by
  have h2 : Real.sqrt 2 ^ 2 = 2 := Real.sq_sqrt (by norm_num)
  have h20 : Real.sqrt 2 ≠ 0 := by positivity
  unfold Spectra.dndePiLNuG closed
  simp only
  rw [show ml / Spectra.massPi * (ml / Spectra.massPi) = (ml / Spectra.massPi) ^ 2 by ring]
  generalize 2 * e / Spectra.massPi = x at *
  generalize (ml / Spectra.massPi) ^ 2 = r at *
  rw [if_neg (by push Not; exact ⟨hx, hx1⟩)]
  generalize Real.log (r / (1 - x)) = ell
  generalize Spectra.massPi = M
  generalize Spectra.decayConstPi = D
  obtain ⟨p, hp⟩ : ∃ p, p = D * (1 / Real.sqrt 2) := ⟨_, rfl⟩
  have k2 : p * Real.sqrt 2 = D := by rw [hp]; field_simp
  have k1 : p * (12 * Real.sqrt 2) = 12 * D := by rw [← k2]; ring
  have k0 : p ^ 2 = D ^ 2 / 2 := by rw [← k2, mul_pow, h2]; ring
  have k3 : p * -24 * p = -12 * D ^ 2 := by linear_combination -24 * k0
  have k4 : p * (24 * Real.pi * M) * p = 12 * Real.pi * M * D ^ 2 := by linear_combination 24 * Real.pi * M * k0
  rw [← hp, k1, k2, k3, k4]
  congr 1 <;> ring

/-- **C294.** The photons of `π → ℓ ν γ` per decay without photon. -/
theorem pion_radiative (e ml : ℝ) (h0 : 0 < ml) (hl : ml < Spectra.massPi) (he : 0 < e) :
    Spectra.dndePiLNuG e ml
      = spectrum Spectra.alphaEM Spectra.decayConstPi
          (Spectra.fVPi * (1 + Spectra.fVPiSlope * (1 - 2 * e / Spectra.massPi))) Spectra.fAPi Spectra.massPi ml e := by
  have hM : 0 < Spectra.massPi := by unfold Spectra.massPi; norm_num
  have hD : 0 < Spectra.decayConstPi := by unfold Spectra.decayConstPi; norm_num
  have hr : 0 < (ml / Spectra.massPi) ^ 2 := by positivity
  have hx : 0 < 2 * e / Spectra.massPi := by positivity
  by_cases hx1 : 2 * e / Spectra.massPi ≤ 1 - (ml / Spectra.massPi) ^ 2
  · rw [code_closed e ml hx.le hx1]
    generalize Spectra.fVPi * (1 + Spectra.fVPiSlope * (1 - 2 * e / Spectra.massPi)) = V
    generalize Spectra.fAPi = A
    generalize Spectra.alphaEM = alpha
    generalize Spectra.decayConstPi = f at *
    generalize Spectra.massPi = M at *
    have h2 : 2 * e < M := by
      have : 2 * e / M < 1 := by linarith
      rwa [div_lt_one hM] at this
    have hw : 0 < M - 2 * e := by linarith
    obtain ⟨x, hxd⟩ : ∃ x, x = 2 * e / M := ⟨_, rfl⟩
    obtain ⟨r, hrd⟩ : ∃ r, r = (ml / M) ^ 2 := ⟨_, rfl⟩
    have hrm : ml ^ 2 / M ^ 2 = r := by rw [hrd, div_pow]
    have hm : ml ^ 2 = r * M ^ 2 := by rw [← hrm]; field_simp
    rw [← hxd, ← hrd] at hx1
    rw [← hxd] at hx
    rw [← hrd] at hr
    have h1x : 0 < 1 - x := by linarith
    have hwx : M - 2 * e = M * (1 - x) := by rw [hxd]; field_simp
    have eu0 : 2 / M * lo M ml e + (x - 1 - r) = r * x / (1 - x) := by
      unfold lo
      rw [hwx, hm]
      field_simp
      ring
    have eux : 2 / M * hi M ml + (x - 1 - r) = x := by
      unfold hi
      rw [hm]
      field_simp
      ring
    have hle : lo M ml e ≤ hi M ml := by
      have : r * x / (1 - x) ≤ x := by rw [div_le_iff₀ h1x]; nlinarith
      rw [← eu0] at this
      have h3 : 2 / M * lo M ml e ≤ 2 / M * hi M ml := by linarith
      exact le_of_mul_le_mul_left h3 (by positivity)
    have hint : ∫ L in allowed M ml e, 4 * Real.pi * alpha
          * radSq f V A M ml ![M, 0, 0, 0] (momP M ml e L) (momQ M ml e L) ![e, 0, 0, e]
        = 4 * Real.pi * alpha * (M / 2 * (M ^ 2 * closed f V A M x r / (6 * (x - 1) ^ 2 * x))) := by
      have hpt : ∀ L ∈ Set.Icc (lo M ml e) (hi M ml), 4 * Real.pi * alpha
          * radSq f V A M ml ![M, 0, 0, 0] (momP M ml e L) (momQ M ml e L) ![e, 0, 0, e]
          = 4 * Real.pi * alpha * distribution f V A M ml x ((2 / M * L + (x - 1 - r)) + 1 + r - x) r := by
        intro L hL
        have hu : 0 < M - minus M ml e L := by
          have h4 : r * x / (1 - x) ≤ 2 / M * L + (x - 1 - r) := by
            rw [← eu0]
            have := mul_le_mul_of_nonneg_left hL.1 (show (0 : ℝ) ≤ 2 / M by positivity)
            linarith
          have h5 : 0 < 2 / M * L + (x - 1 - r) := lt_of_lt_of_le (by positivity) h4
          have : M - minus M ml e L = M ^ 2 / (2 * e) * (2 / M * L + (x - 1 - r)) := by
            unfold minus
            rw [hm, hxd]
            field_simp
            ring
          rw [this]
          positivity
        rw [radSq_allowed hM h0 he (by rw [allowed_eq hM h0 he h2]; exact hL) hu, ← hxd, hrm]
        congr 2
        ring
      rw [allowed_eq hM h0 he h2, MeasureTheory.setIntegral_congr_fun measurableSet_Icc hpt,
        MeasureTheory.integral_Icc_eq_integral_Ioc, ← intervalIntegral.integral_of_le hle,
        intervalIntegral.integral_const_mul,
        intervalIntegral.integral_comp_mul_add (fun u => distribution f V A M ml x (u + 1 + r - x) r) (by positivity),
        eu0, eux, dist_integral x r hx hx1 hr hm, smul_eq_mul]
      congr 2
      rw [inv_div]
    unfold spectrum
    rw [hint, width_eq hM.ne', ← hxd, ← hrd, hm]
    have hr1 : 1 - r ≠ 0 := by
      have : x < 1 - r ∨ x = 1 - r := lt_or_eq_of_le hx1
      intro h
      linarith
    have e1 : M ^ 2 - r * M ^ 2 = M ^ 2 * (1 - r) := by ring
    have e2 : (r - 1) ^ 2 = (1 - r) ^ 2 := by ring
    have e3 : (x - 1) ^ 2 = (1 - x) ^ 2 := by ring
    rw [e1, e2, e3]
    generalize closed f V A M x r = c
    have hpi := Real.pi_ne_zero
    have h1x' := h1x.ne'
    obtain ⟨s, hs⟩ : ∃ s, s = 1 - r := ⟨_, rfl⟩
    obtain ⟨t, ht⟩ : ∃ t, t = 1 - x := ⟨_, rfl⟩
    rw [← hs] at hr1 ⊢
    rw [← ht] at h1x' ⊢
    field_simp
    ring
  · have hz : Spectra.dndePiLNuG e ml = 0 := by
      unfold Spectra.dndePiLNuG
      simp only
      rw [if_pos]
      right
      push Not at hx1
      rwa [← sq]
    have hem : allowed Spectra.massPi ml e = ∅ := by
      apply allowed_empty hM h0 he
      push Not at hx1
      generalize Spectra.massPi = M at *
      rw [lt_div_iff₀ hM, div_pow] at hx1
      have : (1 - ml ^ 2 / M ^ 2) * M * M = M ^ 2 - ml ^ 2 := by field_simp
      nlinarith
    rw [hz]
    unfold spectrum
    rw [hem]
    simp

/-- The same for the Cython kernel. -/
theorem pion_radiative_cython (e ml : ℝ) (h0 : 0 < ml) (hl : ml < Spectra.massPi) (he : 0 < e) :
    CythonKernels.cPiLNuG e ml
      = spectrum Spectra.alphaEM Spectra.decayConstPi
          (Spectra.fVPi * (1 + Spectra.fVPiSlope * (1 - 2 * e / Spectra.massPi))) Spectra.fAPi Spectra.massPi ml e := by
  rw [CythonKernels.piLNuG_eq, pion_radiative e ml h0 hl he]

/-- Both leptons to which the code applies it are lighter than the pion. -/
example : (0 < Spectra.massMu ∧ Spectra.massMu < Spectra.massPi) ∧ 0 < Spectra.massE ∧ Spectra.massE < Spectra.massPi := by
  unfold Spectra.massMu Spectra.massPi Spectra.massE; norm_num

/-- A photon of 10 MeV with a muon: the muon has between 108.4 and 109.8 MeV. -/
example : Set.Icc 108.5 109.7 ⊆ allowed Spectra.massPi Spectra.massMu 10
    ∧ ¬ (109.8 ∈ allowed Spectra.massPi Spectra.massMu 10) := by
  rw [allowed_eq (by unfold Spectra.massPi; norm_num) (by unfold Spectra.massMu; norm_num) (by norm_num)
    (by unfold Spectra.massPi; norm_num)]
  refine ⟨Set.Icc_subset_Icc ?_ ?_, ?_⟩
  · unfold lo Spectra.massPi Spectra.massMu; norm_num
  · unfold hi Spectra.massPi Spectra.massMu; norm_num
  · simp only [Set.mem_Icc, not_and, not_le]
    intro _
    unfold hi Spectra.massPi Spectra.massMu; norm_num

/-- A decay with a transverse momentum, a photon of energy 1 from a pion of mass 4. -/
example : radSq 1 1 0 4 (Real.sqrt 2) ![4, 0, 0, 0] (neutrino 1 1) (lepton 4 1 1 1) ![1, 0, 0, 1]
    = distribution 1 1 0 4 (Real.sqrt 2) (2 * 1 / 4) (2 * 2 / 4) (2 / 4 ^ 2) := by
  have h2 : Real.sqrt 2 ^ 2 = 2 := Real.sq_sqrt (by norm_num)
  rw [radSq_eq (by rw [h2]; norm_num) (by norm_num) (by norm_num) (by norm_num), h2]
  congr 1
  simp [lepton]
  norm_num

end Hazma.PionRadiative
