import Verif.Props.FeynmanRules
import Verif.Props.ElasticFeynman
import Verif.Props.VectorXs

/-! # C291: hadronic channels of the vector mediator from the Feynman rules

Charged pions couple to the vector with the difference of their momenta; a neutral pion couples to two vectors through
the anomaly.  `_vector_mediator_widths.py:16-43` and `vector_xs.rs:198-320` against these rules. -/

namespace Hazma.Anomaly

open Hazma Hazma.Xs Hazma.SelfScattering
open Hazma.FeynmanRules (comP comN mom_sq sqrt_mom rpow_three_half)
open Hazma.ElasticFeynman (dark)
open Hazma.Dirac (gamma)
open Matrix

/-- The metric. -/
def metric : Fin 4 → ℝ := ![1, -1, -1, -1]

/-- The totally antisymmetric symbol: a Vandermonde product of the indices, normalised. -/
noncomputable def epsilon (i j k l : Fin 4) : ℝ :=
  ((j : ℕ) - (i : ℕ)) * ((k : ℕ) - (i : ℕ)) * ((l : ℕ) - (i : ℕ)) * ((k : ℕ) - (j : ℕ)) * ((l : ℕ) - (j : ℕ))
    * ((l : ℕ) - (k : ℕ)) / 12

/-- Strength of the coupling of a neutral pion to two vectors under which up and down quarks have the charges `(u, d)`
and `(u', d')`: three colours times the trace with the isospin of the pion. -/
noncomputable def strength (u d u' d' f : ℝ) : ℝ := 3 * (u * u' - d * d') / (4 * Real.pi ^ 2 * f)

/-- The vertex of two vectors of momenta `p`, `k` and a neutral pion. -/
noncomputable def vertex (c : ℝ) (p k : Fin 4 → ℝ) (i j : Fin 4) : ℝ :=
  c * ∑ a, ∑ b, epsilon i j a b * p a * k b

/-- Squared amplitude of the decay of a vector into a vector and a pion, summed over the final and averaged over the
initial polarisations. -/
noncomputable def decaySq (c : ℝ) (p k : Fin 4 → ℝ) : ℝ :=
  1 / 3 * ∑ i, ∑ j, metric i * metric j * vertex c p k i j ^ 2

/-- Width into particles of masses `a` (vector) and `b` (pion). -/
noncomputable def width (c M a b : ℝ) : ℝ :=
  ElasticFeynman.mom M a b / (8 * Real.pi * M ^ 2) * decaySq c ![M, 0, 0, 0] (dark M a b 1)

/-- Squared amplitude of `x x̄ → v* → vector + pion`, averaged over the spins of dark matter. -/
noncomputable def annSq (g c M w m : ℝ) (p1 p2 k : Fin 4 → ℝ) : ℝ :=
  g ^ 2 / 4 * (∑ i, ∑ j, (trace (spinSum p2 (-m) * gamma i * spinSum p1 m * gamma j)).re
      * ∑ l, -metric l * (vertex c (p1 + p2) k i l * vertex c (p1 + p2) k j l))
    / Complex.normSq (prop (mink (p1 + p2) (p1 + p2)) M w)

/-- Cross section of annihilation into particles of masses `a` and `b`. -/
noncomputable def sigma (g c M w m a b e : ℝ) : ℝ :=
  ElasticFeynman.mom e a b / FeynmanRules.mom e m / (32 * Real.pi * e ^ 2)
    * ∫ z in (-1 : ℝ)..1, annSq g c M w m (comP e m 1) (comN e m 1) (dark e a b z)

/-- Squared amplitude of `x x̄ → v* → π⁺ π⁻` with charge `h` of the pion. -/
noncomputable def pionSq (g h M w m : ℝ) (p1 p2 p3 p4 : Fin 4 → ℝ) : ℝ :=
  (g * h) ^ 2 / 4 * (∑ i, ∑ j, (trace (spinSum p2 (-m) * gamma i * spinSum p1 m * gamma j)).re
      * (metric i * (p3 i - p4 i) * (metric j * (p3 j - p4 j))))
    / Complex.normSq (prop (mink (p1 + p2) (p1 + p2)) M w)

/-- Cross section of annihilation into charged pions of mass `n`. -/
noncomputable def pionSigma (g h M w m n e : ℝ) : ℝ :=
  FeynmanRules.mom e n / FeynmanRules.mom e m / (32 * Real.pi * e ^ 2)
    * ∫ z in (-1 : ℝ)..1, pionSq g h M w m (comP e m 1) (comN e m 1) (comP e n z) (comN e n z)

/-- Width into charged pions. -/
noncomputable def pionWidth (h M n : ℝ) : ℝ :=
  FeynmanRules.mom M n / (8 * Real.pi * M ^ 2)
    * (h ^ 2 / 3 * ∑ i, -metric i * (comP M n 1 i - comN M n 1 i) ^ 2)

/-! ## Algebra -/

/-- The symbol changes sign under exchange of neighbouring indices and is one on the identity. -/
theorem epsilon_rules (i j k l : Fin 4) :
    epsilon 0 1 2 3 = 1 ∧ epsilon j i k l = -epsilon i j k l ∧ epsilon i k j l = -epsilon i j k l
    ∧ epsilon i j l k = -epsilon i j k l := by
  unfold epsilon
  refine ⟨by norm_num, by ring, by ring, by ring⟩

/-- Neither polarisation along its own momentum contributes. -/
theorem vertex_transverse (c : ℝ) (p k : Fin 4 → ℝ) (j : Fin 4) :
    ∑ i, p i * vertex c p k i j = 0 ∧ ∑ i, k i * vertex c p k j i = 0 := by
  fin_cases j <;>
    · unfold vertex epsilon
      simp [Fin.sum_univ_four]
      constructor <;> ring

set_option maxHeartbeats 1000000 in
theorem decaySq_eq (c : ℝ) (p k : Fin 4 → ℝ) :
    decaySq c p k = 2 / 3 * c ^ 2 * (mink p k ^ 2 - mink p p * mink k k) := by
  unfold decaySq vertex epsilon metric
  simp [Fin.sum_univ_four, mink]
  ring

theorem mom_anom {e a b : ℝ} (ha : 0 ≤ a) (hb : 0 ≤ b) (he : 0 < e) (h : a + b ≤ e) :
    ElasticFeynman.mom e a b ^ 2 = (e ^ 2 - (a + b) ^ 2) * (e ^ 2 - (a - b) ^ 2) / (4 * e ^ 2) :=
  ElasticFeynman.mom_sq ha hb he h

/-- C291: the width from the anomaly. -/
theorem width_eq (c : ℝ) {M a b : ℝ} (ha : 0 ≤ a) (hb : 0 ≤ b) (hM : 0 < M) (h : a + b ≤ M) :
    width c M a b = c ^ 2 * ElasticFeynman.mom M a b ^ 3 / (12 * Real.pi) := by
  have hs := (ElasticFeynman.shells ha hb hM h (z := 1) (by norm_num)).1
  have h1 : mink ![M, 0, 0, 0] (dark M a b 1) = (M ^ 2 + a ^ 2 - b ^ 2) / 2 := by
    simp [mink, dark]; field_simp
  have h2 : mink ![M, 0, 0, 0] ![M, 0, 0, 0] = M ^ 2 := by simp [mink]; ring
  have hk := ElasticFeynman.mom_sq ha hb hM h
  have h3 : ((M ^ 2 + a ^ 2 - b ^ 2) / 2) ^ 2 - M ^ 2 * a ^ 2 = M ^ 2 * ElasticFeynman.mom M a b ^ 2 := by
    rw [hk]; field_simp; ring
  unfold width
  rw [decaySq_eq, h1, h2, hs, h3]
  have hp := Real.pi_pos
  field_simp
  ring

theorem vertex_com (c e k0 k1 k3 : ℝ) (i j : Fin 4) :
    vertex c ![e, 0, 0, 0] ![k0, k1, 0, k3] i j
      = c * e * (epsilon i j 0 1 * k1 + epsilon i j 0 3 * k3 + epsilon i j 0 0 * k0) := by
  unfold vertex
  simp [Fin.sum_univ_four]
  ring

/-- C291: the squared amplitude in the centre-of-mass frame. -/
theorem annSq_com (g c M w : ℝ) {m a b e z : ℝ} (hm : 0 ≤ m) (h1 : 2 * m ≤ e) (he : 0 < e) (hz : z ^ 2 ≤ 1) :
    annSq g c M w m (comP e m 1) (comN e m 1) (dark e a b z)
      = (g * c) ^ 2 * e ^ 2 * ElasticFeynman.mom e a b ^ 2 * (e ^ 2 - 2 * FeynmanRules.mom e m ^ 2 * (1 - z ^ 2))
        / propagator M e w := by
  have hp := mom_sq hm h1
  have hs : Real.sqrt (1 - z ^ 2) ^ 2 = 1 - z ^ 2 := Real.sq_sqrt (by linarith)
  have hsum : comP e m 1 + comN e m 1 = ![e, 0, 0, 0] := by
    ext i; fin_cases i <;> simp [comP, comN]
  have hE : mink (![e, 0, 0, 0] : Fin 4 → ℝ) ![e, 0, 0, 0] = e ^ 2 := by simp [mink]; ring
  unfold annSq
  rw [hsum, hE, normSq_prop]
  have hP : (e ^ 2 - M ^ 2) ^ 2 + (M * w) ^ 2 = propagator M e w := by unfold propagator; ring
  rw [hP]
  congr 1
  simp only [tr_gamma_gamma, Complex.ofReal_re]
  unfold dark
  simp only [vertex_com]
  have hmn : mink (comN e m 1) (comP e m 1) = e ^ 2 / 4 + FeynmanRules.mom e m ^ 2 := by
    simp [mink, comP, comN]; ring
  rw [hmn]
  unfold epsilon metric
  simp [Fin.sum_univ_four, comP, comN]
  norm_num
  generalize ElasticFeynman.mom e a b = k at *
  generalize FeynmanRules.mom e m = p at *
  generalize Real.sqrt (1 - z ^ 2) = y at *
  have hm3 : m ^ 2 = e ^ 2 / 4 - p ^ 2 := by linarith
  ring_nf
  simp only [hm3]
  linear_combination (exp := 1) (g ^ 2 * c ^ 2 * k ^ 2 * e ^ 2 * (e ^ 2 - 2 * p ^ 2)) * hs

/-- C291: the cross section of the anomaly channels. -/
theorem sigma_eq (g c M w : ℝ) {m a b e : ℝ} (hm : 0 ≤ m) (h1 : 2 * m < e) (hP : propagator M e w ≠ 0) :
    sigma g c M w m a b e
      = (g * c) ^ 2 * ElasticFeynman.mom e a b ^ 3 * (e ^ 2 + 2 * m ^ 2)
        / (24 * Real.pi * FeynmanRules.mom e m * propagator M e w) := by
  have he : 0 < e := by linarith
  have hp := mom_sq hm h1.le
  have pa : 0 < FeynmanRules.mom e m := Real.sqrt_pos.mpr (by nlinarith)
  have hpi := Real.pi_pos
  have hint : ∀ z ∈ Set.uIcc (-1 : ℝ) 1, annSq g c M w m (comP e m 1) (comN e m 1) (dark e a b z)
      = (g * c) ^ 2 * e ^ 2 * ElasticFeynman.mom e a b ^ 2 / propagator M e w
        * ((e ^ 2 - 2 * FeynmanRules.mom e m ^ 2) + 2 * FeynmanRules.mom e m ^ 2 * z ^ 2) := by
    intro z hz
    rw [Set.uIcc_of_le (by norm_num)] at hz
    rw [annSq_com g c M w hm h1.le he (by nlinarith [hz.1, hz.2])]
    ring
  unfold sigma
  rw [intervalIntegral.integral_congr hint, intervalIntegral.integral_const_mul,
    intervalIntegral.integral_add (by apply Continuous.intervalIntegrable; fun_prop)
      (by apply Continuous.intervalIntegrable; fun_prop),
    intervalIntegral.integral_const, intervalIntegral.integral_const_mul, integral_pow]
  have hm3 : m ^ 2 = e ^ 2 / 4 - FeynmanRules.mom e m ^ 2 := by linarith
  rw [hm3, smul_eq_mul]
  generalize FeynmanRules.mom e m = p at *
  generalize ElasticFeynman.mom e a b = k at *
  field_simp
  ring

theorem pionSq_com (g h M w : ℝ) {m n e z : ℝ} (hm : 0 ≤ m) (h1 : 2 * m ≤ e) (hz : z ^ 2 ≤ 1) :
    pionSq g h M w m (comP e m 1) (comN e m 1) (comP e n z) (comN e n z)
      = 2 * (g * h) ^ 2 * FeynmanRules.mom e n ^ 2 * (e ^ 2 - 4 * FeynmanRules.mom e m ^ 2 * z ^ 2)
        / propagator M e w := by
  have hp := mom_sq hm h1
  have hs : Real.sqrt (1 - z ^ 2) ^ 2 = 1 - z ^ 2 := Real.sq_sqrt (by linarith)
  have hsum : comP e m 1 + comN e m 1 = ![e, 0, 0, 0] := by
    ext i; fin_cases i <;> simp [comP, comN]
  have hE : mink (![e, 0, 0, 0] : Fin 4 → ℝ) ![e, 0, 0, 0] = e ^ 2 := by simp [mink]; ring
  unfold pionSq
  rw [hsum, hE, normSq_prop]
  have hP : (e ^ 2 - M ^ 2) ^ 2 + (M * w) ^ 2 = propagator M e w := by unfold propagator; ring
  rw [hP]
  congr 1
  simp only [tr_gamma_gamma, Complex.ofReal_re]
  have hmn : mink (comN e m 1) (comP e m 1) = e ^ 2 / 4 + FeynmanRules.mom e m ^ 2 := by
    simp [mink, comP, comN]; ring
  rw [hmn]
  unfold metric
  simp [Fin.sum_univ_four, comP, comN]
  generalize FeynmanRules.mom e n = k at *
  generalize FeynmanRules.mom e m = p at *
  generalize Real.sqrt (1 - z ^ 2) = y at *
  have hm3 : m ^ 2 = e ^ 2 / 4 - p ^ 2 := by linarith
  ring_nf
  simp only [hm3]
  linear_combination (exp := 1) (2 * g ^ 2 * h ^ 2 * k ^ 2 * e ^ 2) * hs

theorem pionSigma_eq (g h M w : ℝ) {m n e : ℝ} (hm : 0 ≤ m) (h1 : 2 * m < e) (hP : propagator M e w ≠ 0) :
    pionSigma g h M w m n e
      = (g * h) ^ 2 * FeynmanRules.mom e n ^ 3 * (e ^ 2 + 2 * m ^ 2)
        / (12 * Real.pi * e ^ 2 * FeynmanRules.mom e m * propagator M e w) := by
  have he : 0 < e := by linarith
  have hp := mom_sq hm h1.le
  have pa : 0 < FeynmanRules.mom e m := Real.sqrt_pos.mpr (by nlinarith)
  have hpi := Real.pi_pos
  have hint : ∀ z ∈ Set.uIcc (-1 : ℝ) 1, pionSq g h M w m (comP e m 1) (comN e m 1) (comP e n z) (comN e n z)
      = 2 * (g * h) ^ 2 * FeynmanRules.mom e n ^ 2 / propagator M e w
        * (e ^ 2 - 4 * FeynmanRules.mom e m ^ 2 * z ^ 2) := by
    intro z hz
    rw [Set.uIcc_of_le (by norm_num)] at hz
    rw [pionSq_com g h M w hm h1.le (by nlinarith [hz.1, hz.2])]
    ring
  unfold pionSigma
  rw [intervalIntegral.integral_congr hint, intervalIntegral.integral_const_mul,
    intervalIntegral.integral_sub (by apply Continuous.intervalIntegrable; fun_prop)
      (by apply Continuous.intervalIntegrable; fun_prop),
    intervalIntegral.integral_const, intervalIntegral.integral_const_mul, integral_pow]
  have hm3 : m ^ 2 = e ^ 2 / 4 - FeynmanRules.mom e m ^ 2 := by linarith
  rw [hm3, smul_eq_mul]
  generalize FeynmanRules.mom e m = p at *
  generalize FeynmanRules.mom e n = k at *
  field_simp
  ring

/-! ## The code -/

/-- C291: `sigma_xx_to_v_to_pipi` is the cross section of a pion of charge `gvuu - gvdd`. -/
theorem pipi_sigma (k : VectorModel.Consts) (M g u d w : ℝ) {m e : ℝ} (hm : 0 ≤ m) (hk : 0 ≤ k.mpi) (h1 : 2 * m < e)
    (h2 : 2 * k.mpi < e) (hP : propagator M e w ≠ 0) :
    vectorPiPi k e m M g u d w = .ok (pionSigma g (u - d) M w m k.mpi e) := by
  have he : 0 < e := by linarith
  have pa : 0 < FeynmanRules.mom e m := Real.sqrt_pos.mpr (by nlinarith)
  have b := mom_sq hk h2.le
  have hpi := Real.pi_pos
  unfold vectorPiPi
  rw [pionSigma_eq g _ M w hm h1 hP, if_neg (by push Not; exact ⟨h1.le, h2.le⟩), rpow_three_half (by nlinarith),
    sqrt_mom hm h1.le, sqrt_mom hk h2.le, quotient_ok (by positivity)]
  congr 1
  rw [show -4 * k.mpi ^ 2 + e ^ 2 = 4 * FeynmanRules.mom e k.mpi ^ 2 by rw [b]; ring]
  field_simp
  ring

/-- C291: `width_v_to_pipi` is the width of the same coupling. -/
theorem pipi_width (k : VectorModel.Consts) (s : VectorModel.Base) (hk : 0 ≤ k.mpi) (h : 2 * k.mpi < s.mv) :
    VectorModel.widthPiPi k s = .ok (pionWidth (s.gvuu - s.gvdd) s.mv k.mpi) := by
  have hM : 0 < s.mv := by linarith
  have b := mom_sq hk h.le
  have hpi := Real.pi_pos
  have pb : 0 < FeynmanRules.mom s.mv k.mpi := Real.sqrt_pos.mpr (by nlinarith)
  have h1 : 1 - 4 * (k.mpi / s.mv) ^ 2 = (2 * FeynmanRules.mom s.mv k.mpi / s.mv) ^ 2 := by
    rw [div_pow (2 * FeynmanRules.mom s.mv k.mpi), mul_pow, b]; field_simp; ring
  have h2 : (1 - 4 * (k.mpi / s.mv) ^ 2) ^ (3 / 2 : ℝ) = (2 * FeynmanRules.mom s.mv k.mpi / s.mv) ^ 3 := by
    rw [rpow_three_half (by rw [h1]; positivity), h1, Real.sqrt_sq (by positivity)]; ring
  unfold VectorModel.widthPiPi
  rw [if_pos h]
  simp only [ScalarModel.pydiv, ScalarModel.checked, bind, Except.bind]
  rw [if_neg hM.ne']
  simp only [h2]
  rw [if_neg (by positivity)]
  simp only []
  rw [if_pos (by positivity)]
  congr 1
  unfold pionWidth metric
  simp [Fin.sum_univ_four, comP, comN]
  field_simp
  ring

/-- The constants: the electric charge is the root of `4πα`. -/
def Charged (k : VectorModel.Consts) : Prop := k.qe ^ 2 = 4 * Real.pi * k.alpha

/-- C291: `width_v_to_pi0g` is the width of the anomaly, with the photon coupled to the quarks by their charges. -/
theorem pi0g_width (k : VectorModel.Consts) (s : VectorModel.Base) (hk : 0 ≤ k.mpi0) (h : k.mpi0 < s.mv)
    (hf : k.fpi ≠ 0) (hq : Charged k) :
    VectorModel.widthPi0G k s
      = .ok (width (strength s.gvuu s.gvdd (k.qe * VectorModel.Qu) (k.qe * VectorModel.Qd) k.fpi) s.mv 0 k.mpi0) := by
  have hM : 0 < s.mv := by linarith
  have hpi := Real.pi_pos
  have hmom : ElasticFeynman.mom s.mv 0 k.mpi0 = (s.mv ^ 2 - k.mpi0 ^ 2) / (2 * s.mv) := by
    unfold ElasticFeynman.mom
    rw [show (s.mv ^ 2 - (0 + k.mpi0) ^ 2) * (s.mv ^ 2 - (0 - k.mpi0) ^ 2) = (s.mv ^ 2 - k.mpi0 ^ 2) ^ 2 by ring,
      Real.sqrt_sq (by nlinarith)]
  unfold VectorModel.widthPi0G
  rw [if_pos h, width_eq _ le_rfl hk hM (by linarith), hmom]
  simp only [ScalarModel.pydiv, ScalarModel.checked, bind, Except.bind]
  rw [if_neg hM.ne']
  simp only []
  have ha : 0 ≤ k.alpha := by
    have : 0 ≤ 4 * Real.pi * k.alpha := hq ▸ sq_nonneg k.qe
    by_contra hn
    nlinarith
  have hr : 0 ≤ 1 - (k.mpi0 / s.mv) ^ 2 := by
    have : k.mpi0 / s.mv ≤ 1 := (div_le_one hM).mpr h.le
    have : 0 ≤ k.mpi0 / s.mv := by positivity
    nlinarith
  rw [if_neg (by positivity)]
  simp only []
  rw [if_pos (by positivity)]
  congr 1
  unfold strength VectorModel.Qu VectorModel.Qd
  have e1 : (3 * (s.gvuu * (k.qe * (2 / 3)) - s.gvdd * (k.qe * (-1 / 3))) / (4 * Real.pi ^ 2 * k.fpi)) ^ 2
      = k.qe ^ 2 * (2 * s.gvuu + s.gvdd) ^ 2 / (16 * Real.pi ^ 4 * k.fpi ^ 2) := by field_simp; ring
  rw [e1, hq]
  field_simp
  ring

/-- C291: both anomaly cross sections of the kernels are one ninth of the cross section of the rules that give the
width: the factor of three colours is missing from the amplitude. -/
theorem anomaly_sigma (k : VectorModel.Consts) (M g u d w : ℝ) {m e : ℝ} (hm : 0 ≤ m) (hk : 0 ≤ k.mpi0) (hM : 0 ≤ M)
    (h1 : 2 * m < e) (hf : k.fpi ≠ 0) (hq : Charged k) (hP : propagator M e w ≠ 0) :
    (k.mpi0 < e → 9 * vectorPi0G k e m M g u d w
        = sigma g (strength u d (k.qe * VectorModel.Qu) (k.qe * VectorModel.Qd) k.fpi) M w m 0 k.mpi0 e)
    ∧ (k.mpi0 + M < e → ∃ v, vectorPi0V k e m M g u d w = .ok v
        ∧ 9 * v = sigma g (strength u d u d k.fpi) M w m M k.mpi0 e) := by
  have he : 0 < e := by linarith
  have hpi := Real.pi_pos
  have pa : 0 < FeynmanRules.mom e m := Real.sqrt_pos.mpr (by nlinarith)
  constructor
  · intro h2
    have hmom : ElasticFeynman.mom e 0 k.mpi0 = (e ^ 2 - k.mpi0 ^ 2) / (2 * e) := by
      unfold ElasticFeynman.mom
      rw [show (e ^ 2 - (0 + k.mpi0) ^ 2) * (e ^ 2 - (0 - k.mpi0) ^ 2) = (e ^ 2 - k.mpi0 ^ 2) ^ 2 by ring,
        Real.sqrt_sq (by nlinarith)]
    unfold vectorPi0G
    rw [if_neg (by push Not; exact ⟨h2.le, h1.le⟩), sigma_eq _ _ _ _ hm h1 hP, hmom, sqrt_mom hm h1.le]
    unfold strength VectorModel.Qu VectorModel.Qd
    have e1 : (g * (3 * (u * (k.qe * (2 / 3)) - d * (k.qe * (-1 / 3))) / (4 * Real.pi ^ 2 * k.fpi))) ^ 2
        = g ^ 2 * (k.qe ^ 2 * (2 * u + d) ^ 2 / (16 * Real.pi ^ 4 * k.fpi ^ 2)) := by field_simp; ring
    rw [e1, hq]
    field_simp
    ring
  · intro h2
    have hk2 := ElasticFeynman.mom_sq hM hk he (by linarith : M + k.mpi0 ≤ e)
    have hpos : 0 < (e ^ 2 - (M + k.mpi0) ^ 2) * (e ^ 2 - (M - k.mpi0) ^ 2) :=
      mul_pos (by nlinarith) (by nlinarith [abs_nonneg (M - k.mpi0)])
    have pk : 0 < ElasticFeynman.mom e M k.mpi0 := by
      unfold ElasticFeynman.mom
      exact div_pos (Real.sqrt_pos.mpr hpos) (by linarith)
    have h3 : (k.mpi0 - M - e) * (M + k.mpi0 - e) * (e + (k.mpi0 - M)) * (e + (M + k.mpi0))
        = (2 * e * ElasticFeynman.mom e M k.mpi0) ^ 2 := by
      rw [mul_pow, hk2]; field_simp; ring
    refine ⟨_, by unfold vectorPi0V; rw [if_neg (by push Not; exact ⟨by linarith, h1.le⟩), sqrt_mom hm h1.le]
                  exact quotient_ok (by positivity), ?_⟩
    rw [h3, rpow_three_half (by positivity), Real.sqrt_sq (by positivity), sigma_eq _ _ _ _ hm h1 hP]
    unfold strength
    field_simp
    ring

/-- C291, the part that holds: the channel into charged pions has width and cross section of the Feynman rules, the
channel into a pion and a photon has the width of the anomaly. -/
theorem hadronic_channels_partial (k : VectorModel.Consts) (s : VectorModel.Base) (e : ℝ) (hmx : 0 ≤ s.mx)
    (hk : 0 < k.mpi) (hk0 : 0 < k.mpi0) (hf : k.fpi ≠ 0) (hq : Charged k) (hM : 0 < s.mv) (hw : 0 < s.width) :
    (2 * s.mx < e → 2 * k.mpi < e → vectorPiPi k e s.mx s.mv s.gvxx s.gvuu s.gvdd s.width
        = .ok (pionSigma s.gvxx (s.gvuu - s.gvdd) s.mv s.width s.mx k.mpi e))
    ∧ (2 * k.mpi < s.mv → VectorModel.widthPiPi k s = .ok (pionWidth (s.gvuu - s.gvdd) s.mv k.mpi))
    ∧ (k.mpi0 < s.mv → VectorModel.widthPi0G k s = .ok
        (width (strength s.gvuu s.gvdd (k.qe * VectorModel.Qu) (k.qe * VectorModel.Qd) k.fpi) s.mv 0 k.mpi0)) := by
  have hP : propagator s.mv e s.width ≠ 0 := by
    unfold propagator
    have : 0 < (s.mv * s.width) ^ 2 := by positivity
    have := sq_nonneg (e ^ 2 - s.mv ^ 2)
    nlinarith
  exact ⟨fun h1 h2 => pipi_sigma k _ _ _ _ _ hmx hk.le h1 h2 hP, fun h => pipi_width k s hk.le h,
    fun h => pi0g_width k s hk0.le h hf hq⟩

/-- C291: as soon as the couplings do not vanish the anomaly cross sections are wrong. -/
theorem anomaly_sigma_wrong (k : VectorModel.Consts) (M g u d w : ℝ) {m e : ℝ} (hm : 0 ≤ m) (hk : 0 ≤ k.mpi0)
    (hM : 0 ≤ M) (h1 : 2 * m < e) (hf : k.fpi ≠ 0) (hq : Charged k) (hP : 0 < propagator M e w)
    (h2 : k.mpi0 + M < e) (hg : g ≠ 0) (hc : u ^ 2 ≠ d ^ 2) (hqe : k.qe * (2 * u + d) ≠ 0) :
    vectorPi0G k e m M g u d w
        < sigma g (strength u d (k.qe * VectorModel.Qu) (k.qe * VectorModel.Qd) k.fpi) M w m 0 k.mpi0 e
    ∧ ∃ v, vectorPi0V k e m M g u d w = .ok v ∧ v < sigma g (strength u d u d k.fpi) M w m M k.mpi0 e := by
  obtain ⟨a, b⟩ := anomaly_sigma k M g u d w hm hk hM h1 hf hq hP.ne'
  have he : 0 < e := by linarith
  have hpi := Real.pi_pos
  have pa : 0 < FeynmanRules.mom e m := Real.sqrt_pos.mpr (by nlinarith)
  have pos : ∀ c x : ℝ, c ≠ 0 → 0 ≤ x → x + k.mpi0 < e → 0 < sigma g c M w m x k.mpi0 e := by
    intro c x hc hx hxe
    have hpos : 0 < (e ^ 2 - (x + k.mpi0) ^ 2) * (e ^ 2 - (x - k.mpi0) ^ 2) :=
      mul_pos (by nlinarith) (by nlinarith [abs_nonneg (x - k.mpi0)])
    have pk : 0 < ElasticFeynman.mom e x k.mpi0 := by
      unfold ElasticFeynman.mom
      exact div_pos (Real.sqrt_pos.mpr hpos) (by linarith)
    rw [sigma_eq _ _ _ _ hm h1 hP.ne']
    have : 0 < (g * c) ^ 2 := by positivity
    positivity
  have c1 : strength u d (k.qe * VectorModel.Qu) (k.qe * VectorModel.Qd) k.fpi ≠ 0 := by
    unfold strength VectorModel.Qu VectorModel.Qd
    refine div_ne_zero (fun h => hqe (by linarith)) (by positivity)
  have c2 : strength u d u d k.fpi ≠ 0 := by
    unfold strength
    refine div_ne_zero (fun h => hc (by linarith)) (by positivity)
  have p1 := pos _ 0 c1 le_rfl (by linarith)
  have p2 := pos _ M c2 hM (by linarith)
  refine ⟨by linarith [a (by linarith)], ?_⟩
  obtain ⟨v, hv, hv9⟩ := b h2
  exact ⟨v, hv, by linarith⟩

/-- A vector of unit mass at rest decaying to a massless vector and a pion of half its mass. -/
example : width 1 1 0 (1 / 2) = (3 / 8) ^ 3 / (12 * Real.pi) := by
  rw [width_eq 1 le_rfl (by norm_num) one_pos (by norm_num)]
  have : ElasticFeynman.mom 1 0 (1 / 2) = 3 / 8 := by
    unfold ElasticFeynman.mom
    rw [show ((1 : ℝ) ^ 2 - (0 + 1 / 2) ^ 2) * (1 ^ 2 - (0 - 1 / 2) ^ 2) = (3 / 4) ^ 2 by norm_num,
      Real.sqrt_sq (by norm_num)]
    norm_num
  rw [this]; norm_num

/-- The photon couples to the pion with its standard strength. -/
example (q f : ℝ) (hf : f ≠ 0) : strength (2 / 3 * q) (-1 / 3 * q) (2 / 3 * q) (-1 / 3 * q) f
    = q ^ 2 / (4 * Real.pi ^ 2 * f) := by
  unfold strength
  field_simp
  ring

end Hazma.Anomaly
