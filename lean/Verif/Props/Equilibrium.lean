import Verif.Lemmas.Bessel
import Mathlib.Analysis.Complex.ExponentialBounds

/-! # Equilibrium densities and their derivatives -/

namespace Hazma.Relic

open MeasureTheory Set Filter Topology

theorem nbar_expand (f : Bool) (x : ℝ) :
    nbar f x = (eta f ^ 2 * (x ^ 2 * besselK 2 (1 * x)) + eta f ^ 3 / 2 * (x ^ 2 * besselK 2 (2 * x))
      + eta f ^ 4 / 3 * (x ^ 2 * besselK 2 (3 * x)) + eta f ^ 5 / 4 * (x ^ 2 * besselK 2 (4 * x))
      + eta f ^ 6 / 5 * (x ^ 2 * besselK 2 (5 * x))) / (2 * Real.pi ^ 2) := by
  unfold nbar
  simp only [List.range', List.map, List.sum_cons, List.sum_nil]
  norm_num
  ring

theorem dnbar_expand (f : Bool) (x : ℝ) :
    dnbar f x = x ^ 2 * (eta f * besselK 1 (1 * x) + eta f ^ 2 * besselK 1 (2 * x)
      + eta f ^ 3 * besselK 1 (3 * x) + eta f ^ 4 * besselK 1 (4 * x)
      + eta f ^ 5 * besselK 1 (5 * x)) / (2 * Real.pi ^ 2) := by
  unfold dnbar
  simp only [List.range', List.map, List.sum_cons, List.sum_nil]
  norm_num
  left
  ring

theorem term_deriv {n x : ℝ} (hn : 0 < n) (hx : 0 < x) :
    HasDerivAt (fun x => x ^ 2 * besselK 2 (n * x)) (-(n * x ^ 2 * besselK 1 (n * x))) x := by
  have h := besselK_deriv (show 0 < n * x by positivity)
  have hc : HasDerivAt (fun x : ℝ => n * x) n x := by
    simpa using (hasDerivAt_id x).const_mul n
  have h2 := (HasDerivAt.comp x h hc).const_mul (1 / n ^ 2)
  have h3 : HasDerivAt (fun x => x ^ 2 * besselK 2 (n * x))
      (1 / n ^ 2 * (-((n * x) ^ 2 * besselK 1 (n * x)) * n)) x := by
    refine h2.congr_of_eventuallyEq (Eventually.of_forall fun y => ?_)
    simp only [Function.comp]
    field_simp
  refine h3.congr_deriv ?_
  field_simp

/-- Derivative of the truncated sum. -/
theorem nbar_hasDerivAt (f : Bool) {x : ℝ} (hx : 0 < x) :
    HasDerivAt (nbar f) (-(eta f * dnbar f x)) x := by
  have d := (((((term_deriv one_pos hx).const_mul (eta f ^ 2)).add
    ((term_deriv two_pos hx).const_mul (eta f ^ 3 / 2))).add
    ((term_deriv three_pos hx).const_mul (eta f ^ 4 / 3))).add
    ((term_deriv four_pos hx).const_mul (eta f ^ 5 / 4))).add
    ((term_deriv (show (0 : ℝ) < 5 by norm_num) hx).const_mul (eta f ^ 6 / 5))
  have d2 := d.div_const (2 * Real.pi ^ 2)
  have e : nbar f = fun x => (eta f ^ 2 * (x ^ 2 * besselK 2 (1 * x)) + eta f ^ 3 / 2 * (x ^ 2 * besselK 2 (2 * x))
      + eta f ^ 4 / 3 * (x ^ 2 * besselK 2 (3 * x)) + eta f ^ 5 / 4 * (x ^ 2 * besselK 2 (4 * x))
      + eta f ^ 6 / 5 * (x ^ 2 * besselK 2 (5 * x))) / (2 * Real.pi ^ 2) := funext (nbar_expand f)
  rw [e]
  refine d2.congr_deriv ?_
  rw [dnbar_expand]
  ring

theorem neq_massive_deriv (f : Bool) (T m g : ℝ) (hT : 0 < T) (hm : 0 < m) :
    HasDerivAt (fun T => neq T m g f)
      (g * T * (3 * T * nbar f (m / T) + m * (eta f * dnbar f (m / T)))) T := by
  have hx : 0 < m / T := by positivity
  have hq : HasDerivAt (fun T : ℝ => m / T) (-(m / T ^ 2)) T := by
    have := (hasDerivAt_inv hT.ne').const_mul m
    refine (this.congr_deriv (by field_simp)).congr_of_eventuallyEq (Eventually.of_forall fun y => ?_)
    exact div_eq_mul_inv m y
  have d := ((HasDerivAt.comp T (nbar_hasDerivAt f hx) hq).const_mul g).mul (hasDerivAt_pow 3 T)
  have e : (fun T => neq T m g f) = fun T => g * (nbar f ∘ fun T => m / T) T * T ^ 3 := by
    funext T; simp only [neq, if_neg hm.ne', Function.comp]
  rw [e]
  refine d.congr_deriv ?_
  simp only [Function.comp]
  field_simp
  push_cast
  ring

/-- C44 (the part that holds): `neq_deriv` is the derivative of `neq` for fermions of any mass and for
massless bosons. -/
theorem neqDeriv_is_derivative_partial (T m g : ℝ) (hT : 0 < T) (hm : 0 ≤ m) (f : Bool)
    (hf : f = true ∨ m = 0) : HasDerivAt (fun T => neq T m g f) (neqDeriv T m g f) T := by
  rcases hm.eq_or_lt' with h0 | hpos
  · have e : (fun T => neq T m g f) = fun T => g * masslessNbar f * T ^ 3 := by
      funext T; simp only [neq, if_pos h0]
    rw [e]
    refine ((hasDerivAt_pow 3 T).const_mul (g * masslessNbar f)).congr_deriv ?_
    simp only [neqDeriv, if_pos h0]
    push_cast
    ring
  · have hf' : f = true := hf.resolve_right hpos.ne'
    refine (neq_massive_deriv f T m g hT hpos).congr_deriv ?_
    subst hf'
    simp only [neqDeriv, if_neg hpos.ne', eta, if_true]
    ring

theorem dnbar_boson_pos {x : ℝ} (hx : 0 < x) : 0 < dnbar false x := by
  rw [dnbar_expand]
  simp only [eta, Bool.false_eq_true, if_false]
  have hpi := Real.pi_pos
  have h1 := besselK_one_pos (show 0 < 1 * x by positivity)
  have h2 := besselK_one_pos (show 0 < 2 * x by positivity)
  have h3 := besselK_one_pos (show 0 < 3 * x by positivity)
  have h4 := besselK_one_pos (show 0 < 4 * x by positivity)
  have h5 := besselK_one_pos (show 0 < 5 * x by positivity)
  positivity

/-- C44 is false for massive bosons: the sign of the Bessel sum is wrong, so the returned value is
smaller than the derivative by exactly `2 g m T dnbar`. -/
theorem neqDeriv_boson_wrong (T m g : ℝ) (hT : 0 < T) (hm : 0 < m) (hg : 0 < g) :
    HasDerivAt (fun T => neq T m g false) (neqDeriv T m g false + 2 * g * m * T * dnbar false (m / T)) T
    ∧ neqDeriv T m g false < deriv (fun T => neq T m g false) T := by
  have h : HasDerivAt (fun T => neq T m g false)
      (neqDeriv T m g false + 2 * g * m * T * dnbar false (m / T)) T := by
    refine (neq_massive_deriv false T m g hT hm).congr_deriv ?_
    simp only [neqDeriv, if_neg hm.ne', eta, Bool.false_eq_true, if_false]
    ring
  refine ⟨h, ?_⟩
  rw [h.deriv]
  have := dnbar_boson_pos (show 0 < m / T by positivity)
  have : 0 < 2 * g * m * T * dnbar false (m / T) := by positivity
  linarith

example : neqDeriv 10 100 1 false < deriv (fun T => neq T 100 1 false) 10 :=
  (neqDeriv_boson_wrong 10 100 1 (by norm_num) (by norm_num) one_pos).2

example : HasDerivAt (fun T => neq T 100 2 true) (neqDeriv 10 100 2 true) 10 :=
  neqDeriv_is_derivative_partial 10 100 2 (by norm_num) (by norm_num) true (Or.inl rfl)

/-- The entropy density's derivative. -/
theorem entropy_deriv (sm : Sm) (T : ℝ) (h : HasDerivAt sm.heff (sm.heffDeriv T) T) :
    HasDerivAt (entropy sm) (entropyDeriv sm T) T := by
  have d := (h.const_mul (2 * Real.pi ^ 2 / 45)).mul (hasDerivAt_pow 3 T)
  refine d.congr_deriv ?_
  simp only [entropyDeriv]
  push_cast
  ring

/-- C94: `yeq_deriv` and `yeq_derivx` are the derivatives of the equilibrium abundance with respect to
temperature and to `x = m / T`, for fermions, wherever the tabulated degrees of freedom are smooth. -/
theorem yeq_derivatives (sm : Sm) (m g x : ℝ) (hx : 0 < x) (hm : 0 < m) (hh : sm.heff (m / x) ≠ 0)
    (hd : HasDerivAt sm.heff (sm.heffDeriv (m / x)) (m / x)) :
    HasDerivAt (fun T => yeq sm T m g true) (yeqDeriv sm (m / x) m g true) (m / x)
    ∧ HasDerivAt (fun x => yeq sm (m / x) m g true) (yeqDerivX sm x m g true) x := by
  have hT : 0 < m / x := by positivity
  have hpi := Real.pi_pos
  have hs : entropy sm (m / x) ≠ 0 := by
    unfold entropy
    have : (m / x) ^ 3 ≠ 0 := by positivity
    have : 2 * Real.pi ^ 2 / 45 ≠ 0 := by positivity
    positivity
  have h1 : HasDerivAt (fun T => yeq sm T m g true) (yeqDeriv sm (m / x) m g true) (m / x) := by
    have d := (neqDeriv_is_derivative_partial (m / x) m g hT hm.le true (Or.inl rfl)).div
      (entropy_deriv sm (m / x) hd) hs
    refine d.congr_deriv ?_
    simp only [yeqDeriv]
    ring
  refine ⟨h1, ?_⟩
  have hq : HasDerivAt (fun x : ℝ => m / x) (-(m / x ^ 2)) x := by
    have := (hasDerivAt_inv hx.ne').const_mul m
    refine (this.congr_deriv (by field_simp)).congr_of_eventuallyEq (Eventually.of_forall fun y => ?_)
    exact div_eq_mul_inv m y
  refine (HasDerivAt.comp x h1 hq).congr_deriv ?_
  simp only [yeqDerivX]
  ring

/-- The number density of an ideal Fermi (`fermion = true`) or Bose gas without chemical potential. -/
noncomputable def idealGas (T m g : ℝ) (fermion : Bool) : ℝ :=
  g / (2 * Real.pi ^ 2)
    * ∫ p in Ioi (0 : ℝ), p ^ 2 / (Real.exp (Real.sqrt (p ^ 2 + m ^ 2) / T) + if fermion then 1 else -1)

/-- Boltzmann factor. -/
noncomputable def bq (T m p : ℝ) : ℝ := Real.exp (-(Real.sqrt (p ^ 2 + m ^ 2) / T))

theorem bq_pos (T m p : ℝ) : 0 < bq T m p := Real.exp_pos _

theorem bq_le {T m : ℝ} (hT : 0 < T) (hm : 0 < m) (p : ℝ) : bq T m p ≤ Real.exp (-(m / T)) := by
  unfold bq
  have : m ≤ Real.sqrt (p ^ 2 + m ^ 2) := Real.le_sqrt_of_sq_le (by nlinarith [sq_nonneg p])
  gcongr

theorem bq_pow_int {T m : ℝ} (hT : 0 < T) (hm : 0 < m) (n : ℕ) (hn : 0 < n) :
    IntegrableOn (fun p : ℝ => p ^ 2 * bq T m p ^ n) (Ioi 0)
    ∧ ∫ p in Ioi (0 : ℝ), p ^ 2 * bq T m p ^ n = T ^ 3 * ((m / T) ^ 2 * besselK 2 (n * (m / T))) / n := by
  have hn' : (0 : ℝ) < n := by exact_mod_cast hn
  have h := momentum_integral hm (show 0 < (n : ℝ) / T by positivity)
  have e : (fun p : ℝ => p ^ 2 * bq T m p ^ n)
      = fun p => p ^ 2 * Real.exp (-(n / T * Real.sqrt (p ^ 2 + m ^ 2))) := by
    funext p
    unfold bq
    rw [← Real.exp_nat_mul]
    congr 2
    ring
  rw [e]
  refine ⟨h.1, ?_⟩
  rw [h.2, show (n : ℝ) / T * m = n * (m / T) by ring]
  field_simp

/-- The five-term sum as one integral. -/
theorem neq_eq_integral (T m g : ℝ) (hT : 0 < T) (hm : 0 < m) (f : Bool) :
    IntegrableOn (fun p : ℝ => p ^ 2 * (eta f ^ 2 * bq T m p ^ 1 + eta f ^ 3 * bq T m p ^ 2
        + eta f ^ 4 * bq T m p ^ 3 + eta f ^ 5 * bq T m p ^ 4 + eta f ^ 6 * bq T m p ^ 5)) (Ioi 0)
    ∧ neq T m g f = g / (2 * Real.pi ^ 2) * ∫ p in Ioi (0 : ℝ), p ^ 2 * (eta f ^ 2 * bq T m p ^ 1
      + eta f ^ 3 * bq T m p ^ 2 + eta f ^ 4 * bq T m p ^ 3 + eta f ^ 5 * bq T m p ^ 4
      + eta f ^ 6 * bq T m p ^ 5) := by
  have hpi := Real.pi_pos
  have i1 := bq_pow_int hT hm 1 (by norm_num)
  have i2 := bq_pow_int hT hm 2 (by norm_num)
  have i3 := bq_pow_int hT hm 3 (by norm_num)
  have i4 := bq_pow_int hT hm 4 (by norm_num)
  have i5 := bq_pow_int hT hm 5 (by norm_num)
  have e : (fun p : ℝ => p ^ 2 * (eta f ^ 2 * bq T m p ^ 1 + eta f ^ 3 * bq T m p ^ 2
        + eta f ^ 4 * bq T m p ^ 3 + eta f ^ 5 * bq T m p ^ 4 + eta f ^ 6 * bq T m p ^ 5))
      = fun p => eta f ^ 2 * (p ^ 2 * bq T m p ^ 1) + eta f ^ 3 * (p ^ 2 * bq T m p ^ 2)
        + eta f ^ 4 * (p ^ 2 * bq T m p ^ 3) + eta f ^ 5 * (p ^ 2 * bq T m p ^ 4)
        + eta f ^ 6 * (p ^ 2 * bq T m p ^ 5) := by
    funext p; ring
  have j1 := i1.1.const_mul (eta f ^ 2)
  have j2 := i2.1.const_mul (eta f ^ 3)
  have j3 := i3.1.const_mul (eta f ^ 4)
  have j4 := i4.1.const_mul (eta f ^ 5)
  have j5 := i5.1.const_mul (eta f ^ 6)
  rw [e]
  refine ⟨(((j1.add j2).add j3).add j4).add j5, ?_⟩
  have s5 := integral_add (((j1.add j2).add j3).add j4) j5
  have s4 := integral_add ((j1.add j2).add j3) j4
  have s3 := integral_add (j1.add j2) j3
  have s2 := integral_add j1 j2
  simp only [Pi.add_apply] at s2 s3 s4 s5
  rw [s5, s4, s3, s2]
  simp only [integral_const_mul]
  rw [i1.2, i2.2, i3.2, i4.2, i5.2]
  simp only [neq, if_neg hm.ne', nbar_expand]
  push_cast
  ring

theorem ideal_integrand (T m p : ℝ) (f : Bool) :
    p ^ 2 / (Real.exp (Real.sqrt (p ^ 2 + m ^ 2) / T) + if f then 1 else -1)
      = p ^ 2 * (bq T m p / (1 - eta f * bq T m p)) := by
  have h : Real.exp (Real.sqrt (p ^ 2 + m ^ 2) / T) = (bq T m p)⁻¹ := by
    unfold bq; rw [Real.exp_neg, inv_inv]
  have hq := (bq_pos T m p).ne'
  rw [h]
  cases f
  · simp only [eta, Bool.false_eq_true, if_false]
    rw [show (bq T m p)⁻¹ + -1 = (1 - 1 * bq T m p) / bq T m p by field_simp; ring, div_div_eq_mul_div, mul_div_assoc]
  · simp only [eta, if_true]
    rw [show (bq T m p)⁻¹ + 1 = (1 - -1 * bq T m p) / bq T m p by field_simp; ring, div_div_eq_mul_div, mul_div_assoc]

theorem den_pos {T m : ℝ} (hT : 0 < T) (hm : 0 < m) (p : ℝ) (f : Bool) :
    1 - Real.exp (-(m / T)) ≤ 1 - eta f * bq T m p ∧ 0 < 1 - Real.exp (-(m / T)) := by
  have h1 := bq_le hT hm p
  have h0 := bq_pos T m p
  have h2 : Real.exp (-(m / T)) < 1 := by
    rw [Real.exp_lt_one_iff]; have : 0 < m / T := by positivity
    linarith
  constructor
  · cases f
    · simp only [eta, Bool.false_eq_true, if_false]; linarith
    · simp only [eta, if_true]; linarith [Real.exp_pos (-(m / T))]
  · linarith

theorem ideal_integrable (T m : ℝ) (hT : 0 < T) (hm : 0 < m) (f : Bool) (k : ℕ) :
    IntegrableOn (fun p : ℝ => p ^ 2 * (bq T m p ^ (k + 1) / (1 - eta f * bq T m p))) (Ioi 0) := by
  have hb := (bq_pow_int hT hm (k + 1) (by omega)).1.const_mul (1 / (1 - Real.exp (-(m / T))))
  have hbq : Continuous fun p : ℝ => bq T m p := by unfold bq; fun_prop
  have hcont : Continuous fun p : ℝ => p ^ 2 * (bq T m p ^ (k + 1) / (1 - eta f * bq T m p)) := by
    refine Continuous.mul (by fun_prop) (Continuous.div (by fun_prop) (by fun_prop) fun p => ?_)
    have := den_pos hT hm p f
    linarith [this.1, this.2]
  refine Integrable.mono' hb hcont.aestronglyMeasurable ?_
  filter_upwards with p
  obtain ⟨h1, h2⟩ := den_pos hT hm p f
  have h0 := bq_pos T m p
  have h3 : 0 < 1 - eta f * bq T m p := by linarith
  rw [Real.norm_of_nonneg (by positivity)]
  calc p ^ 2 * (bq T m p ^ (k + 1) / (1 - eta f * bq T m p))
      ≤ p ^ 2 * (bq T m p ^ (k + 1) / (1 - Real.exp (-(m / T)))) := by gcongr
    _ = _ := by ring

/-- Difference between the truncated sum and the ideal gas. -/
theorem neq_sub_idealGas (T m g : ℝ) (hT : 0 < T) (hm : 0 < m) (f : Bool) :
    neq T m g f = idealGas T m g f - eta f * (g / (2 * Real.pi ^ 2)
      * ∫ p in Ioi (0 : ℝ), p ^ 2 * (bq T m p ^ 6 / (1 - eta f * bq T m p))) := by
  obtain ⟨hi, he⟩ := neq_eq_integral T m g hT hm f
  have i0 := ideal_integrable T m hT hm f 0
  have i5 := (ideal_integrable T m hT hm f 5).const_mul (eta f)
  have heta : eta f ^ 2 = 1 := by cases f <;> simp [eta]
  have key : ∀ p : ℝ, p ^ 2 * (eta f ^ 2 * bq T m p ^ 1 + eta f ^ 3 * bq T m p ^ 2
        + eta f ^ 4 * bq T m p ^ 3 + eta f ^ 5 * bq T m p ^ 4 + eta f ^ 6 * bq T m p ^ 5)
      = p ^ 2 * (bq T m p ^ (0 + 1) / (1 - eta f * bq T m p))
        - eta f * (p ^ 2 * (bq T m p ^ (5 + 1) / (1 - eta f * bq T m p))) := by
    intro p
    obtain ⟨h1, h2⟩ := den_pos hT hm p f
    have h3 : 1 - eta f * bq T m p ≠ 0 := by linarith
    generalize bq T m p = q at h3 ⊢
    generalize eta f = e at h3 heta ⊢
    rcases eq_or_eq_neg_of_sq_eq_sq e 1 (by rw [heta, one_pow]) with rfl | rfl
    · rw [one_mul] at h3 ⊢
      field_simp
      ring
    · rw [show 1 - -1 * q = 1 + q by ring] at h3 ⊢
      field_simp
      ring
  rw [he]
  unfold idealGas
  simp only [ideal_integrand, key]
  rw [integral_sub i0 i5, integral_const_mul]
  simp only [zero_add, pow_one]
  norm_num
  ring

theorem tail_bounds (T m : ℝ) (hT : 0 < T) (hm : 0 < m) (f : Bool) :
    0 < ∫ p in Ioi (0 : ℝ), p ^ 2 * (bq T m p ^ 6 / (1 - eta f * bq T m p))
    ∧ ∫ p in Ioi (0 : ℝ), p ^ 2 * (bq T m p ^ 6 / (1 - eta f * bq T m p))
      ≤ Real.exp (-(5 * m / T)) * ∫ p in Ioi (0 : ℝ), p ^ 2 * (bq T m p / (1 - eta f * bq T m p)) := by
  have i0 := ideal_integrable T m hT hm f 0
  have i5 := ideal_integrable T m hT hm f 5
  simp only [zero_add, pow_one] at i0
  norm_num at i5
  constructor
  · rw [setIntegral_pos_iff_support_of_nonneg_ae _ i5]
    · have : Ioi (0 : ℝ) ⊆ (Function.support fun p : ℝ => p ^ 2 * (bq T m p ^ 6 / (1 - eta f * bq T m p)))
          ∩ Ioi 0 := by
        intro p hp
        refine ⟨?_, hp⟩
        obtain ⟨h1, h2⟩ := den_pos hT hm p f
        have h3 : 1 - eta f * bq T m p ≠ 0 := by linarith
        have := (bq_pos T m p).ne'
        have := (mem_Ioi.mp hp).ne'
        simp only [Function.mem_support]
        positivity
      exact lt_of_lt_of_le (by simp) (measure_mono this)
    · filter_upwards with p
      obtain ⟨h1, h2⟩ := den_pos hT hm p f
      have h3 : 0 < 1 - eta f * bq T m p := by linarith
      have := bq_pos T m p
      simp only [Pi.zero_apply]
      positivity
  · rw [← integral_const_mul]
    apply integral_mono i5 (i0.const_mul _)
    intro p
    obtain ⟨h1, h2⟩ := den_pos hT hm p f
    have h3 : 0 < 1 - eta f * bq T m p := by linarith
    have hq := bq_pos T m p
    have h5 : bq T m p ^ 5 ≤ Real.exp (-(5 * m / T)) := by
      have := pow_le_pow_left₀ hq.le (bq_le hT hm p) 5
      rw [← Real.exp_nat_mul] at this
      refine this.trans_eq ?_
      congr 1
      push_cast
      ring
    simp only
    calc p ^ 2 * (bq T m p ^ 6 / (1 - eta f * bq T m p))
        = bq T m p ^ 5 * (p ^ 2 * (bq T m p / (1 - eta f * bq T m p))) := by ring
      _ ≤ Real.exp (-(5 * m / T)) * (p ^ 2 * (bq T m p / (1 - eta f * bq T m p))) := by gcongr

/-- C93: the equilibrium density is the density of the ideal Fermi or Bose gas up to a relative error
`exp (−5 m / T)`; it overestimates fermions and underestimates bosons. -/
theorem neq_approximates_ideal_gas (T m g : ℝ) (hT : 0 < T) (hm : 0 < m) (hg : 0 < g) :
    (idealGas T m g true < neq T m g true
      ∧ neq T m g true ≤ (1 + Real.exp (-(5 * m / T))) * idealGas T m g true)
    ∧ (neq T m g false < idealGas T m g false
      ∧ (1 - Real.exp (-(5 * m / T))) * idealGas T m g false ≤ neq T m g false) := by
  have hpi := Real.pi_pos
  have hc : 0 < g / (2 * Real.pi ^ 2) := by positivity
  have aux : ∀ f, 0 < g / (2 * Real.pi ^ 2)
        * ∫ p in Ioi (0 : ℝ), p ^ 2 * (bq T m p ^ 6 / (1 - eta f * bq T m p))
      ∧ g / (2 * Real.pi ^ 2) * ∫ p in Ioi (0 : ℝ), p ^ 2 * (bq T m p ^ 6 / (1 - eta f * bq T m p))
        ≤ Real.exp (-(5 * m / T)) * idealGas T m g f := by
    intro f
    obtain ⟨h1, h2⟩ := tail_bounds T m hT hm f
    refine ⟨by positivity, ?_⟩
    have := mul_le_mul_of_nonneg_left h2 hc.le
    refine this.trans_eq ?_
    unfold idealGas
    simp only [ideal_integrand]
    ring
  obtain ⟨t1, t2⟩ := aux true
  obtain ⟨b1, b2⟩ := aux false
  rw [neq_sub_idealGas T m g hT hm true, neq_sub_idealGas T m g hT hm false]
  have et : eta true = -1 := rfl
  have ef : eta false = 1 := rfl
  rw [et] at t1 t2 ⊢
  rw [ef] at b1 b2 ⊢
  refine ⟨⟨?_, ?_⟩, ⟨?_, ?_⟩⟩ <;> linarith

/-- The density is positive. -/
theorem neq_pos (T m g : ℝ) (hT : 0 < T) (hm : 0 < m) (hg : 0 < g) (f : Bool) : 0 < neq T m g f := by
  have hpi := Real.pi_pos
  have hid : 0 < idealGas T m g f := by
    have h := tail_bounds T m hT hm f
    have hx : 0 < ∫ p in Ioi (0 : ℝ), p ^ 2 * (bq T m p / (1 - eta f * bq T m p)) :=
      (mul_pos_iff_of_pos_left (Real.exp_pos _)).mp (lt_of_lt_of_le h.1 h.2)
    unfold idealGas
    simp only [ideal_integrand]
    positivity
  have h := neq_approximates_ideal_gas T m g hT hm hg
  cases f
  · have : Real.exp (-(5 * m / T)) < 1 := by
      rw [Real.exp_lt_one_iff]; have : 0 < 5 * m / T := by positivity
      linarith
    have : 0 < (1 - Real.exp (-(5 * m / T))) * idealGas T m g false := mul_pos (by linarith) hid
    linarith [h.2.2]
  · linarith [h.1.1]

/-- At `T = m` the five terms are already within one per cent of the Fermi gas. -/
example : neq 100 100 2 true ≤ 1.01 * idealGas 100 100 2 true := by
  have h := (neq_approximates_ideal_gas 100 100 2 (by norm_num) (by norm_num) two_pos).1
  have h5 : Real.exp (-(5 * 100 / 100)) ≤ 0.01 := by
    have h1 := Real.exp_one_gt_d9
    have h2 : Real.exp 5 = Real.exp 1 ^ 5 := by rw [← Real.exp_nat_mul]; norm_num
    have h3 : (100 : ℝ) ≤ Real.exp 5 := by
      rw [h2]
      calc (100 : ℝ) ≤ 2.7 ^ 5 := by norm_num
        _ ≤ Real.exp 1 ^ 5 := pow_le_pow_left₀ (by norm_num) (by linarith) 5
    rw [show -(5 * 100 / 100 : ℝ) = -5 by norm_num, Real.exp_neg, inv_le_comm₀ (Real.exp_pos _) (by norm_num)]
    norm_num
    exact h3
  have hn := neq_pos 100 100 2 (by norm_num) (by norm_num) two_pos true
  have hid : 0 < idealGas 100 100 2 true := by
    have := h.2
    by_contra hc
    have := Real.exp_pos (-(5 * 100 / 100 : ℝ))
    nlinarith
  nlinarith [h.2]

end Hazma.Relic
