import Verif.Model.Fsr
import Verif.Props.ScalarModel
import Mathlib.Analysis.SpecialFunctions.Log.Deriv

/-! # Final-state radiation: sign, support, agreement of implementations, soft-photon limit -/

namespace Hazma.Fsr

open Hazma.ScalarModel (Err checked pydiv pydiv_ok checked_ok)
open Filter Topology

theorem bind_ok {α β : Type} {x : Except Err α} {a : α} (h : x = .ok a) (f : α → Except Err β) :
    (x >>= f) = f a := by rw [h]; rfl

/-- Velocity of the radiating particles: `sqrt(1 - 4 mu^2/(1-x))`. -/
noncomputable def vel (mu x : ℝ) : ℝ := Real.sqrt (1 + 4 * mu ^ 2 / (-1 + x))
/-- `log((1+b)/(1-b))`. -/
noncomputable def lr (b : ℝ) : ℝ := Real.log ((1 + b) / (1 - b))

theorem root_ok {mu x : ℝ} (hx : x < 1) : root mu x = .ok (vel mu x) := by
  unfold root
  rw [bind_ok (pydiv_ok (by linarith))]
  rfl

theorem logRatio_ok {b : ℝ} (hb : b < 1) : logRatio b = .ok (lr b) := by
  unfold logRatio
  rw [bind_ok (pydiv_ok (by linarith))]
  rfl

theorem vel_facts {mu x : ℝ} (hmu : 0 < mu) (hx : x ≤ 1 - 4 * mu ^ 2) :
    0 ≤ vel mu x ∧ vel mu x < 1 ∧ vel mu x ^ 2 * (1 - x) = 1 - x - 4 * mu ^ 2
    ∧ (x < 1 - 4 * mu ^ 2 → 0 < vel mu x) ∧ (x = 1 - 4 * mu ^ 2 → vel mu x = 0) := by
  have hm : 0 < 4 * mu ^ 2 := by positivity
  have h1 : 0 < 1 - x := by linarith
  have e1 : 1 + 4 * mu ^ 2 / (-1 + x) = (1 - x - 4 * mu ^ 2) / (1 - x) := by
    have : -1 + x ≠ 0 := by linarith
    field_simp
    ring
  have h2 : 0 ≤ 1 + 4 * mu ^ 2 / (-1 + x) := by
    rw [e1]; exact div_nonneg (by linarith) h1.le
  have h3 : 1 + 4 * mu ^ 2 / (-1 + x) < 1 := by
    rw [e1, div_lt_one h1]; linarith
  unfold vel
  refine ⟨Real.sqrt_nonneg _, ?_, ?_, ?_, ?_⟩
  · rw [Real.sqrt_lt' one_pos]; linarith
  · rw [Real.sq_sqrt h2, e1]; field_simp
  · intro h
    apply Real.sqrt_pos.mpr
    rw [e1]; exact div_pos (by linarith) h1
  · intro h
    rw [e1, show 1 - x - 4 * mu ^ 2 = 0 by linarith, zero_div, Real.sqrt_zero]

theorem lr_ge {b : ℝ} (h0 : 0 ≤ b) (h1 : b < 1) : 2 * b + 2 / 3 * b ^ 3 ≤ lr b := by
  have h := Real.hasSum_log_sub_log_of_abs_lt_one (x := b) (by rw [abs_of_nonneg h0]; exact h1)
  unfold lr
  rw [Real.log_div (by linarith) (by linarith)]
  have := sum_le_hasSum (Finset.range 2) (fun i _ => by positivity) h
  simp only [Finset.sum_range_succ, Finset.sum_range_zero] at this
  norm_num at this
  linarith

theorem lr_zero : lr 0 = 0 := by simp [lr]

/-- Numerators of the four spectra. -/
noncomputable def numSF (mu x : ℝ) : ℝ :=
  -2 * (-1 + x) * (-1 + 4 * mu ^ 2) * vel mu x
    + ((x + 4 * mu ^ 2) ^ 2 - 2 * (-1 + x + 6 * mu ^ 2)) * lr (vel mu x)
noncomputable def numSP (mu x : ℝ) : ℝ :=
  (-1 + x) * vel mu x - (-1 + x + 2 * mu ^ 2) * lr (vel mu x)
noncomputable def numVF (mu x : ℝ) : ℝ :=
  -(vel mu x * (2 - 2 * x + x ^ 2 - 4 * (-1 + x) * mu ^ 2))
    + (2 + (-2 + x) * x - 4 * x * mu ^ 2 - 8 * mu ^ 4) * lr (vel mu x)
noncomputable def numVP (mu x : ℝ) : ℝ :=
  vel mu x * (-1 + x + x ^ 2 - 4 * (-1 + x) * mu ^ 2)
    + (-1 + x + 2 * mu ^ 2) * (-1 + 4 * mu ^ 2) * lr (vel mu x)

theorem num_zero {mu x : ℝ} (hmu : 0 < mu) (hx : x = 1 - 4 * mu ^ 2) :
    numSF mu x = 0 ∧ numSP mu x = 0 ∧ numVF mu x = 0 ∧ numVP mu x = 0 := by
  have h := (vel_facts hmu hx.le).2.2.2.2 hx
  unfold numSF numSP numVF numVP
  rw [h, lr_zero]
  refine ⟨by ring, by ring, by ring, by ring⟩

theorem num_pos {mu x : ℝ} (hmu : 0 < mu) (hx0 : 0 ≤ x) (hx : x < 1 - 4 * mu ^ 2) :
    0 < numSF mu x ∧ 0 < numSP mu x ∧ 0 < numVF mu x ∧ 0 < numVP mu x := by
  obtain ⟨b0, b1, b2, b3, -⟩ := vel_facts hmu hx.le
  have bp := b3 hx
  have hl := lr_ge b0 b1
  obtain ⟨a, ha⟩ : ∃ a, a = 4 * mu ^ 2 := ⟨_, rfl⟩
  have hap : 0 < a := by rw [ha]; positivity
  obtain ⟨u, hu⟩ : ∃ u, u = 1 - x := ⟨_, rfl⟩
  have hx' : x = 1 - u := by linarith
  have hup : 0 < u := by rw [hu]; linarith
  have hu1 : u ≤ 1 := by linarith
  have hau : a < u := by linarith
  unfold numSF numSP numVF numVP
  generalize hb : vel mu x = b at *
  generalize lr b = L at *
  have hab : a = (1 - b ^ 2) * u := by rw [hu]; linarith
  have hL : 2 * b < L := by nlinarith [pow_pos bp 3]
  have m2 : mu ^ 2 = a / 4 := by linarith
  have m4 : mu ^ 4 = a ^ 2 / 16 := by rw [show mu ^ 4 = (mu ^ 2) ^ 2 by ring, m2]; ring
  rw [m4, m2, hx']
  refine ⟨?_, ?_, ?_, ?_⟩
  · have hK : u * (1 - a) ≤ (1 - u + a) ^ 2 + 2 * u - 3 * a := by
      nlinarith [sq_nonneg (1 - u), sq_nonneg (1 - a), sq_nonneg (u - a)]
    have hKp : 0 < u * (1 - a) := mul_pos hup (by linarith)
    have h2 := mul_lt_mul_of_pos_left hL (lt_of_lt_of_le hKp hK)
    have h3 := mul_le_mul_of_nonneg_right hK (by linarith : 0 ≤ 2 * b)
    nlinarith
  · have e : -1 + (1 - u) + 2 * (a / 4) = -(u * (1 + b ^ 2) / 2) := by rw [hab]; ring
    rw [e]
    have hp : 0 < u * (1 + b ^ 2) / 2 := by positivity
    have h2 := mul_lt_mul_of_pos_left hL hp
    have h3 : 0 < u * b ^ 3 := by positivity
    nlinarith
  · have hK : (1 + u ^ 2 + u * a) ≤ 2 * (1 + u ^ 2 - (1 - u) * a - a ^ 2 / 2) := by
      nlinarith [sq_nonneg (1 - a), mul_pos hap (sub_pos.mpr hau), mul_pos hup (sub_pos.mpr hau)]
    have hKp : 0 < 1 + u ^ 2 - (1 - u) * a - a ^ 2 / 2 := by
      have : 0 < 1 + u ^ 2 + u * a := by positivity
      linarith
    have h2 := mul_lt_mul_of_pos_left hL hKp
    have h3 := mul_le_mul_of_nonneg_right hK b0
    nlinarith
  · have e : -1 + (1 - u) + 2 * (a / 4) = -(u * (1 + b ^ 2) / 2) := by rw [hab]; ring
    rw [e]
    have h1a : 0 < 1 - a := by linarith
    have hp : 0 < u * (1 + b ^ 2) / 2 * (1 - a) := by positivity
    have h2 := mul_lt_mul_of_pos_left hL hp
    have h3 : 0 ≤ b * (1 - u) ^ 2 + u * b ^ 3 * (1 - a) := by positivity
    nlinarith

theorem num_nonneg {mu x : ℝ} (hmu : 0 < mu) (hx0 : 0 ≤ x) (hx : x ≤ 1 - 4 * mu ^ 2) :
    0 ≤ numSF mu x ∧ 0 ≤ numSP mu x ∧ 0 ≤ numVF mu x ∧ 0 ≤ numVP mu x := by
  rcases hx.lt_or_eq with h | h
  · obtain ⟨h1, h2, h3, h4⟩ := num_pos hmu hx0 h
    exact ⟨h1.le, h2.le, h3.le, h4.le⟩
  · obtain ⟨h1, h2, h3, h4⟩ := num_zero hmu h
    exact ⟨h1.ge, h2.ge, h3.ge, h4.ge⟩

/-- The phase-space condition in terms of energies. -/
theorem x_lt_iff {e Q m : ℝ} (hQ : 0 < Q) :
    2 * e / Q < 1 - 4 * (m / Q) ^ 2 ↔ 2 * Q * e < Q ^ 2 - 4 * m ^ 2 := by
  rw [show 1 - 4 * (m / Q) ^ 2 = (Q ^ 2 - 4 * m ^ 2) / Q ^ 2 by field_simp,
    show 2 * e / Q = (2 * Q * e) / Q ^ 2 by field_simp]
  exact div_lt_div_iff_of_pos_right (by positivity)

theorem x_le_iff {e Q m : ℝ} (hQ : 0 < Q) :
    2 * e / Q ≤ 1 - 4 * (m / Q) ^ 2 ↔ 2 * Q * e ≤ Q ^ 2 - 4 * m ^ 2 := by
  rw [show 1 - 4 * (m / Q) ^ 2 = (Q ^ 2 - 4 * m ^ 2) / Q ^ 2 by field_simp,
    show 2 * e / Q = (2 * Q * e) / Q ^ 2 by field_simp]
  exact div_le_div_iff_of_pos_right (by positivity)

theorem mu_small {e Q m : ℝ} (hQ : 0 < Q) (he : 0 < e) (h : 2 * Q * e ≤ Q ^ 2 - 4 * m ^ 2) :
    0 < 1 - 4 * (m / Q) ^ 2 := by
  have := (x_le_iff (e := e) (m := m) hQ).mpr h
  have : 0 < 2 * e / Q := by positivity
  linarith

theorem two_m_lt {e Q m : ℝ} (hQ : 0 < Q) (he : 0 < e) (h : 2 * Q * e ≤ Q ^ 2 - 4 * m ^ 2) :
    2 * m < Q := by
  nlinarith [mul_pos hQ he]

/-- Value inside the support. -/
theorem scalarFF_val {alpha mx e Q m : ℝ} (ha : 0 < alpha) (hQ : 0 < Q) (hm : 0 < m) (he : 0 < e)
    (h : 2 * Q * e < Q ^ 2 - 4 * m ^ 2) (hx : 2 * mx < Q) :
    scalarFF alpha mx e Q m = .ok (2 * alpha * numSF (m / Q) (2 * e / Q)
      / (Real.pi * Q * (2 * e / Q) * (1 - 4 * (m / Q) ^ 2) ^ (3 / 2 : ℝ))) := by
  have hmu : 0 < m / Q := by positivity
  have hxx := (x_lt_iff (e := e) (m := m) hQ).mpr h
  have h0 : 0 < 2 * e / Q := by positivity
  have hx1 : 2 * e / Q < 1 := by nlinarith [sq_nonneg (m / Q)]
  have hms := mu_small hQ he h.le
  have hpi := Real.pi_pos
  unfold scalarFF
  simp only
  rw [if_pos ⟨two_m_lt hQ he h.le, by linarith, by nlinarith [mul_pos hQ he], hx⟩]
  rw [bind_ok (pydiv_ok hQ.ne'), bind_ok (pydiv_ok hQ.ne'), bind_ok (root_ok hx1),
    bind_ok (logRatio_ok (vel_facts hmu hxx.le).2.1)]
  have hr := Real.rpow_pos_of_pos hms (3 / 2 : ℝ)
  rw [bind_ok (pydiv_ok (by positivity))]
  have := (num_nonneg hmu h0.le hxx.le).1
  exact checked_ok (by unfold numSF at this; positivity)

theorem scalarPiPi_val {alpha mx e Q m : ℝ} (ha : 0 < alpha) (hQ : 0 < Q) (hm : 0 < m) (he : 0 < e)
    (h : 2 * Q * e ≤ Q ^ 2 - 4 * m ^ 2) (hx : 2 * mx ≤ Q) :
    scalarPiPi alpha m mx e Q = .ok (4 * alpha * numSP (m / Q) (2 * e / Q)
      / (Real.pi * Q * (2 * e / Q) * Real.sqrt (1 - 4 * (m / Q) ^ 2))) := by
  have hmu : 0 < m / Q := by positivity
  have hxx := (x_le_iff (e := e) (m := m) hQ).mpr h
  have h0 : 0 < 2 * e / Q := by positivity
  have hx1 : 2 * e / Q < 1 := by nlinarith [pow_pos hmu 2]
  have hms := mu_small hQ he h
  have hpi := Real.pi_pos
  unfold scalarPiPi
  rw [bind_ok (pydiv_ok hQ.ne'), bind_ok (pydiv_ok hQ.ne')]
  rw [if_neg (by push Not; exact ⟨h0.le, hxx, hx⟩)]
  rw [bind_ok (root_ok hx1), bind_ok (logRatio_ok (vel_facts hmu hxx).2.1)]
  have hr := Real.sqrt_pos.mpr hms
  rw [bind_ok (pydiv_ok (by positivity))]
  have := (num_nonneg hmu h0.le hxx).2.1
  exact checked_ok (by unfold numSP at this; positivity)

theorem vectorFF_val {alpha mx e Q m : ℝ} (ha : 0 < alpha) (hQ : 0 < Q) (hm : 0 < m) (he : 0 < e)
    (h : 2 * Q * e ≤ Q ^ 2 - 4 * m ^ 2) (hx : 2 * mx < Q) :
    vectorFF alpha mx e Q m = .ok (2 * alpha * numVF (m / Q) (2 * e / Q)
      / (Real.pi * Q * (2 * e / Q) * Real.sqrt (1 - 4 * (m / Q) ^ 2) * (1 + 2 * (m / Q) ^ 2))) := by
  have hmu : 0 < m / Q := by positivity
  have hxx := (x_le_iff (e := e) (m := m) hQ).mpr h
  have h0 : 0 < 2 * e / Q := by positivity
  have hx1 : 2 * e / Q < 1 := by nlinarith [pow_pos hmu 2]
  have hms := mu_small hQ he h
  have hpi := Real.pi_pos
  unfold vectorFF
  rw [bind_ok (pydiv_ok hQ.ne'), bind_ok (pydiv_ok hQ.ne')]
  rw [if_pos ⟨by linarith, by nlinarith [mul_pos hQ he], two_m_lt hQ he h, hx⟩]
  rw [bind_ok (root_ok hx1), bind_ok (logRatio_ok (vel_facts hmu hxx).2.1)]
  have hr := Real.sqrt_pos.mpr hms
  rw [bind_ok (pydiv_ok (by positivity))]
  have := (num_nonneg hmu h0.le hxx).2.2.1
  exact checked_ok (by unfold numVF at this; positivity)

theorem vectorPiPi_val {alpha mx e Q m : ℝ} (ha : 0 < alpha) (hQ : 0 < Q) (hm : 0 < m) (he : 0 < e)
    (h : 2 * Q * e ≤ Q ^ 2 - 4 * m ^ 2) (hx : 2 * mx ≤ Q) :
    vectorPiPi alpha m mx e Q = .ok (4 * alpha * numVP (m / Q) (2 * e / Q)
      / (Real.pi * Q * (2 * e / Q) * (1 - 4 * (m / Q) ^ 2) ^ (3 / 2 : ℝ))) := by
  have hmu : 0 < m / Q := by positivity
  have hxx := (x_le_iff (e := e) (m := m) hQ).mpr h
  have h0 : 0 < 2 * e / Q := by positivity
  have hx1 : 2 * e / Q < 1 := by nlinarith [pow_pos hmu 2]
  have hms := mu_small hQ he h
  have hpi := Real.pi_pos
  unfold vectorPiPi
  rw [bind_ok (pydiv_ok hQ.ne'), bind_ok (pydiv_ok hQ.ne')]
  rw [if_neg (by push Not; exact ⟨h0.le, hxx, (two_m_lt hQ he h).le, hx⟩)]
  rw [bind_ok (root_ok hx1), bind_ok (logRatio_ok (vel_facts hmu hxx).2.1)]
  have hr := Real.rpow_pos_of_pos hms (3 / 2 : ℝ)
  rw [bind_ok (pydiv_ok (by positivity))]
  have := (num_nonneg hmu h0.le hxx).2.2.2
  exact checked_ok (by unfold numVP at this; positivity)

/-- Conclude sign and support from the value inside and the zero outside. -/
theorem sign_of {f : Except Err ℝ} {n d : ℝ} {In Strict : Prop} [Decidable In]
    (hval : In → f = .ok (n / d)) (hout : ¬ In → f = .ok 0) (hd : In → 0 < d)
    (hn : In → 0 ≤ n) (hp : In → (0 < n ↔ Strict)) (hs : Strict → In) :
    ∃ v, f = .ok v ∧ 0 ≤ v ∧ (0 < v ↔ Strict) := by
  by_cases h : In
  · refine ⟨n / d, hval h, div_nonneg (hn h) (hd h).le, ?_⟩
    rw [← hp h]
    exact ⟨fun k => by
      have := mul_pos k (hd h)
      rwa [div_mul_cancel₀ _ (hd h).ne'] at this, fun k => div_pos k (hd h)⟩
  · exact ⟨0, hout h, le_rfl, ⟨fun k => absurd k (lt_irrefl _), fun k => absurd (hs k) h⟩⟩

theorem num_pos_iff {mu x : ℝ} (hmu : 0 < mu) (hx0 : 0 ≤ x) (hx : x ≤ 1 - 4 * mu ^ 2) :
    (0 < numSF mu x ↔ x < 1 - 4 * mu ^ 2) ∧ (0 < numSP mu x ↔ x < 1 - 4 * mu ^ 2)
    ∧ (0 < numVF mu x ↔ x < 1 - 4 * mu ^ 2) ∧ (0 < numVP mu x ↔ x < 1 - 4 * mu ^ 2) := by
  rcases hx.lt_or_eq with h | h
  · obtain ⟨h1, h2, h3, h4⟩ := num_pos hmu hx0 h
    simp [h, h1, h2, h3, h4]
  · obtain ⟨h1, h2, h3, h4⟩ := num_zero hmu h
    rw [h1, h2, h3, h4]
    simp [h]

/-- C38 (scalar, fermions): at every positive photon energy the spectrum is defined (neither the
assert nor a division can fail), non-negative, and positive exactly below the kinematic endpoint
`(Q² - 4m²)/(2Q)` when the dark matter can annihilate. -/
theorem scalar_ff_sign (alpha mx e Q m : ℝ) (ha : 0 < alpha) (hQ : 0 < Q) (hm : 0 < m) (he : 0 < e) :
    ∃ v, scalarFF alpha mx e Q m = .ok v ∧ 0 ≤ v
      ∧ (0 < v ↔ 2 * mx < Q ∧ 2 * Q * e < Q ^ 2 - 4 * m ^ 2) := by
  classical
  have hmu : 0 < m / Q := by positivity
  have h0 : 0 < 2 * e / Q := by positivity
  have hpi := Real.pi_pos
  refine sign_of (In := 2 * mx < Q ∧ 2 * Q * e < Q ^ 2 - 4 * m ^ 2)
    (n := 2 * alpha * numSF (m / Q) (2 * e / Q))
    (fun h => scalarFF_val ha hQ hm he h.2 h.1) ?_ ?_ ?_ ?_ id
  · intro h
    unfold scalarFF
    simp only
    rw [if_neg]
    rintro ⟨-, h2, -, h4⟩
    exact h ⟨h4, by linarith⟩
  · intro h
    have := Real.rpow_pos_of_pos (mu_small hQ he h.2.le) (3 / 2 : ℝ)
    positivity
  · intro h
    have := (num_nonneg hmu h0.le ((x_le_iff hQ).mpr h.2.le)).1
    positivity
  · intro h
    have := (num_pos hmu h0.le ((x_lt_iff hQ).mpr h.2)).1
    exact ⟨fun _ => h, fun _ => by positivity⟩

/-- C38 (scalar, charged pions). -/
theorem scalar_pipi_sign (alpha mx e Q m : ℝ) (ha : 0 < alpha) (hQ : 0 < Q) (hm : 0 < m) (he : 0 < e) :
    ∃ v, scalarPiPi alpha m mx e Q = .ok v ∧ 0 ≤ v
      ∧ (0 < v ↔ 2 * mx ≤ Q ∧ 2 * Q * e < Q ^ 2 - 4 * m ^ 2) := by
  classical
  have hmu : 0 < m / Q := by positivity
  have h0 : 0 < 2 * e / Q := by positivity
  have hpi := Real.pi_pos
  refine sign_of (In := 2 * mx ≤ Q ∧ 2 * Q * e ≤ Q ^ 2 - 4 * m ^ 2)
    (n := 4 * alpha * numSP (m / Q) (2 * e / Q))
    (fun h => scalarPiPi_val ha hQ hm he h.2 h.1) ?_ ?_ ?_ ?_ (fun h => ⟨h.1, h.2.le⟩)
  · intro h
    unfold scalarPiPi
    rw [bind_ok (pydiv_ok hQ.ne'), bind_ok (pydiv_ok hQ.ne'), if_pos]
    by_contra h'
    push Not at h'
    exact h ⟨h'.2.2, (x_le_iff hQ).mp h'.2.1⟩
  · intro h
    have := Real.sqrt_pos.mpr (mu_small hQ he h.2)
    positivity
  · intro h
    have := (num_nonneg hmu h0.le ((x_le_iff hQ).mpr h.2)).2.1
    positivity
  · intro h
    have := (num_pos_iff hmu h0.le ((x_le_iff hQ).mpr h.2)).2.1
    rw [x_lt_iff hQ] at this
    rw [mul_pos_iff_of_pos_left (by positivity), this]
    exact ⟨fun k => ⟨h.1, k⟩, fun k => k.2⟩

/-- C38 (vector, fermions). -/
theorem vector_ff_sign (alpha mx e Q m : ℝ) (ha : 0 < alpha) (hQ : 0 < Q) (hm : 0 < m) (he : 0 < e) :
    ∃ v, vectorFF alpha mx e Q m = .ok v ∧ 0 ≤ v
      ∧ (0 < v ↔ 2 * mx < Q ∧ 2 * Q * e < Q ^ 2 - 4 * m ^ 2) := by
  classical
  have hmu : 0 < m / Q := by positivity
  have h0 : 0 < 2 * e / Q := by positivity
  have hpi := Real.pi_pos
  refine sign_of (In := 2 * mx < Q ∧ 2 * Q * e ≤ Q ^ 2 - 4 * m ^ 2)
    (n := 2 * alpha * numVF (m / Q) (2 * e / Q))
    (fun h => vectorFF_val ha hQ hm he h.2 h.1) ?_ ?_ ?_ ?_ (fun h => ⟨h.1, h.2.le⟩)
  · intro h
    unfold vectorFF
    rw [bind_ok (pydiv_ok hQ.ne'), bind_ok (pydiv_ok hQ.ne'), if_neg]
    rintro ⟨k1, -, -, k4⟩
    exact h ⟨k4, by linarith⟩
  · intro h
    have := Real.sqrt_pos.mpr (mu_small hQ he h.2)
    positivity
  · intro h
    have := (num_nonneg hmu h0.le ((x_le_iff hQ).mpr h.2)).2.2.1
    positivity
  · intro h
    have := (num_pos_iff hmu h0.le ((x_le_iff hQ).mpr h.2)).2.2.1
    rw [x_lt_iff hQ] at this
    rw [mul_pos_iff_of_pos_left (by positivity), this]
    exact ⟨fun k => ⟨h.1, k⟩, fun k => k.2⟩

/-- C38 (vector, charged pions). -/
theorem vector_pipi_sign (alpha mx e Q m : ℝ) (ha : 0 < alpha) (hQ : 0 < Q) (hm : 0 < m) (he : 0 < e) :
    ∃ v, vectorPiPi alpha m mx e Q = .ok v ∧ 0 ≤ v
      ∧ (0 < v ↔ 2 * mx ≤ Q ∧ 2 * Q * e < Q ^ 2 - 4 * m ^ 2) := by
  classical
  have hmu : 0 < m / Q := by positivity
  have h0 : 0 < 2 * e / Q := by positivity
  have hpi := Real.pi_pos
  refine sign_of (In := 2 * mx ≤ Q ∧ 2 * Q * e ≤ Q ^ 2 - 4 * m ^ 2)
    (n := 4 * alpha * numVP (m / Q) (2 * e / Q))
    (fun h => vectorPiPi_val ha hQ hm he h.2 h.1) ?_ ?_ ?_ ?_ (fun h => ⟨h.1, h.2.le⟩)
  · intro h
    unfold vectorPiPi
    rw [bind_ok (pydiv_ok hQ.ne'), bind_ok (pydiv_ok hQ.ne'), if_pos]
    by_contra h'
    push Not at h'
    exact h ⟨h'.2.2.2, (x_le_iff hQ).mp h'.2.1⟩
  · intro h
    have := Real.rpow_pos_of_pos (mu_small hQ he h.2) (3 / 2 : ℝ)
    positivity
  · intro h
    have := (num_nonneg hmu h0.le ((x_le_iff hQ).mpr h.2)).2.2.2
    positivity
  · intro h
    have := (num_pos_iff hmu h0.le ((x_le_iff hQ).mpr h.2)).2.2.2
    rw [x_lt_iff hQ] at this
    rw [mul_pos_iff_of_pos_left (by positivity), this]
    exact ⟨fun k => ⟨h.1, k⟩, fun k => k.2⟩

/-- At zero photon energy the spectra behave differently: the scalar fermion spectrum is zero, the
other three divide by zero (an open channel with massive particles). -/
theorem zero_energy (alpha mx Q m : ℝ) (hQ : 0 < Q) (hm : 0 < m) (h : 2 * m < Q) (hx : 2 * mx < Q) :
    scalarFF alpha mx 0 Q m = .ok 0 ∧ scalarPiPi alpha m mx 0 Q = .error .zeroDivision
    ∧ vectorFF alpha mx 0 Q m = .error .zeroDivision
    ∧ vectorPiPi alpha m mx 0 Q = .error .zeroDivision := by
  have hmu : 0 < m / Q := by positivity
  have hz : (2 * (0 : ℝ)) / Q = 0 := by simp
  have h1 : 4 * (m / Q) ^ 2 < 1 := by
    rw [div_pow, ← mul_div_assoc, div_lt_one (by positivity)]; nlinarith
  have hv := (vel_facts hmu (x := 0) (by linarith)).2.1
  have zd : ∀ a : ℝ, pydiv a 0 = .error .zeroDivision := fun a => if_pos rfl
  refine ⟨?_, ?_, ?_, ?_⟩
  · unfold scalarFF
    simp
  · unfold scalarPiPi
    rw [bind_ok (pydiv_ok hQ.ne'), bind_ok (pydiv_ok hQ.ne'), hz,
      if_neg (by push Not; exact ⟨le_rfl, by linarith, hx.le⟩),
      bind_ok (root_ok one_pos), bind_ok (logRatio_ok hv), mul_zero, zero_mul, zd]
    rfl
  · unfold vectorFF
    rw [bind_ok (pydiv_ok hQ.ne'), bind_ok (pydiv_ok hQ.ne'), hz,
      if_pos ⟨by nlinarith, by linarith, h, hx⟩,
      bind_ok (root_ok one_pos), bind_ok (logRatio_ok hv), mul_zero (Real.pi * Q), zero_mul, zero_mul, zd]
    rfl
  · unfold vectorPiPi
    rw [bind_ok (pydiv_ok hQ.ne'), bind_ok (pydiv_ok hQ.ne'), hz,
      if_neg (by push Not; exact ⟨le_rfl, by linarith, h.le, hx.le⟩),
      bind_ok (root_ok one_pos), bind_ok (logRatio_ok hv), mul_zero, zero_mul, zd]
    rfl

/-! ### The compiled rest-frame formulas -/

/-- Roots and logarithm of the compiled formulas. -/
theorem rest_parts {mu x : ℝ} (hmu : 0 < mu) (hx : x ≤ 1 - 4 * mu ^ 2) :
    Real.sqrt (1 - 4 * mu ^ 2 - x) = Real.sqrt (1 - x) * vel mu x
    ∧ Real.sqrt (1 - x) * Real.sqrt (1 - 4 * mu ^ 2 - x) = (1 - x) * vel mu x
    ∧ Real.sqrt ((-1 + x) * (-1 + 4 * mu ^ 2 + x)) = (1 - x) * vel mu x
    ∧ Real.log ((1 - vel mu x) ^ 2 / (1 + vel mu x) ^ 2) = -2 * lr (vel mu x)
    ∧ Real.log ((1 + vel mu x) ^ 2 / (1 - vel mu x) ^ 2) = 2 * lr (vel mu x) := by
  obtain ⟨b0, b1, b2, -⟩ := vel_facts hmu hx
  have h1 : 0 < 1 - x := by nlinarith [pow_pos hmu 2]
  have e1 : Real.sqrt (1 - 4 * mu ^ 2 - x) = Real.sqrt (1 - x) * vel mu x := by
    rw [show 1 - 4 * mu ^ 2 - x = (1 - x) * vel mu x ^ 2 by linarith, Real.sqrt_mul h1.le,
      Real.sqrt_sq b0]
  have e2 : Real.sqrt (1 - x) * Real.sqrt (1 - 4 * mu ^ 2 - x) = (1 - x) * vel mu x := by
    rw [e1, ← mul_assoc, Real.mul_self_sqrt h1.le]
  have e5 : Real.log ((1 + vel mu x) ^ 2 / (1 - vel mu x) ^ 2) = 2 * lr (vel mu x) := by
    unfold lr
    rw [← div_pow, Real.log_pow]; norm_num
  refine ⟨e1, e2, ?_, ?_, e5⟩
  · rw [← e2, ← Real.sqrt_mul h1.le]
    congr 1; ring
  · rw [← inv_div, Real.log_inv, e5]; ring

/-- Rational parts of the logarithms' arguments. -/
theorem arg_div {u b : ℝ} (hu : u ≠ 0) (p q : ℝ) : (u * p) ^ 2 / (u * q) ^ 2 = p ^ 2 / q ^ 2 := by
  rw [mul_pow, mul_pow, mul_div_mul_left _ _ (pow_ne_zero 2 hu)]

/-- C39 (scalar, false): the spectrum inside the mediator-decay code is exactly half of the
annihilation spectrum, for pions and for leptons. -/
theorem scalar_rest_is_half (alpha qe mx e ms m : ℝ) (ha : 0 < alpha) (hq : qe ^ 2 = 4 * Real.pi * alpha)
    (hs : 0 < ms) (hm : 0 < m) (he : 0 < e) (hx : 2 * mx < ms) :
    scalarPiPi alpha m mx e ms = .ok (2 * scalarPiRest qe m e ms)
    ∧ scalarFF alpha mx e ms m = .ok (2 * scalarLepRest qe m e ms) := by
  have hmu : 0 < m / ms := by positivity
  have h0 : 0 < 2 * e / ms := by positivity
  have hpi := Real.pi_pos
  by_cases h : 2 * ms * e ≤ ms ^ 2 - 4 * m ^ 2
  · have hxx := (x_le_iff (e := e) (m := m) hs).mpr h
    have hms := mu_small hs he h
    obtain ⟨r1, r2, r3, r4, r5⟩ := rest_parts hmu hxx
    have hcond : ¬ (2 * e / ms < 0 ∨ 2 * e / ms > 1 - 4 * (m / ms) ^ 2) := by
      push Not; exact ⟨h0.le, hxx⟩
    have hu : 1 - 2 * e / ms ≠ 0 := by nlinarith [pow_pos hmu 2]
    refine ⟨?_, ?_⟩
    · rw [scalarPiPi_val ha hs hm he h hx.le]
      unfold scalarPiRest
      simp only
      rw [if_neg hcond, mul_assoc (-2 : ℝ), r2,
        show 1 - 2 * e / ms - (1 - 2 * e / ms) * vel (m / ms) (2 * e / ms)
          = (1 - 2 * e / ms) * (1 - vel (m / ms) (2 * e / ms)) by ring,
        show -1 + 2 * e / ms - (1 - 2 * e / ms) * vel (m / ms) (2 * e / ms)
          = (1 - 2 * e / ms) * (-(1 + vel (m / ms) (2 * e / ms))) by ring,
        arg_div (b := 0) hu, neg_sq, r4, hq]
      unfold numSP
      have hr := Real.sqrt_pos.mpr hms
      generalize Real.sqrt (1 - 4 * (m / ms) ^ 2) = r at *
      generalize lr (vel (m / ms) (2 * e / ms)) = l at *
      generalize vel (m / ms) (2 * e / ms) = b at *
      congr 1
      field_simp
      ring
    · by_cases h' : 2 * ms * e < ms ^ 2 - 4 * m ^ 2
      · rw [scalarFF_val ha hs hm he h' hx]
        unfold scalarLepRest
        simp only
        rw [if_neg hcond, mul_assoc (4 * (-1 + 4 * (m / ms) ^ 2)), r2, r3,
          show 1 - 2 * e / ms + (1 - 2 * e / ms) * vel (m / ms) (2 * e / ms)
            = (1 - 2 * e / ms) * (1 + vel (m / ms) (2 * e / ms)) by ring,
          show -1 + 2 * e / ms + (1 - 2 * e / ms) * vel (m / ms) (2 * e / ms)
            = (1 - 2 * e / ms) * (-(1 - vel (m / ms) (2 * e / ms))) by ring,
          arg_div (b := 0) hu, neg_sq, r5, hq]
        unfold numSF
        have hr := Real.rpow_pos_of_pos hms (3 / 2 : ℝ)
        generalize (1 - 4 * (m / ms) ^ 2) ^ (3 / 2 : ℝ) = r at *
        generalize lr (vel (m / ms) (2 * e / ms)) = l at *
        generalize vel (m / ms) (2 * e / ms) = b at *
        congr 1
        field_simp
        ring
      · have hxe : 2 * e / ms = 1 - 4 * (m / ms) ^ 2 :=
          le_antisymm hxx (not_lt.mp (fun k => h' ((x_lt_iff hs).mp k)))
        have hv := (vel_facts hmu hxx).2.2.2.2 hxe
        have : scalarFF alpha mx e ms m = .ok 0 := by
          unfold scalarFF; simp only; rw [if_neg]
          rintro ⟨-, k, -⟩; exact h' (by linarith)
        rw [this]
        unfold scalarLepRest
        simp only
        rw [if_neg hcond, mul_assoc (4 * (-1 + 4 * (m / ms) ^ 2)), r2, r3, hv]
        simp only [mul_zero, add_zero, zero_add]
        rw [show -1 + 2 * e / ms = -(1 - 2 * e / ms) by ring, neg_sq,
          div_self (pow_ne_zero 2 hu), Real.log_one]
        simp
  · have : scalarFF alpha mx e ms m = .ok 0 := by
      unfold scalarFF; simp only; rw [if_neg]
      rintro ⟨-, k, -⟩; exact h (by linarith)
    have hc : 2 * e / ms < 0 ∨ 2 * e / ms > 1 - 4 * (m / ms) ^ 2 := by
      right; by_contra k; push Not at k; exact h ((x_le_iff hs).mp k)
    refine ⟨?_, ?_⟩
    · unfold scalarPiPi scalarPiRest
      simp only
      rw [bind_ok (pydiv_ok hs.ne'), bind_ok (pydiv_ok hs.ne'), if_pos (by tauto), if_pos hc, mul_zero]
    · rw [this]; unfold scalarLepRest; simp only; rw [if_pos hc, mul_zero]

/-- C39 (vector): the two implementations agree. -/
theorem vector_rest_agrees (alpha qe mx e mv m : ℝ) (ha : 0 < alpha) (hq : qe ^ 2 = 4 * Real.pi * alpha)
    (hs : 0 < mv) (hm : 0 < m) (he : 0 < e) (hx : 2 * mx < mv) :
    vectorPiPi alpha m mx e mv = .ok (vectorPiRest qe m e mv)
    ∧ vectorFF alpha mx e mv m = .ok (vectorLepRest qe m e mv) := by
  have hmu : 0 < m / mv := by positivity
  have h0 : 0 < 2 * e / mv := by positivity
  have hpi := Real.pi_pos
  by_cases h : 2 * mv * e ≤ mv ^ 2 - 4 * m ^ 2
  · have hxx := (x_le_iff (e := e) (m := m) hs).mpr h
    have hms := mu_small hs he h
    obtain ⟨r1, r2, r3, r4, r5⟩ := rest_parts hmu hxx
    have hcond : ¬ (2 * e / mv < 0 ∨ 2 * e / mv > 1 - 4 * (m / mv) ^ 2) := by
      push Not; exact ⟨h0.le, hxx⟩
    have hup : 0 < 1 - 2 * e / mv := by nlinarith [pow_pos hmu 2]
    have hu := hup.ne'
    have hsq := Real.sqrt_pos.mpr hup
    refine ⟨?_, ?_⟩
    · rw [vectorPiPi_val ha hs hm he h hx.le]
      unfold vectorPiRest
      simp only
      rw [if_neg hcond, r2,
        show 1 + (1 - 2 * e / mv) * vel (m / mv) (2 * e / mv) - 2 * e / mv
          = (1 - 2 * e / mv) * (1 + vel (m / mv) (2 * e / mv)) by ring,
        show -1 + (1 - 2 * e / mv) * vel (m / mv) (2 * e / mv) + 2 * e / mv
          = (1 - 2 * e / mv) * (-(1 - vel (m / mv) (2 * e / mv))) by ring,
        arg_div (b := 0) hu, neg_sq, r5, hq, r1]
      unfold numVP
      have hr := Real.rpow_pos_of_pos hms (3 / 2 : ℝ)
      generalize (1 - 4 * (m / mv) ^ 2) ^ (3 / 2 : ℝ) = r at *
      generalize lr (vel (m / mv) (2 * e / mv)) = l at *
      generalize vel (m / mv) (2 * e / mv) = b at *
      generalize Real.sqrt (1 - 2 * e / mv) = w at *
      congr 1
      field_simp
      ring
    · rw [vectorFF_val ha hs hm he h hx]
      unfold vectorLepRest
      simp only
      rw [if_neg hcond, r2,
        show 1 + (1 - 2 * e / mv) * vel (m / mv) (2 * e / mv) - 2 * e / mv
          = (1 - 2 * e / mv) * (1 + vel (m / mv) (2 * e / mv)) by ring,
        show -1 + (1 - 2 * e / mv) * vel (m / mv) (2 * e / mv) + 2 * e / mv
          = (1 - 2 * e / mv) * (-(1 - vel (m / mv) (2 * e / mv))) by ring,
        arg_div (b := 0) hu, neg_sq, r4, neg_div, hq, r1]
      unfold numVF
      have hr := Real.sqrt_pos.mpr hms
      generalize Real.sqrt (1 - 4 * (m / mv) ^ 2) = r at *
      generalize lr (vel (m / mv) (2 * e / mv)) = l at *
      generalize vel (m / mv) (2 * e / mv) = b at *
      generalize Real.sqrt (1 - 2 * e / mv) = w at *
      have hg : 0 < 1 + 2 * (m / mv) ^ 2 := by positivity
      congr 1
      field_simp
      ring
  · have hc : 2 * e / mv < 0 ∨ 2 * e / mv > 1 - 4 * (m / mv) ^ 2 := by
      right; by_contra k; push Not at k; exact h ((x_le_iff hs).mp k)
    refine ⟨?_, ?_⟩
    · unfold vectorPiPi vectorPiRest
      simp only
      rw [bind_ok (pydiv_ok hs.ne'), bind_ok (pydiv_ok hs.ne'), if_pos (by tauto), if_pos hc]
    · unfold vectorFF vectorLepRest
      simp only
      rw [bind_ok (pydiv_ok hs.ne'), bind_ok (pydiv_ok hs.ne'), if_neg, if_pos hc]
      rintro ⟨k1, -⟩; exact h (by linarith)

/-! ### Soft photons -/

/-- Value of a computation, zero for an exception. -/
noncomputable def value : Except Err ℝ → ℝ
  | .ok v => v
  | .error _ => 0

/-- The eikonal factor for two opposite unit charges with velocity `b`. -/
noncomputable def eikonal (alpha b : ℝ) : ℝ :=
  2 * alpha / Real.pi * ((1 + b ^ 2) / (2 * b) * Real.log ((1 + b) / (1 - b)) - 1)

theorem vel_zero (mu : ℝ) : vel mu 0 = Real.sqrt (1 - 4 * mu ^ 2) := by
  unfold vel; congr 1; ring

theorem rpow32 {y : ℝ} (hy : 0 < y) : y ^ (3 / 2 : ℝ) = Real.sqrt y ^ 3 := by
  rw [Real.sqrt_eq_rpow, ← Real.rpow_natCast, ← Real.rpow_mul hy.le]
  norm_num

theorem vel_continuous (mu Q : ℝ) : ContinuousAt (fun e : ℝ => vel mu (2 * e / Q)) 0 := by
  unfold vel
  apply ContinuousAt.sqrt
  refine continuousAt_const.add (ContinuousAt.div continuousAt_const ?_ (by simp))
  exact (continuous_const.add ((continuous_const.mul continuous_id).div_const Q)).continuousAt

theorem lr_continuous (mu Q : ℝ) (hmu : 0 < mu) (h : 4 * mu ^ 2 < 1) :
    ContinuousAt (fun e : ℝ => lr (vel mu (2 * e / Q))) 0 := by
  obtain ⟨b0, b1, -⟩ := vel_facts hmu (x := 2 * 0 / Q) (by simp; linarith)
  unfold lr
  refine ContinuousAt.log (ContinuousAt.div (continuousAt_const.add (vel_continuous mu Q))
    (continuousAt_const.sub (vel_continuous mu Q)) (by linarith)) ?_
  exact (div_pos (by linarith) (by linarith)).ne'

/-- From the value near zero to the limit. -/
theorem soft_limit {f : ℝ → Except Err ℝ} {g : ℝ → ℝ} {c Q E lim : ℝ} (hQ : 0 < Q) (hE : 0 < E)
    (hf : ∀ e, 0 < e → e < E → f e = .ok (g e / (Real.pi * Q * (2 * e / Q) * c)))
    (hg : ContinuousAt g 0) (hl : g 0 / (2 * Real.pi * c) = lim) :
    Tendsto (fun e => e * value (f e)) (𝓝[>] 0) (𝓝 lim) := by
  have h1 : Tendsto (fun e => g e / (2 * Real.pi * c)) (𝓝[>] 0) (𝓝 lim) := by
    rw [← hl]
    exact ((hg.div_const _).tendsto).mono_left nhdsWithin_le_nhds
  refine h1.congr' ?_
  have hm : Set.Ioo (0 : ℝ) E ∈ 𝓝[>] (0 : ℝ) := Ioo_mem_nhdsGT hE
  filter_upwards [hm] with e he
  rw [hf e he.1 he.2]
  unfold value
  simp only
  have h0 := he.1
  by_cases hc : c = 0
  · simp [hc]
  · have := Real.pi_pos
    field_simp

/-- C87: the soft-photon theorem.  For every mediator spin and both kinds of radiating particle,
`E dN/dE` tends to the same eikonal factor of the particles' velocity as `E → 0+`. -/
theorem soft_photon_universal (alpha mx Q m : ℝ) (ha : 0 < alpha) (hQ : 0 < Q) (hm : 0 < m)
    (h : 2 * m < Q) (hx : 2 * mx < Q) :
    let b := Real.sqrt (1 - 4 * (m / Q) ^ 2)
    Tendsto (fun e => e * value (scalarFF alpha mx e Q m)) (𝓝[>] 0) (𝓝 (eikonal alpha b))
    ∧ Tendsto (fun e => e * value (scalarPiPi alpha m mx e Q)) (𝓝[>] 0) (𝓝 (eikonal alpha b))
    ∧ Tendsto (fun e => e * value (vectorFF alpha mx e Q m)) (𝓝[>] 0) (𝓝 (eikonal alpha b))
    ∧ Tendsto (fun e => e * value (vectorPiPi alpha m mx e Q)) (𝓝[>] 0) (𝓝 (eikonal alpha b)) := by
  intro b
  have hpi := Real.pi_pos
  have hmu : 0 < m / Q := by positivity
  have h1 : 4 * (m / Q) ^ 2 < 1 := by
    rw [div_pow, ← mul_div_assoc, div_lt_one (by positivity)]; nlinarith
  have hy : 0 < 1 - 4 * (m / Q) ^ 2 := by linarith
  have hb : 0 < b := Real.sqrt_pos.mpr hy
  have hb2 : b ^ 2 = 1 - 4 * (m / Q) ^ 2 := Real.sq_sqrt hy.le
  have hE : 0 < (Q ^ 2 - 4 * m ^ 2) / (2 * Q) := div_pos (by nlinarith) (by positivity)
  have hin : ∀ e, e < (Q ^ 2 - 4 * m ^ 2) / (2 * Q) → 2 * Q * e < Q ^ 2 - 4 * m ^ 2 := by
    intro e he
    rw [lt_div_iff₀ (by positivity)] at he
    linarith
  have v0 : vel (m / Q) (2 * 0 / Q) = b := by rw [mul_zero, zero_div, vel_zero]
  have cv := vel_continuous (m / Q) Q
  have cl := lr_continuous (m / Q) Q hmu h1
  have cx : ContinuousAt (fun e : ℝ => 2 * e / Q) 0 :=
    ((continuous_const.mul continuous_id).div_const Q).continuousAt
  have m2 : (m / Q) ^ 2 = (1 - b ^ 2) / 4 := by linarith
  have m4 : (m / Q) ^ 4 = (1 - b ^ 2) ^ 2 / 16 := by
    rw [show (m / Q) ^ 4 = ((m / Q) ^ 2) ^ 2 by ring, m2]; ring
  refine ⟨?_, ?_, ?_, ?_⟩
  · refine soft_limit (g := fun e => 2 * alpha * numSF (m / Q) (2 * e / Q)) hQ hE
      (fun e h0 h' => scalarFF_val ha hQ hm h0 (hin e h') hx) ?_ ?_
    · unfold numSF
      fun_prop
    · simp only [numSF, v0]
      rw [rpow32 hy, mul_zero, zero_div, m2]
      change _ / (2 * Real.pi * (Real.sqrt _) ^ 3) = _
      rw [show Real.sqrt (1 - 4 * ((1 - b ^ 2) / 4)) = b by
        rw [show 1 - 4 * ((1 - b ^ 2) / 4) = b ^ 2 by ring, Real.sqrt_sq hb.le]]
      unfold eikonal lr
      field_simp
      ring
  · refine soft_limit (g := fun e => 4 * alpha * numSP (m / Q) (2 * e / Q)) hQ hE
      (fun e h0 h' => scalarPiPi_val ha hQ hm h0 (hin e h').le hx.le) ?_ ?_
    · unfold numSP
      fun_prop
    · simp only [numSP, v0]
      rw [mul_zero, zero_div, m2]
      rw [show Real.sqrt (1 - 4 * ((1 - b ^ 2) / 4)) = b by
        rw [show 1 - 4 * ((1 - b ^ 2) / 4) = b ^ 2 by ring, Real.sqrt_sq hb.le]]
      unfold eikonal lr
      field_simp
      ring
  · have hg : 0 < 1 + 2 * (m / Q) ^ 2 := by positivity
    refine soft_limit (g := fun e => 2 * alpha * numVF (m / Q) (2 * e / Q)) hQ hE
      (c := Real.sqrt (1 - 4 * (m / Q) ^ 2) * (1 + 2 * (m / Q) ^ 2))
      (fun e h0 h' => by
        rw [vectorFF_val ha hQ hm h0 (hin e h').le hx, mul_assoc (Real.pi * Q * (2 * e / Q))]) ?_ ?_
    · unfold numVF
      fun_prop
    · simp only [numVF, v0]
      rw [m2] at hg
      rw [mul_zero, zero_div, m2, m4]
      rw [show Real.sqrt (1 - 4 * ((1 - b ^ 2) / 4)) = b by
        rw [show 1 - 4 * ((1 - b ^ 2) / 4) = b ^ 2 by ring, Real.sqrt_sq hb.le]]
      unfold eikonal lr
      have hg' : 0 < 3 - b ^ 2 := by linarith
      rw [show 1 + 2 * ((1 - b ^ 2) / 4) = (3 - b ^ 2) / 2 by ring]
      field_simp
      ring
  · refine soft_limit (g := fun e => 4 * alpha * numVP (m / Q) (2 * e / Q)) hQ hE
      (fun e h0 h' => vectorPiPi_val ha hQ hm h0 (hin e h').le hx.le) ?_ ?_
    · unfold numVP
      fun_prop
    · simp only [numVP, v0]
      rw [rpow32 hy, mul_zero, zero_div, m2]
      rw [show Real.sqrt (1 - 4 * ((1 - b ^ 2) / 4)) = b by
        rw [show 1 - 4 * ((1 - b ^ 2) / 4) = b ^ 2 by ring, Real.sqrt_sq hb.le]]
      unfold eikonal lr
      field_simp
      ring

/-- A muon pair at 1 GeV radiates a 100 MeV photon: the hypotheses are met. -/
example : ∃ v, scalarFF (1 / 137) 200 100 1000 105.66 = .ok v ∧ 0 < v := by
  obtain ⟨v, h1, -, h3⟩ := scalar_ff_sign (1 / 137) 200 100 1000 105.66 (by norm_num) (by norm_num)
    (by norm_num) (by norm_num)
  exact ⟨v, h1, h3.mpr ⟨by norm_num, by norm_num⟩⟩

end Hazma.Fsr
