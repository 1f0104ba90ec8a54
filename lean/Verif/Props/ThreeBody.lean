import Verif.Model.ThreeBody
import Verif.Props.PhaseSpace
import Verif.Props.Kinematics
import Mathlib.MeasureTheory.Integral.Prod
import Mathlib.MeasureTheory.Integral.IntervalIntegral.FundThmCalculus
import Mathlib.MeasureTheory.Group.Integral
import Mathlib.Analysis.Calculus.Deriv.Pow
import Mathlib.MeasureTheory.Function.JacobianOneDim
import Mathlib.MeasureTheory.Measure.Haar.Unique
import Mathlib.MeasureTheory.Constructions.BorelSpace.Order
import Mathlib.Tactic

/-!
# Two- and three-body phase space (C27, C68 - C74)
-/

namespace Hazma.ThreeBody

open Hazma.Kinematics Hazma.Rambo Hazma.PhaseSpace

/-! ### The physical region -/

/-- Scalar product of the three-momenta of particles 1 and 2 forced by energy conservation. -/
noncomputable def dot12 (q m1 m2 m3 e1 e2 : ℝ) : ℝ :=
  (q ^ 2 + m1 ^ 2 + m2 ^ 2 - m3 ^ 2) / 2 - q * (e1 + e2) + e1 * e2

/-- The Dalitz region in the energies of particles 1 and 2. -/
structure Dalitz (q m1 m2 m3 e1 e2 : ℝ) : Prop where
  h1 : m1 ≤ e1
  h2 : m2 ≤ e2
  h3 : m3 ≤ q - e1 - e2
  hc : dot12 q m1 m2 m3 e1 e2 ^ 2 ≤ (e1 ^ 2 - m1 ^ 2) * (e2 ^ 2 - m2 ^ 2)

/-- Build the three momenta from the lengths and a direction. -/
theorem dalitz_physical {q m1 m2 m3 e1 e2 : ℝ} (n1 : 0 ≤ m1) (n2 : 0 ≤ m2) (n3 : 0 ≤ m3)
    (h : Dalitz q m1 m2 m3 e1 e2) :
    ∃ p1 p2 p3 : P4, Physical q [m1, m2, m3] [p1, p2, p3] ∧ p1.e = e1 ∧ p2.e = e2 := by
  have k1 : 0 ≤ e1 ^ 2 - m1 ^ 2 := by nlinarith [h.h1]
  have k2 : 0 ≤ e2 ^ 2 - m2 ^ 2 := by nlinarith [h.h2]
  set a := Real.sqrt (e1 ^ 2 - m1 ^ 2) with ha
  set b := Real.sqrt (e2 ^ 2 - m2 ^ 2) with hb
  have ha2 : a ^ 2 = e1 ^ 2 - m1 ^ 2 := Real.sq_sqrt k1
  have hb2 : b ^ 2 = e2 ^ 2 - m2 ^ 2 := Real.sq_sqrt k2
  set c := dot12 q m1 m2 m3 e1 e2 with hc
  have hcc : c ^ 2 ≤ (a * b) ^ 2 := by rw [mul_pow, ha2, hb2]; exact h.hc
  -- direction of particle 2 relative to particle 1
  obtain ⟨z, x, hz, hx⟩ : ∃ z x : ℝ, a * z = c ∧ x ^ 2 + z ^ 2 = b ^ 2 := by
    rcases eq_or_lt_of_le (Real.sqrt_nonneg (e1 ^ 2 - m1 ^ 2)) with h0 | h0
    · have : a = 0 := h0.symm
      have hc0 : c = 0 := by
        rw [this] at hcc; nlinarith [sq_nonneg c]
      exact ⟨0, b, by rw [hc0]; ring, by ring⟩
    · have ha0 : a ≠ 0 := h0.ne'
      have hle : (c / a) ^ 2 ≤ b ^ 2 := by
        rw [div_pow, div_le_iff₀ (by positivity)]; nlinarith
      refine ⟨c / a, Real.sqrt (b ^ 2 - (c / a) ^ 2), by field_simp, ?_⟩
      rw [Real.sq_sqrt (by linarith)]; ring
  refine ⟨⟨e1, 0, 0, a⟩, ⟨e2, x, 0, z⟩, ⟨q - e1 - e2, -x, 0, -z - a⟩, ⟨?_, ?_, ?_⟩, rfl, rfl⟩
  · intro m hm
    simp only [List.mem_cons, List.not_mem_nil, or_false] at hm
    rcases hm with rfl | rfl | rfl <;> assumption
  · refine List.Forall₂.cons ⟨?_, h.h1⟩ (List.Forall₂.cons ⟨?_, h.h2⟩
      (List.Forall₂.cons ⟨?_, h.h3⟩ List.Forall₂.nil))
    · simp only; rw [ha2]; ring
    · simp only; linarith
    · simp only
      have hce : c = (q ^ 2 + m1 ^ 2 + m2 ^ 2 - m3 ^ 2) / 2 - q * (e1 + e2) + e1 * e2 := hc
      linear_combination (-1 : ℝ) * hx - ha2 - hb2 - 2 * hz - 2 * hce
  · simp [total]; ring

theorem physical_dalitz {q m1 m2 m3 : ℝ} {p1 p2 p3 : P4}
    (h : Physical q [m1, m2, m3] [p1, p2, p3]) : Dalitz q m1 m2 m3 p1.e p2.e := by
  obtain ⟨hn, hs, ht⟩ := h
  simp only [List.forall₂_cons, List.Forall₂.nil, and_true] at hs
  obtain ⟨⟨s1, l1⟩, ⟨s2, l2⟩, s3, l3⟩ := hs
  have ht' := P4.ext_iff.mp ht
  simp only [total, List.map_cons, List.map_nil, List.sum_cons, List.sum_nil, add_zero] at ht'
  obtain ⟨te, tx, ty, tz⟩ := ht'
  have he : p3.e = q - p1.e - p2.e := by linarith
  have hx : p3.x = -(p1.x + p2.x) := by linarith
  have hy : p3.y = -(p1.y + p2.y) := by linarith
  have hz : p3.z = -(p1.z + p2.z) := by linarith
  refine ⟨l1, l2, by linarith, ?_⟩
  have hd : dot12 q m1 m2 m3 p1.e p2.e = p1.x * p2.x + p1.y * p2.y + p1.z * p2.z := by
    unfold dot12
    rw [he, hx, hy, hz] at s3
    linear_combination (-1 / 2 : ℝ) * s1 - (1 / 2 : ℝ) * s2 + (1 / 2 : ℝ) * s3
  rw [hd, show p1.e ^ 2 - m1 ^ 2 = p1.x ^ 2 + p1.y ^ 2 + p1.z ^ 2 by linarith,
    show p2.e ^ 2 - m2 ^ 2 = p2.x ^ 2 + p2.y ^ 2 + p2.z ^ 2 by linarith]
  nlinarith [sq_nonneg (p1.x * p2.y - p1.y * p2.x), sq_nonneg (p1.x * p2.z - p1.z * p2.x),
    sq_nonneg (p1.y * p2.z - p1.z * p2.y)]

theorem dalitz_scale {q m1 m2 m3 e1 e2 : ℝ} (hq : 0 < q) :
    Dalitz q m1 m2 m3 e1 e2 ↔ Dalitz 1 (m1 / q) (m2 / q) (m3 / q) (e1 / q) (e2 / q) := by
  have hd : dot12 1 (m1 / q) (m2 / q) (m3 / q) (e1 / q) (e2 / q)
      = dot12 q m1 m2 m3 e1 e2 / q ^ 2 := by
    unfold dot12; field_simp
  have hr : ((e1 / q) ^ 2 - (m1 / q) ^ 2) * ((e2 / q) ^ 2 - (m2 / q) ^ 2)
      = (e1 ^ 2 - m1 ^ 2) * (e2 ^ 2 - m2 ^ 2) / (q ^ 2) ^ 2 := by
    field_simp
  have h3 : (1 : ℝ) - e1 / q - e2 / q = (q - e1 - e2) / q := by field_simp
  constructor
  · intro h
    refine ⟨(div_le_div_iff_of_pos_right hq).mpr h.h1, (div_le_div_iff_of_pos_right hq).mpr h.h2,
      ?_, ?_⟩
    · rw [h3]; exact (div_le_div_iff_of_pos_right hq).mpr h.h3
    · rw [hd, hr, div_pow]; exact (div_le_div_iff_of_pos_right (by positivity)).mpr h.hc
  · intro h
    refine ⟨(div_le_div_iff_of_pos_right hq).mp h.h1, (div_le_div_iff_of_pos_right hq).mp h.h2,
      ?_, ?_⟩
    · have := h.h3; rw [h3] at this; exact (div_le_div_iff_of_pos_right hq).mp this
    · have := h.hc
      rw [hd, hr, div_pow] at this
      exact (div_le_div_iff_of_pos_right (by positivity)).mp this

/-- The boundary polynomial in factored form. -/
theorem quad_factor {s y lb ub p r : ℝ} (hs : 0 < s) (hlb : lb = 0.5 * (p - r) / s)
    (hub : ub = 0.5 * (p + r) / s) :
    s * y ^ 2 - p * y + (p ^ 2 - r ^ 2) / (4 * s) = s * ((y - lb) * (y - ub)) := by
  rw [hlb, hub]; field_simp; ring

/-- Reversed Cauchy-Schwarz used for the lower energy bounds. -/
theorem energy_ge {s k lam a m E : ℝ} (hs : 0 < s) (hk : 0 ≤ k) (hl : 0 ≤ lam) (ha : 0 ≤ a)
    (hE : 0 ≤ E) (hm : 0 ≤ m) (hE2 : E ^ 2 = k ^ 2 + 4 * s) (ha2 : a ^ 2 = lam ^ 2 + 4 * s * m ^ 2) :
    2 * m ≤ 0.5 * (E * a - k * lam) / s := by
  rw [le_div_iff₀ hs]
  have h : 4 * s * m + k * lam ≤ E * a := by
    have h0 : 0 ≤ 4 * s * m + k * lam := by positivity
    refine (abs_le_of_sq_le_sq' ?_ (mul_nonneg hE ha)).2
    rw [mul_pow, hE2, ha2]
    nlinarith [mul_nonneg hs.le (sq_nonneg (2 * k * m - 2 * lam)),
      mul_nonneg hs.le (sq_nonneg (k * m - lam))]
  norm_num
  linarith

theorem unit_poly {u1 u2 u3 x y s a : ℝ} (hs : s = 1 - x + u1 ^ 2) (ha : a = s + u2 ^ 2 - u3 ^ 2) :
    4 * (dot12 1 u1 u2 u3 (x / 2) (y / 2) ^ 2
        - ((x / 2) ^ 2 - u1 ^ 2) * ((y / 2) ^ 2 - u2 ^ 2))
      = s * y ^ 2 - (2 - x) * a * y + (a ^ 2 + (x ^ 2 - 4 * u1 ^ 2) * u2 ^ 2) := by
  unfold dot12; rw [ha, hs]; ring

theorem unit_disc {u1 u2 x s a r : ℝ} (hs : s = 1 - x + u1 ^ 2) (hs0 : 0 < s)
    (hr : r ^ 2 = (x ^ 2 - 4 * u1 ^ 2) * (a ^ 2 - 4 * s * u2 ^ 2)) :
    (((2 - x) * a) ^ 2 - r ^ 2) / (4 * s) = a ^ 2 + (x ^ 2 - 4 * u1 ^ 2) * u2 ^ 2 := by
  rw [div_eq_iff (by positivity), hr, hs]; ring

theorem unit_range {u1 u2 u3 x s a : ℝ} (n1 : 0 ≤ u1) (n2 : 0 ≤ u2) (n3 : 0 ≤ u3)
    (hopen : u1 + u2 + u3 ≤ 1) (hs : s = 1 - x + u1 ^ 2) (ha : a = s + u2 ^ 2 - u3 ^ 2)
    (hx1 : 2 * u1 ≤ x) (hx2 : x ≤ u1 ^ 2 + (1 - (u2 + u3) ^ 2)) :
    0 ≤ x ^ 2 - 4 * u1 ^ 2 ∧ 0 ≤ a ^ 2 - 4 * s * u2 ^ 2 ∧ 0 ≤ a ∧ 0 ≤ 2 - x
        ∧ (u2 + u3) ^ 2 ≤ s := by
  have h23 := mul_nonneg n2 n3
  have hs' : (u2 + u3) ^ 2 ≤ s := by rw [hs]; linarith
  refine ⟨by nlinarith, ?_, ?_, ?_, hs'⟩
  · have : a ^ 2 - 4 * s * u2 ^ 2 = (s - (u2 + u3) ^ 2) * (s - (u2 - u3) ^ 2) := by
      rw [ha]; ring
    rw [this]
    exact mul_nonneg (by linarith) (by nlinarith)
  · rw [ha]; nlinarith
  · have : u1 ^ 2 ≤ 1 := by nlinarith
    nlinarith [sq_nonneg (u2 + u3)]

theorem unit_fwd {u1 u2 u3 x y s a k l : ℝ} (n1 : 0 ≤ u1) (n2 : 0 ≤ u2) (n3 : 0 ≤ u3)
    (hopen : u1 + u2 + u3 ≤ 1) (hs : s = 1 - x + u1 ^ 2) (ha : a = s + u2 ^ 2 - u3 ^ 2)
    (hs0 : 0 < s) (hx1 : 2 * u1 ≤ x) (hx2 : x ≤ u1 ^ 2 + (1 - (u2 + u3) ^ 2)) (hk0 : 0 ≤ k)
    (hl0 : 0 ≤ l) (hk2 : k ^ 2 = x ^ 2 - 4 * u1 ^ 2) (hl2 : l ^ 2 = a ^ 2 - 4 * s * u2 ^ 2)
    (hy1 : 0.5 * ((2 - x) * a - k * l) / s ≤ y) (hy2 : y ≤ 0.5 * ((2 - x) * a + k * l) / s) :
    Dalitz 1 u1 u2 u3 (x / 2) (y / 2) := by
  obtain ⟨-, -, ha0, h2x, hs'⟩ := unit_range n1 n2 n3 hopen hs ha hx1 hx2
  have hE2 : (2 - x) ^ 2 = k ^ 2 + 4 * s := by rw [hk2, hs]; ring
  refine ⟨by linarith, ?_, ?_, ?_⟩
  · have := energy_ge hs0 hk0 hl0 ha0 h2x n2 hE2 (by rw [hl2]; ring)
    linarith
  · have ha'0 : 0 ≤ s + u3 ^ 2 - u2 ^ 2 := by nlinarith [mul_nonneg n2 n3]
    have := energy_ge (a := s + u3 ^ 2 - u2 ^ 2) (m := u3) hs0 hk0 hl0 ha'0 h2x n3 hE2 (by
      rw [hl2, ha]; ring)
    have hsum : 0.5 * ((2 - x) * a + k * l) / s
        = (2 - x) - 0.5 * ((2 - x) * (s + u3 ^ 2 - u2 ^ 2) - k * l) / s := by
      rw [ha]; field_simp; ring
    rw [hsum] at hy2
    linarith
  · have hq := quad_factor (y := y) (p := (2 - x) * a) (r := k * l) hs0 rfl rfl
    have hneg : (y - 0.5 * ((2 - x) * a - k * l) / s) * (y - 0.5 * ((2 - x) * a + k * l) / s) ≤ 0 :=
      mul_nonpos_of_nonneg_of_nonpos (by linarith) (by linarith)
    rw [unit_disc (u2 := u2) hs hs0 (by rw [mul_pow, hk2, hl2]), ← unit_poly (u3 := u3) hs ha] at hq
    have := mul_nonpos_of_nonneg_of_nonpos hs0.le hneg
    linarith

theorem unit_bwd {u1 u2 u3 x y s a r : ℝ} (hs : s = 1 - x + u1 ^ 2) (ha : a = s + u2 ^ 2 - u3 ^ 2)
    (hs0 : 0 < s) (hr0 : 0 ≤ r) (hr : r ^ 2 = (x ^ 2 - 4 * u1 ^ 2) * (a ^ 2 - 4 * s * u2 ^ 2))
    (h : Dalitz 1 u1 u2 u3 (x / 2) (y / 2)) :
    0.5 * ((2 - x) * a - r) / s ≤ y ∧ y ≤ 0.5 * ((2 - x) * a + r) / s := by
  have hq := quad_factor (y := y) (p := (2 - x) * a) (r := r) hs0 rfl rfl
  rw [unit_disc hs hs0 hr, ← unit_poly (u3 := u3) hs ha] at hq
  have hneg : (y - 0.5 * ((2 - x) * a - r) / s) * (y - 0.5 * ((2 - x) * a + r) / s) ≤ 0 := by
    have := h.hc
    by_contra hpos
    push Not at hpos
    have := mul_pos hs0 hpos
    linarith
  have hle : 0.5 * ((2 - x) * a - r) / s ≤ 0.5 * ((2 - x) * a + r) / s := by
    rw [div_le_div_iff_of_pos_right hs0]; linarith
  rcases mul_nonpos_iff.mp hneg with ⟨h1, h2⟩ | ⟨h1, h2⟩
  · exact ⟨by linarith, by linarith⟩
  · exact ⟨by linarith, by linarith⟩

theorem unit_xmax {u1 u2 u3 x y : ℝ} (n1 : 0 ≤ u1) (n2 : 0 ≤ u2) (n3 : 0 ≤ u3)
    (h : Dalitz 1 u1 u2 u3 (x / 2) (y / 2)) : x ≤ u1 ^ 2 + (1 - (u2 + u3) ^ 2) := by
  obtain ⟨p1, p2, p3, hph, he1, he2⟩ := dalitz_physical n1 n2 n3 h
  obtain ⟨lo, hi, hlim, -, hle⟩ := energy_limits_contain one_pos hph (i := 0) (by simp)
  simp only [energyLimits, List.map_cons, List.getElem?_cons_zero, Option.some.injEq,
    Prod.mk.injEq, List.sum_cons, List.sum_nil] at hlim
  rw [List.getD_cons_zero, he1, ← hlim.2, le_div_iff₀ (by norm_num)] at hle
  nlinarith

/-- Unit-energy version of C27. -/
theorem bounds_iff_unit {u1 u2 u3 x y : ℝ} (n1 : 0 ≤ u1) (n2 : 0 ≤ u2) (n3 : 0 ≤ u3)
    (hopen : u1 + u2 + u3 ≤ 1) (hs : 0 < 1 - x + u1 ^ 2) :
    (((boundsX 1 u1 u2 u3).1 ≤ x ∧ x ≤ (boundsX 1 u1 u2 u3).2) ∧
      ((boundsY 1 u1 u2 u3 x).1 ≤ y ∧ y ≤ (boundsY 1 u1 u2 u3 x).2)) ↔
      Dalitz 1 u1 u2 u3 (x / 2) (y / 2) := by
  obtain ⟨s, hsdef⟩ : ∃ s, s = 1 - x + u1 ^ 2 := ⟨_, rfl⟩
  obtain ⟨a, hadef⟩ : ∃ a, a = s + u2 ^ 2 - u3 ^ 2 := ⟨_, rfl⟩
  rw [← hsdef] at hs
  have hl1 : kallenLambda 1 (u1 ^ 2) s = x ^ 2 - 4 * u1 ^ 2 := by
    unfold kallenLambda; rw [hsdef]; ring
  have hl2 : kallenLambda s (u2 ^ 2) (u3 ^ 2) = a ^ 2 - 4 * s * u2 ^ 2 := by
    unfold kallenLambda; rw [hadef]; ring
  have hbx : boundsX 1 u1 u2 u3 = (2 * u1, u1 ^ 2 + (1 - (u2 + u3) ^ 2)) := by
    simp [boundsX]
  have hby : boundsY 1 u1 u2 u3 x
      = (0.5 * ((2 - x) * a - Real.sqrt ((x ^ 2 - 4 * u1 ^ 2) * (a ^ 2 - 4 * s * u2 ^ 2))) / s,
         0.5 * ((2 - x) * a + Real.sqrt ((x ^ 2 - 4 * u1 ^ 2) * (a ^ 2 - 4 * s * u2 ^ 2))) / s) := by
    simp only [boundsY, div_one]
    rw [← hsdef, hl1, hl2, ← hadef]
  rw [hbx, hby]
  constructor
  · rintro ⟨⟨hx1, hx2⟩, hy1, hy2⟩
    obtain ⟨d1, d2, -⟩ := unit_range n1 n2 n3 hopen hsdef hadef hx1 hx2
    rw [Real.sqrt_mul d1] at hy1 hy2
    exact unit_fwd n1 n2 n3 hopen hsdef hadef hs hx1 hx2 (Real.sqrt_nonneg _) (Real.sqrt_nonneg _)
      (Real.sq_sqrt d1) (Real.sq_sqrt d2) hy1 hy2
  · intro h
    have hx1 : 2 * u1 ≤ x := by linarith [h.h1]
    have hx2 := unit_xmax n1 n2 n3 h
    obtain ⟨d1, d2, -⟩ := unit_range n1 n2 n3 hopen hsdef hadef hx1 hx2
    exact ⟨⟨hx1, hx2⟩, unit_bwd hsdef hadef hs (Real.sqrt_nonneg _)
      (Real.sq_sqrt (mul_nonneg d1 d2)) h⟩

theorem boundsX_scale (q m1 m2 m3 : ℝ) :
    boundsX q m1 m2 m3 = boundsX 1 (m1 / q) (m2 / q) (m3 / q) := by simp [boundsX]

theorem boundsY_scale (q m1 m2 m3 x : ℝ) :
    boundsY q m1 m2 m3 x = boundsY 1 (m1 / q) (m2 / q) (m3 / q) x := by simp [boundsY]

theorem bounds_iff_dalitz {q m1 m2 m3 x y : ℝ} (hq : 0 < q) (n1 : 0 ≤ m1) (n2 : 0 ≤ m2)
    (n3 : 0 ≤ m3) (hopen : m1 + m2 + m3 ≤ q) (hs : 0 < 1 - x + (m1 / q) ^ 2) :
    (((boundsX q m1 m2 m3).1 ≤ x ∧ x ≤ (boundsX q m1 m2 m3).2) ∧
      ((boundsY q m1 m2 m3 x).1 ≤ y ∧ y ≤ (boundsY q m1 m2 m3 x).2)) ↔
      Dalitz q m1 m2 m3 (q * x / 2) (q * y / 2) := by
  rw [boundsX_scale, boundsY_scale, dalitz_scale hq]
  have h := bounds_iff_unit (u1 := m1 / q) (u2 := m2 / q) (u3 := m3 / q) (x := x) (y := y)
    (by positivity) (by positivity) (by positivity)
    (by rw [← add_div, ← add_div, div_le_one hq]; exact hopen) hs
  rw [h]
  have e1 : q * x / 2 / q = x / 2 := by field_simp
  have e2 : q * y / 2 / q = y / 2 := by field_simp
  rw [e1, e2]

/-- **C27.** The rectangle-free integration region of the three-body integrator, `x` within the
`x`-bounds and `y` within the `y`-bounds for that `x`, is exactly the set of scaled energies
`(2 E1 / q, 2 E2 / q)` for which a physical final state exists (the recoil mass
`1 - x + (m1/q)^2` being positive, which only excludes the end point `x = xmax` for two massless
recoiling particles). -/
theorem three_body_bounds_exact {q m1 m2 m3 x y : ℝ} (hq : 0 < q) (n1 : 0 ≤ m1) (n2 : 0 ≤ m2)
    (n3 : 0 ≤ m3) (hopen : m1 + m2 + m3 ≤ q) (hs : 0 < 1 - x + (m1 / q) ^ 2) :
    (((boundsX q m1 m2 m3).1 ≤ x ∧ x ≤ (boundsX q m1 m2 m3).2) ∧
      ((boundsY q m1 m2 m3 x).1 ≤ y ∧ y ≤ (boundsY q m1 m2 m3 x).2)) ↔
      ∃ p1 p2 p3 : P4, Physical q [m1, m2, m3] [p1, p2, p3] ∧
        p1.e = q * x / 2 ∧ p2.e = q * y / 2 := by
  rw [bounds_iff_dalitz hq n1 n2 n3 hopen hs]
  constructor
  · exact dalitz_physical n1 n2 n3
  · rintro ⟨p1, p2, p3, h, h1, h2⟩
    rw [← h1, ← h2]; exact physical_dalitz h

/-! ### C68: momenta from invariant masses -/

/-- **C68.** Wherever the invariant masses `s`, `t` correspond to energies inside the Dalitz region
with both particles 1 and 2 moving, the momenta handed to a matrix element of momenta form a
physical final state with `(p2 + p3)^2 = s` and `(p1 + p3)^2 = t`. -/
theorem mandelstam_to_momenta_physical {s t q m1 m2 m3 : ℝ} (hq : 0 < q) (n1 : 0 ≤ m1)
    (n2 : 0 ≤ m2) (n3 : 0 ≤ m3)
    (hd : Dalitz q m1 m2 m3 ((q ^ 2 + m1 ^ 2 - s) / (2 * q)) ((q ^ 2 + m2 ^ 2 - t) / (2 * q)))
    (h1 : m1 < (q ^ 2 + m1 ^ 2 - s) / (2 * q)) (h2 : m2 < (q ^ 2 + m2 ^ 2 - t) / (2 * q)) :
    Physical q [m1, m2, m3] (mandelstamToMomenta s t q m1 m2 m3) ∧
      ∀ p1 p2 p3, mandelstamToMomenta s t q m1 m2 m3 = [p1, p2, p3] →
        (p2.e + p3.e) ^ 2 - (p2.x + p3.x) ^ 2 - (p2.y + p3.y) ^ 2 - (p2.z + p3.z) ^ 2 = s ∧
        (p1.e + p3.e) ^ 2 - (p1.x + p3.x) ^ 2 - (p1.y + p3.y) ^ 2 - (p1.z + p3.z) ^ 2 = t := by
  set e1 := (q ^ 2 + m1 ^ 2 - s) / (2 * q) with he1
  set e2 := (q ^ 2 + m2 ^ 2 - t) / (2 * q) with he2
  have hs : s = q ^ 2 + m1 ^ 2 - 2 * q * e1 := by rw [he1]; field_simp; ring
  have ht : t = q ^ 2 + m2 ^ 2 - 2 * q * e2 := by rw [he2]; field_simp; ring
  have k1 : 0 < e1 ^ 2 - m1 ^ 2 := by nlinarith
  have k2 : 0 < e2 ^ 2 - m2 ^ 2 := by nlinarith
  set a := Real.sqrt (e1 ^ 2 - m1 ^ 2) with ha
  set b := Real.sqrt (e2 ^ 2 - m2 ^ 2) with hb
  have ha0 : 0 < a := Real.sqrt_pos.mpr k1
  have hb0 : 0 < b := Real.sqrt_pos.mpr k2
  have ha2 : a ^ 2 = e1 ^ 2 - m1 ^ 2 := Real.sq_sqrt k1.le
  have hb2 : b ^ 2 = e2 ^ 2 - m2 ^ 2 := Real.sq_sqrt k2.le
  have hdot : e1 * e2 - 0.5 * (q ^ 2 + m1 ^ 2 + m2 ^ 2 + m3 ^ 2 - s - t - m1 ^ 2 - m2 ^ 2)
      = dot12 q m1 m2 m3 e1 e2 := by
    unfold dot12; rw [hs, ht]; ring
  set c := dot12 q m1 m2 m3 e1 e2 with hc
  have hct : (c / (a * b)) ^ 2 ≤ 1 := by
    rw [div_pow, div_le_one (by positivity), mul_pow, ha2, hb2]; exact hd.hc
  set ct := c / (a * b) with hctd
  set st := Real.sqrt (1 - ct ^ 2) with hst
  have hst2 : st ^ 2 = 1 - ct ^ 2 := Real.sq_sqrt (by linarith)
  have habc : a * (b * ct) = c := by rw [hctd]; field_simp
  have hce : c = (q ^ 2 + m1 ^ 2 + m2 ^ 2 - m3 ^ 2) / 2 - q * (e1 + e2) + e1 * e2 := hc
  have hlist : mandelstamToMomenta s t q m1 m2 m3
      = [⟨e1, 0, 0, a⟩, ⟨e2, b * st, 0, b * ct⟩, ⟨q - e1 - e2, -(b * st), 0, -(b * ct) - a⟩] := by
    unfold mandelstamToMomenta
    simp only [← he1, ← he2, ← ha, ← hb, hdot, ← hctd, ← hst]
  have hbb : (b * st) ^ 2 + (b * ct) ^ 2 = b ^ 2 := by rw [mul_pow, mul_pow, hst2]; ring
  rw [hlist]
  refine ⟨⟨?_, ?_, ?_⟩, ?_⟩
  · intro m hm
    simp only [List.mem_cons, List.not_mem_nil, or_false] at hm
    rcases hm with rfl | rfl | rfl <;> assumption
  · refine List.Forall₂.cons ⟨?_, h1.le⟩ (List.Forall₂.cons ⟨?_, h2.le⟩
      (List.Forall₂.cons ⟨?_, hd.h3⟩ List.Forall₂.nil))
    · simp only; rw [ha2]; ring
    · simp only; linarith
    · simp only
      linear_combination (-1 : ℝ) * hbb - ha2 - hb2 - 2 * habc - 2 * hce
  · simp [total]; ring
  · intro p1 p2 p3 heq
    simp only [List.cons.injEq, and_true] at heq
    obtain ⟨rfl, rfl, rfl⟩ := heq
    simp only
    rw [hs, ht]
    constructor
    · linear_combination (-1 : ℝ) * ha2
    · linear_combination (-1 : ℝ) * hbb - hb2

/-! ### C69: the bounds on `t` -/

/-- **C69, what holds.** For a given invariant mass `s` of the pair (2,3) within its bounds, the
physical values of `t` form an interval around the midpoint of the two bounds the code returns; its
half width is `sqrt(λ(s, q², m1²) λ(s, m2², m3²)) / (2 s)`. -/
theorem bounds_t_midpoint_partial {q m1 m2 m3 s t : ℝ} (hq : 0 < q) (n1 : 0 ≤ m1) (n2 : 0 ≤ m2)
    (n3 : 0 ≤ m3) (hopen : m1 + m2 + m3 ≤ q) (hs0 : 0 < s) (hs1 : (boundsS q m1 m2 m3).1 ≤ s)
    (hs2 : s ≤ (boundsS q m1 m2 m3).2) :
    (∃ p1 p2 p3 : P4, Physical q [m1, m2, m3] [p1, p2, p3] ∧
        (p2.e + p3.e) ^ 2 - (p2.x + p3.x) ^ 2 - (p2.y + p3.y) ^ 2 - (p2.z + p3.z) ^ 2 = s ∧
        (p1.e + p3.e) ^ 2 - (p1.x + p3.x) ^ 2 - (p1.y + p3.y) ^ 2 - (p1.z + p3.z) ^ 2 = t) ↔
      |t - ((boundsT q m1 m2 m3 s).1 + (boundsT q m1 m2 m3 s).2) / 2|
        ≤ Real.sqrt (kallenLambda s (q ^ 2) (m1 ^ 2) * kallenLambda s (m2 ^ 2) (m3 ^ 2)) / (2 * s) := by
  simp only [boundsS] at hs1 hs2
  obtain ⟨x, hx⟩ : ∃ x, x = (q ^ 2 + m1 ^ 2 - s) / q ^ 2 := ⟨_, rfl⟩
  obtain ⟨y, hy⟩ : ∃ y, y = (q ^ 2 + m2 ^ 2 - t) / q ^ 2 := ⟨_, rfl⟩
  have hxs : 1 - x + (m1 / q) ^ 2 = s / q ^ 2 := by rw [hx]; field_simp; ring
  have hsx : s = q ^ 2 * (1 - x) + m1 ^ 2 := by rw [hx]; field_simp; ring
  have hty : t = q ^ 2 * (1 - y) + m2 ^ 2 := by rw [hy]; field_simp; ring
  have hm1q : m1 ≤ q := by linarith
  -- invariant masses and energies
  have hinv : ∀ p1 p2 p3 : P4, Physical q [m1, m2, m3] [p1, p2, p3] →
      (((p2.e + p3.e) ^ 2 - (p2.x + p3.x) ^ 2 - (p2.y + p3.y) ^ 2 - (p2.z + p3.z) ^ 2 = s ∧
        (p1.e + p3.e) ^ 2 - (p1.x + p3.x) ^ 2 - (p1.y + p3.y) ^ 2 - (p1.z + p3.z) ^ 2 = t) ↔
      (p1.e = q * x / 2 ∧ p2.e = q * y / 2)) := by
    intro p1 p2 p3 ⟨hn, hs, ht⟩
    simp only [List.forall₂_cons, List.Forall₂.nil, and_true] at hs
    obtain ⟨⟨s1, l1⟩, ⟨s2, l2⟩, s3, l3⟩ := hs
    have ht' := P4.ext_iff.mp ht
    simp only [total, List.map_cons, List.map_nil, List.sum_cons, List.sum_nil, add_zero] at ht'
    obtain ⟨te, tx, ty, tz⟩ := ht'
    rw [show p2.e + p3.e = q - p1.e by linarith, show p2.x + p3.x = -p1.x by linarith,
      show p2.y + p3.y = -p1.y by linarith, show p2.z + p3.z = -p1.z by linarith,
      show p1.e + p3.e = q - p2.e by linarith, show p1.x + p3.x = -p2.x by linarith,
      show p1.y + p3.y = -p2.y by linarith, show p1.z + p3.z = -p2.z by linarith]
    have e1 : (q - p1.e) ^ 2 - (-p1.x) ^ 2 - (-p1.y) ^ 2 - (-p1.z) ^ 2
        = q ^ 2 + m1 ^ 2 - 2 * q * p1.e := by linear_combination s1
    have e2 : (q - p2.e) ^ 2 - (-p2.x) ^ 2 - (-p2.y) ^ 2 - (-p2.z) ^ 2
        = q ^ 2 + m2 ^ 2 - 2 * q * p2.e := by linear_combination s2
    rw [e1, e2, hsx, hty]
    constructor
    · rintro ⟨h1, h2⟩
      constructor
      · have : q * (2 * p1.e) = q * (q * x) := by linarith
        have := mul_left_cancel₀ hq.ne' this
        linarith
      · have : q * (2 * p2.e) = q * (q * y) := by linarith
        have := mul_left_cancel₀ hq.ne' this
        linarith
    · rintro ⟨h1, h2⟩
      rw [h1, h2]; constructor <;> ring
  have hbx : (boundsX q m1 m2 m3).1 ≤ x ∧ x ≤ (boundsX q m1 m2 m3).2 := by
    simp only [boundsX]
    rw [hx]
    constructor
    · rw [le_div_iff₀ (by positivity)]
      have : 2 * (m1 / q) * q ^ 2 = 2 * m1 * q := by field_simp
      rw [this]; linarith
    · rw [div_le_iff₀ (by positivity)]
      have : ((m1 / q) ^ 2 + (1 - (m2 / q + m3 / q) ^ 2)) * q ^ 2
          = m1 ^ 2 + q ^ 2 - (m2 + m3) ^ 2 := by field_simp; ring
      rw [this]; linarith
  have hpos : 0 < 1 - x + (m1 / q) ^ 2 := by rw [hxs]; positivity
  have key := three_body_bounds_exact (y := y) hq n1 n2 n3 hopen hpos
  have hlhs : (∃ p1 p2 p3 : P4, Physical q [m1, m2, m3] [p1, p2, p3] ∧
        (p2.e + p3.e) ^ 2 - (p2.x + p3.x) ^ 2 - (p2.y + p3.y) ^ 2 - (p2.z + p3.z) ^ 2 = s ∧
        (p1.e + p3.e) ^ 2 - (p1.x + p3.x) ^ 2 - (p1.y + p3.y) ^ 2 - (p1.z + p3.z) ^ 2 = t) ↔
      ((boundsY q m1 m2 m3 x).1 ≤ y ∧ y ≤ (boundsY q m1 m2 m3 x).2) := by
    constructor
    · rintro ⟨p1, p2, p3, h, hst⟩
      exact (key.mpr ⟨p1, p2, p3, h, (hinv p1 p2 p3 h).mp hst⟩).2
    · intro h
      obtain ⟨p1, p2, p3, h, he⟩ := key.mp ⟨hbx, h⟩
      exact ⟨p1, p2, p3, h, (hinv p1 p2 p3 h).mpr he⟩
  rw [hlhs]
  -- compare the two parametrisations
  have hmid : ((boundsT q m1 m2 m3 s).1 + (boundsT q m1 m2 m3 s).2) / 2
      = (-(q ^ 2 - m1 ^ 2) * (m2 ^ 2 - m3 ^ 2) + (q ^ 2 + m1 ^ 2 + m2 ^ 2 + m3 ^ 2) * s - s ^ 2)
        / (2 * s) := by
    simp only [boundsT]; field_simp; ring
  obtain ⟨R, hR⟩ : ∃ R, R = Real.sqrt (kallenLambda s (q ^ 2) (m1 ^ 2)
      * kallenLambda s (m2 ^ 2) (m3 ^ 2)) := ⟨_, rfl⟩
  have hsq : Real.sqrt (kallenLambda 1 ((m1 / q) ^ 2) (s / q ^ 2)
      * kallenLambda (s / q ^ 2) ((m2 / q) ^ 2) ((m3 / q) ^ 2)) = R / q ^ 4 := by
    have : kallenLambda 1 ((m1 / q) ^ 2) (s / q ^ 2)
        * kallenLambda (s / q ^ 2) ((m2 / q) ^ 2) ((m3 / q) ^ 2)
        = (kallenLambda s (q ^ 2) (m1 ^ 2) * kallenLambda s (m2 ^ 2) (m3 ^ 2)) / (q ^ 4) ^ 2 := by
      unfold kallenLambda; field_simp; ring
    rw [this, Real.sqrt_div' _ (by positivity), Real.sqrt_sq (by positivity), hR]
  have hlb : (boundsY q m1 m2 m3 x).1
      = ((2 - x) * (s / q ^ 2 + (m2 / q) ^ 2 - (m3 / q) ^ 2) - R / q ^ 4) / (2 * (s / q ^ 2)) := by
    simp only [boundsY]; rw [hxs, hsq]; field_simp; norm_num
  have hub : (boundsY q m1 m2 m3 x).2
      = ((2 - x) * (s / q ^ 2 + (m2 / q) ^ 2 - (m3 / q) ^ 2) + R / q ^ 4) / (2 * (s / q ^ 2)) := by
    simp only [boundsY]; rw [hxs, hsq]; field_simp; norm_num
  rw [hlb, hub, hmid, ← hR, abs_le]
  have hE : t - (-(q ^ 2 - m1 ^ 2) * (m2 ^ 2 - m3 ^ 2) + (q ^ 2 + m1 ^ 2 + m2 ^ 2 + m3 ^ 2) * s
      - s ^ 2) / (2 * s)
      = q ^ 2 * ((2 - x) * (s / q ^ 2 + (m2 / q) ^ 2 - (m3 / q) ^ 2) / (2 * (s / q ^ 2)) - y) := by
    rw [hx, hy]; field_simp; ring
  have hW : R / (2 * s) = q ^ 2 * (R / q ^ 4 / (2 * (s / q ^ 2))) := by field_simp
  have hq2 : 0 < q ^ 2 := by positivity
  rw [hE, hW, sub_div, add_div]
  constructor
  · rintro ⟨h1, h2⟩
    constructor
    · rw [← mul_neg]; exact mul_le_mul_of_nonneg_left (by linarith) hq2.le
    · exact mul_le_mul_of_nonneg_left (by linarith) hq2.le
  · rintro ⟨h1, h2⟩
    rw [← mul_neg] at h1
    have h1' := le_of_mul_le_mul_left h1 hq2
    have h2' := le_of_mul_le_mul_left h2 hq2
    exact ⟨by linarith, by linarith⟩

/-- **C69 fails.** For `q = 10` and masses `(1, 2, 3)` there is a physical final state with
`s = 36`, `t = 60`, above the upper bound the code gives for `t` at that `s`. -/
theorem bounds_t_wrong :
    (boundsT 10 1 2 3 36).2 < 60 ∧
    ∃ p1 p2 p3 : P4, Physical 10 [1, 2, 3] [p1, p2, p3] ∧
        (p2.e + p3.e) ^ 2 - (p2.x + p3.x) ^ 2 - (p2.y + p3.y) ^ 2 - (p2.z + p3.z) ^ 2 = 36 ∧
        (p1.e + p3.e) ^ 2 - (p1.x + p3.x) ^ 2 - (p1.y + p3.y) ^ 2 - (p1.z + p3.z) ^ 2 = 60 := by
  constructor
  · have hk : kallenLambda 36 (1 ^ 2) (2 ^ 2) * kallenLambda 36 (2 ^ 2) (3 ^ 2) = 945 * 385 := by
      unfold kallenLambda; norm_num
    unfold boundsT
    simp only
    rw [hk]
    have : Real.sqrt (945 * 385) < 604 := by
      rw [Real.sqrt_lt' (by norm_num)]; norm_num
    norm_num at this ⊢
    linarith
  · obtain ⟨h1, h2⟩ := mandelstam_to_momenta_physical (s := 36) (t := 60) (q := 10) (m1 := 1)
      (m2 := 2) (m3 := 3) (by norm_num) (by norm_num) (by norm_num) (by norm_num)
      ⟨by norm_num, by norm_num, by norm_num, by unfold dot12; norm_num⟩ (by norm_num) (by norm_num)
    exact ⟨_, _, _, h1, h2 _ _ _ rfl⟩

/-! ### C70: one-dimensional distributions integrate to the total -/

/-- The Dalitz region in the scaled energies `x = 2 e1 / q`, `y = 2 e2 / q`. -/
def dalitzSet (q m1 m2 m3 : ℝ) : Set (ℝ × ℝ) :=
  {z | Dalitz q m1 m2 m3 (q * z.1 / 2) (q * z.2 / 2)}

theorem dalitzSet_compact {q m1 m2 m3 : ℝ} (hq : 0 < q) (n1 : 0 ≤ m1) (n2 : 0 ≤ m2) (n3 : 0 ≤ m3) :
    IsCompact (dalitzSet q m1 m2 m3) := by
  have hsub : dalitzSet q m1 m2 m3 ⊆ Set.Icc 0 2 ×ˢ Set.Icc 0 2 := by
    rintro ⟨x, y⟩ ⟨h1, h2, h3, -⟩
    simp only at h1 h2 h3
    have hx : 0 ≤ x := by
      by_contra hx; push Not at hx; nlinarith
    have hy : 0 ≤ y := by
      by_contra hy; push Not at hy; nlinarith
    have hxy : x + y ≤ 2 := by
      by_contra hxy; push Not at hxy; nlinarith
    exact ⟨⟨hx, by linarith⟩, ⟨hy, by linarith⟩⟩
  refine IsCompact.of_isClosed_subset (isCompact_Icc.prod isCompact_Icc) ?_ hsub
  have : dalitzSet q m1 m2 m3 = {z : ℝ × ℝ | m1 ≤ q * z.1 / 2} ∩ {z | m2 ≤ q * z.2 / 2}
      ∩ {z | m3 ≤ q - q * z.1 / 2 - q * z.2 / 2}
      ∩ {z | dot12 q m1 m2 m3 (q * z.1 / 2) (q * z.2 / 2) ^ 2
          ≤ ((q * z.1 / 2) ^ 2 - m1 ^ 2) * ((q * z.2 / 2) ^ 2 - m2 ^ 2)} := by
    ext z
    constructor
    · rintro ⟨a, b, c, d⟩; exact ⟨⟨⟨a, b⟩, c⟩, d⟩
    · rintro ⟨⟨⟨a, b⟩, c⟩, d⟩; exact ⟨a, b, c, d⟩
  rw [this]
  unfold dot12
  refine IsClosed.inter (IsClosed.inter (IsClosed.inter ?_ ?_) ?_) ?_ <;>
    exact isClosed_le (by fun_prop) (by fun_prop)

theorem dalitzSet_swap (q m1 m2 m3 x y : ℝ) :
    (x, y) ∈ dalitzSet q m2 m1 m3 ↔ (y, x) ∈ dalitzSet q m1 m2 m3 := by
  constructor <;>
  · rintro ⟨a, b, c, d⟩
    refine ⟨b, a, by simp only at c ⊢; linarith, ?_⟩
    unfold dot12 at d ⊢
    simp only at d ⊢
    nlinarith

theorem dalitzSet_swap13 (q m1 m2 m3 x y : ℝ) :
    (x, y) ∈ dalitzSet q m3 m2 m1 ↔ (2 - (x + y), y) ∈ dalitzSet q m1 m2 m3 := by
  constructor <;>
  · rintro ⟨a, b, c, d⟩
    refine ⟨by simp only at c ⊢; linarith, b, by simp only at a ⊢; linarith, ?_⟩
    unfold dot12 at d ⊢
    simp only at d ⊢
    nlinarith

open MeasureTheory

/-- The iterated integral between the code's bounds is the integral over the Dalitz region. -/
theorem iterated_eq {q m1 m2 m3 : ℝ} (hq : 0 < q) (n1 : 0 ≤ m1) (n2 : 0 ≤ m2) (n3 : 0 ≤ m3)
    (hopen : m1 + m2 + m3 ≤ q) (h : ℝ → ℝ → ℝ) :
    (∫ x in (boundsX q m1 m2 m3).1..(boundsX q m1 m2 m3).2,
      ∫ y in (boundsY q m1 m2 m3 x).1..(boundsY q m1 m2 m3 x).2, h x y)
      = ∫ x, ∫ y, (dalitzSet q m1 m2 m3).indicator (fun z => h z.1 z.2) (x, y) := by
  have hle : (boundsX q m1 m2 m3).1 ≤ (boundsX q m1 m2 m3).2 := by
    simp only [boundsX]
    have e : m2 / q + m3 / q ≤ 1 - m1 / q := by
      rw [← add_div, ← sub_nonneg]
      have : 1 - m1 / q - (m2 + m3) / q = (q - (m1 + m2 + m3)) / q := by field_simp; ring
      rw [this]; exact div_nonneg (by linarith) hq.le
    have e0 : 0 ≤ m2 / q + m3 / q := by positivity
    nlinarith
  -- positivity of the invariant mass strictly inside
  have hpos : ∀ x < (boundsX q m1 m2 m3).2, 0 < 1 - x + (m1 / q) ^ 2 := by
    intro x hx
    simp only [boundsX] at hx
    nlinarith [sq_nonneg (m2 / q + m3 / q)]
  have hzero : ∀ x ∉ Set.Icc (boundsX q m1 m2 m3).1 (boundsX q m1 m2 m3).2,
      (∫ y, (dalitzSet q m1 m2 m3).indicator (fun z => h z.1 z.2) (x, y)) = 0 := by
    intro x hx
    have : ∀ y, (dalitzSet q m1 m2 m3).indicator (fun z => h z.1 z.2) (x, y) = 0 := by
      intro y
      apply Set.indicator_of_notMem
      intro hd
      apply hx
      obtain ⟨p1, p2, p3, hph, he1, he2⟩ := dalitz_physical n1 n2 n3 hd
      obtain ⟨lo, hi, hlim, hge, hle⟩ := energy_limits_contain hq hph (i := 0) (by simp)
      simp only [energyLimits, List.map_cons, List.getElem?_cons_zero, Option.some.injEq,
        Prod.mk.injEq, List.sum_cons, List.sum_nil] at hlim
      rw [List.getD_cons_zero, he1, ← hlim.2, le_div_iff₀ (by positivity)] at hle
      rw [List.getD_cons_zero, he1, ← hlim.1] at hge
      simp only [boundsX]
      constructor
      · rw [show 2 * (m1 / q) = (2 * m1) / q by ring, div_le_iff₀ hq]; simp only at hge; linarith
      · have : (m1 / q) ^ 2 + (1 - (m2 / q + m3 / q) ^ 2)
            = (m1 ^ 2 + q ^ 2 - (m2 + m3) ^ 2) / q ^ 2 := by field_simp; ring
        rw [this, le_div_iff₀ (by positivity)]
        simp only at hle
        nlinarith
    simp [this]
  rw [intervalIntegral.integral_of_le hle, integral_Ioc_eq_integral_Ioo]
  rw [← setIntegral_eq_integral_of_forall_compl_eq_zero (s := Set.Icc (boundsX q m1 m2 m3).1
    (boundsX q m1 m2 m3).2) (fun x hx => hzero x hx), integral_Icc_eq_integral_Ioo]
  apply setIntegral_congr_fun measurableSet_Ioo
  rintro x ⟨hx1, hx2⟩
  have hs := hpos x hx2
  have hyle : (boundsY q m1 m2 m3 x).1 ≤ (boundsY q m1 m2 m3 x).2 := by
    simp only [boundsY]
    rw [div_le_div_iff_of_pos_right hs]
    have := Real.sqrt_nonneg (kallenLambda 1 ((m1 / q) ^ 2) (1 - x + (m1 / q) ^ 2)
      * kallenLambda (1 - x + (m1 / q) ^ 2) ((m2 / q) ^ 2) ((m3 / q) ^ 2))
    linarith
  simp only
  rw [intervalIntegral.integral_of_le hyle, ← integral_Icc_eq_integral_Ioc,
    ← integral_indicator measurableSet_Icc]
  congr 1
  ext y
  by_cases hy : y ∈ Set.Icc (boundsY q m1 m2 m3 x).1 (boundsY q m1 m2 m3 x).2
  · have : (x, y) ∈ dalitzSet q m1 m2 m3 :=
      (bounds_iff_dalitz hq n1 n2 n3 hopen hs).mp ⟨⟨hx1.le, hx2.le⟩, hy⟩
    rw [Set.indicator_of_mem hy, Set.indicator_of_mem this]
  · have : (x, y) ∉ dalitzSet q m1 m2 m3 :=
      fun hd => hy ((bounds_iff_dalitz hq n1 n2 n3 hopen hs).mpr hd).2
    rw [Set.indicator_of_notMem hy, Set.indicator_of_notMem this]

theorem dalitz_integrable {q m1 m2 m3 : ℝ} (hq : 0 < q) (n1 : 0 ≤ m1) (n2 : 0 ≤ m2) (n3 : 0 ≤ m3)
    {h : ℝ → ℝ → ℝ} (hc : Continuous fun z : ℝ × ℝ => h z.1 z.2) :
    Integrable ((dalitzSet q m1 m2 m3).indicator fun z => h z.1 z.2)
      ((volume : Measure ℝ).prod volume) := by
  have hcomp := dalitzSet_compact hq n1 n2 n3
  rw [integrable_indicator_iff hcomp.measurableSet]
  exact hc.continuousOn.integrableOn_compact hcomp

/-- Exchanging particles 1 and 2. -/
theorem iterated_swap {q m1 m2 m3 : ℝ} (hq : 0 < q) (n1 : 0 ≤ m1) (n2 : 0 ≤ m2) (n3 : 0 ≤ m3)
    {h : ℝ → ℝ → ℝ} (hc : Continuous fun z : ℝ × ℝ => h z.1 z.2) :
    (∫ x, ∫ y, (dalitzSet q m2 m1 m3).indicator (fun z => h z.2 z.1) (x, y))
      = ∫ x, ∫ y, (dalitzSet q m1 m2 m3).indicator (fun z => h z.1 z.2) (x, y) := by
  have hint := dalitz_integrable hq n1 n2 n3 hc
  have e : ∀ x y, (dalitzSet q m2 m1 m3).indicator (fun z => h z.2 z.1) (x, y)
      = (dalitzSet q m1 m2 m3).indicator (fun z => h z.1 z.2) (y, x) := by
    intro x y
    by_cases hm : (y, x) ∈ dalitzSet q m1 m2 m3
    · rw [Set.indicator_of_mem hm, Set.indicator_of_mem ((dalitzSet_swap q m1 m2 m3 x y).mpr hm)]
    · rw [Set.indicator_of_notMem hm,
        Set.indicator_of_notMem fun h' => hm ((dalitzSet_swap q m1 m2 m3 x y).mp h')]
  simp only [e]
  exact (integral_integral_swap (f := fun x y => (dalitzSet q m1 m2 m3).indicator
    (fun z => h z.1 z.2) (x, y)) hint).symm

/-- Exchanging particles 1 and 3. -/
theorem iterated_swap13 {q m1 m2 m3 : ℝ} (hq : 0 < q) (n1 : 0 ≤ m1) (n2 : 0 ≤ m2) (n3 : 0 ≤ m3)
    {h : ℝ → ℝ → ℝ} (hc : Continuous fun z : ℝ × ℝ => h z.1 z.2) :
    (∫ x, ∫ y, (dalitzSet q m3 m2 m1).indicator (fun z => h (2 - (z.1 + z.2)) z.2) (x, y))
      = ∫ x, ∫ y, (dalitzSet q m1 m2 m3).indicator (fun z => h z.1 z.2) (x, y) := by
  have hint := dalitz_integrable hq n1 n2 n3 hc
  have hc' : Continuous fun z : ℝ × ℝ => h (2 - (z.1 + z.2)) z.2 := by
    exact hc.comp (f := fun z : ℝ × ℝ => (2 - (z.1 + z.2), z.2)) (by fun_prop)
  have hint' := dalitz_integrable (h := fun x y => h (2 - (x + y)) y) hq n3 n2 n1 hc'
  have e : ∀ x y, (dalitzSet q m3 m2 m1).indicator (fun z => h (2 - (z.1 + z.2)) z.2) (x, y)
      = (dalitzSet q m1 m2 m3).indicator (fun z => h z.1 z.2) (2 - y - x, y) := by
    intro x y
    have e2 : 2 - y - x = 2 - (x + y) := by ring
    rw [e2]
    by_cases hm : (2 - (x + y), y) ∈ dalitzSet q m1 m2 m3
    · rw [Set.indicator_of_mem hm, Set.indicator_of_mem ((dalitzSet_swap13 q m1 m2 m3 x y).mpr hm)]
    · rw [Set.indicator_of_notMem hm,
        Set.indicator_of_notMem fun h' => hm ((dalitzSet_swap13 q m1 m2 m3 x y).mp h')]
  rw [integral_integral_swap (f := fun x y => (dalitzSet q m3 m2 m1).indicator
    (fun z => h (2 - (z.1 + z.2)) z.2) (x, y)) hint']
  simp only [e]
  rw [integral_integral_swap (f := fun x y => (dalitzSet q m1 m2 m3).indicator
    (fun z => h z.1 z.2) (x, y)) hint]
  congr 1
  ext y
  exact integral_sub_left_eq_self (fun x => (dalitzSet q m1 m2 m3).indicator
    (fun z => h z.1 z.2) (x, y)) volume (2 - y)

/-- Change of variable from energy to scaled energy, for one choice of the particle. -/
theorem energy_integral {q n1 n2 n3 : ℝ} (hq : 0 < q) (k1 : 0 ≤ n1) (k2 : 0 ≤ n2) (k3 : 0 ≤ n3)
    (hopen : n1 + n2 + n3 ≤ q) (integrand : ℝ → ℝ → ℝ) :
    (∫ e in n1..(q ^ 2 + n1 ^ 2 - (n2 + n3) ^ 2) / (2 * q),
      if 2 * e / q < (boundsX q n1 n2 n3).1 ∨ (boundsX q n1 n2 n3).2 < 2 * e / q then 0
      else q / (64 * Real.pi ^ 3) *
        ∫ y in (boundsY q n1 n2 n3 (2 * e / q)).1..(boundsY q n1 n2 n3 (2 * e / q)).2,
          integrand (2 * e / q) y)
      = q ^ 2 / (128 * Real.pi ^ 3) *
        ∫ x, ∫ y, (dalitzSet q n1 n2 n3).indicator (fun z => integrand z.1 z.2) (x, y) := by
  have hb1 : (boundsX q n1 n2 n3).1 = 2 / q * n1 := by simp only [boundsX]; ring
  have hb2 : (boundsX q n1 n2 n3).2 = 2 / q * ((q ^ 2 + n1 ^ 2 - (n2 + n3) ^ 2) / (2 * q)) := by
    simp only [boundsX]; field_simp; ring
  have hle : n1 ≤ (q ^ 2 + n1 ^ 2 - (n2 + n3) ^ 2) / (2 * q) := by
    rw [le_div_iff₀ (by positivity)]; nlinarith
  have hcongr : ∀ e ∈ Set.uIcc n1 ((q ^ 2 + n1 ^ 2 - (n2 + n3) ^ 2) / (2 * q)),
      (if 2 * e / q < (boundsX q n1 n2 n3).1 ∨ (boundsX q n1 n2 n3).2 < 2 * e / q then 0
      else q / (64 * Real.pi ^ 3) *
        ∫ y in (boundsY q n1 n2 n3 (2 * e / q)).1..(boundsY q n1 n2 n3 (2 * e / q)).2,
          integrand (2 * e / q) y)
      = (fun x => q / (64 * Real.pi ^ 3) *
        ∫ y in (boundsY q n1 n2 n3 x).1..(boundsY q n1 n2 n3 x).2, integrand x y) (2 / q * e) := by
    intro e he
    rw [Set.uIcc_of_le hle] at he
    have hx : 2 * e / q = 2 / q * e := by ring
    have h2q : 0 ≤ 2 / q := by positivity
    rw [hx, if_neg]
    rw [hb1, hb2]
    push Not
    exact ⟨mul_le_mul_of_nonneg_left he.1 h2q, mul_le_mul_of_nonneg_left he.2 h2q⟩
  rw [intervalIntegral.integral_congr hcongr,
    intervalIntegral.integral_comp_mul_left (fun x => q / (64 * Real.pi ^ 3) *
        ∫ y in (boundsY q n1 n2 n3 x).1..(boundsY q n1 n2 n3 x).2, integrand x y)
      (c := 2 / q) (by positivity), ← hb1, ← hb2,
    intervalIntegral.integral_const_mul, iterated_eq hq k1 k2 k3 hopen, smul_eq_mul]
  field_simp
  ring

/-- **C70.** For every continuous matrix element and each of the three particles, the energy
distribution computed by `_partial_integration`, integrated over that particle's energy limits, is
the total phase-space integral. -/
theorem energy_distribution_total {st : State} (hq : 0 < st.cme)
    (n1 : 0 ≤ st.masses.1) (n2 : 0 ≤ st.masses.2.1) (n3 : 0 ≤ st.masses.2.2)
    (hopen : st.masses.1 + st.masses.2.1 + st.masses.2.2 ≤ st.cme)
    (hc : Continuous fun z : ℝ × ℝ => st.msqrd z.1 z.2) (i : Fin 3) {lo hi : ℝ}
    (hlim : (energyLimits st.cme [st.masses.1, st.masses.2.1, st.masses.2.2])[i.val]?
      = some (lo, hi)) :
    ∫ e in lo..hi, partialIntegration st e i = integrateQuad st := by
  obtain ⟨q, ⟨m1, m2, m3⟩, orig, f⟩ := st
  simp only at hq n1 n2 n3 hopen hc hlim
  obtain ⟨g, hg⟩ : ∃ g : ℝ → ℝ → ℝ, g = fun x y =>
      f (q ^ 2 * (1 - x + (m1 / q) ^ 2)) (q ^ 2 * (1 - y + (m2 / q) ^ 2)) := ⟨_, rfl⟩
  have hgc : Continuous fun z : ℝ × ℝ => g z.1 z.2 := by
    rw [hg]
    exact hc.comp (f := fun z : ℝ × ℝ =>
      (q ^ 2 * (1 - z.1 + (m1 / q) ^ 2), q ^ 2 * (1 - z.2 + (m2 / q) ^ 2))) (by fun_prop)
  have htot : integrateQuad ⟨q, (m1, m2, m3), orig, f⟩ = q ^ 2 / (128 * Real.pi ^ 3) *
      ∫ x, ∫ y, (dalitzSet q m1 m2 m3).indicator (fun z => g z.1 z.2) (x, y) := by
    rw [← iterated_eq hq n1 n2 n3 hopen, hg]; rfl
  rw [htot]
  simp only [energyLimits, List.map_cons, List.map_nil, List.sum_cons, List.sum_nil] at hlim
  fin_cases i
  · simp only [List.getElem?_cons_zero, Option.some.injEq, Prod.mk.injEq] at hlim
    obtain ⟨rfl, rfl⟩ := hlim
    have := energy_integral hq n1 n2 n3 hopen g
    rw [show (q ^ 2 + m1 ^ 2 - (m1 + (m2 + (m3 + 0)) - m1) ^ 2) / (2 * q)
      = (q ^ 2 + m1 ^ 2 - (m2 + m3) ^ 2) / (2 * q) by ring]
    rw [← this, hg]; rfl
  · simp only [List.getElem?_cons_zero, List.getElem?_cons_succ, Option.some.injEq,
      Prod.mk.injEq] at hlim
    obtain ⟨rfl, rfl⟩ := hlim
    have := energy_integral hq n2 n1 n3 (by linarith) fun x y => g y x
    rw [show (q ^ 2 + m2 ^ 2 - (m1 + (m2 + (m3 + 0)) - m2) ^ 2) / (2 * q)
      = (q ^ 2 + m2 ^ 2 - (m1 + m3) ^ 2) / (2 * q) by ring]
    rw [← iterated_swap hq n1 n2 n3 hgc, ← this, hg]; rfl
  · simp only [List.getElem?_cons_zero, List.getElem?_cons_succ, Option.some.injEq,
      Prod.mk.injEq] at hlim
    obtain ⟨rfl, rfl⟩ := hlim
    have := energy_integral hq n3 n2 n1 (by linarith) fun x y => g (2 - (x + y)) y
    rw [show (q ^ 2 + m3 ^ 2 - (m1 + (m2 + (m3 + 0)) - m3) ^ 2) / (2 * q)
      = (q ^ 2 + m3 ^ 2 - (m2 + m1) ^ 2) / (2 * q) by ring]
    rw [← iterated_swap13 hq n1 n2 n3 hgc, ← this, hg]; rfl

/-- **C70, invariant masses.** The invariant-mass density of the pair opposite to particle `i`
(`ms / q * integral(es, i)` in the code), integrated over the limits of that pair's mass, is the
total phase-space integral as well. -/
theorem invariant_mass_distribution_total {st : State} (hq : 0 < st.cme)
    (n1 : 0 ≤ st.masses.1) (n2 : 0 ≤ st.masses.2.1) (n3 : 0 ≤ st.masses.2.2)
    (hopen : st.masses.1 + st.masses.2.1 + st.masses.2.2 ≤ st.cme)
    (hc : Continuous fun z : ℝ × ℝ => st.msqrd z.1 z.2) (i j k : Fin 3) (hij : i ≠ j) (hik : i ≠ k)
    (hjk : j ≠ k) :
    ∫ m in (invariantMassLimits st.cme [st.masses.1, st.masses.2.1, st.masses.2.2] j k).1..
        (invariantMassLimits st.cme [st.masses.1, st.masses.2.1, st.masses.2.2] j k).2,
      invariantMassDensity st m i = integrateQuad st := by
  obtain ⟨q, ⟨m1, m2, m3⟩, orig, f⟩ := st
  -- change of variables for one particle
  have key : ∀ (mi mjk : ℝ) (F : ℝ → ℝ), 0 ≤ mi → 0 ≤ mjk → mi + mjk ≤ q → 0 < q →
      ∫ m in mjk..(q - mi), m / q * F ((q ^ 2 - m ^ 2 + mi ^ 2) / (2 * q))
        = ∫ e in mi..(q ^ 2 + mi ^ 2 - mjk ^ 2) / (2 * q), F e := by
    intro mi mjk F hi hjk hle hq
    have h1 : mjk ≤ q - mi := by linarith
    have h2 : mi ≤ (q ^ 2 + mi ^ 2 - mjk ^ 2) / (2 * q) := by
      rw [le_div_iff₀ (by positivity)]; nlinarith
    rw [intervalIntegral.integral_of_le h1, intervalIntegral.integral_of_le h2,
      ← integral_Icc_eq_integral_Ioc, ← integral_Icc_eq_integral_Ioc]
    have himg : (fun m : ℝ => (q ^ 2 - m ^ 2 + mi ^ 2) / (2 * q)) '' Set.Icc mjk (q - mi)
        = Set.Icc mi ((q ^ 2 + mi ^ 2 - mjk ^ 2) / (2 * q)) := by
      ext e
      constructor
      · rintro ⟨m, ⟨hm1, hm2⟩, rfl⟩
        simp only
        constructor
        · rw [le_div_iff₀ (by positivity)]; nlinarith
        · rw [div_le_div_iff_of_pos_right (by positivity)]; nlinarith
      · rintro ⟨he1, he2⟩
        rw [le_div_iff₀ (by positivity)] at he2
        have hnn : 0 ≤ q ^ 2 + mi ^ 2 - 2 * q * e := by nlinarith
        refine ⟨Real.sqrt (q ^ 2 + mi ^ 2 - 2 * q * e), ⟨?_, ?_⟩, ?_⟩
        · apply Real.le_sqrt_of_sq_le; linarith
        · rw [Real.sqrt_le_left (by linarith)]; nlinarith
        · simp only
          rw [Real.sq_sqrt hnn, div_eq_iff (by positivity)]; ring
    rw [← himg, integral_image_eq_integral_abs_deriv_smul (f' := fun m => -(m / q))
      measurableSet_Icc]
    · apply setIntegral_congr_fun measurableSet_Icc
      rintro m ⟨hm1, -⟩
      simp only [smul_eq_mul]
      rw [abs_neg, abs_of_nonneg (div_nonneg (hjk.trans hm1) hq.le)]
    · intro m _
      have h : HasDerivAt (fun m : ℝ => (q ^ 2 - m ^ 2 + mi ^ 2) / (2 * q))
          ((0 - ((2 : ℕ) : ℝ) * m ^ (2 - 1) + 0) / (2 * q)) m :=
        ((((hasDerivAt_const m (q ^ 2)).sub (hasDerivAt_pow 2 m)).add
          (hasDerivAt_const m (mi ^ 2))).div_const _)
      have e : -(m / q) = (0 - ((2 : ℕ) : ℝ) * m ^ (2 - 1) + 0) / (2 * q) := by
        push_cast; field_simp; ring
      rw [e]; exact h.hasDerivWithinAt
    · rintro a ⟨ha1, -⟩ b ⟨hb1, -⟩ hab
      simp only at hab
      rw [div_left_inj' (by positivity)] at hab
      have : a ^ 2 = b ^ 2 := by linarith
      exact (sq_eq_sq₀ (hjk.trans ha1) (hjk.trans hb1)).mp this
  simp only at hq n1 n2 n3 hopen hc
  have tot := fun i lo hi hl => energy_distribution_total (st := ⟨q, (m1, m2, m3), orig, f⟩) hq n1 n2
    n3 hopen hc (i := i) (lo := lo) (hi := hi) hl
  have fr : Finset.range 3 = {0, 1, 2} := by decide
  have c0 : ∀ m, invariantMassDensity ⟨q, (m1, m2, m3), orig, f⟩ m 0 = m / q *
      partialIntegration ⟨q, (m1, m2, m3), orig, f⟩ ((q ^ 2 - m ^ 2 + m1 ^ 2) / (2 * q)) 0 :=
    fun m => rfl
  have c1 : ∀ m, invariantMassDensity ⟨q, (m1, m2, m3), orig, f⟩ m 1 = m / q *
      partialIntegration ⟨q, (m1, m2, m3), orig, f⟩ ((q ^ 2 - m ^ 2 + m2 ^ 2) / (2 * q)) 1 :=
    fun m => rfl
  have c2 : ∀ m, invariantMassDensity ⟨q, (m1, m2, m3), orig, f⟩ m 2 = m / q *
      partialIntegration ⟨q, (m1, m2, m3), orig, f⟩ ((q ^ 2 - m ^ 2 + m3 ^ 2) / (2 * q)) 2 :=
    fun m => rfl
  have lims : ∀ a b : ℕ, invariantMassLimits q [m1, m2, m3] a b =
      ([m1, m2, m3].getD a 0 + [m1, m2, m3].getD b 0,
        q - ((if 0 ≠ a ∧ 0 ≠ b then m1 else 0) + ((if 1 ≠ a ∧ 1 ≠ b then m2 else 0)
          + (if 2 ≠ a ∧ 2 ≠ b then m3 else 0)))) := by
    intro a b
    simp only [invariantMassLimits, List.length_cons, List.length_nil, fr, Finset.sum_filter]
    rw [Finset.sum_insert (by decide), Finset.sum_insert (by decide), Finset.sum_singleton]
    rfl
  have t0 := key m1 (m2 + m3) (fun e => partialIntegration ⟨q, (m1, m2, m3), orig, f⟩ e 0) n1
    (by linarith) (by linarith) hq
  rw [tot 0 _ _ (by simp [energyLimits])] at t0
  have t1 := key m2 (m1 + m3) (fun e => partialIntegration ⟨q, (m1, m2, m3), orig, f⟩ e 1) n2
    (by linarith) (by linarith) hq
  rw [tot 1 _ _ (by simp [energyLimits]; ring_nf)] at t1
  have t2 := key m3 (m1 + m2) (fun e => partialIntegration ⟨q, (m1, m2, m3), orig, f⟩ e 2) n3
    (by linarith) (by linarith) hq
  rw [tot 2 _ _ (by simp [energyLimits]; ring_nf)] at t2
  simp only [lims]
  fin_cases i <;> fin_cases j <;> fin_cases k <;> simp at hij hik hjk <;>
    simp [c0, c1, c2] <;>
    first
      | exact t0
      | exact t1
      | exact t2
      | (rw [add_comm]; exact t0)
      | (rw [add_comm]; exact t1)
      | (rw [add_comm]; exact t2)

/-! ### C71: setters -/

/-- **C71, what holds.** A matrix element given as a function of momenta always sees the current
energy and masses: after any history of `cme`/`masses` assignments, `msqrd` is the conversion for
the current values, as in a fresh object. -/
theorem setters_current_partial (q : ℝ) (ms : ℝ × ℝ × ℝ) (f : MsqrdArg) (hist : List Assign)
    (hh : ∀ g, Assign.msqrd g ∉ hist) :
    let s := hist.foldl assign (create q ms f)
    s = create s.cme s.masses f := by
  intro s
  have aux : ∀ (hist : List Assign) (q : ℝ) (ms : ℝ × ℝ × ℝ), (∀ g, Assign.msqrd g ∉ hist) →
      ∃ q' ms', hist.foldl assign (create q ms f) = create q' ms' f := by
    intro hist
    induction hist with
    | nil => intro q ms _; exact ⟨q, ms, rfl⟩
    | cons a hist ih =>
      intro q ms hh
      rw [List.foldl_cons]
      cases a with
      | cme v =>
        have : assign (create q ms f) (.cme v) = create v ms f := by
          cases f <;> rfl
        rw [this]
        exact ih v ms fun g hg => hh g (by simp [hg])
      | masses v =>
        have : assign (create q ms f) (.masses v) = create q v f := by
          cases f <;> rfl
        rw [this]
        exact ih q v fun g hg => hh g (by simp [hg])
      | msqrd g => exact absurd (by simp) (hh g)
  obtain ⟨q', ms', h⟩ := aux hist q ms hh
  have : s = create q' ms' f := h
  rw [this]
  cases f <;> rfl

/-- **C71 fails.** Assigning `msqrd` on an object built with a matrix element of momenta has no
effect: the object still uses the original one. -/
theorem msqrd_assignment_ignored (q : ℝ) (ms : ℝ × ℝ × ℝ) (f : List P4 → ℝ) (g : Msqrd) :
    assign (create q ms (.momenta f)) (.msqrd g) = create q ms (.momenta f) := rfl

/-- **C71, what holds (2).** For the other two ways of construction the assignment takes effect. -/
theorem msqrd_assignment_partial (q : ℝ) (ms : ℝ × ℝ × ℝ) (f g : Msqrd) :
    (assign (create q ms (.st f)) (.msqrd g)).msqrd = g ∧
      (assign (create q ms .flat) (.msqrd g)).msqrd = g := ⟨rfl, rfl⟩

/-! ### C72: Monte Carlo with the default matrix element -/

/-- **C72 fails.** With the default (flat) matrix element the Monte-Carlo method integrates the zero
function: whatever weights the generator produced, the result is 0. -/
theorem monte_carlo_flat_is_zero (weights ss ts : List ℝ) :
    monteCarloMean weights (msqrdFlatArray ss ts) = 0 := by
  unfold monteCarloMean msqrdFlatArray
  have : ∀ (ws ss : List ℝ), (List.zipWith (fun w m => w * m) ws (ss.map fun _ => (0 : ℝ))).sum = 0 := by
    intro ws
    induction ws with
    | nil => simp
    | cons w ws ih =>
      intro ss
      cases ss with
      | nil => simp
      | cons a ss =>
        rw [List.map_cons, List.zipWith_cons_cons, List.sum_cons, ih]; simp
  rw [this]; simp

/-! ### C73: two-body phase space -/

/-- **C73.** Above threshold the two-body integrator with a flat matrix element, the closed-form
prefactor and the weight of every exact two-body RAMBO event agree: they all equal
`|p| / (4 π q)`. -/
theorem two_body_phase_space_agree {q m1 m2 : ℝ} (hq : 0 < q) (n1 : 0 ≤ m1) (n2 : 0 ≤ m2)
    (hthr : m1 + m2 ≤ q) :
    ∃ p, 0 ≤ p ∧ Real.sqrt (p ^ 2 + m1 ^ 2) + Real.sqrt (p ^ 2 + m2 ^ 2) = q ∧
      twoBodyPrefactor q m1 m2 = p / (4 * Real.pi * q) ∧
      twoBodyIntegrate q m1 m2 (fun _ => 1) = .num (p / (4 * Real.pi * q)) ∧
      (0 < p → ∀ b x y z, baseWeight q 2 = some b → p ^ 2 = x ^ 2 + y ^ 2 + z ^ 2 →
        weight q b 2 [⟨Real.sqrt (p ^ 2 + m1 ^ 2), x, y, z⟩,
          ⟨Real.sqrt (p ^ 2 + m2 ^ 2), -x, -y, -z⟩] = p / (4 * Real.pi * q)) := by
  obtain ⟨p, h1, h2, h3, h4, -⟩ := two_body_momentum_physical q m1 m2 n1 n2 hq hthr
  have hpi := Real.pi_pos
  refine ⟨p, h2, h3, ?_, ?_, ?_⟩
  · have hl : 0 ≤ kallenLambda (q ^ 2) (m1 ^ 2) (m2 ^ 2) := by
      rw [kallen_factor]
      apply mul_nonneg <;> apply mul_nonneg <;> linarith
    unfold twoBodyPrefactor
    rw [max_eq_left hl, h4]
    field_simp
    ring
  · unfold twoBodyIntegrate
    rw [h1]
    simp only [intervalIntegral.integral_const, smul_eq_mul]
    congr 1
    field_simp
    ring
  · intro hp b x y z hb hxyz
    have := two_body_weight (cme := q) (k := p) (e1 := Real.sqrt (p ^ 2 + m1 ^ 2))
      (e2 := Real.sqrt (p ^ 2 + m2 ^ 2)) (x := x) (y := y) (z := z) hq hp hxyz
      (Real.sqrt_pos.mpr (by positivity)) (Real.sqrt_pos.mpr (by positivity)) hb
    rw [this, h3]

/-! ### C74: number of bins -/

/-- **C74, what holds.** The Monte-Carlo distributions have the requested number of bins, and both
methods use bins that start at the lower and end at the upper limit. -/
theorem requested_bins_partial (s : State) (emin emax : ℝ) (n : ℕ) (i : Fin 3) (hn : 2 ≤ n) :
    (energyBinsRambo emin emax n).length = n + 1 ∧
      (energyHistQuad s emin emax n i).1.length = (energyHistQuad s emin emax n i).2.length + 1 ∧
      (energyHistQuad s emin emax n i).1[0]? = some emin ∧
      (energyHistQuad s emin emax n i).1[n - 1]? = some emax := by
  have hn1 : (n : ℝ) - 1 ≠ 0 := by
    have : (2 : ℝ) ≤ n := by exact_mod_cast hn
    linarith
  refine ⟨by simp [energyBinsRambo, linspace], ?_, ?_, ?_⟩
  · simp [energyHistQuad, linspace]; omega
  · simp only [energyHistQuad, linspace, List.getElem?_map, List.getElem?_range (show 0 < n by omega),
      Option.map_some, Option.some.injEq]
    simp
  · have : n - 1 < n := by omega
    simp only [energyHistQuad, linspace, List.getElem?_map, List.getElem?_range this,
      Option.map_some, Option.some.injEq]
    push_cast [Nat.cast_sub (show 1 ≤ n by omega)]
    field_simp
    ring

/-- **C74 fails.** The quadrature method returns one bin less than requested. -/
theorem quad_one_bin_short (s : State) (emin emax : ℝ) (n : ℕ) (i : Fin 3) (hn : 1 ≤ n) :
    (energyHistQuad s emin emax n i).2.length ≠ n ∧
      (energyHistQuad s emin emax n i).2.length = n - 1 := by
  have : (energyHistQuad s emin emax n i).2.length = n - 1 := by
    simp [energyHistQuad, linspace]
  exact ⟨by omega, this⟩

/-! ### Examples -/

/-- The hypotheses of C27 hold for `q = 10`, masses `(1, 2, 3)`, `x = 0.65`, `y = 0.44`: this is the
final state with `s = 36`, `t = 60` of `bounds_t_wrong`. -/
example : ((boundsX 10 1 2 3).1 ≤ 0.65 ∧ (0.65 : ℝ) ≤ (boundsX 10 1 2 3).2) ∧
    ((boundsY 10 1 2 3 0.65).1 ≤ 0.44 ∧ (0.44 : ℝ) ≤ (boundsY 10 1 2 3 0.65).2) := by
  rw [bounds_iff_dalitz (by norm_num) (by norm_num) (by norm_num) (by norm_num) (by norm_num)
    (by norm_num)]
  exact ⟨by norm_num, by norm_num, by norm_num, by unfold dot12; norm_num⟩

/-- An energy of particle 2 the bounds exclude: below its mass. -/
example : ¬ ((boundsY 10 1 2 3 0.65).1 ≤ 0.3) := by
  intro h
  have hd := (bounds_iff_dalitz (q := 10) (m1 := 1) (m2 := 2) (m3 := 3) (x := 0.65) (y := 0.3)
    (by norm_num) (by norm_num) (by norm_num) (by norm_num) (by norm_num) (by norm_num)).mp
    ⟨by simp only [boundsX]; norm_num, h, ?_⟩
  · have := hd.h2; norm_num at this
  · simp only [boundsY]
    rw [le_div_iff₀ (by norm_num)]
    have := Real.sqrt_nonneg (kallenLambda 1 ((1 / 10) ^ 2) (1 - 0.65 + (1 / 10) ^ 2)
      * kallenLambda (1 - 0.65 + (1 / 10) ^ 2) ((2 / 10) ^ 2) ((3 / 10) ^ 2))
    nlinarith

/-- C70 for a concrete non-constant matrix element. -/
example (lo hi : ℝ) (h : (energyLimits 10 [1, 2, 3])[2]? = some (lo, hi)) :
    ∫ e in lo..hi, partialIntegration (create 10 (1, 2, 3) (.st fun s t => s * t + 1)) e 2
      = integrateQuad (create 10 (1, 2, 3) (.st fun s t => s * t + 1)) :=
  energy_distribution_total (st := create 10 (1, 2, 3) (.st fun s t => s * t + 1))
    (by norm_num [create]) (by norm_num [create]) (by norm_num [create]) (by norm_num [create])
    (by norm_num [create]) (by simp only [create]; fun_prop) 2 h

end Hazma.ThreeBody
