import Verif.Model.VectorThree
import Verif.Props.ThreeBody
import Mathlib.Tactic

/-!
# Three-meson currents of the vector mediator

The squared currents are contractions with polarisation sums; the one-dimensional
integrals are phase-space integrals; the energy distributions are those of the
general three-body code; the invariant-mass distributions are not normalised.
-/

namespace Hazma.VectorThree

open Hazma.Kinematics (kallenLambda)
open Hazma.ThreeBody (State create integrateQuad boundsX boundsY partialIntegration linspace
  unit_range)
open Hazma.PhaseSpace (Normalised normalizeDistribution binCenters energyLimits area binSum_eq_area
  area_div area_nonneg area_zero_iff normalize_distribution_nonneg normalize_distribution_spec)
open Hazma.Rambo (P4)

/-! ### Currents -/

/-- Minkowski product. -/
def mdot (a b : P4) : ℝ := a.e * b.e - a.x * b.x - a.y * b.y - a.z * b.z

/-- Sum of momenta. -/
def add (a b : P4) : P4 := ⟨a.e + b.e, a.x + b.x, a.y + b.y, a.z + b.z⟩

/-- 3 × 3 determinant. -/
def det3 (a b c d e f g h i : ℝ) : ℝ := a * (e * i - f * h) - b * (d * i - f * g) + c * (d * h - e * g)

/-- The current `J_μ = ε_{μναβ} p₁^ν p₂^α p₃^β` (lower index). -/
def levi (p1 p2 p3 : P4) : P4 :=
  ⟨det3 p1.x p1.y p1.z p2.x p2.y p2.z p3.x p3.y p3.z,
   -det3 p1.e p1.y p1.z p2.e p2.y p2.z p3.e p3.y p3.z,
   det3 p1.e p1.x p1.z p2.e p2.x p2.z p3.e p3.x p3.z,
   -det3 p1.e p1.x p1.y p2.e p2.x p2.y p3.e p3.x p3.y⟩

/-- The current is transverse, so the `QQ` term of the polarisation sum of the mediator
does not contribute. -/
theorem levi_transverse (p1 p2 p3 : P4) :
    let J := levi p1 p2 p3
    let Q := add (add p1 p2) p3
    J.e * Q.e + J.x * Q.x + J.y * Q.y + J.z * Q.z = 0 := by
  simp only [levi, add, det3]; ring

private lemma levi_gram (p1 p2 p3 : P4) : -mdot (levi p1 p2 p3) (levi p1 p2 p3) =
    mdot p1 p1 * mdot p2 p2 * mdot p3 p3 + 2 * mdot p1 p2 * mdot p1 p3 * mdot p2 p3
      - mdot p1 p1 * mdot p2 p3 ^ 2 - mdot p2 p2 * mdot p1 p3 ^ 2 - mdot p3 p3 * mdot p1 p2 ^ 2 := by
  simp only [levi, mdot, det3]; ring

private lemma mdot_add (a b : P4) : mdot (add a b) (add a b) = mdot a a + mdot b b + 2 * mdot a b := by
  simp only [mdot, add]; ring

private lemma mdot_add3 (a b c : P4) : mdot (add (add a b) c) (add (add a b) c) =
    mdot a a + mdot b b + mdot c c + 2 * mdot a b + 2 * mdot a c + 2 * mdot b c := by
  simp only [mdot, add]; ring

/-- Three pseudoscalars: the function the code integrates is the square of the current
contracted with `-g/(3 q²)`, for all momenta. -/
theorem ppp_contraction (p1 p2 p3 : P4) (m1 m2 m3 q s t : ℝ) (h1 : mdot p1 p1 = m1 ^ 2)
    (h2 : mdot p2 p2 = m2 ^ 2) (h3 : mdot p3 p3 = m3 ^ 2)
    (hq : mdot (add (add p1 p2) p3) (add (add p1 p2) p3) = q ^ 2)
    (hs : mdot (add p2 p3) (add p2 p3) = s) (ht : mdot (add p1 p3) (add p1 p3) = t) :
    pppLorentz q s t m1 m2 m3 = -mdot (levi p1 p2 p3) (levi p1 p2 p3) / (3 * q ^ 2) := by
  rw [levi_gram, h1, h2, h3]
  rw [mdot_add3, h1, h2, h3] at hq
  rw [mdot_add, h2, h3] at hs
  rw [mdot_add, h1, h3] at ht
  have ec : mdot p2 p3 = (s - m2 ^ 2 - m3 ^ 2) / 2 := by linarith
  have eb : mdot p1 p3 = (t - m1 ^ 2 - m3 ^ 2) / 2 := by linarith
  have ea : mdot p1 p2 = (q ^ 2 - s - t + m3 ^ 2) / 2 := by linarith
  rw [ea, eb, ec]
  unfold pppLorentz
  simp only
  rw [show (12 : ℝ) * q ^ 2 = 4 * (3 * q ^ 2) by ring, ← div_div]
  congr 1
  ring

/-- It is nonnegative wherever three on-shell momenta add up to the mediator at rest. -/
theorem ppp_nonneg (p1 p2 p3 : P4) (m1 m2 m3 q s t : ℝ) (hq0 : 0 < q) (h1 : mdot p1 p1 = m1 ^ 2)
    (h2 : mdot p2 p2 = m2 ^ 2) (h3 : mdot p3 p3 = m3 ^ 2)
    (hq : add (add p1 p2) p3 = ⟨q, 0, 0, 0⟩)
    (hs : mdot (add p2 p3) (add p2 p3) = s) (ht : mdot (add p1 p3) (add p1 p3) = t) :
    0 ≤ pppLorentz q s t m1 m2 m3 := by
  rw [ppp_contraction p1 p2 p3 m1 m2 m3 q s t h1 h2 h3 (by rw [hq]; simp [mdot]; ring) hs ht]
  have htr := levi_transverse p1 p2 p3
  simp only [hq, mul_zero, add_zero] at htr
  have he : (levi p1 p2 p3).e = 0 := (mul_eq_zero.1 htr).resolve_right hq0.ne'
  apply div_nonneg _ (by positivity)
  unfold mdot
  rw [he]
  nlinarith [sq_nonneg (levi p1 p2 p3).x, sq_nonneg (levi p1 p2 p3).y, sq_nonneg (levi p1 p2 p3).z]

/-- Two pseudoscalars and a vector, mediator at rest: the current is the spatial part of
the polarisation vector; its polarisation sum `Σ_i (1 + k_i²/m_V²)` divided by `3 q²`. -/
noncomputable def spatialSum (mv q : ℝ) (pv : P4) : ℝ :=
  ((1 + pv.x ^ 2 / mv ^ 2) + (1 + pv.y ^ 2 / mv ^ 2) + (1 + pv.z ^ 2 / mv ^ 2)) / (3 * q ^ 2)

/-- `squared_lorentz_structure` is that sum for the particle listed **third**. -/
theorem ppv_contraction (p1 p2 p3 : P4) (m1 m2 m3 q s t : ℝ) (hq0 : 0 < q) (hm : m3 ≠ 0)
    (h1 : mdot p1 p1 = m1 ^ 2) (h2 : mdot p2 p2 = m2 ^ 2) (h3 : mdot p3 p3 = m3 ^ 2)
    (hq : add (add p1 p2) p3 = ⟨q, 0, 0, 0⟩)
    (hs : mdot (add p2 p3) (add p2 p3) = s) (ht : mdot (add p1 p3) (add p1 p3) = t) :
    ppvLorentz (m1, m2, m3) q s t = spatialSum m3 q p3 := by
  simp only [add, P4.mk.injEq] at hq
  obtain ⟨qe, qx, qy, qz⟩ := hq
  rw [mdot_add, h2, h3] at hs
  rw [mdot_add, h1, h3] at ht
  have hE : -(m1 ^ 2) - m2 ^ 2 + s + t = 2 * (p3.e * q) := by
    have a : mdot p1 p3 + mdot p2 p3 + mdot p3 p3 = p3.e * q := by
      unfold mdot
      rw [← qe]
      linear_combination (-p3.x) * qx - p3.y * qy - p3.z * qz
    linarith
  have hk : p3.x ^ 2 + p3.y ^ 2 + p3.z ^ 2 = p3.e ^ 2 - m3 ^ 2 := by
    unfold mdot at h3; linarith
  unfold ppvLorentz spatialSum
  simp only
  rw [hE, show (1 + p3.x ^ 2 / m3 ^ 2) + (1 + p3.y ^ 2 / m3 ^ 2) + (1 + p3.z ^ 2 / m3 ^ 2)
    = 3 + (p3.x ^ 2 + p3.y ^ 2 + p3.z ^ 2) / m3 ^ 2 by ring, hk]
  field_simp
  ring

/-- **Violation.** The classes that use it list the vector meson first.  With the
documented meaning of `s` and `t` the result is then the sum for a *pion* treated as the
vector, and it differs from the right value for every configuration in which the two
have different momenta in units of their masses. -/
theorem ppv_wrong_particle (pv p1 p2 : P4) (mv m1 m2 q s t : ℝ) (hq0 : 0 < q) (hm2 : m2 ≠ 0)
    (hv : mdot pv pv = mv ^ 2) (h1 : mdot p1 p1 = m1 ^ 2) (h2 : mdot p2 p2 = m2 ^ 2)
    (hq : add (add pv p1) p2 = ⟨q, 0, 0, 0⟩)
    (hs : mdot (add p1 p2) (add p1 p2) = s) (ht : mdot (add pv p2) (add pv p2) = t) :
    ppvLorentz (mv, m1, m2) q s t = spatialSum m2 q p2 ∧
      (ppvLorentz (mv, m1, m2) q s t = spatialSum mv q pv ↔
        (p2.x ^ 2 + p2.y ^ 2 + p2.z ^ 2) / m2 ^ 2 = (pv.x ^ 2 + pv.y ^ 2 + pv.z ^ 2) / mv ^ 2) := by
  have h := ppv_contraction pv p1 p2 mv m1 m2 q s t hq0 hm2 hv h1 h2 hq hs ht
  refine ⟨h, ?_⟩
  rw [h]
  unfold spatialSum
  rw [div_left_inj' (by positivity)]
  constructor <;> intro h <;> linear_combination h

/-! ### Integrals -/

private lemma integral_parabola (a b : ℝ) : ∫ y in a..b, (b - y) * (y - a) = (b - a) ^ 3 / 6 := by
  have hd : ∀ y ∈ Set.uIcc a b, HasDerivAt
      (fun y => (b + a) * y ^ 2 / 2 - y ^ 3 / 3 - a * b * y) ((b - y) * (y - a)) y := by
    intro y _
    have := ((((hasDerivAt_pow 2 y).const_mul (b + a)).div_const 2).sub
      ((hasDerivAt_pow 3 y).div_const 3)).sub ((hasDerivAt_id y).const_mul (a * b))
    exact this.congr_deriv (by norm_num; ring)
  rw [intervalIntegral.integral_eq_sub_of_hasDerivAt hd
    (by apply Continuous.intervalIntegrable; fun_prop)]
  ring

private lemma unit_kallen {u1 u2 u3 x : ℝ} (n1 : 0 ≤ u1) (n2 : 0 ≤ u2) (n3 : 0 ≤ u3)
    (hopen : u1 + u2 + u3 ≤ 1) (hx1 : 2 * u1 ≤ x) (hx2 : x ≤ u1 ^ 2 + (1 - (u2 + u3) ^ 2)) :
    0 ≤ kallenLambda 1 (u1 ^ 2) (1 - x + u1 ^ 2) *
      kallenLambda (1 - x + u1 ^ 2) (u2 ^ 2) (u3 ^ 2) ∧ 0 ≤ 1 - x + u1 ^ 2 := by
  obtain ⟨h1, h2, -, -, h5⟩ := unit_range n1 n2 n3 hopen rfl rfl hx1 hx2
  refine ⟨mul_nonneg ?_ ?_, by nlinarith [sq_nonneg (u2 + u3)]⟩
  · rw [show kallenLambda 1 (u1 ^ 2) (1 - x + u1 ^ 2) = x ^ 2 - 4 * u1 ^ 2 by unfold kallenLambda; ring]
    exact h1
  · rw [show kallenLambda (1 - x + u1 ^ 2) (u2 ^ 2) (u3 ^ 2) =
      (1 - x + u1 ^ 2 + u2 ^ 2 - u3 ^ 2) ^ 2 - 4 * (1 - x + u1 ^ 2) * u2 ^ 2 by unfold kallenLambda; ring]
    exact h2

private lemma sum_unit {q m1 m2 m3 : ℝ} (hq : 0 < q) (hopen : m1 + m2 + m3 ≤ q) :
    m1 / q + m2 / q + m3 / q ≤ 1 := by
  rw [← add_div, ← add_div, div_le_one hq]; exact hopen

private lemma x_order {q m1 m2 m3 : ℝ} (hq : 0 < q) (n1 : 0 ≤ m1) (n2 : 0 ≤ m2) (n3 : 0 ≤ m3)
    (hopen : m1 + m2 + m3 ≤ q) :
    2 * (m1 / q) ≤ (m1 / q) ^ 2 + (1 - (m2 / q + m3 / q) ^ 2) := by
  have h := sum_unit hq hopen
  have : 0 ≤ m1 / q := by positivity
  have : 0 ≤ m2 / q := by positivity
  have : 0 ≤ m3 / q := by positivity
  nlinarith

/-- The inner phase-space integral of the three-pseudoscalar structure. -/
private lemma inner_ppp {q m1 m2 m3 x : ℝ} (hq : 0 < q) (n1 : 0 ≤ m1) (n2 : 0 ≤ m2) (n3 : 0 ≤ m3)
    (hopen : m1 + m2 + m3 ≤ q) (hx1 : 2 * (m1 / q) ≤ x)
    (hx2 : x ≤ (m1 / q) ^ 2 + (1 - (m2 / q + m3 / q) ^ 2)) :
    ∫ y in (boundsY q m1 m2 m3 x).1..(boundsY q m1 m2 m3 x).2,
      pppLorentz q (q ^ 2 * (1 - x + (m1 / q) ^ 2)) (q ^ 2 * (1 - y + (m2 / q) ^ 2)) m1 m2 m3 =
    q ^ 4 * √(kallenLambda 1 ((m1 / q) ^ 2) (1 - x + (m1 / q) ^ 2) *
      kallenLambda (1 - x + (m1 / q) ^ 2) ((m2 / q) ^ 2) ((m3 / q) ^ 2)) ^ 3 /
        (72 * (1 - x + (m1 / q) ^ 2) ^ 2) := by
  obtain ⟨a, ha⟩ : ∃ a, a = m1 / q := ⟨_, rfl⟩
  obtain ⟨b, hb⟩ : ∃ b, b = m2 / q := ⟨_, rfl⟩
  obtain ⟨c, hc⟩ : ∃ c, c = m3 / q := ⟨_, rfl⟩
  have e1 : m1 = q * a := by rw [ha]; field_simp
  have e2 : m2 = q * b := by rw [hb]; field_simp
  have e3 : m3 = q * c := by rw [hc]; field_simp
  have hk := unit_kallen (by positivity) (by positivity) (by positivity) (sum_unit hq hopen) hx1 hx2
  simp only [boundsY]
  rw [← ha, ← hb, ← hc] at hk ⊢
  obtain ⟨hk, hz⟩ := hk
  obtain ⟨z, hzdef⟩ : ∃ z, z = 1 - x + a ^ 2 := ⟨_, rfl⟩
  rw [← hzdef] at hk hz ⊢
  obtain ⟨R, hR⟩ : ∃ R, R = √(kallenLambda 1 (a ^ 2) z * kallenLambda z (b ^ 2) (c ^ 2)) := ⟨_, rfl⟩
  have hR2 : R ^ 2 = kallenLambda 1 (a ^ 2) z * kallenLambda z (b ^ 2) (c ^ 2) := by
    rw [hR, Real.sq_sqrt hk]
  rw [← hR]
  rcases hz.eq_or_lt with h0 | hpos
  · rw [← h0]; simp
  obtain ⟨P, hP⟩ : ∃ P, P = (2 - x) * (z + b ^ 2 - c ^ 2) := ⟨_, rfl⟩
  rw [← hP]
  have hxz : x = 1 - z + a ^ 2 := by rw [hzdef]; ring
  have key : ∀ y, pppLorentz q (q ^ 2 * z) (q ^ 2 * (1 - y + b ^ 2)) m1 m2 m3 =
      q ^ 4 * z / 12 * ((0.5 * (P + R) / z - y) * (y - 0.5 * (P - R) / z)) := by
    intro y
    have : (0.5 * (P + R) / z - y) * (y - 0.5 * (P - R) / z) =
        -y ^ 2 + P / z * y - (P ^ 2 - R ^ 2) / (4 * z ^ 2) := by
      field_simp; ring
    rw [this, hR2, hP, hxz]
    unfold pppLorentz kallenLambda
    simp only
    rw [e1, e2, e3]
    field_simp
    ring
  simp only [key]
  rw [intervalIntegral.integral_const_mul, integral_parabola]
  rw [show 0.5 * (P + R) / z - 0.5 * (P - R) / z = R / z by ring]
  field_simp
  ring

/-- **Form factors of one invariant mass.** The one-dimensional integral in the code is
the three-body phase-space integral of the squared form factor times the squared
current, for every form factor and all masses. -/
theorem ppp2_is_phase_space (m1 m2 m3 : ℝ) (absF : ℝ → ℝ → ℝ) (q : ℝ) (n1 : 0 ≤ m1) (n2 : 0 ≤ m2)
    (n3 : 0 ≤ m3) (hopen : m1 + m2 + m3 < q) :
    ppp2Integrated (m1, m2, m3) absF q = integrateQuad (ppp2State (m1, m2, m3) absF q) := by
  have hq : 0 < q := by linarith
  unfold ppp2Integrated ppp2State integrateQuad create
  simp only [boundsX]
  rw [if_pos hopen, ← intervalIntegral.integral_const_mul, ← intervalIntegral.integral_const_mul]
  apply intervalIntegral.integral_congr
  intro x hx
  rw [Set.uIcc_of_le (x_order hq n1 n2 n3 hopen.le)] at hx
  simp only
  rw [intervalIntegral.integral_const_mul, inner_ppp hq n1 n2 n3 hopen.le hx.1 hx.2]
  unfold ppp2Partial
  simp only
  obtain ⟨z, hz⟩ : ∃ z, z = 1 - x + (m1 / q) ^ 2 := ⟨_, rfl⟩
  rw [← hz]
  have hk : kallenLambda (q ^ 2 * z) (q ^ 2) (m1 ^ 2) * kallenLambda (q ^ 2 * z) (m2 ^ 2) (m3 ^ 2) =
      (q ^ 4) ^ 2 * (kallenLambda 1 ((m1 / q) ^ 2) z * kallenLambda z ((m2 / q) ^ 2) ((m3 / q) ^ 2)) := by
    unfold kallenLambda; field_simp; ring
  rw [hk, Real.sqrt_mul (by positivity), Real.sqrt_sq (by positivity)]
  have := Real.pi_ne_zero
  by_cases hz0 : z = 0
  · rw [hz0]; simp
  field_simp
  ring

/-- The partially integrated form factor is the distribution in the pair mass squared:
it integrates to the total over `[(m2+m3)², (q-m1)²]`. -/
theorem ppp2_partial_total (m1 m2 m3 : ℝ) (absF : ℝ → ℝ → ℝ) (q : ℝ) (n1 : 0 ≤ m1) (n2 : 0 ≤ m2)
    (n3 : 0 ≤ m3) (hopen : m1 + m2 + m3 < q) :
    ∫ s in (m2 + m3) ^ 2..(q - m1) ^ 2, ppp2Partial (m1, m2, m3) absF q s =
      ppp2Integrated (m1, m2, m3) absF q := by
  have hq : 0 < q := by linarith
  unfold ppp2Integrated
  simp only
  rw [if_pos hopen]
  have e : ∀ x, q ^ 2 * (1 - x + (m1 / q) ^ 2) = (q ^ 2 + m1 ^ 2) - q ^ 2 * x := by
    intro x; field_simp
    ring
  simp only [e]
  rw [intervalIntegral.integral_comp_sub_mul _ (by positivity : q ^ 2 ≠ 0), smul_eq_mul]
  rw [show q ^ 2 + m1 ^ 2 - q ^ 2 * ((m1 / q) ^ 2 + (1 - (m2 / q + m3 / q) ^ 2)) = (m2 + m3) ^ 2 by
      field_simp; ring,
    show q ^ 2 + m1 ^ 2 - q ^ 2 * (2 * (m1 / q)) = (q - m1) ^ 2 by field_simp; ring]
  field_simp

/-- The squared current for two pseudoscalars and a vector listed first, as a function
of the invariant mass squared `s` of the pseudoscalars. -/
noncomputable def vectorFirst (mv q s : ℝ) : ℝ :=
  (2 * mv ^ 2 * q ^ 2 + (q ^ 2 + mv ^ 2 - s) ^ 2 / 4) / (3 * mv ^ 2 * q ^ 4)

/-- It is the polarisation sum of the vector. -/
theorem vectorFirst_contraction (pv p1 p2 : P4) (mv q s : ℝ) (hq0 : 0 < q) (hm : mv ≠ 0)
    (hv : mdot pv pv = mv ^ 2) (hq : add (add pv p1) p2 = ⟨q, 0, 0, 0⟩)
    (hs : mdot (add p1 p2) (add p1 p2) = s) : vectorFirst mv q s = spatialSum mv q pv := by
  simp only [add, P4.mk.injEq] at hq
  obtain ⟨qe, qx, qy, qz⟩ := hq
  have hk : pv.x ^ 2 + pv.y ^ 2 + pv.z ^ 2 = pv.e ^ 2 - mv ^ 2 := by
    unfold mdot at hv; linarith
  have hs' : s = (q - pv.e) ^ 2 - (pv.x ^ 2 + pv.y ^ 2 + pv.z ^ 2) := by
    rw [← hs]
    simp only [mdot, add]
    rw [show p1.e + p2.e = q - pv.e by linarith, show p1.x + p2.x = -pv.x by linarith,
      show p1.y + p2.y = -pv.y by linarith, show p1.z + p2.z = -pv.z by linarith]
    ring
  unfold vectorFirst spatialSum
  rw [show (1 + pv.x ^ 2 / mv ^ 2) + (1 + pv.y ^ 2 / mv ^ 2) + (1 + pv.z ^ 2 / mv ^ 2)
    = 3 + (pv.x ^ 2 + pv.y ^ 2 + pv.z ^ 2) / mv ^ 2 by ring, hs', hk]
  field_simp
  ring

/-- The three-body object with that matrix element. -/
noncomputable def ppvState (ms : ℝ × ℝ × ℝ) (absF : ℝ → ℝ) (q : ℝ) : State :=
  create q ms (.st fun s _ => absF q ^ 2 * vectorFirst ms.1 q s)

private lemma vectorFirst_unit {mv q x : ℝ} (hq : q ≠ 0) :
    vectorFirst mv q (q ^ 2 * (1 - x + (mv / q) ^ 2)) =
      (x ^ 2 + 8 * (mv / q) ^ 2) / (12 * (mv / q) ^ 2 * q ^ 2) := by
  have e : q ^ 2 + mv ^ 2 - q ^ 2 * (1 - x + (mv / q) ^ 2) = q ^ 2 * x := by field_simp; ring
  unfold vectorFirst
  rw [e]
  rcases eq_or_ne mv 0 with h | h
  · rw [h]; simp
  field_simp
  ring

/-- **Two pseudoscalars and a vector.** The one-dimensional integral is the phase-space
integral, for every form factor and all masses. -/
theorem ppv_is_phase_space (mv m1 m2 : ℝ) (absF : ℝ → ℝ) (q : ℝ) (nv : 0 < mv) (n1 : 0 ≤ m1)
    (n2 : 0 ≤ m2) (hopen : mv + m1 + m2 < q) :
    ppvIntegrated (mv, m1, m2) absF q = integrateQuad (ppvState (mv, m1, m2) absF q) := by
  have hq : 0 < q := by linarith
  unfold ppvIntegrated ppvState integrateQuad create
  simp only [boundsX]
  rw [if_pos hopen, ← intervalIntegral.integral_const_mul, ← intervalIntegral.integral_const_mul]
  apply intervalIntegral.integral_congr
  intro x hx
  simp only [intervalIntegral.integral_const, smul_eq_mul]
  rw [vectorFirst_unit hq.ne']
  simp only [boundsY]
  rw [show kallenLambda ((m1 / q) ^ 2) ((m2 / q) ^ 2) (1 - x + (mv / q) ^ 2) =
    kallenLambda (1 - x + (mv / q) ^ 2) ((m1 / q) ^ 2) ((m2 / q) ^ 2) by unfold kallenLambda; ring]
  obtain ⟨R, hR⟩ : ∃ R, R = √(kallenLambda 1 ((mv / q) ^ 2) (1 - x + (mv / q) ^ 2) *
    kallenLambda (1 - x + (mv / q) ^ 2) ((m1 / q) ^ 2) ((m2 / q) ^ 2)) := ⟨_, rfl⟩
  rw [← hR]
  obtain ⟨P, hP⟩ : ∃ P, P = (2 - x) * (1 - x + (mv / q) ^ 2 + (m1 / q) ^ 2 - (m2 / q) ^ 2) := ⟨_, rfl⟩
  rw [← hP]
  obtain ⟨z, hz⟩ : ∃ z, z = 1 - x + (mv / q) ^ 2 := ⟨_, rfl⟩
  rw [← hz]
  rw [show 0.5 * (P + R) / z - 0.5 * (P - R) / z = R / z by ring]
  have := Real.pi_ne_zero
  by_cases hz0 : z = 0
  · rw [hz0]; simp
  field_simp
  ring

/-- The partially integrated form factor is the distribution in the pair mass. -/
theorem ppv_partial_total (mv m1 m2 : ℝ) (absF : ℝ → ℝ) (q : ℝ) (nv : 0 < mv) (n1 : 0 ≤ m1)
    (n2 : 0 ≤ m2) (hopen : mv + m1 + m2 < q) :
    ∫ s in (m1 + m2) ^ 2..(q - mv) ^ 2, ppvPartial (mv, m1, m2) absF q s =
      ppvIntegrated (mv, m1, m2) absF q := by
  have hq : 0 < q := by linarith
  have hsub : ∫ s in (m1 + m2) ^ 2..(q - mv) ^ 2, ppvPartial (mv, m1, m2) absF q s =
      q ^ 2 * ∫ x in 2 * (mv / q)..(mv / q) ^ 2 + (1 - (m1 / q + m2 / q) ^ 2),
        ppvPartial (mv, m1, m2) absF q ((q ^ 2 + mv ^ 2) - q ^ 2 * x) := by
    rw [intervalIntegral.integral_comp_sub_mul _ (by positivity : q ^ 2 ≠ 0), smul_eq_mul,
      show q ^ 2 + mv ^ 2 - q ^ 2 * ((mv / q) ^ 2 + (1 - (m1 / q + m2 / q) ^ 2)) = (m1 + m2) ^ 2 by
        field_simp; ring,
      show q ^ 2 + mv ^ 2 - q ^ 2 * (2 * (mv / q)) = (q - mv) ^ 2 by field_simp; ring]
    field_simp
  rw [hsub]
  unfold ppvIntegrated
  simp only
  rw [if_pos hopen, ← intervalIntegral.integral_const_mul, ← intervalIntegral.integral_const_mul]
  apply intervalIntegral.integral_congr
  intro x hx
  rw [Set.uIcc_of_le (x_order hq nv.le n1 n2 hopen.le)] at hx
  have hk := unit_kallen (by positivity) (by positivity) (by positivity) (sum_unit hq hopen.le) hx.1 hx.2
  unfold ppvPartial
  simp only
  have ex : 1 - (q ^ 2 + mv ^ 2 - q ^ 2 * x) / q ^ 2 + (mv / q) ^ 2 = x := by field_simp; ring
  rw [ex, show kallenLambda ((m1 / q) ^ 2) ((m2 / q) ^ 2) (1 - x + (mv / q) ^ 2) =
    kallenLambda (1 - x + (mv / q) ^ 2) ((m1 / q) ^ 2) ((m2 / q) ^ 2) by unfold kallenLambda; ring,
    max_eq_left hk.1, show q ^ 2 + mv ^ 2 - q ^ 2 * x = q ^ 2 * (1 - x + (mv / q) ^ 2) by
      field_simp; ring]
  obtain ⟨R, hR⟩ : ∃ R, R = √(kallenLambda 1 ((mv / q) ^ 2) (1 - x + (mv / q) ^ 2) *
    kallenLambda (1 - x + (mv / q) ^ 2) ((m1 / q) ^ 2) ((m2 / q) ^ 2)) := ⟨_, rfl⟩
  rw [← hR]
  obtain ⟨z, hz⟩ : ∃ z, z = 1 - x + (mv / q) ^ 2 := ⟨_, rfl⟩
  rw [← hz]
  have := Real.pi_ne_zero
  by_cases hz0 : z = 0
  · rw [hz0]; simp
  field_simp

/-! ### Energy distributions -/

private lemma x_limits {q m1 m2 m3 e : ℝ} (hq : 0 < q) (h1 : m1 ≤ e)
    (h2 : e ≤ (q ^ 2 + m1 ^ 2 - (m2 + m3) ^ 2) / (2 * q)) :
    2 * (m1 / q) ≤ 2 * e / q ∧ 2 * e / q ≤ (m1 / q) ^ 2 + (1 - (m2 / q + m3 / q) ^ 2) := by
  constructor
  · rw [← mul_div_assoc, div_le_div_iff_of_pos_right hq]; linarith
  · rw [le_div_iff₀ (by positivity)] at h2
    rw [show (m1 / q) ^ 2 + (1 - (m2 / q + m3 / q) ^ 2) = (q ^ 2 + m1 ^ 2 - (m2 + m3) ^ 2) / q / q by
      field_simp; ring, div_le_div_iff_of_pos_right hq, le_div_iff₀ hq]
    linarith

private lemma integral_window (c R z k : ℝ) :
    ∫ y in 0.5 * (c - R) / z..0.5 * (c + R) / z, (y ^ 2 + k) =
      R / z * (c ^ 2 / (4 * z ^ 2) + R ^ 2 / (12 * z ^ 2) + k) := by
  have hd : ∀ y ∈ Set.uIcc (0.5 * (c - R) / z) (0.5 * (c + R) / z), HasDerivAt
      (fun y => y ^ 3 / 3 + k * y) (y ^ 2 + k) y := by
    intro y _
    have := ((hasDerivAt_pow 3 y).div_const 3).add ((hasDerivAt_id y).const_mul k)
    exact this.congr_deriv (by norm_num)
  rw [intervalIntegral.integral_eq_sub_of_hasDerivAt hd
    (by apply Continuous.intervalIntegrable; fun_prop)]
  rcases eq_or_ne z 0 with h | h
  · rw [h]; simp
  field_simp
  ring

/-- **Vector meson.** Up to a factor `2/q` the distribution is the partial integration of
the general three-body code, at every allowed energy. -/
theorem djde1_is_partial (mv m1 m2 : ℝ) (absF : ℝ → ℝ) (q e : ℝ) (nv : 0 < mv) (n1 : 0 ≤ m1)
    (n2 : 0 ≤ m2) (hopen : mv + m1 + m2 ≤ q) (h1 : mv ≤ e)
    (h2 : e ≤ (q ^ 2 + mv ^ 2 - (m1 + m2) ^ 2) / (2 * q)) :
    partialIntegration (ppvState (mv, m1, m2) absF q) e 0 = 2 / q * djde1 (mv, m1, m2) absF q e := by
  have hq : 0 < q := by linarith
  obtain ⟨hx1, hx2⟩ := x_limits hq h1 h2
  unfold partialIntegration ppvState create djde1
  simp only [boundsX]
  refine (if_neg (not_or.2 ⟨not_lt.2 hx1, not_lt.2 hx2⟩)).trans ?_
  obtain ⟨x, hx⟩ : ∃ x, x = 2 * e / q := ⟨_, rfl⟩
  rw [← hx]
  simp only [intervalIntegral.integral_const, smul_eq_mul]
  rw [vectorFirst_unit hq.ne']
  simp only [boundsY]
  rw [show kallenLambda ((m1 / q) ^ 2) ((m2 / q) ^ 2) (1 - x + (mv / q) ^ 2) =
    kallenLambda (1 - x + (mv / q) ^ 2) ((m1 / q) ^ 2) ((m2 / q) ^ 2) by unfold kallenLambda; ring]
  obtain ⟨R, hR⟩ : ∃ R, R = √(kallenLambda 1 ((mv / q) ^ 2) (1 - x + (mv / q) ^ 2) *
    kallenLambda (1 - x + (mv / q) ^ 2) ((m1 / q) ^ 2) ((m2 / q) ^ 2)) := ⟨_, rfl⟩
  rw [← hR]
  obtain ⟨P, hP⟩ : ∃ P, P = (2 - x) * (1 - x + (mv / q) ^ 2 + (m1 / q) ^ 2 - (m2 / q) ^ 2) := ⟨_, rfl⟩
  rw [← hP]
  obtain ⟨z, hz⟩ : ∃ z, z = 1 - x + (mv / q) ^ 2 := ⟨_, rfl⟩
  rw [← hz]
  rw [show 0.5 * (P + R) / z - 0.5 * (P - R) / z = R / z by ring]
  have := Real.pi_ne_zero
  by_cases hz0 : z = 0
  · rw [hz0]; simp
  field_simp
  ring

/-- **First pseudoscalar.** -/
theorem djde2_is_partial (mv m1 m2 : ℝ) (absF : ℝ → ℝ) (q e : ℝ) (nv : 0 < mv) (n1 : 0 ≤ m1)
    (n2 : 0 ≤ m2) (hopen : mv + m1 + m2 ≤ q) (h1 : m1 ≤ e)
    (h2 : e ≤ (q ^ 2 + m1 ^ 2 - (mv + m2) ^ 2) / (2 * q)) :
    partialIntegration (ppvState (mv, m1, m2) absF q) e 1 =
      2 / q * absF q ^ 2 * djde2 (mv, m1, m2) q e := by
  have hq : 0 < q := by linarith
  obtain ⟨hx1, hx2⟩ := x_limits hq h1 h2
  unfold partialIntegration ppvState create djde2
  simp only [boundsX]
  refine (if_neg (not_or.2 ⟨not_lt.2 hx1, not_lt.2 hx2⟩)).trans ?_
  obtain ⟨x, hx⟩ : ∃ x, x = 2 * e / q := ⟨_, rfl⟩
  rw [← hx] at hx1 hx2 ⊢
  have hk := (unit_kallen (by positivity) (by positivity) (by positivity)
    (sum_unit hq (by linarith : m1 + mv + m2 ≤ q)) hx1 hx2).1
  have e1 : ∀ y, absF q ^ 2 * vectorFirst mv q (q ^ 2 * (1 - y + (mv / q) ^ 2)) =
      absF q ^ 2 / (12 * (mv / q) ^ 2 * q ^ 2) * (y ^ 2 + 8 * (mv / q) ^ 2) := by
    intro y; rw [vectorFirst_unit hq.ne']; ring
  simp only [e1]
  rw [intervalIntegral.integral_const_mul]
  simp only [boundsY]
  rw [integral_window, Real.sq_sqrt hk,
    show kallenLambda ((m2 / q) ^ 2) ((mv / q) ^ 2) (1 - x + (m1 / q) ^ 2) =
    kallenLambda (1 - x + (m1 / q) ^ 2) ((mv / q) ^ 2) ((m2 / q) ^ 2) by unfold kallenLambda; ring]
  obtain ⟨K, hK⟩ : ∃ K, K = kallenLambda 1 ((m1 / q) ^ 2) (1 - x + (m1 / q) ^ 2) *
    kallenLambda (1 - x + (m1 / q) ^ 2) ((mv / q) ^ 2) ((m2 / q) ^ 2) := ⟨_, rfl⟩
  rw [← hK]
  obtain ⟨z, hz⟩ : ∃ z, z = 1 - x + (m1 / q) ^ 2 := ⟨_, rfl⟩
  rw [← hz]
  obtain ⟨u, hu⟩ : ∃ u, u = mv / q := ⟨_, rfl⟩
  have hu0 : u ≠ 0 := by rw [hu]; positivity
  rw [← hu]
  have := Real.pi_ne_zero
  by_cases hz0 : z = 0
  · rw [hz0]; simp
  field_simp
  ring

/-- **Second pseudoscalar.** The constant differs from that of the first one, which only
normalisation hides. -/
theorem djde3_is_partial (mv m1 m2 : ℝ) (absF : ℝ → ℝ) (q e : ℝ) (nv : 0 < mv) (n1 : 0 ≤ m1)
    (n2 : 0 ≤ m2) (hopen : mv + m1 + m2 ≤ q) (h1 : m2 ≤ e)
    (h2 : e ≤ (q ^ 2 + m2 ^ 2 - (m1 + mv) ^ 2) / (2 * q)) :
    partialIntegration (ppvState (mv, m1, m2) absF q) e 2 =
      2 / q * absF q ^ 2 / (18432 * Real.pi ^ 3 * (mv / q) ^ 2) * djde3 (mv, m1, m2) q e := by
  have hq : 0 < q := by linarith
  obtain ⟨hx1, hx2⟩ := x_limits hq h1 h2
  unfold partialIntegration ppvState create djde3
  simp only [boundsX]
  refine (if_neg (not_or.2 ⟨not_lt.2 hx1, not_lt.2 hx2⟩)).trans ?_
  obtain ⟨x, hx⟩ : ∃ x, x = 2 * e / q := ⟨_, rfl⟩
  rw [← hx] at hx1 hx2 ⊢
  obtain ⟨hk, hznn⟩ := unit_kallen (by positivity) (by positivity) (by positivity)
    (sum_unit hq (by linarith : m2 + m1 + mv ≤ q)) hx1 hx2
  have e1 : ∀ y, absF q ^ 2 * vectorFirst mv q (q ^ 2 * (1 - (2 - (x + y)) + (mv / q) ^ 2)) =
      absF q ^ 2 / (12 * (mv / q) ^ 2 * q ^ 2) * ((2 - x - y) ^ 2 + 8 * (mv / q) ^ 2) := by
    intro y; rw [vectorFirst_unit hq.ne']; ring
  simp only [e1]
  rw [intervalIntegral.integral_const_mul,
    intervalIntegral.integral_comp_sub_left (fun w => w ^ 2 + 8 * (mv / q) ^ 2) (2 - x)]
  simp only [boundsY]
  rw [show kallenLambda ((m1 / q) ^ 2) ((mv / q) ^ 2) (1 - x + (m2 / q) ^ 2) =
    kallenLambda (1 - x + (m2 / q) ^ 2) ((m1 / q) ^ 2) ((mv / q) ^ 2) by unfold kallenLambda; ring]
  rcases hznn.eq_or_lt with h0 | hpos
  · rw [← h0]; simp
  obtain ⟨K, hK⟩ : ∃ K, K = kallenLambda 1 ((m2 / q) ^ 2) (1 - x + (m2 / q) ^ 2) *
    kallenLambda (1 - x + (m2 / q) ^ 2) ((m1 / q) ^ 2) ((mv / q) ^ 2) := ⟨_, rfl⟩
  rw [← hK] at hk ⊢
  obtain ⟨z, hz⟩ : ∃ z, z = 1 - x + (m2 / q) ^ 2 := ⟨_, rfl⟩
  rw [← hz] at hpos ⊢
  obtain ⟨u, hu⟩ : ∃ u, u = mv / q := ⟨_, rfl⟩
  have hu0 : u ≠ 0 := by rw [hu]; positivity
  rw [← hu]
  have w1 : 2 - x - 0.5 * ((2 - x) * (z + (m1 / q) ^ 2 - u ^ 2) + √K) / z =
      0.5 * ((2 - x) * (z - (m1 / q) ^ 2 + u ^ 2) - √K) / z := by field_simp; ring
  have w2 : 2 - x - 0.5 * ((2 - x) * (z + (m1 / q) ^ 2 - u ^ 2) - √K) / z =
      0.5 * ((2 - x) * (z - (m1 / q) ^ 2 + u ^ 2) + √K) / z := by field_simp; ring
  rw [w1, w2, integral_window, Real.sq_sqrt hk]
  rw [show 1 - x - (m1 / q) ^ 2 + (m2 / q) ^ 2 + u ^ 2 = z - (m1 / q) ^ 2 + u ^ 2 by rw [hz]; ring]
  have := Real.pi_ne_zero
  field_simp
  ring

/-! ### Histograms -/

private lemma linspace_length (a b : ℝ) (n : ℕ) : (linspace a b (n + 1)).length = n + 1 := by
  simp [linspace]

private lemma linspace_pairwise {a b : ℝ} (hab : a < b) {n : ℕ} (hn : 1 ≤ n) :
    (linspace a b (n + 1)).Pairwise (· < ·) := by
  unfold linspace
  rw [List.pairwise_map]
  refine List.pairwise_lt_range.imp ?_
  intro i j hij
  have hn' : (0 : ℝ) < ((n + 1 : ℕ) : ℝ) - 1 := by push_cast; simp; omega
  have h : 0 < (b - a) / (((n + 1 : ℕ) : ℝ) - 1) := div_pos (by linarith) hn'
  have hij' : (i : ℝ) < j := by exact_mod_cast hij
  nlinarith

private lemma linspace_mem {a b : ℝ} (hab : a < b) {n : ℕ} (hn : 1 ≤ n) {e : ℝ}
    (he : e ∈ linspace a b (n + 1)) : a ≤ e ∧ e ≤ b := by
  unfold linspace at he
  obtain ⟨k, hk, rfl⟩ := List.mem_map.1 he
  rw [List.mem_range] at hk
  have hn' : (0 : ℝ) < ((n + 1 : ℕ) : ℝ) - 1 := by push_cast; simp; omega
  have hk' : (k : ℝ) ≤ ((n + 1 : ℕ) : ℝ) - 1 := by
    have : (k : ℝ) + 1 ≤ ((n + 1 : ℕ) : ℝ) := by exact_mod_cast hk
    linarith
  have h0 : 0 ≤ (b - a) / (((n + 1 : ℕ) : ℝ) - 1) := div_nonneg (by linarith) hn'.le
  have h1 : (((n + 1 : ℕ) : ℝ) - 1) * ((b - a) / (((n + 1 : ℕ) : ℝ) - 1)) = b - a := by field_simp
  constructor
  · have : (0 : ℝ) ≤ k := by positivity
    nlinarith
  · nlinarith

private lemma centers_length (es : List ℝ) : (binCenters es).length = es.length - 1 := by
  induction es with
  | nil => rfl
  | cons a es ih =>
    match es with
    | [] => rfl
    | b :: es => simp only [binCenters, List.length_cons] at ih ⊢; omega

private lemma centers_mem {es : List ℝ} (hs : es.Pairwise (· < ·)) {a b : ℝ}
    (h : ∀ e ∈ es, a ≤ e ∧ e ≤ b) {c : ℝ} (hc : c ∈ binCenters es) : a < c ∧ c < b := by
  induction es with
  | nil => simp [binCenters] at hc
  | cons x es ih =>
    match es with
    | [] => simp [binCenters] at hc
    | y :: es =>
      simp only [binCenters, List.mem_cons] at hc
      rw [List.pairwise_cons] at hs
      rcases hc with rfl | hc
      · have hxy := hs.1 y (by simp)
        have h1 := h x (by simp)
        have h2 := h y (by simp)
        constructor <;> linarith
      · exact ih hs.2 (fun e he => h e (by simp [he])) hc

private lemma normalize_scale {ps edges : List ℝ} (hne : ps ≠ []) {c : ℝ} (hc : 0 < c)
    (hp : ∀ p ∈ ps, 0 ≤ p) (he : edges.Pairwise (· < ·)) (hl : edges.length = ps.length + 1) :
    normalizeDistribution (ps.map fun p => c * p) edges = normalizeDistribution ps edges := by
  have ha : area (ps.map fun p => c * p) edges = c * area ps edges := by
    have := area_div ps edges (1 / c)
    rw [show (fun p : ℝ => p / (1 / c)) = fun p => c * p by ext p; field_simp] at this
    rw [this]; field_simp
  rcases lt_or_ge 0 (area ps edges) with h | h
  · unfold normalizeDistribution
    simp only [binSum_eq_area, ha]
    rw [if_neg (not_le.2 (by positivity)), if_neg (not_le.2 h), List.map_map]
    congr 1
    apply List.map_congr_left
    intro p _
    simp only [Function.comp]
    field_simp
  · have h0 := area_zero_iff hp he hl h
    have : (ps.map fun p => c * p) = ps := by
      conv_rhs => rw [← List.map_id ps]
      apply List.map_congr_left
      intro p hpm
      rw [h0 p hpm]; simp
    rw [this]

private lemma unit_kallen_pos {u1 u2 u3 x : ℝ} (n1 : 0 ≤ u1) (n2 : 0 ≤ u2) (n3 : 0 ≤ u3)
    (hx1 : 2 * u1 < x) (hx2 : x < u1 ^ 2 + (1 - (u2 + u3) ^ 2)) :
    0 < kallenLambda 1 (u1 ^ 2) (1 - x + u1 ^ 2) *
      kallenLambda (1 - x + u1 ^ 2) (u2 ^ 2) (u3 ^ 2) ∧ 0 < 1 - x + u1 ^ 2 := by
  have h23 := mul_nonneg n2 n3
  refine ⟨mul_pos ?_ ?_, by nlinarith [sq_nonneg (u2 + u3)]⟩
  · rw [show kallenLambda 1 (u1 ^ 2) (1 - x + u1 ^ 2) = (x - 2 * u1) * (x + 2 * u1) by
      unfold kallenLambda; ring]
    exact mul_pos (by linarith) (by linarith)
  · rw [show kallenLambda (1 - x + u1 ^ 2) (u2 ^ 2) (u3 ^ 2) =
      (1 - x + u1 ^ 2 - (u2 + u3) ^ 2) * (1 - x + u1 ^ 2 - (u2 - u3) ^ 2) by unfold kallenLambda; ring]
    exact mul_pos (by linarith) (by nlinarith)

private lemma x_limits_strict {q m1 m2 m3 e : ℝ} (hq : 0 < q) (h1 : m1 < e)
    (h2 : e < (q ^ 2 + m1 ^ 2 - (m2 + m3) ^ 2) / (2 * q)) :
    2 * (m1 / q) < 2 * e / q ∧ 2 * e / q < (m1 / q) ^ 2 + (1 - (m2 / q + m3 / q) ^ 2) := by
  constructor
  · rw [← mul_div_assoc, div_lt_div_iff_of_pos_right hq]; linarith
  · rw [lt_div_iff₀ (by positivity)] at h2
    rw [show (m1 / q) ^ 2 + (1 - (m2 / q + m3 / q) ^ 2) = (q ^ 2 + m1 ^ 2 - (m2 + m3) ^ 2) / q / q by
      field_simp; ring, div_lt_div_iff_of_pos_right hq, lt_div_iff₀ hq]
    linarith

/-- The energy limits of particle `i`. -/
noncomputable def limits (q : ℝ) (ms : ℝ × ℝ × ℝ) (i : Fin 3) : ℝ × ℝ :=
  (energyLimits q [ms.1, ms.2.1, ms.2.2]).getD i.val (0, 0)

private lemma limits_zero (q a b c : ℝ) : limits q (a, b, c) 0 =
    (a, (q ^ 2 + a ^ 2 - (b + c) ^ 2) / (2 * q)) := by
  simp [limits, energyLimits]
private lemma limits_one (q a b c : ℝ) : limits q (a, b, c) 1 =
    (b, (q ^ 2 + b ^ 2 - (a + c) ^ 2) / (2 * q)) := by
  simp [limits, energyLimits]; congr 2; ring
private lemma limits_two (q a b c : ℝ) : limits q (a, b, c) 2 =
    (c, (q ^ 2 + c ^ 2 - (b + a) ^ 2) / (2 * q)) := by
  simp [limits, energyLimits]; congr 2; ring

private lemma limits_lt {q a b c : ℝ} (na : 0 ≤ a) (nb : 0 ≤ b) (nc : 0 ≤ c) (h : a + b + c < q)
    (i : Fin 3) : (limits q (a, b, c) i).1 < (limits q (a, b, c) i).2 ∧
      (limits q (a, b, c) i).1 = Hazma.ThreeBody.massOf (a, b, c) i ∧
      (limits q (a, b, c) i).2 ≤ (q ^ 2 + Hazma.ThreeBody.massOf (a, b, c) i ^ 2) / (2 * q) := by
  have hq : 0 < q := by linarith
  fin_cases i
  · rw [show ((⟨0, by decide⟩ : Fin 3)) = 0 from rfl, limits_zero]
    refine ⟨?_, rfl, ?_⟩
    · rw [lt_div_iff₀ (by positivity)]; nlinarith
    · show _ ≤ (q ^ 2 + a ^ 2) / (2 * q)
      rw [div_le_div_iff_of_pos_right (by positivity)]; nlinarith [sq_nonneg (b + c)]
  · rw [show ((⟨1, by decide⟩ : Fin 3)) = 1 from rfl, limits_one]
    refine ⟨?_, rfl, ?_⟩
    · rw [lt_div_iff₀ (by positivity)]; nlinarith
    · show _ ≤ (q ^ 2 + b ^ 2) / (2 * q)
      rw [div_le_div_iff_of_pos_right (by positivity)]; nlinarith [sq_nonneg (a + c)]
  · rw [show ((⟨2, by decide⟩ : Fin 3)) = 2 from rfl, limits_two]
    refine ⟨?_, rfl, ?_⟩
    · rw [lt_div_iff₀ (by positivity)]; nlinarith
    · show _ ≤ (q ^ 2 + c ^ 2) / (2 * q)
      rw [div_le_div_iff_of_pos_right (by positivity)]; nlinarith [sq_nonneg (b + a)]

/-- The three densities, as one function of the particle. -/
noncomputable def density (ms : ℝ × ℝ × ℝ) (absF : ℝ → ℝ) (q : ℝ) : Fin 3 → ℝ → ℝ
  | 0 => djde1 ms absF q
  | 1 => djde2 ms q
  | 2 => djde3 ms q

/-- Every density is positive strictly between the energy limits and proportional there
to the partial integration, with a factor that does not depend on the energy. -/
theorem density_spec (mv m1 m2 : ℝ) (absF : ℝ → ℝ) (q : ℝ) (nv : 0 < mv) (n1 : 0 ≤ m1)
    (n2 : 0 ≤ m2) (hopen : mv + m1 + m2 < q) (hF : absF q ≠ 0) (i : Fin 3) :
    ∃ c > 0, ∀ e, (limits q (mv, m1, m2) i).1 < e → e < (limits q (mv, m1, m2) i).2 →
      0 < density (mv, m1, m2) absF q i e ∧
      partialIntegration (ppvState (mv, m1, m2) absF q) e i = c * density (mv, m1, m2) absF q i e := by
  have hq : 0 < q := by linarith
  have hpi := Real.pi_pos
  fin_cases i
  · rw [show ((⟨0, by decide⟩ : Fin 3)) = 0 from rfl, limits_zero]
    refine ⟨2 / q, by positivity, fun e h1 h2 => ⟨?_, ?_⟩⟩
    · obtain ⟨hx1, hx2⟩ := x_limits_strict hq h1 h2
      obtain ⟨hk, hz⟩ := unit_kallen_pos (by positivity) (by positivity) (by positivity) hx1 hx2
      show 0 < djde1 (mv, m1, m2) absF q e
      unfold djde1
      simp only
      rw [show kallenLambda ((m1 / q) ^ 2) ((m2 / q) ^ 2) (1 - 2 * e / q + (mv / q) ^ 2) =
        kallenLambda (1 - 2 * e / q + (mv / q) ^ 2) ((m1 / q) ^ 2) ((m2 / q) ^ 2) by
          unfold kallenLambda; ring]
      have := Real.sqrt_pos.2 hk
      positivity
    · exact djde1_is_partial mv m1 m2 absF q e nv n1 n2 hopen.le h1.le h2.le
  · rw [show ((⟨1, by decide⟩ : Fin 3)) = 1 from rfl, limits_one]
    refine ⟨2 / q * absF q ^ 2, by positivity, fun e h1 h2 => ⟨?_, ?_⟩⟩
    · obtain ⟨hx1, hx2⟩ := x_limits_strict hq h1 h2
      obtain ⟨hk, hz⟩ := unit_kallen_pos (by positivity) (by positivity) (by positivity) hx1 hx2
      show 0 < djde2 (mv, m1, m2) q e
      unfold djde2
      simp only
      rw [show kallenLambda ((m2 / q) ^ 2) ((mv / q) ^ 2) (1 - 2 * e / q + (m1 / q) ^ 2) =
        kallenLambda (1 - 2 * e / q + (m1 / q) ^ 2) ((mv / q) ^ 2) ((m2 / q) ^ 2) by
          unfold kallenLambda; ring]
      have := Real.sqrt_pos.2 hk
      positivity
    · exact djde2_is_partial mv m1 m2 absF q e nv n1 n2 hopen.le h1.le h2.le
  · rw [show ((⟨2, by decide⟩ : Fin 3)) = 2 from rfl, limits_two]
    refine ⟨2 / q * absF q ^ 2 / (18432 * Real.pi ^ 3 * (mv / q) ^ 2), by positivity,
      fun e h1 h2 => ⟨?_, ?_⟩⟩
    · obtain ⟨hx1, hx2⟩ := x_limits_strict hq h1 h2
      obtain ⟨hk, hz⟩ := unit_kallen_pos (by positivity) (by positivity) (by positivity) hx1 hx2
      show 0 < djde3 (mv, m1, m2) q e
      unfold djde3
      simp only
      rw [show kallenLambda ((m1 / q) ^ 2) ((mv / q) ^ 2) (1 - 2 * e / q + (m2 / q) ^ 2) =
        kallenLambda (1 - 2 * e / q + (m2 / q) ^ 2) ((m1 / q) ^ 2) ((mv / q) ^ 2) by
          unfold kallenLambda; ring]
      have := Real.sqrt_pos.2 hk
      positivity
    · exact djde3_is_partial mv m1 m2 absF q e nv n1 n2 hopen.le h1.le h2.le

/-- **Energy distributions.** For every number of bins and each particle, the histogram
is the normalised histogram of the partial integration of the three-body code at the
bin centres; it has the requested number of bins and area one. -/
theorem ppv_energy_distribution (mv m1 m2 : ℝ) (absF : ℝ → ℝ) (q : ℝ) (nv : 0 < mv) (n1 : 0 ≤ m1)
    (n2 : 0 ≤ m2) (hopen : mv + m1 + m2 < q) (hF : absF q ≠ 0) (nbins : ℕ) (hn : 1 ≤ nbins)
    (i : Fin 3) :
    let d := ppvEnergy (mv, m1, m2) absF q nbins i
    d.bins = linspace (limits q (mv, m1, m2) i).1 (limits q (mv, m1, m2) i).2 (nbins + 1) ∧
    d.probabilities = normalizeDistribution
      ((binCenters d.bins).map fun e => partialIntegration (ppvState (mv, m1, m2) absF q) e i) d.bins ∧
    ∃ ps, d.probabilities = .values ps ∧ ps.length = nbins ∧ (∀ p ∈ ps, 0 < p) ∧
      area ps d.bins = 1 := by
  intro d
  obtain ⟨c, hc, hd⟩ := density_spec mv m1 m2 absF q nv n1 n2 hopen hF i
  obtain ⟨hlt, -, -⟩ := limits_lt nv.le n1 n2 hopen i
  obtain ⟨E, hE⟩ : ∃ E, E = linspace (limits q (mv, m1, m2) i).1 (limits q (mv, m1, m2) i).2 (nbins + 1) :=
    ⟨_, rfl⟩
  have hb : d.bins = E := by rw [hE]; rfl
  have hprob : d.probabilities =
      normalizeDistribution ((binCenters E).map (density (mv, m1, m2) absF q i)) E := by
    rw [hE]
    fin_cases i <;> rfl
  have hpw : E.Pairwise (· < ·) := by rw [hE]; exact linspace_pairwise hlt hn
  have hlen : E.length = nbins + 1 := by rw [hE]; exact linspace_length _ _ _
  have hcl : (binCenters E).length = nbins := by rw [centers_length, hlen]; rfl
  have hmem : ∀ e ∈ binCenters E, (limits q (mv, m1, m2) i).1 < e ∧ e < (limits q (mv, m1, m2) i).2 :=
    fun e he => centers_mem hpw (fun x hx => linspace_mem hlt hn (by rw [hE] at hx; exact hx)) he
  have hpos : ∀ p ∈ (binCenters E).map (density (mv, m1, m2) absF q i), 0 < p := by
    intro p hp
    obtain ⟨e, he, rfl⟩ := List.mem_map.1 hp
    exact (hd e (hmem e he).1 (hmem e he).2).1
  have hne : (binCenters E).map (density (mv, m1, m2) absF q i) ≠ [] := by
    intro h
    have := congrArg List.length h
    simp [hcl] at this
    omega
  have hl2 : E.length = ((binCenters E).map (density (mv, m1, m2) absF q i)).length + 1 := by
    simp [hcl, hlen]
  refine ⟨hb.trans hE, ?_, ?_⟩
  · rw [hprob, hb, ← normalize_scale hne hc (fun p hp => (hpos p hp).le) hpw hl2, List.map_map]
    congr 1
    apply List.map_congr_left
    intro e he
    exact ((hd e (hmem e he).1 (hmem e he).2).2).symm
  · have harea : 0 < area ((binCenters E).map (density (mv, m1, m2) absF q i)) E := by
      by_contra hcon
      have h0 := area_zero_iff (fun p hp => (hpos p hp).le) hpw hl2 (not_lt.1 hcon)
      obtain ⟨p, l, hpl⟩ := List.exists_cons_of_ne_nil hne
      have hm : p ∈ (binCenters E).map (density (mv, m1, m2) absF q i) := by rw [hpl]; simp
      exact (hpos p hm).ne' (h0 p hm)
    obtain ⟨qs, hq1, hq2, k, hk, rfl⟩ := (normalize_distribution_spec (edges := E) hne).1 harea
    refine ⟨_, by rw [hprob]; exact hq1, by simp [hcl], ?_, by rw [hb]; exact hq2⟩
    intro p hp
    obtain ⟨p', hp', rfl⟩ := List.mem_map.1 hp
    exact mul_pos hk (hpos p' hp')

/-! ### Invariant-mass distributions -/

private lemma sqrtS_sq {q e m : ℝ} (hq : 0 < q) (h : e ≤ (q ^ 2 + m ^ 2) / (2 * q)) :
    eToSqrtS q e m ^ 2 = q ^ 2 - 2 * q * e + m ^ 2 ∧ 0 ≤ eToSqrtS q e m := by
  unfold eToSqrtS
  have h0 : 0 ≤ 1 - 2 * e / q + (m / q) ^ 2 := by
    rw [le_div_iff₀ (by positivity)] at h
    rw [show 1 - 2 * e / q + (m / q) ^ 2 = (q ^ 2 + m ^ 2 - 2 * q * e) / q ^ 2 by field_simp; ring]
    apply div_nonneg _ (by positivity)
    linarith
  refine ⟨?_, by positivity⟩
  rw [mul_pow, Real.sq_sqrt h0]; field_simp

/-- The heights of the pair-mass histogram before normalisation. -/
noncomputable def heights (q m : ℝ) (bins probs : List ℝ) : List ℝ :=
  List.zipWith (fun s p => 0.25 * s / q * p)
    (List.zipWith (fun b a => b + a) (bins.map fun e => eToSqrtS q e m).tail
      (bins.map fun e => eToSqrtS q e m).dropLast) probs

private lemma heights_cons (q m a b : ℝ) (es : List ℝ) (p : ℝ) (ps : List ℝ) :
    heights q m (a :: b :: es) (p :: ps) =
      0.25 * (eToSqrtS q b m + eToSqrtS q a m) / q * p :: heights q m (b :: es) ps := by
  simp [heights]

private lemma heights_area {q m : ℝ} (hq : 0 < q) (bins probs : List ℝ)
    (hb : ∀ e ∈ bins, e ≤ (q ^ 2 + m ^ 2) / (2 * q)) :
    area (heights q m bins probs) (bins.map fun e => eToSqrtS q e m) = -(1 / 2) * area probs bins := by
  induction probs generalizing bins with
  | nil => cases bins <;> simp [heights, area]
  | cons p ps ih =>
    match bins with
    | [] => simp [heights, area]
    | [a] => simp [heights, area]
    | a :: b :: es =>
      rw [heights_cons]
      have h := ih (b :: es) (fun e he => hb e (by simp [he]))
      simp only [List.map_cons, area] at h ⊢
      rw [h]
      obtain ⟨ha, -⟩ := sqrtS_sq hq (hb a (by simp))
      obtain ⟨hb', -⟩ := sqrtS_sq hq (hb b (by simp))
      have : 0.25 * (eToSqrtS q b m + eToSqrtS q a m) / q * p * (eToSqrtS q b m - eToSqrtS q a m) =
          0.25 / q * p * (eToSqrtS q b m ^ 2 - eToSqrtS q a m ^ 2) := by ring
      rw [this, ha, hb']
      field_simp
      ring

private lemma heights_nonneg {q m : ℝ} (hq : 0 < q) (bins probs : List ℝ)
    (hp : ∀ p ∈ probs, 0 ≤ p) : ∀ h ∈ heights q m bins probs, 0 ≤ h := by
  induction probs generalizing bins with
  | nil => simp [heights]
  | cons p ps ih =>
    match bins with
    | [] => simp [heights]
    | [a] => simp [heights]
    | a :: b :: es =>
      rw [heights_cons]
      intro h hh
      have h1 : 0 ≤ eToSqrtS q a m := by unfold eToSqrtS; positivity
      have h2 : 0 ≤ eToSqrtS q b m := by unfold eToSqrtS; positivity
      rcases List.mem_cons.1 hh with rfl | hh
      · have := hp p (by simp)
        positivity
      · exact ih (b :: es) (fun q hq => hp q (by simp [hq])) h hh

/-- **Violation.** The bins of every invariant-mass distribution run downwards, so the
normalisation step sees a negative area and returns its input: the heights integrate to
minus one half in the order given, one half in absolute value, instead of one.  This holds
for every form factor, all masses, energies, particles and numbers of bins. -/
theorem ppv_invariant_mass_half (mv m1 m2 : ℝ) (absF : ℝ → ℝ) (q : ℝ) (nv : 0 < mv) (n1 : 0 ≤ m1)
    (n2 : 0 ≤ m2) (hopen : mv + m1 + m2 < q) (hF : absF q ≠ 0) (nbins : ℕ) (hn : 1 ≤ nbins)
    (i : Fin 3) :
    ∃ ps, (ppvEnergy (mv, m1, m2) absF q nbins i).probabilities = .values ps ∧
      let d := ppvInvariant q (Hazma.ThreeBody.massOf (mv, m1, m2) i)
        (ppvEnergy (mv, m1, m2) absF q nbins i).bins ps
      d.bins.Pairwise (· > ·) ∧ d.bins.length = nbins + 1 ∧
      ∃ hs, d.probabilities = .values hs ∧ area hs d.bins = -(1 / 2) := by
  obtain ⟨hb, -, ps, hps, hlen, hpos, harea⟩ :=
    ppv_energy_distribution mv m1 m2 absF q nv n1 n2 hopen hF nbins hn i
  refine ⟨ps, hps, ?_⟩
  intro d
  have hq : 0 < q := by linarith
  obtain ⟨hlt, -, hle⟩ := limits_lt nv.le n1 n2 hopen i
  obtain ⟨E, hE⟩ : ∃ E, E = (ppvEnergy (mv, m1, m2) absF q nbins i).bins := ⟨_, rfl⟩
  obtain ⟨m, hm⟩ : ∃ m, m = Hazma.ThreeBody.massOf (mv, m1, m2) i := ⟨_, rfl⟩
  rw [← hE] at hb harea
  rw [← hm] at hle
  have hpw : E.Pairwise (· < ·) := by rw [hb]; exact linspace_pairwise hlt hn
  have hmem : ∀ e ∈ E, e ≤ (q ^ 2 + m ^ 2) / (2 * q) := by
    intro e he
    rw [hb] at he
    exact (linspace_mem hlt hn he).2.trans hle
  have hd : d = ⟨E.map fun e => eToSqrtS q e m,
      normalizeDistribution (heights q m E ps) (E.map fun e => eToSqrtS q e m)⟩ := by
    rw [hE, hm]; rfl
  have ha := heights_area (m := m) hq E ps hmem
  rw [harea, mul_one] at ha
  have hne : heights q m E ps ≠ [] := by
    intro h
    rw [h] at ha
    cases hE' : E.map fun e => eToSqrtS q e m <;> rw [hE'] at ha <;> norm_num [area] at ha
  rw [hd]
  refine ⟨?_, ?_, heights q m E ps, ?_, ha⟩
  · simp only [List.pairwise_map]
    apply hpw.imp_of_mem
    intro a b hma hmb hab
    obtain ⟨h1, h2⟩ := sqrtS_sq hq (hmem a hma)
    obtain ⟨h3, h4⟩ := sqrtS_sq hq (hmem b hmb)
    by_contra hcon
    push Not at hcon
    have : eToSqrtS q a m ^ 2 ≤ eToSqrtS q b m ^ 2 := by
      apply pow_le_pow_left₀ h2 hcon
    rw [h1, h3] at this
    nlinarith
  · simp only [List.length_map]
    rw [hb]; exact linspace_length _ _ _
  · exact (normalize_distribution_spec hne).2.2 (by rw [ha]; norm_num)
      (heights_nonneg hq E ps (fun p hp => (hpos p hp).le))

/-! ### Concrete cases -/

-- Omega at rest between two pions: the code returns the value for a pion as the vector.
example : ppvLorentz (782, 140, 140) 1282
      (mdot (add ⟨250, 0, 0, √(250 ^ 2 - 140 ^ 2)⟩ ⟨250, 0, 0, -√(250 ^ 2 - 140 ^ 2)⟩)
        (add ⟨250, 0, 0, √(250 ^ 2 - 140 ^ 2)⟩ ⟨250, 0, 0, -√(250 ^ 2 - 140 ^ 2)⟩))
      (mdot (add ⟨782, 0, 0, 0⟩ ⟨250, 0, 0, -√(250 ^ 2 - 140 ^ 2)⟩)
        (add ⟨782, 0, 0, 0⟩ ⟨250, 0, 0, -√(250 ^ 2 - 140 ^ 2)⟩)) ≠
    spatialSum 782 1282 ⟨782, 0, 0, 0⟩ := by
  have hs : √(250 ^ 2 - 140 ^ 2 : ℝ) ^ 2 = 250 ^ 2 - 140 ^ 2 := Real.sq_sqrt (by norm_num)
  have h := (ppv_wrong_particle ⟨782, 0, 0, 0⟩ ⟨250, 0, 0, √(250 ^ 2 - 140 ^ 2)⟩
    ⟨250, 0, 0, -√(250 ^ 2 - 140 ^ 2)⟩ 782 140 140 1282 _ _ (by norm_num) (by norm_num)
    (by simp only [mdot]; ring) (by simp only [mdot]; linarith) (by simp only [mdot]; linarith)
    (by simp only [add]; norm_num) rfl rfl).2
  rw [Ne, h]
  simp only [neg_sq, hs]
  norm_num

-- Three pions at 1 GeV: the hypotheses hold.
example (absF : ℝ → ℝ → ℝ) : ppp2Integrated (548, 140, 140) absF 1000 =
    integrateQuad (ppp2State (548, 140, 140) absF 1000) :=
  ppp2_is_phase_space 548 140 140 absF 1000 (by norm_num) (by norm_num) (by norm_num) (by norm_num)

-- Omega and two pions at 2 GeV with 20 bins.
example : ∃ ps, (ppvEnergy (783, 135, 135) (fun _ => 1) 2000 20 0).probabilities = .values ps ∧
    let d := ppvInvariant 2000 783 (ppvEnergy (783, 135, 135) (fun _ => 1) 2000 20 0).bins ps
    d.bins.Pairwise (· > ·) ∧ d.bins.length = 21 ∧
    ∃ hs, d.probabilities = .values hs ∧ area hs d.bins = -(1 / 2) :=
  ppv_invariant_mass_half 783 135 135 (fun _ => 1) 2000 (by norm_num) (by norm_num) (by norm_num)
    (by norm_num) one_ne_zero 20 (by norm_num) 0

end Hazma.VectorThree
