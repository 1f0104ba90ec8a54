import Verif.Props.RhWidths
import Verif.Props.ThreeBody
import Mathlib.Tactic

/-!
# Widths, matrix elements and phase space of the right-handed neutrino

Properties C135-C137: the three-body widths are the phase-space integrals (as `ThreeBody.integrate`
computes them) of the matrix elements that are passed to the spectra code; those matrix elements are
nonnegative where a decay can happen; the two-body widths have the tree-level dependence on the masses.
-/

namespace Hazma.RhNeutrino

open Hazma Hazma.Kinematics Hazma.ThreeBody Hazma.PhaseSpace Set MeasureTheory
open Hazma.Rambo (P4 OnShell total)

/-- `Γ = 1/(2M) ∫ dΦ₃ |M|²` with the phase-space integral of `ThreeBody(mx, masses, msqrd).integrate()`
(method `quad`). -/
noncomputable def phaseSpaceWidth (mx : ℝ) (masses : ℝ × ℝ × ℝ) (msqrd : ℝ → ℝ → ℝ) : ℝ :=
  1 / (2 * mx) * integrateQuad (create mx masses (.st msqrd))

/-! ## C135: two pions -/

theorem integral_square (y0 h A C : ℝ) :
    ∫ y in (y0 - h)..(y0 + h), (A * (y - y0) ^ 2 + C) = 2 / 3 * A * h ^ 3 + 2 * h * C := by
  rw [intervalIntegral.integral_comp_sub_right (fun y => A * y ^ 2 + C) y0]
  rw [show y0 - h - y0 = -h by ring, show y0 + h - y0 = h by ring]
  rw [intervalIntegral.integral_add
    (by apply Continuous.intervalIntegrable; fun_prop) (by simp),
    intervalIntegral.integral_const_mul, integral_pow, intervalIntegral.integral_const]
  have e : ((2 : ℕ) : ℝ) + 1 = 3 := by norm_num
  rw [smul_eq_mul, e]
  ring

/-- The inner integral of a matrix element of the form `A(s) (t - T₀)² + C(s)` when the second and
third particles have equal masses. -/
theorem inner_equal {M m1 m x : ℝ} (hM : 0 < M) (h1 : 0 ≤ m1) (hm : 0 < m)
    (hx1 : 2 * (m1 / M) ≤ x) (hx2 : x ≤ (m1 / M) ^ 2 + (1 - (m / M + m / M) ^ 2))
    (hopen : m1 + 2 * m ≤ M) (A C : ℝ → ℝ) (ms : ℝ → ℝ → ℝ)
    (hms : ∀ s t, ms s t = A s * (t - (M ^ 2 + m1 ^ 2 + 2 * m ^ 2 - s) / 2) ^ 2 + C s)
    (s z : ℝ) (hz : z = 1 - x + (m1 / M) ^ 2) (hs : s = M ^ 2 * z) :
    ∫ y in (boundsY M m1 m m x).1..(boundsY M m1 m m x).2, ms s (M ^ 2 * (1 - y + (m / M) ^ 2))
      = Real.sqrt (kallenLambda 1 z ((m1 / M) ^ 2)) * Real.sqrt (1 - 4 * m ^ 2 / s)
        * (A s * M ^ 4 * kallenLambda 1 z ((m1 / M) ^ 2) * (1 - 4 * m ^ 2 / s) / 12 + C s) := by
  obtain ⟨a, ha⟩ : ∃ a, a = m1 / M := ⟨_, rfl⟩
  obtain ⟨μ, hμ⟩ : ∃ μ, μ = m / M := ⟨_, rfl⟩
  have em1 : m1 = a * M := by rw [ha]; field_simp
  have em : m = μ * M := by rw [hμ]; field_simp
  have ha0 : 0 ≤ a := by rw [ha]; positivity
  have hμ0 : 0 < μ := by rw [hμ]; positivity
  have hsum : a + 2 * μ ≤ 1 := by
    rw [em1, em] at hopen
    by_contra h
    push Not at h
    nlinarith
  rw [← ha, ← hμ] at hx2
  rw [← ha] at hx1 hz
  rw [← ha]
  have hz4 : 4 * μ ^ 2 ≤ z := by rw [hz]; nlinarith
  have hz0 : 0 < z := by nlinarith
  have hzu : z ≤ (1 - a) ^ 2 := by rw [hz]; nlinarith
  obtain ⟨w, hw⟩ : ∃ w, w = 1 - 4 * μ ^ 2 / z := ⟨_, rfl⟩
  have hw0 : 0 ≤ w := by
    rw [hw, sub_nonneg, div_le_one hz0]; exact hz4
  have hws : 1 - 4 * m ^ 2 / s = w := by
    rw [hs, em, hw]; field_simp
  have hwz : z * w = z - 4 * μ ^ 2 := by rw [hw]; field_simp
  obtain ⟨L, hL⟩ : ∃ L, L = kallenLambda 1 z (a ^ 2) := ⟨_, rfl⟩
  have hL0 : 0 ≤ L := by
    have : L = ((1 - a) ^ 2 - z) * ((1 + a) ^ 2 - z) := by
      rw [hL]; unfold kallenLambda; ring
    rw [this]
    apply mul_nonneg <;> nlinarith
  have hsq : Real.sqrt (kallenLambda 1 (a ^ 2) z * kallenLambda z (μ ^ 2) (μ ^ 2))
      = Real.sqrt L * (z * Real.sqrt w) := by
    have e1 : kallenLambda 1 (a ^ 2) z = L := by rw [hL]; unfold kallenLambda; ring
    have e2 : kallenLambda z (μ ^ 2) (μ ^ 2) = z ^ 2 * w := by
      have : z ^ 2 * w = z * (z * w) := by ring
      rw [this, hwz]; unfold kallenLambda; ring
    rw [e1, e2, Real.sqrt_mul hL0, Real.sqrt_mul (sq_nonneg z), Real.sqrt_sq hz0.le]
  obtain ⟨h, hh⟩ : ∃ h, h = Real.sqrt L * Real.sqrt w / 2 := ⟨_, rfl⟩
  have hb : boundsY M m1 m m x = ((1 + z - a ^ 2) / 2 - h, (1 + z - a ^ 2) / 2 + h) := by
    simp only [boundsY, ← ha, ← hμ, ← hz, hsq, hh]
    have e : 2 - x = 1 + z - a ^ 2 := by rw [hz]; ring
    have e' : z + μ ^ 2 - μ ^ 2 = z := by ring
    rw [e, e']
    refine Prod.ext ?_ ?_ <;> simp only <;> field_simp <;> ring
  rw [hb, hws]
  simp only
  have hint : ∀ y, ms s (M ^ 2 * (1 - y + (m / M) ^ 2))
      = A s * M ^ 4 * (y - (1 + z - a ^ 2) / 2) ^ 2 + C s := by
    intro y
    rw [hms, ← hμ]
    congr 1
    have : M ^ 2 * (1 - y + μ ^ 2) - (M ^ 2 + m1 ^ 2 + 2 * m ^ 2 - s) / 2
        = -(M ^ 2 * (y - (1 + z - a ^ 2) / 2)) := by rw [hs, em1, em]; ring
    rw [this]
    ring
  simp only [hint]
  rw [integral_square, ← hL, hh]
  have q1 := Real.sq_sqrt hL0
  have q2 := Real.sq_sqrt hw0
  generalize Real.sqrt L = r1 at *
  generalize Real.sqrt w = r2 at *
  rw [← q1, ← q2]
  ring

/-- The phase-space width of such a matrix element as a single integral. -/
theorem phaseSpace_equal {M m1 m : ℝ} (hM : 0 < M) (h1 : 0 ≤ m1) (hm : 0 < m)
    (hopen : m1 + 2 * m ≤ M) (A C : ℝ → ℝ) (ms : ℝ → ℝ → ℝ)
    (hms : ∀ s t, ms s t = A s * (t - (M ^ 2 + m1 ^ 2 + 2 * m ^ 2 - s) / 2) ^ 2 + C s) :
    phaseSpaceWidth M (m1, m, m) ms = 1 / (256 * Real.pi ^ 3 * M)
      * ∫ s in (4 * m ^ 2)..((M - m1) ^ 2),
        Real.sqrt (kallenLambda 1 (s / M ^ 2) ((m1 / M) ^ 2)) * Real.sqrt (1 - 4 * m ^ 2 / s)
        * (A s * M ^ 4 * kallenLambda 1 (s / M ^ 2) ((m1 / M) ^ 2) * (1 - 4 * m ^ 2 / s) / 12
          + C s) := by
  obtain ⟨G, hG⟩ : ∃ G : ℝ → ℝ, G = fun s =>
    Real.sqrt (kallenLambda 1 (s / M ^ 2) ((m1 / M) ^ 2)) * Real.sqrt (1 - 4 * m ^ 2 / s)
        * (A s * M ^ 4 * kallenLambda 1 (s / M ^ 2) ((m1 / M) ^ 2) * (1 - 4 * m ^ 2 / s) / 12
          + C s) := ⟨_, rfl⟩
  have hle : 2 * (m1 / M) ≤ (m1 / M) ^ 2 + (1 - (m / M + m / M) ^ 2) := by
    have e : m1 / M + 2 * (m / M) ≤ 1 := by
      rw [← mul_div_assoc, ← add_div, div_le_one hM]; exact hopen
    have : 0 ≤ m1 / M := by positivity
    have : 0 < m / M := by positivity
    nlinarith
  have hout : (∫ x in (2 * (m1 / M))..((m1 / M) ^ 2 + (1 - (m / M + m / M) ^ 2)),
      ∫ y in (boundsY M m1 m m x).1..(boundsY M m1 m m x).2,
        ms (M ^ 2 * (1 - x + (m1 / M) ^ 2)) (M ^ 2 * (1 - y + (m / M) ^ 2)))
      = ∫ x in (2 * (m1 / M))..((m1 / M) ^ 2 + (1 - (m / M + m / M) ^ 2)),
        G (M ^ 2 * (1 + (m1 / M) ^ 2) - M ^ 2 * x) := by
    apply intervalIntegral.integral_congr
    intro x hx
    rw [uIcc_of_le hle] at hx
    simp only
    rw [inner_equal hM h1 hm hx.1 hx.2 hopen A C ms hms _ _ rfl rfl, hG]
    simp only
    have e1 : M ^ 2 * (1 + (m1 / M) ^ 2) - M ^ 2 * x = M ^ 2 * (1 - x + (m1 / M) ^ 2) := by ring
    have e2 : M ^ 2 * (1 - x + (m1 / M) ^ 2) / M ^ 2 = 1 - x + (m1 / M) ^ 2 := by field_simp
    rw [e1, e2]
  rw [intervalIntegral.integral_comp_sub_mul G (by positivity : M ^ 2 ≠ 0)] at hout
  rw [show M ^ 2 * (1 + (m1 / M) ^ 2) - M ^ 2 * ((m1 / M) ^ 2 + (1 - (m / M + m / M) ^ 2))
      = 4 * m ^ 2 by field_simp; ring,
    show M ^ 2 * (1 + (m1 / M) ^ 2) - M ^ 2 * (2 * (m1 / M)) = (M - m1) ^ 2 by field_simp; ring,
    smul_eq_mul] at hout
  have key : phaseSpaceWidth M (m1, m, m) ms
      = 1 / (256 * Real.pi ^ 3 * M) * ∫ s in (4 * m ^ 2)..((M - m1) ^ 2), G s := by
    unfold phaseSpaceWidth integrateQuad create
    simp only [boundsX]
    rw [hout]
    generalize (∫ s in (4 * m ^ 2)..((M - m1) ^ 2), G s) = I
    field_simp
    ring
  rw [key, hG]

theorem rpow_three_halves {w : ℝ} (hw0 : 0 ≤ w) : w ^ (1.5 : ℝ) = w * Real.sqrt w := by
  rcases hw0.eq_or_lt with h0 | h0
  · rw [← h0]; norm_num
  · rw [show (1.5 : ℝ) = 1 + 1 / 2 by norm_num, Real.rpow_add h0, Real.rpow_one,
      Real.sqrt_eq_rpow]

/-- **C135.** `width_v_pi_pi` is the phase-space integral of the matrix element `msqrd_v_pi_pi`, for
every form factor. -/
theorem v_pi_pi_phase_space (env : Env) (c : Core) (h : 2 * mPi ≤ c.mx) :
    widthVPiPi env c = phaseSpaceWidth c.mx (0, mPi, mPi) (msqrdVPiPi env c) := by
  have hp := mPi_pos
  have hM : 0 < c.mx := by linarith
  rw [phaseSpace_equal hM le_rfl hp (by linarith)
    (fun s => 4 * (c.u ^ 2 * gf ^ 2 * (1 - 2 * sw2) ^ 2 * ‖env.ff (Real.sqrt s)‖ ^ 2))
    (fun s => c.u ^ 2 * gf ^ 2 * (1 - 2 * sw2) ^ 2 * ‖env.ff (Real.sqrt s)‖ ^ 2
      * ((c.mx ^ 2 - s) * (s - 4 * mPi ^ 2))) (msqrdVPiPi env c) (by
      intro s t; unfold msqrdVPiPi; ring)]
  rw [widthVPiPi, if_neg (not_lt.mpr h)]
  simp only [sub_zero]
  rw [← intervalIntegral.integral_const_mul, ← intervalIntegral.integral_const_mul]
  apply intervalIntegral.integral_congr
  intro s hs
  rw [uIcc_of_le (by nlinarith)] at hs
  have hs0 : 0 < s := lt_of_lt_of_le (by positivity) hs.1
  have hz : s / c.mx ^ 2 ≤ 1 := by rw [div_le_one (by positivity)]; exact hs.2
  have hk : kallenLambda 1 (s / c.mx ^ 2) ((0 / c.mx) ^ 2) = (1 - s / c.mx ^ 2) ^ 2 := by
    unfold kallenLambda; ring
  have hw : 0 ≤ 1 - 4 * mPi ^ 2 / s := by
    rw [sub_nonneg, div_le_one hs0]; exact hs.1
  have hw2 : s - 4 * mPi ^ 2 = s * (1 - 4 * mPi ^ 2 / s) := by field_simp
  simp only [integrandVPiPi]
  rw [hk, Real.sqrt_sq (by linarith), rpow_three_halves hw, hw2]
  generalize 1 - 4 * mPi ^ 2 / s = w
  field_simp
  ring

/-- **C135.** `width_l_pi0_pi` is the phase-space integral of the matrix element `msqrd_l_pi0_pi` with
both pions at the charged-pion mass, for every form factor. -/
theorem l_pi0_pi_phase_space (env : Env) (c : Core) (h : lepMass c.gen + 2 * mPi ≤ c.mx) :
    widthLPi0Pi env c = phaseSpaceWidth c.mx (lepMass c.gen, mPi, mPi) (msqrdLPi0Pi env c) := by
  have hp := mPi_pos
  have hl := lepMass_pos c.gen
  have hM : 0 < c.mx := by linarith
  rw [phaseSpace_equal hM hl.le hp (by linarith)
    (fun s => 4 * (2 * ‖env.vud‖ ^ 2 * c.u ^ 2 * gf ^ 2 * ‖env.ff (Real.sqrt s)‖ ^ 2))
    (fun s => 2 * ‖env.vud‖ ^ 2 * c.u ^ 2 * gf ^ 2 * ‖env.ff (Real.sqrt s)‖ ^ 2
      * ((c.mx ^ 2 + lepMass c.gen ^ 2 - s) * (s - 4 * mPi ^ 2))) (msqrdLPi0Pi env c) (by
      intro s t; unfold msqrdLPi0Pi; ring)]
  rw [widthLPi0Pi]
  simp only
  rw [if_neg (not_lt.mpr h), ← intervalIntegral.integral_const_mul,
    ← intervalIntegral.integral_const_mul]
  apply intervalIntegral.integral_congr
  intro s hs
  rw [uIcc_of_le (by nlinarith)] at hs
  have hs0 : 0 < s := lt_of_lt_of_le (by positivity) hs.1
  have hw : 0 ≤ 1 - 4 * mPi ^ 2 / s := by
    rw [sub_nonneg, div_le_one hs0]; exact hs.1
  have hw2 : s - 4 * mPi ^ 2 = s * (1 - 4 * mPi ^ 2 / s) := by field_simp
  have hk : kallenLambda 1 (s / c.mx ^ 2) ((lepMass c.gen / c.mx) ^ 2)
      = (1 - (lepMass c.gen / c.mx) ^ 2) ^ 2 + (s / c.mx ^ 2) ^ 2
        - 2 * (s / c.mx ^ 2) * (1 + (lepMass c.gen / c.mx) ^ 2) := by
    unfold kallenLambda; ring
  simp only [integrandLPi0Pi]
  rw [rpow_three_halves hw, hw2]
  generalize 1 - 4 * mPi ^ 2 / s = w
  generalize Real.sqrt (kallenLambda 1 (s / c.mx ^ 2) ((lepMass c.gen / c.mx) ^ 2)) = r
  rw [hk]
  field_simp
  ring

/-! ## C135: three different leptons -/

/-- The integral of a function antisymmetric about the midpoint. -/
theorem integral_antisymm (lo hi k : ℝ) : ∫ x in lo..hi, k * (x - (lo + hi) / 2) = 0 := by
  rw [intervalIntegral.integral_const_mul, intervalIntegral.integral_sub (by simp) (by simp),
    integral_id, intervalIntegral.integral_const, smul_eq_mul]
  ring

/-- The total of `(p₁·p₂)(P·p₃)` over phase space is that of `(p₂·p₃)(P·p₁)`: at fixed energy of the
second particle the difference is odd about the middle of the allowed range. -/
theorem contraction_exchange {q m1 m2 m3 : ℝ} (hq : 0 < q) (n1 : 0 ≤ m1) (n2 : 0 ≤ m2)
    (n3 : 0 ≤ m3) (hopen : m1 + m2 + m3 ≤ q) :
    (∫ x in (boundsX q m1 m2 m3).1..(boundsX q m1 m2 m3).2,
      ∫ y in (boundsY q m1 m2 m3 x).1..(boundsY q m1 m2 m3 x).2,
        (x + y - 1 + (m3 / q) ^ 2 - (m1 / q) ^ 2 - (m2 / q) ^ 2) * (2 - x - y))
      = ∫ x in (boundsX q m1 m2 m3).1..(boundsX q m1 m2 m3).2,
      ∫ y in (boundsY q m1 m2 m3 x).1..(boundsY q m1 m2 m3 x).2,
        (1 - x + (m1 / q) ^ 2 - (m2 / q) ^ 2 - (m3 / q) ^ 2) * x := by
  obtain ⟨h1, hh1⟩ : ∃ h : ℝ → ℝ → ℝ, h = fun x y =>
    (x + y - 1 + (m3 / q) ^ 2 - (m1 / q) ^ 2 - (m2 / q) ^ 2) * (2 - x - y) := ⟨_, rfl⟩
  obtain ⟨h2, hh2⟩ : ∃ h : ℝ → ℝ → ℝ, h = fun x (_ : ℝ) =>
    (1 - x + (m1 / q) ^ 2 - (m2 / q) ^ 2 - (m3 / q) ^ 2) * x := ⟨_, rfl⟩
  have c1 : Continuous fun z : ℝ × ℝ => h1 z.1 z.2 := by rw [hh1]; fun_prop
  have c2 : Continuous fun z : ℝ × ℝ => h2 z.1 z.2 := by rw [hh2]; fun_prop
  have e1 : ∀ h : ℝ → ℝ → ℝ, Continuous (fun z : ℝ × ℝ => h z.1 z.2) →
      (∫ x in (boundsX q m1 m2 m3).1..(boundsX q m1 m2 m3).2,
        ∫ y in (boundsY q m1 m2 m3 x).1..(boundsY q m1 m2 m3 x).2, h x y)
      = ∫ y in (boundsX q m2 m1 m3).1..(boundsX q m2 m1 m3).2,
        ∫ x in (boundsY q m2 m1 m3 y).1..(boundsY q m2 m1 m3 y).2, h x y := by
    intro h hc
    rw [iterated_eq hq n1 n2 n3 hopen, ← iterated_swap hq n1 n2 n3 hc,
      ← iterated_eq hq n2 n1 n3 (by linarith) (fun y x => h x y)]
  have g1 := e1 h1 c1
  have g2 := e1 h2 c2
  simp only [hh1] at g1
  simp only [hh2] at g2
  rw [g1, g2]
  have hle : (boundsX q m2 m1 m3).1 ≤ (boundsX q m2 m1 m3).2 := by
    simp only [boundsX]
    have e : m1 / q + m3 / q ≤ 1 - m2 / q := by
      rw [← add_div, ← sub_nonneg]
      have : 1 - m2 / q - (m1 + m3) / q = (q - (m1 + m2 + m3)) / q := by field_simp; ring
      rw [this]; exact div_nonneg (by linarith) hq.le
    have e0 : 0 ≤ m1 / q + m3 / q := by positivity
    nlinarith
  rw [intervalIntegral.integral_of_le hle, intervalIntegral.integral_of_le hle,
    integral_Ioc_eq_integral_Ioo, integral_Ioc_eq_integral_Ioo]
  apply setIntegral_congr_fun measurableSet_Ioo
  rintro y ⟨-, hy2⟩
  have hs : 0 < 1 - y + (m2 / q) ^ 2 := by
    simp only [boundsX] at hy2
    nlinarith [sq_nonneg (m1 / q + m3 / q)]
  simp only
  rw [← sub_eq_zero, ← intervalIntegral.integral_sub
    (by apply Continuous.intervalIntegrable; fun_prop)
    (by apply Continuous.intervalIntegrable; fun_prop)]
  rw [← integral_antisymm (boundsY q m2 m1 m3 y).1 (boundsY q m2 m1 m3 y).2
    (2 * (1 - y + (m2 / q) ^ 2))]
  apply intervalIntegral.integral_congr
  intro x _
  simp only [boundsY]
  generalize Real.sqrt _ = r
  generalize m1 / q = a at *
  generalize m2 / q = b at *
  generalize m3 / q = e at *
  have hs' := hs.ne'
  rw [show (0.5 * ((2 - y) * (1 - y + b ^ 2 + a ^ 2 - e ^ 2) - r) / (1 - y + b ^ 2)
      + 0.5 * ((2 - y) * (1 - y + b ^ 2 + a ^ 2 - e ^ 2) + r) / (1 - y + b ^ 2)) / 2
      = (2 - y) * (1 - y + b ^ 2 + a ^ 2 - e ^ 2) / (2 * (1 - y + b ^ 2)) by field_simp; ring]
  rw [mul_sub (2 * (1 - y + b ^ 2)), mul_div_cancel₀ _ (by positivity)]
  ring

/-- **C135.** `_width_l_u_d` is the phase-space integral of `_msqrd_l_u_d` with the particles in the
order `(u, d, ℓ)`. -/
theorem l_u_d_phase_space (c : Core) {mu md ml : ℝ} (hu : 0 ≤ mu) (hd : 0 ≤ md) (hl : 0 ≤ ml)
    (hM : 0 < c.mx) (h : ml + mu + md ≤ c.mx) :
    widthLUD c mu md ml = phaseSpaceWidth c.mx (mu, md, ml) (msqrdLUD c mu md ml) := by
  have hout : (∫ x in (boundsX c.mx mu md ml).1..(boundsX c.mx mu md ml).2,
      ∫ y in (boundsY c.mx mu md ml x).1..(boundsY c.mx mu md ml x).2,
        msqrdLUD c mu md ml (c.mx ^ 2 * (1 - x + (mu / c.mx) ^ 2))
          (c.mx ^ 2 * (1 - y + (md / c.mx) ^ 2)))
      = 16 * gf ^ 2 * c.u ^ 2 * c.mx ^ 4 * ((1 / 12) *
        ∫ x in ((md / c.mx + ml / c.mx) ^ 2)..((1 - mu / c.mx) ^ 2),
          integrandLUD (mu / c.mx) (md / c.mx) (ml / c.mx) x) := by
    have e : ∀ x y, msqrdLUD c mu md ml (c.mx ^ 2 * (1 - x + (mu / c.mx) ^ 2))
          (c.mx ^ 2 * (1 - y + (md / c.mx) ^ 2)) = 16 * gf ^ 2 * c.u ^ 2 * c.mx ^ 4 *
        ((x + y - 1 + (ml / c.mx) ^ 2 - (mu / c.mx) ^ 2 - (md / c.mx) ^ 2) * (2 - x - y)) := by
      intro x y
      unfold msqrdLUD
      field_simp
      ring
    simp only [e, intervalIntegral.integral_const_mul]
    rw [contraction_exchange hM hu hd hl (by linarith)]
    congr 1
    have hin : ∀ x, (∫ _ in (boundsY c.mx mu md ml x).1..(boundsY c.mx mu md ml x).2,
        (1 - x + (mu / c.mx) ^ 2 - (md / c.mx) ^ 2 - (ml / c.mx) ^ 2) * x)
        = 1 / 12 * integrandLUD (mu / c.mx) (md / c.mx) (ml / c.mx) (1 + (mu / c.mx) ^ 2 - x) := by
      intro x
      rw [intervalIntegral.integral_const, smul_eq_mul]
      simp only [boundsY, integrandLUD]
      rw [show 1 + (mu / c.mx) ^ 2 - x = 1 - x + (mu / c.mx) ^ 2 by ring]
      rw [show kallenLambda (1 - x + (mu / c.mx) ^ 2) ((ml / c.mx) ^ 2) ((md / c.mx) ^ 2)
          * kallenLambda 1 (1 - x + (mu / c.mx) ^ 2) ((mu / c.mx) ^ 2)
          = kallenLambda 1 ((mu / c.mx) ^ 2) (1 - x + (mu / c.mx) ^ 2)
          * kallenLambda (1 - x + (mu / c.mx) ^ 2) ((md / c.mx) ^ 2) ((ml / c.mx) ^ 2) by
          unfold kallenLambda; ring]
      ring
    simp only [hin, intervalIntegral.integral_const_mul]
    congr 1
    rw [intervalIntegral.integral_comp_sub_left (fun x => integrandLUD (mu / c.mx) (md / c.mx)
      (ml / c.mx) x) (1 + (mu / c.mx) ^ 2)]
    simp only [boundsX]
    congr 1 <;> ring
  rw [widthLUD, if_neg (not_lt.mpr h)]
  unfold phaseSpaceWidth integrateQuad create
  simp only
  rw [hout]
  generalize (∫ x in ((md / c.mx + ml / c.mx) ^ 2)..((1 - mu / c.mx) ^ 2),
    integrandLUD (mu / c.mx) (md / c.mx) (ml / c.mx) x) = I
  field_simp
  ring

/-! ## C135: neutrino and a lepton pair -/

/-- `r = √(z² - 4κz)` and its derivative. -/
theorem root_hasDerivAt {k z : ℝ} (hk : 0 < k) (hz : 4 * k < z) :
    0 < Real.sqrt (z ^ 2 - 4 * k * z) ∧ HasDerivAt (fun z => Real.sqrt (z ^ 2 - 4 * k * z))
      ((z - 2 * k) / Real.sqrt (z ^ 2 - 4 * k * z)) z := by
  have hp : 0 < z ^ 2 - 4 * k * z := by nlinarith
  refine ⟨Real.sqrt_pos.mpr hp, ?_⟩
  have h1 : HasDerivAt (fun z : ℝ => z ^ 2 - 4 * k * z) (2 * z - 4 * k) z := by
    have := ((hasDerivAt_pow 2 z).sub ((hasDerivAt_id z).const_mul (4 * k)))
    exact this.congr_deriv (by norm_num)
  have := h1.sqrt hp.ne'
  exact this.congr_deriv (by
    have := (Real.sqrt_pos.mpr hp).ne'
    field_simp
    ring)

theorem log_hasDerivAt {k z : ℝ} (hk : 0 < k) (hz : 4 * k < z) :
    HasDerivAt (fun z => Real.log (z - 2 * k + Real.sqrt (z ^ 2 - 4 * k * z)))
      (1 / Real.sqrt (z ^ 2 - 4 * k * z)) z := by
  obtain ⟨hr, hd⟩ := root_hasDerivAt hk hz
  have h1 := ((hasDerivAt_id z).sub_const (2 * k)).add hd
  have hpos : 0 < z - 2 * k + Real.sqrt (z ^ 2 - 4 * k * z) := by linarith
  have := h1.log (by simpa using hpos.ne')
  refine this.congr_deriv ?_
  simp only [id, Pi.add_apply]
  generalize Real.sqrt (z ^ 2 - 4 * k * z) = r at *
  have := hpos.ne'
  have := hr.ne'
  rw [div_eq_div_iff ‹_› ‹_›]
  field_simp
  ring

/-- Integrals of the type that occurs, from an antiderivative `Q(z) r + δ log(z - 2κ + r)`. -/
theorem root_integral {k δ : ℝ} {Q Q' f : ℝ → ℝ} (hk : 0 < k) (hk1 : 4 * k ≤ 1)
    (hQ : ∀ z, 0 < z → HasDerivAt Q (Q' z) z) (hf : ContinuousOn f (Icc (4 * k) 1))
    (heq : ∀ z r, 4 * k < z → z ≤ 1 → 0 < r → r ^ 2 = z ^ 2 - 4 * k * z →
      f z = Q' z * r + Q z * ((z - 2 * k) / r) + δ * (1 / r)) :
    ∫ z in (4 * k)..1, f z
      = Q 1 * Real.sqrt (1 - 4 * k) + δ * Real.log ((1 - 2 * k + Real.sqrt (1 - 4 * k)) / (2 * k)) := by
  have h := intervalIntegral.integral_eq_sub_of_hasDerivAt_of_le hk1
    (f := fun z => Q z * Real.sqrt (z ^ 2 - 4 * k * z)
      + δ * Real.log (z - 2 * k + Real.sqrt (z ^ 2 - 4 * k * z))) (f' := f) ?_ ?_ ?_
  · rw [h]
    rw [show (1 : ℝ) ^ 2 - 4 * k * 1 = 1 - 4 * k by ring,
      show (4 * k) ^ 2 - 4 * k * (4 * k) = 0 by ring, Real.sqrt_zero,
      show 4 * k - 2 * k + 0 = 2 * k by ring]
    have h0 : 0 ≤ Real.sqrt (1 - 4 * k) := Real.sqrt_nonneg _
    rw [Real.log_div (by linarith) (by linarith)]
    ring
  · intro z hz
    have hz0 : 0 < z := by linarith [hz.1]
    have hr := Real.sqrt_nonneg (z ^ 2 - 4 * k * z)
    have c1 : ContinuousAt (fun z => Real.sqrt (z ^ 2 - 4 * k * z)) z := by fun_prop
    have c2 : ContinuousAt (fun z => z - 2 * k + Real.sqrt (z ^ 2 - 4 * k * z)) z := by fun_prop
    exact (((hQ z hz0).continuousAt.mul c1).add
      (continuousAt_const.mul (c2.log (by linarith [hz.1])))).continuousWithinAt
  · intro z hz
    obtain ⟨hr, hd⟩ := root_hasDerivAt hk hz.1
    have hz0 : 0 < z := by linarith [hz.1]
    have hsq := Real.sq_sqrt (show 0 ≤ z ^ 2 - 4 * k * z by nlinarith [hz.1])
    exact (((hQ z hz0).mul hd).add ((log_hasDerivAt hk hz.1).const_mul δ)).congr_deriv
      (heq z _ hz.1 hz.2.le hr hsq).symm
  · apply ContinuousOn.intervalIntegrable
    rw [uIcc_of_le hk1]
    exact hf

/-- `√(1 - 4κ/z) = r / z`. -/
theorem root_div {k z r : ℝ} (hz : 0 < z) (hr : 0 < r) (h : r ^ 2 = z ^ 2 - 4 * k * z) :
    Real.sqrt (1 - 4 * k / z) = r / z := by
  rw [show 1 - 4 * k / z = (r / z) ^ 2 by rw [div_pow, h]; field_simp]
  exact Real.sqrt_sq (by positivity)

theorem integral_one {k : ℝ} (hk : 0 < k) (hk1 : 4 * k ≤ 1) :
    ∫ z in (4 * k)..1, (1 - z) ^ 2 * Real.sqrt (1 - 4 * k / z)
      = (1 / 3 + 5 * k / 3 - 2 * k ^ 2) * Real.sqrt (1 - 4 * k)
        + (-2 * k + 4 * k ^ 2 - 4 * k ^ 3)
          * Real.log ((1 - 2 * k + Real.sqrt (1 - 4 * k)) / (2 * k)) := by
  have hz0 : ∀ z ∈ Icc (4 * k) 1, z ≠ 0 := fun z hz => by
    have := hz.1
    have : 0 < z := by linarith
    exact this.ne'
  rw [root_integral (Q := fun z => 1 / 3 * z ^ 2 + (-1 - k / 3) * z + (1 + 2 * k - 2 * k ^ 2))
    (Q' := fun z => 2 / 3 * z + (-1 - k / 3)) (δ := -2 * k + 4 * k ^ 2 - 4 * k ^ 3) hk hk1 ?_ ?_ ?_]
  · ring
  · intro z _
    have := (((hasDerivAt_pow 2 z).const_mul (1 / 3)).add
      ((hasDerivAt_id z).const_mul (-1 - k / 3))).add_const (1 + 2 * k - 2 * k ^ 2)
    exact this.congr_deriv (by norm_num; try ring)
  · fun_prop (disch := assumption)
  · intro z r h1 h2 hr hsq
    have hz : 0 < z := by linarith
    rw [root_div hz hr hsq]
    field_simp
    rw [hsq]
    ring

theorem integral_two {k : ℝ} (hk : 0 < k) (hk1 : 4 * k ≤ 1) :
    ∫ z in (4 * k)..1, (1 - z) ^ 2 * (1 + 2 * z) * (1 + 2 * k / z) * Real.sqrt (1 - 4 * k / z)
      = (1 / 2 - 5 * k + 9 * k ^ 2 - 18 * k ^ 3) * Real.sqrt (1 - 4 * k)
        + (24 * k ^ 3 - 36 * k ^ 4)
          * Real.log ((1 - 2 * k + Real.sqrt (1 - 4 * k)) / (2 * k)) := by
  have hz0 : ∀ z ∈ Icc (4 * k) 1, z ≠ 0 := fun z hz => by
    have := hz.1
    have : 0 < z := by linarith
    exact this.ne'
  rw [root_integral (Q := fun z => 1 / 2 * z ^ 3 + (-1 + k) * z ^ 2 + (-2 * k - 3 * k ^ 2) * z
      + (1 + 12 * k ^ 2 - 18 * k ^ 3) + -4 * k * z⁻¹)
    (Q' := fun z => 3 / 2 * z ^ 2 + 2 * (-1 + k) * z + (-2 * k - 3 * k ^ 2)
      + -4 * k * (-(z ^ 2)⁻¹))
    (δ := 24 * k ^ 3 - 36 * k ^ 4) hk hk1 ?_ ?_ ?_]
  · ring
  · intro z hz
    have := (((((hasDerivAt_pow 3 z).const_mul (1 / 2)).add
      ((hasDerivAt_pow 2 z).const_mul (-1 + k))).add
      ((hasDerivAt_id z).const_mul (-2 * k - 3 * k ^ 2))).add_const
        (1 + 12 * k ^ 2 - 18 * k ^ 3)).add ((hasDerivAt_inv hz.ne').const_mul (-4 * k))
    exact this.congr_deriv (by norm_num; try ring)
  · fun_prop (disch := assumption)
  · intro z r h1 h2 hr hsq
    have hz : 0 < z := by linarith
    rw [root_div hz hr hsq]
    field_simp
    rw [hsq]
    ring

/-- The phase-space integral of the matrix element of a neutrino and a lepton pair in closed form,
with the logarithm `ℓ(v) = log((1 + v)/(1 - v))` in place of the function `L` of the code. -/
theorem v_l_l_closed_form (c : Core) (g : Gen) (h : 2 * lepMass g < c.mx) (x v : ℝ)
    (hxe : x = lepMass g / c.mx) (hve : v = Real.sqrt (1 - 4 * x ^ 2)) :
    phaseSpaceWidth c.mx (0, lepMass g, lepMass g) (msqrdVLL c c.gen g g).1
      = gf ^ 2 * c.mx ^ 5 / (192 * Real.pi ^ 3) * c.u ^ 2
        * (0.25 * (1 + (if c.gen = g then 1 else -1) * 4 * sw2 + 8 * sw2 ^ 2)
            * ((1 - 14 * x ^ 2 - 2 * x ^ 4 - 12 * x ^ 6) * v
              + 12 * x ^ 4 * (x ^ 4 - 1) * (-2 * ell v))
          + 4 * (0.5 * sw2 * (2 * sw2 + (if c.gen = g then 1 else -1)))
            * (x ^ 2 * (2 + 10 * x ^ 2 - 12 * x ^ 4) * v
              + 6 * x ^ 4 * (1 - 2 * x ^ 2 + 2 * x ^ 4) * (-2 * ell v))) := by
  have hm := lepMass_pos g
  have hM : 0 < c.mx := by linarith
  obtain ⟨m, hme⟩ : ∃ m, m = lepMass g := ⟨_, rfl⟩
  obtain ⟨sg, hsg⟩ : ∃ sg : ℝ, sg = if c.gen = g then 1 else -1 := ⟨_, rfl⟩
  have hmsq : (msqrdVLL c c.gen g g).1 = msqrdVFF sg c m := by
    unfold msqrdVLL
    by_cases e : c.gen = g
    · simp [e, hsg, hme]
    · simp [e, hsg, hme]
  have hsg2 : sg ^ 2 = 1 := by rw [hsg]; split_ifs <;> norm_num
  rw [hmsq, ← hsg]
  rw [← hme] at h hm hxe ⊢
  obtain ⟨k, hk⟩ : ∃ k, k = 1 + sg * 4 * sw2 + 8 * sw2 ^ 2 := ⟨_, rfl⟩
  rw [phaseSpace_equal hM le_rfl hm (by linarith) (fun _ => -4 * k * c.u ^ 2 * gf ^ 2)
    (fun s => 2 * c.u ^ 2 * gf ^ 2 * (k * ((c.mx ^ 2 - s) ^ 2 / 2
      + (s + 2 * m ^ 2) * (c.mx ^ 2 - s)) - 2 * m ^ 2 * (c.mx ^ 2 - s))) (msqrdVFF sg c m) (by
      intro s t
      unfold msqrdVFF
      simp only
      rw [← hk]
      ring)]
  simp only [sub_zero]
  have hx := hxe
  have hx0 : 0 < x := by rw [hx]; positivity
  have hx2 : x < 1 / 2 := by rw [hx, div_lt_iff₀ hM]; linarith
  have hmx : m = x * c.mx := by rw [hx]; field_simp
  have hk0 : 0 < x ^ 2 := by positivity
  have hk1 : 4 * x ^ 2 ≤ 1 := by nlinarith
  -- the integral in units of `mx²`
  have hcong : (∫ s in (4 * m ^ 2)..(c.mx ^ 2),
        Real.sqrt (kallenLambda 1 (s / c.mx ^ 2) ((0 / c.mx) ^ 2)) * Real.sqrt (1 - 4 * m ^ 2 / s)
        * (-4 * k * c.u ^ 2 * gf ^ 2 * c.mx ^ 4 * kallenLambda 1 (s / c.mx ^ 2) ((0 / c.mx) ^ 2)
            * (1 - 4 * m ^ 2 / s) / 12
          + 2 * c.u ^ 2 * gf ^ 2 * (k * ((c.mx ^ 2 - s) ^ 2 / 2
      + (s + 2 * m ^ 2) * (c.mx ^ 2 - s)) - 2 * m ^ 2 * (c.mx ^ 2 - s))))
      = 2 / 3 * c.u ^ 2 * gf ^ 2 * c.mx ^ 6 * (k * (∫ z in (4 * x ^ 2)..1, (1 - z) ^ 2 * (1 + 2 * z)
          * (1 + 2 * x ^ 2 / z) * Real.sqrt (1 - 4 * x ^ 2 / z))
        - 6 * x ^ 2 * ∫ z in (4 * x ^ 2)..1, (1 - z) ^ 2 * Real.sqrt (1 - 4 * x ^ 2 / z)) := by
    have hz0 : ∀ z ∈ Icc (4 * x ^ 2) 1, z ≠ 0 := fun z hz => by
      have := hz.1
      have : 0 < z := by linarith
      exact this.ne'
    have i1 : IntervalIntegrable (fun z => k * ((1 - z) ^ 2 * (1 + 2 * z)
          * (1 + 2 * x ^ 2 / z) * Real.sqrt (1 - 4 * x ^ 2 / z))) volume (4 * x ^ 2) 1 := by
      apply ContinuousOn.intervalIntegrable
      rw [uIcc_of_le hk1]
      fun_prop (disch := assumption)
    have i2 : IntervalIntegrable (fun z => 6 * x ^ 2 * ((1 - z) ^ 2
        * Real.sqrt (1 - 4 * x ^ 2 / z))) volume (4 * x ^ 2) 1 := by
      apply ContinuousOn.intervalIntegrable
      rw [uIcc_of_le hk1]
      fun_prop (disch := assumption)
    rw [← intervalIntegral.integral_const_mul, ← intervalIntegral.integral_const_mul (6 * x ^ 2),
      ← intervalIntegral.integral_sub i1 i2]
    have hsub := intervalIntegral.integral_comp_mul_left (a := 4 * x ^ 2) (b := 1) (fun s =>
        Real.sqrt (kallenLambda 1 (s / c.mx ^ 2) ((0 / c.mx) ^ 2)) * Real.sqrt (1 - 4 * m ^ 2 / s)
        * (-4 * k * c.u ^ 2 * gf ^ 2 * c.mx ^ 4 * kallenLambda 1 (s / c.mx ^ 2) ((0 / c.mx) ^ 2)
            * (1 - 4 * m ^ 2 / s) / 12
          + 2 * c.u ^ 2 * gf ^ 2 * (k * ((c.mx ^ 2 - s) ^ 2 / 2
      + (s + 2 * m ^ 2) * (c.mx ^ 2 - s)) - 2 * m ^ 2 * (c.mx ^ 2 - s))))
      (by positivity : c.mx ^ 2 ≠ 0)
    rw [show c.mx ^ 2 * (4 * x ^ 2) = 4 * m ^ 2 by rw [hmx]; ring, mul_one, smul_eq_mul] at hsub
    have hM2 : c.mx ^ 2 ≠ 0 := by positivity
    rw [eq_comm, inv_mul_eq_iff_eq_mul₀ hM2] at hsub
    rw [hsub, ← intervalIntegral.integral_const_mul, ← intervalIntegral.integral_const_mul]
    apply intervalIntegral.integral_congr
    intro z hz
    rw [uIcc_of_le hk1] at hz
    have hzp : 0 < z := by linarith [hz.1]
    simp only
    have e1 : c.mx ^ 2 * z / c.mx ^ 2 = z := by field_simp
    have e2 : 4 * m ^ 2 / (c.mx ^ 2 * z) = 4 * x ^ 2 / z := by rw [hmx]; field_simp
    have e3 : kallenLambda 1 z ((0 / c.mx) ^ 2) = (1 - z) ^ 2 := by unfold kallenLambda; ring
    rw [e1, e2, e3, Real.sqrt_sq (by linarith [hz.2]), hmx]
    generalize Real.sqrt (1 - 4 * x ^ 2 / z) = r
    field_simp
    ring
  rw [hcong, integral_one hk0 hk1, integral_two hk0 hk1]
  -- the logarithm
  obtain ⟨v0, v1, hv⟩ := root_facts hx0 hx2
  have hlog : Real.log ((1 - 2 * x ^ 2 + Real.sqrt (1 - 4 * x ^ 2)) / (2 * x ^ 2))
      = ell (Real.sqrt (1 - 4 * x ^ 2)) := by
    set v := Real.sqrt (1 - 4 * x ^ 2)
    have h1' : 0 < 1 - v := by linarith
    have h2' : 0 < 1 + v := by linarith
    rw [ell, ← Real.log_div h2'.ne' h1'.ne']
    congr 1
    rw [hv]
    have h3 : 1 - v ^ 2 = (1 - v) * (1 + v) := by ring
    rw [div_eq_div_iff (by rw [h3]; positivity) h1'.ne']
    ring
  rw [hlog, ← hve, hk]
  generalize ell v = l
  field_simp
  ring_nf

/-- **C135.** `_width_v_l_l` is the phase-space integral of the matrix element used for the spectra
(away from the small-mass approximation of the logarithm, for which see `v_l_l_small_mass`). -/
theorem v_l_l_phase_space (c : Core) (g : Gen) (h : 2 * lepMass g < c.mx)
    (hn : ¬ 1 - 3 * (lepMass g / c.mx) ^ 2
      - (1 - (lepMass g / c.mx) ^ 2) * Real.sqrt (1 - 4 * (lepMass g / c.mx) ^ 2) < 1e-10) :
    widthVLLsame c g = phaseSpaceWidth c.mx (0, lepMass g, lepMass g) (msqrdVLL c c.gen g g).1 := by
  have hm := lepMass_pos g
  have hM : 0 < c.mx := by linarith
  rw [v_l_l_closed_form c g h _ _ rfl rfl]
  have hlx := lx_exact (by positivity) (by rw [div_lt_iff₀ hM]; linarith) hn
  rw [← hlx]
  unfold widthVLLsame
  by_cases e : c.gen = g
  · simp only [if_pos e, widthVFF, if_neg (not_lt.mpr h.le), t1, t2]
    ring
  · simp only [if_neg e, widthVFF, if_neg (not_lt.mpr h.le), t1, t2]
    ring

/-- **C135.** For a final state with two different flavours, in which the neutrino accompanies the
first charged lepton, the width is the phase-space integral of the matrix element handed to the
spectra code, with the particles in the order of the final state. -/
theorem v_l_l_flavour_phase_space (c : Core) (g : Gen) (hg : g ≠ c.gen)
    (h : lepMass g + lepMass c.gen ≤ c.mx) :
    widthVLL c g g c.gen
      = phaseSpaceWidth c.mx (0, lepMass g, lepMass c.gen) (msqrdVLL c g g c.gen).1 := by
  have hM : 0 < c.mx := by linarith [lepMass_pos g, lepMass_pos c.gen]
  have e1 : c.gen ≠ g := fun h => hg h.symm
  have ew : widthVLL c g g c.gen = widthLUD c 0 (lepMass g) (lepMass c.gen) := by
    simp [widthVLL, e1]
  have em : (msqrdVLL c g g c.gen).1 = msqrdLUD c 0 (lepMass g) (lepMass c.gen) := by
    simp [msqrdVLL, e1]
  rw [ew, em]
  exact l_u_d_phase_space c le_rfl (lepMass_pos g).le (lepMass_pos _).le hM (by linarith)

/-! ## C135 fails for three neutrinos -/

/-- The massless phase-space integral of the matrix element for three neutrinos. -/
theorem v_v_v_phase_space_value (c : Core) (g : Gen) (hM : 0 < c.mx) :
    phaseSpaceWidth c.mx (0, 0, 0) (msqrdVVV c g)
      = (if g = c.gen then 2 else 1) * gf ^ 2 * c.mx ^ 5 / (128 * Real.pi ^ 3) * c.u := by
  obtain ⟨pre, hpre⟩ : ∃ pre : ℝ, pre = if g = c.gen then 2 else 1 := ⟨_, rfl⟩
  have e : ∀ x y, msqrdVVV c g (c.mx ^ 2 * (1 - x + (0 / c.mx) ^ 2))
      (c.mx ^ 2 * (1 - y + (0 / c.mx) ^ 2)) = (-pre * 16 * gf ^ 2 * c.u * c.mx ^ 4)
        * ((1 - x) ^ 2 + (1 - x) * (1 - y) + (1 - y) ^ 2 - (1 - x) - (1 - y)) := by
    intro x y
    simp only [msqrdVVV]
    rw [← hpre, zero_div]
    ring
  have hinner : ∀ x ∈ Ioo (0 : ℝ) 1,
      (∫ y in (boundsY c.mx 0 0 0 x).1..(boundsY c.mx 0 0 0 x).2,
        ((1 - x) ^ 2 + (1 - x) * (1 - y) + (1 - y) ^ 2 - (1 - x) - (1 - y)))
      = -x * (1 - x) + (1 - x) * x ^ 2 / 2 + x ^ 3 / 3 - x ^ 2 / 2 + x * (1 - x) ^ 2 := by
    intro x hx
    have hx1 : 0 < 1 - x := by linarith [hx.2]
    have hk : kallenLambda 1 ((0 / c.mx) ^ 2) (1 - x + (0 / c.mx) ^ 2)
        * kallenLambda (1 - x + (0 / c.mx) ^ 2) ((0 / c.mx) ^ 2) ((0 / c.mx) ^ 2)
        = (x * (1 - x)) ^ 2 := by
      rw [zero_div]; unfold kallenLambda; ring
    have hb1 : (boundsY c.mx 0 0 0 x).1 = 1 - x := by
      simp only [boundsY]
      rw [hk, Real.sqrt_sq (mul_nonneg hx.1.le hx1.le), zero_div]
      have := hx1.ne'
      rw [div_eq_iff (by simpa using this)]
      ring
    have hb2 : (boundsY c.mx 0 0 0 x).2 = 1 := by
      simp only [boundsY]
      rw [hk, Real.sqrt_sq (mul_nonneg hx.1.le hx1.le), zero_div]
      have := hx1.ne'
      rw [div_eq_iff (by simpa using this)]
      ring
    rw [hb1, hb2]
    have hd : ∀ y ∈ uIcc (1 - x) 1, HasDerivAt (fun y : ℝ => (1 - x) ^ 2 * y
        - (1 - x) * (1 - y) ^ 2 / 2 - (1 - y) ^ 3 / 3 - (1 - x) * y + (1 - y) ^ 2 / 2)
        ((1 - x) ^ 2 + (1 - x) * (1 - y) + (1 - y) ^ 2 - (1 - x) - (1 - y)) y := by
      intro y _
      have h1 : HasDerivAt (fun y : ℝ => 1 - y) (-1) y := by
        simpa using (hasDerivAt_id y).const_sub 1
      have := (((((hasDerivAt_id y).const_mul ((1 - x) ^ 2)).sub
        (((h1.pow 2).const_mul (1 - x)).div_const 2)).sub ((h1.pow 3).div_const 3)).sub
        ((hasDerivAt_id y).const_mul (1 - x))).add ((h1.pow 2).div_const 2)
      exact this.congr_deriv (by norm_num; try ring)
    rw [intervalIntegral.integral_eq_sub_of_hasDerivAt hd
      (by apply Continuous.intervalIntegrable; fun_prop)]
    ring
  have hout : (∫ x in (0 : ℝ)..1, ∫ y in (boundsY c.mx 0 0 0 x).1..(boundsY c.mx 0 0 0 x).2,
        ((1 - x) ^ 2 + (1 - x) * (1 - y) + (1 - y) ^ 2 - (1 - x) - (1 - y))) = -1 / 8 := by
    have hcongr : (∫ x in (0 : ℝ)..1, ∫ y in (boundsY c.mx 0 0 0 x).1..(boundsY c.mx 0 0 0 x).2,
        ((1 - x) ^ 2 + (1 - x) * (1 - y) + (1 - y) ^ 2 - (1 - x) - (1 - y)))
        = ∫ x in (0 : ℝ)..1, (-x * (1 - x) + (1 - x) * x ^ 2 / 2 + x ^ 3 / 3 - x ^ 2 / 2
          + x * (1 - x) ^ 2) := by
      rw [intervalIntegral.integral_of_le zero_le_one, intervalIntegral.integral_of_le zero_le_one,
        integral_Ioc_eq_integral_Ioo, integral_Ioc_eq_integral_Ioo]
      exact setIntegral_congr_fun measurableSet_Ioo hinner
    rw [hcongr]
    have hd : ∀ x ∈ uIcc (0 : ℝ) 1, HasDerivAt (fun x : ℝ => -x ^ 3 / 3 + x ^ 4 * (5 / 24))
        (-x * (1 - x) + (1 - x) * x ^ 2 / 2 + x ^ 3 / 3 - x ^ 2 / 2 + x * (1 - x) ^ 2) x := by
      intro x _
      have := (((hasDerivAt_id x).pow 3).neg.div_const 3).add
        (((hasDerivAt_id x).pow 4).mul_const (5 / 24 : ℝ))
      exact this.congr_deriv (by norm_num; try ring)
    rw [intervalIntegral.integral_eq_sub_of_hasDerivAt hd
      (by apply Continuous.intervalIntegrable; fun_prop)]
    norm_num
  unfold phaseSpaceWidth integrateQuad create
  simp only [e, intervalIntegral.integral_const_mul]
  have hb : boundsX c.mx 0 0 0 = (0, 1) := by simp [boundsX]
  rw [hb]
  simp only
  rw [hout, ← hpre]
  field_simp
  ring

/-- **C135 fails for three neutrinos.** The matrix element is linear in the mixing where the width is
quadratic, and its normalisation is six times as large: the phase-space integral agrees with the width
for no mixing other than `0` and `6`. -/
theorem v_v_v_phase_space_differs (c : Core) (g : Gen) (hM : 0 < c.mx) :
    phaseSpaceWidth c.mx (0, 0, 0) (msqrdVVV c g) * c.u = 6 * widthVVV c g ∧
      (widthVVV c g = phaseSpaceWidth c.mx (0, 0, 0) (msqrdVVV c g) ↔ c.u = 0 ∨ c.u = 6) := by
  have hpi := Real.pi_pos
  have hgf : 0 < gf := by norm_num [gf]
  rw [v_v_v_phase_space_value c g hM]
  unfold widthVVV
  simp only
  obtain ⟨pre, hpre⟩ : ∃ pre : ℝ, pre = if g = c.gen then 2 else 1 := ⟨_, rfl⟩
  have hp0 : 0 < pre := by rw [hpre]; split_ifs <;> norm_num
  rw [← hpre]
  constructor
  · field_simp; ring
  · have e : pre * (gf ^ 2 * c.mx ^ 5 / (768 * Real.pi ^ 3) * c.u ^ 2)
        - pre * gf ^ 2 * c.mx ^ 5 / (128 * Real.pi ^ 3) * c.u
        = pre * gf ^ 2 * c.mx ^ 5 / (768 * Real.pi ^ 3) * (c.u * (c.u - 6)) := by
      field_simp; ring
    rw [← sub_eq_zero, e, mul_eq_zero, mul_eq_zero, sub_eq_zero]
    constructor
    · rintro (h | h)
      · exact absurd h (by positivity)
      · exact h
    · exact Or.inr

/-! ## C136: two-body widths and the tree-level contraction -/

/-- Minkowski product. -/
def mdot (p k : P4) : ℝ := p.e * k.e - p.x * k.x - p.y * k.y - p.z * k.z

/-- `q_μ q_ν (k^μ p^ν + k^ν p^μ - g^{μν} k·p)`: the spin-summed decay `N(p) → ℓ(k) P(q)` through the
current `f q^μ`. -/
def contrP (p k q : P4) : ℝ := 2 * mdot k q * mdot p q - mdot q q * mdot k p

/-- `m² (-g_{μν} + q_μ q_ν / m²) (k^μ p^ν + k^ν p^μ - g^{μν} k·p)`: the same for a vector meson. -/
def contrV (p k q : P4) : ℝ := 2 * mdot k q * mdot p q + mdot q q * mdot k p

/-- Momenta of a decay `N → ℓ h` with masses `M`, `ml`, `mh`. -/
structure TwoBodyDecay (M ml mh : ℝ) (p k q : P4) : Prop where
  parent : mdot p p = M ^ 2
  lepton : mdot k k = ml ^ 2
  hadron : mdot q q = mh ^ 2
  conserved : p = ⟨k.e + q.e, k.x + q.x, k.y + q.y, k.z + q.z⟩

theorem decay_dots {M ml mh : ℝ} {p k q : P4} (h : TwoBodyDecay M ml mh p k q) :
    mdot k p = (M ^ 2 + ml ^ 2 - mh ^ 2) / 2 ∧ mdot p q = (M ^ 2 + mh ^ 2 - ml ^ 2) / 2 ∧
      mdot k q = (M ^ 2 - ml ^ 2 - mh ^ 2) / 2 := by
  obtain ⟨hp, hk, hq, hc⟩ := h
  subst hc
  unfold mdot at *
  simp only at *
  refine ⟨?_, ?_, ?_⟩ <;> linarith

theorem contr_values {M ml mh : ℝ} {p k q : P4} (h : TwoBodyDecay M ml mh p k q) :
    contrP p k q = ((M ^ 2 - ml ^ 2) ^ 2 - mh ^ 2 * (M ^ 2 + ml ^ 2)) / 2 ∧
      contrV p k q = ((M ^ 2 - ml ^ 2) ^ 2 + mh ^ 2 * (M ^ 2 + ml ^ 2) - 2 * mh ^ 4) / 2 := by
  obtain ⟨e1, e2, e3⟩ := decay_dots h
  unfold contrP contrV
  rw [e1, e2, e3, h.hadron]
  constructor <;> ring

/-- **C136.** The widths into a neutrino and a neutral pseudoscalar, a charged lepton and a vector
meson, a neutrino and a vector meson are a constant times the tree-level contraction times the
two-body phase space. -/
theorem two_body_tree_level_partial (c : Core) (hM : 0 < c.mx) {ml mh : ℝ} (hml : 0 ≤ ml)
    (hmh : 0 < mh) (h : ml + mh ≤ c.mx) {p k q : P4} (hd : TwoBodyDecay c.mx ml mh p k q) (f : ℝ)
    (ckm : ℂ) :
    widthLHv c ml mh f ckm = c.u ^ 2 * gf ^ 2 * ‖ckm‖ ^ 2 * f ^ 2 / (8 * Real.pi * mh ^ 2 * c.mx)
        * contrV p k q * Real.sqrt (kallenLambda 1 ((mh / c.mx) ^ 2) ((ml / c.mx) ^ 2)) ∧
      (ml = 0 → widthVHp c mh f = c.u ^ 2 * gf ^ 2 * f ^ 2 / (32 * Real.pi * c.mx)
        * contrP p k q * Real.sqrt (kallenLambda 1 ((mh / c.mx) ^ 2) 0)) ∧
      (ml = 0 → ∀ kh, widthVHv c mh kh f = c.u ^ 2 * gf ^ 2 * (kh * f) ^ 2
        / (16 * Real.pi * mh ^ 2 * c.mx) * contrV p k q
        * Real.sqrt (kallenLambda 1 ((mh / c.mx) ^ 2) 0)) := by
  obtain ⟨vP, vV⟩ := contr_values hd
  have hsq : Real.sqrt (kallenLambda 1 ((mh / c.mx) ^ 2) 0) = 1 - (mh / c.mx) ^ 2 := by
    have : mh / c.mx ≤ 1 := by rw [div_le_one hM]; linarith
    have : 0 < mh / c.mx := by positivity
    rw [show kallenLambda 1 ((mh / c.mx) ^ 2) 0 = (1 - (mh / c.mx) ^ 2) ^ 2 by
      unfold kallenLambda; ring]
    exact Real.sqrt_sq (by nlinarith)
  refine ⟨?_, ?_, ?_⟩
  · rw [widthLHv, if_neg (by linarith), vV]
    simp only
    generalize Real.sqrt _ = r
    field_simp
    try ring
  · rintro rfl
    rw [widthVHp, if_neg (by linarith), vP, hsq]
    simp only
    field_simp
    ring
  · rintro rfl kh
    rw [widthVHv, if_neg (by linarith), vV, hsq]
    simp only
    field_simp
    ring

/-- **C136 fails for a charged pseudoscalar.** `_width_l_hp` carries the contraction of a vector meson.
It exceeds the tree-level width whenever the channel is open and the couplings do not vanish. -/
theorem charged_pseudoscalar_contraction (c : Core) (hM : 0 < c.mx) {ml mh : ℝ} (hml : 0 ≤ ml)
    (hmh : 0 < mh) (h : ml + mh ≤ c.mx) {p k q : P4} (hd : TwoBodyDecay c.mx ml mh p k q) (f : ℝ)
    (ckm : ℂ) :
    widthLHp c ml mh f ckm = c.u ^ 2 * gf ^ 2 * ‖ckm‖ ^ 2 * f ^ 2 / (16 * Real.pi * c.mx)
        * contrV p k q * Real.sqrt (kallenLambda 1 ((mh / c.mx) ^ 2) ((ml / c.mx) ^ 2)) ∧
      (0 < ml ∨ mh < c.mx → contrP p k q < contrV p k q) ∧
      (ml + mh < c.mx → c.u ≠ 0 → ckm ≠ 0 → f ≠ 0 →
        c.u ^ 2 * gf ^ 2 * ‖ckm‖ ^ 2 * f ^ 2 / (16 * Real.pi * c.mx)
        * contrP p k q * Real.sqrt (kallenLambda 1 ((mh / c.mx) ^ 2) ((ml / c.mx) ^ 2))
          < widthLHp c ml mh f ckm) := by
  obtain ⟨vP, vV⟩ := contr_values hd
  have e : widthLHp c ml mh f ckm = c.u ^ 2 * gf ^ 2 * ‖ckm‖ ^ 2 * f ^ 2 / (16 * Real.pi * c.mx)
        * contrV p k q * Real.sqrt (kallenLambda 1 ((mh / c.mx) ^ 2) ((ml / c.mx) ^ 2)) := by
    rw [widthLHp, if_neg (by linarith), vV]
    simp only
    generalize Real.sqrt _ = r
    field_simp
    try ring
  have hlt : 0 < ml ∨ mh < c.mx → contrP p k q < contrV p k q := by
    intro hor
    rw [vP, vV]
    have h1 : mh ^ 2 < c.mx ^ 2 + ml ^ 2 := by
      rcases hor with h0 | h0 <;> nlinarith
    have := mul_pos (pow_pos hmh 2) (sub_pos.mpr h1)
    nlinarith
  refine ⟨e, hlt, ?_⟩
  intro hlt' hu hc hf
  rw [e]
  have hk : 0 < kallenLambda 1 ((mh / c.mx) ^ 2) ((ml / c.mx) ^ 2) := by
    have a1 : ml / c.mx + mh / c.mx < 1 := by rw [← add_div, div_lt_one hM]; exact hlt'
    have a2 : 0 ≤ ml / c.mx := by positivity
    have a3 : 0 < mh / c.mx := by positivity
    generalize ml / c.mx = a at *
    generalize mh / c.mx = b at *
    rw [show kallenLambda 1 (b ^ 2) (a ^ 2) = ((1 - (a + b)) * (1 + (a + b)))
      * ((1 - (a - b)) * (1 + (a - b))) by unfold kallenLambda; ring]
    apply mul_pos <;> apply mul_pos <;> linarith
  have hgf : 0 < gf := by norm_num [gf]
  have hpi := Real.pi_pos
  have hn : 0 < ‖ckm‖ := norm_pos_iff.mpr hc
  apply mul_lt_mul_of_pos_right _ (Real.sqrt_pos.mpr hk)
  apply mul_lt_mul_of_pos_left (hlt (Or.inr (by linarith)))
  positivity

/-- **C136 fails, limit of a massless lepton.** Isospin relates the charged to the neutral channel by a
factor `2 |V|²`; the code has an additional `1 + 2 x²`. -/
theorem charged_pseudoscalar_massless (c : Core) (hM : 0 < c.mx) {mh : ℝ} (hmh : 0 < mh)
    (h : mh ≤ c.mx) (f : ℝ) (ckm : ℂ) :
    widthLHp c 0 mh f ckm = 2 * ‖ckm‖ ^ 2 * (1 + 2 * (mh / c.mx) ^ 2) * widthVHp c mh f := by
  rw [widthLHp, widthVHp, if_neg (by linarith), if_neg (by linarith)]
  simp only [zero_div]
  have hsq : Real.sqrt (kallenLambda 1 ((mh / c.mx) ^ 2) (0 ^ 2)) = 1 - (mh / c.mx) ^ 2 := by
    have : mh / c.mx ≤ 1 := by rw [div_le_one hM]; linarith
    have : 0 < mh / c.mx := by positivity
    rw [show kallenLambda 1 ((mh / c.mx) ^ 2) (0 ^ 2) = (1 - (mh / c.mx) ^ 2) ^ 2 by
      unfold kallenLambda; ring]
    exact Real.sqrt_sq (by nlinarith)
  rw [hsq]
  field_simp
  ring

/-- Momenta of a decay `10 → 3 + 3`. -/
example : TwoBodyDecay 10 3 3 ⟨10, 0, 0, 0⟩ ⟨5, 0, 0, 4⟩ ⟨5, 0, 0, -4⟩ := by
  constructor <;> norm_num [mdot]

example : contrP ⟨10, 0, 0, 0⟩ ⟨5, 0, 0, 4⟩ ⟨5, 0, 0, -4⟩ = 3650 ∧
    contrV ⟨10, 0, 0, 0⟩ ⟨5, 0, 0, 4⟩ ⟨5, 0, 0, -4⟩ = 4550 := by
  constructor <;> norm_num [contrP, contrV, mdot]

/-! ## C137: signs of the matrix elements -/

/-- Squared invariant mass of a pair. -/
def inv (a b : P4) : ℝ :=
  (a.e + b.e) ^ 2 - (a.x + b.x) ^ 2 - (a.y + b.y) ^ 2 - (a.z + b.z) ^ 2

theorem inv_facts {M m1 m2 m3 : ℝ} {p1 p2 p3 : P4} (hM : 0 < M)
    (h : Physical M [m1, m2, m3] [p1, p2, p3]) :
    (inv p2 p3 + inv p1 p3 + inv p1 p2 = M ^ 2 + m1 ^ 2 + m2 ^ 2 + m3 ^ 2 ∧ m1 + m2 + m3 ≤ M) ∧
      ((m2 + m3) ^ 2 ≤ inv p2 p3 ∧ inv p2 p3 ≤ M ^ 2 + m1 ^ 2 - 2 * M * m1) ∧
      ((m1 + m3) ^ 2 ≤ inv p1 p3 ∧ inv p1 p3 ≤ M ^ 2 + m2 ^ 2 - 2 * M * m2) ∧
      (m1 + m2) ^ 2 ≤ inv p1 p2 ∧ inv p1 p2 ≤ M ^ 2 + m3 ^ 2 - 2 * M * m3 := by
  obtain ⟨lo1, hi1, l1, g1, k1⟩ := energy_limits_contain hM h (i := 0) (by simp)
  obtain ⟨lo2, hi2, l2, g2, k2⟩ := energy_limits_contain hM h (i := 1) (by simp)
  obtain ⟨lo3, hi3, l3, g3, k3⟩ := energy_limits_contain hM h (i := 2) (by simp)
  simp only [energyLimits, List.map_cons, List.map_nil, List.getElem?_cons_zero,
    List.getElem?_cons_succ, Option.some.injEq, Prod.mk.injEq, List.sum_cons, List.sum_nil] at l1 l2 l3
  obtain ⟨a1, b1⟩ := l1
  obtain ⟨a2, b2⟩ := l2
  obtain ⟨a3, b3⟩ := l3
  simp only [List.getD_cons_zero, List.getD_cons_succ] at g1 k1 g2 k2 g3 k3
  rw [← b1, le_div_iff₀ (by positivity)] at k1
  rw [← b2, le_div_iff₀ (by positivity)] at k2
  rw [← b3, le_div_iff₀ (by positivity)] at k3
  rw [← a1] at g1
  rw [← a2] at g2
  rw [← a3] at g3
  obtain ⟨hn, hs, ht⟩ := h
  simp only [List.forall₂_cons, List.Forall₂.nil, and_true] at hs
  obtain ⟨⟨s1, -⟩, ⟨s2, -⟩, s3, -⟩ := hs
  have ht' := P4.ext_iff.mp ht
  simp only [total, List.map_cons, List.map_nil, List.sum_cons, List.sum_nil, add_zero] at ht'
  obtain ⟨te, tx, ty, tz⟩ := ht'
  have i23 : inv p2 p3 = M ^ 2 + m1 ^ 2 - 2 * M * p1.e := by
    unfold inv
    rw [show p2.e + p3.e = M - p1.e by linarith, show p2.x + p3.x = -p1.x by linarith,
      show p2.y + p3.y = -p1.y by linarith, show p2.z + p3.z = -p1.z by linarith]
    linear_combination s1
  have i13 : inv p1 p3 = M ^ 2 + m2 ^ 2 - 2 * M * p2.e := by
    unfold inv
    rw [show p1.e + p3.e = M - p2.e by linarith, show p1.x + p3.x = -p2.x by linarith,
      show p1.y + p3.y = -p2.y by linarith, show p1.z + p3.z = -p2.z by linarith]
    linear_combination s2
  have i12 : inv p1 p2 = M ^ 2 + m3 ^ 2 - 2 * M * p3.e := by
    unfold inv
    rw [show p1.e + p2.e = M - p3.e by linarith, show p1.x + p2.x = -p3.x by linarith,
      show p1.y + p2.y = -p3.y by linarith, show p1.z + p2.z = -p3.z by linarith]
    linear_combination s3
  rw [i23, i13, i12]
  have m1' := mul_le_mul_of_nonneg_left g1 hM.le
  have m2' := mul_le_mul_of_nonneg_left g2 hM.le
  have m3' := mul_le_mul_of_nonneg_left g3 hM.le
  refine ⟨⟨?_, ?_⟩, ⟨?_, ?_⟩, ⟨?_, ?_⟩, ?_, ?_⟩
  · linear_combination (-2 * M) * te
  all_goals linarith

/-- **C137, two pions.** -/
theorem msqrd_v_pi_pi_nonneg (env : Env) (c : Core) (hM : 0 < c.mx) {p1 p2 p3 : P4}
    (h : Physical c.mx [0, mPi, mPi] [p1, p2, p3]) :
    0 ≤ msqrdVPiPi env c (inv p2 p3) (inv p1 p3) := by
  obtain ⟨-, ⟨h1, h2⟩, -, -⟩ := inv_facts hM h
  unfold msqrdVPiPi
  generalize inv p2 p3 = s at *
  generalize inv p1 p3 = t at *
  have : c.mx ^ 4 + 4 * mPi ^ 4 + 4 * t * (-2 * mPi ^ 2 + s + t) - c.mx ^ 2 * (s + 4 * t)
      = (2 * t - (c.mx ^ 2 + 2 * mPi ^ 2 - s)) ^ 2 + (c.mx ^ 2 - s) * (s - 4 * mPi ^ 2) := by ring
  rw [this]
  have : 0 ≤ (c.mx ^ 2 - s) * (s - 4 * mPi ^ 2) := mul_nonneg (by linarith) (by linarith)
  positivity

/-- **C137, charged lepton and two pions.** The pion masses of the final state differ while the matrix
element has one mass; the form factor vanishes below the threshold of two charged pions. -/
theorem msqrd_l_pi0_pi_nonneg (env : Env) (c : Core) (hM : 0 < c.mx)
    (hff : ∀ q, q ≤ 2 * mPi → env.ff q = 0) {p1 p2 p3 : P4} {m2 m3 : ℝ}
    (h : Physical c.mx [lepMass c.gen, m2, m3] [p1, p2, p3]) :
    0 ≤ msqrdLPi0Pi env c (inv p2 p3) (inv p1 p3) := by
  obtain ⟨-, ⟨-, h2⟩, -, -⟩ := inv_facts hM h
  have hl := lepMass_pos c.gen
  unfold msqrdLPi0Pi
  simp only
  generalize inv p2 p3 = s at *
  generalize inv p1 p3 = t at *
  generalize lepMass c.gen = ml at *
  by_cases hs : Real.sqrt s ≤ 2 * mPi
  · rw [hff _ hs]; simp
  · have hp : 0 < mPi := by norm_num [mPi]
    have hs' : (2 * mPi) ^ 2 < s := (Real.lt_sqrt (by positivity)).mp (not_le.mp hs)
    have : 4 * mPi ^ 4 + (ml ^ 2 + c.mx ^ 2) * (ml ^ 2 + c.mx ^ 2 - s)
        - 4 * (ml ^ 2 + c.mx ^ 2 + 2 * mPi ^ 2 - s) * t + 4 * t ^ 2
        = (2 * t - (ml ^ 2 + c.mx ^ 2 + 2 * mPi ^ 2 - s)) ^ 2
          + (ml ^ 2 + c.mx ^ 2 - s) * (s - 4 * mPi ^ 2) := by ring
    rw [this]
    have : 0 ≤ (ml ^ 2 + c.mx ^ 2 - s) * (s - 4 * mPi ^ 2) :=
      mul_nonneg (by nlinarith) (by nlinarith)
    positivity

/-- **C137, neutrino and a lepton pair.** -/
theorem msqrd_v_l_l_nonneg (c : Core) (g : Gen) (hM : 0 < c.mx) {p1 p2 p3 : P4}
    (h : Physical c.mx [0, lepMass g, lepMass g] [p1, p2, p3]) :
    0 ≤ (msqrdVLL c c.gen g g).1 (inv p2 p3) (inv p1 p3) := by
  obtain ⟨⟨h0, -⟩, ⟨h1, h2⟩, ⟨h3, -⟩, h4, -⟩ := inv_facts hM h
  have hm := lepMass_pos g
  obtain ⟨sg, hsg, hmsq⟩ : ∃ sg : ℝ, (sg = 1 ∨ sg = -1) ∧
      (msqrdVLL c c.gen g g).1 = msqrdVFF sg c (lepMass g) := by
    unfold msqrdVLL
    by_cases e : c.gen = g
    · exact ⟨1, Or.inl rfl, by simp [e]⟩
    · exact ⟨-1, Or.inr rfl, by simp [e]⟩
  rw [hmsq]
  generalize inv p2 p3 = s at *
  generalize inv p1 p3 = t at *
  generalize inv p1 p2 = w at *
  generalize lepMass g = m at *
  obtain ⟨k, hk⟩ : ∃ k, k = 1 + sg * 4 * sw2 + 8 * sw2 ^ 2 := ⟨_, rfl⟩
  have hk5 : (1 : ℝ) / 2 ≤ k := by rw [hk]; rcases hsg with rfl | rfl <;> norm_num [sw2]
  unfold msqrdVFF
  simp only
  rw [← hk]
  have hb : w = c.mx ^ 2 + 2 * m ^ 2 - s - t := by linarith
  have ha0 : 0 ≤ t - m ^ 2 := by nlinarith
  have hb0 : 0 ≤ c.mx ^ 2 - s - t + m ^ 2 := by nlinarith
  have hs : 4 * m ^ 2 ≤ s := by nlinarith
  have hd : 0 ≤ c.mx ^ 2 - s := by linarith
  have hks : 0 ≤ k * (s + 2 * m ^ 2) - 2 * m ^ 2 := by nlinarith
  have e : (-2 : ℝ) * c.u ^ 2 * gf ^ 2
      * (2 * m ^ 4 * k + 2 * m ^ 2 * (c.mx ^ 2 - s - 2 * k * t)
        + k * (s ^ 2 + 2 * s * t + 2 * t ^ 2 - c.mx ^ 2 * (s + 2 * t)))
      = 2 * c.u ^ 2 * gf ^ 2 * (2 * k * ((t - m ^ 2) * (c.mx ^ 2 - s - t + m ^ 2))
        + (k * (s + 2 * m ^ 2) - 2 * m ^ 2) * (c.mx ^ 2 - s)) := by ring
  rw [e]
  have := mul_nonneg ha0 hb0
  have := mul_nonneg hks hd
  positivity

/-- The product of contractions in terms of the remaining invariant mass. -/
theorem lud_physical (c : Core) (hM : 0 < c.mx) {mu md ml m1 m2 m3 : ℝ} {p1 p2 p3 : P4}
    (h : Physical c.mx [m1, m2, m3] [p1, p2, p3])
    (hsum : m1 ^ 2 + m2 ^ 2 + m3 ^ 2 = mu ^ 2 + md ^ 2 + ml ^ 2) :
    msqrdLUD c mu md ml (inv p2 p3) (inv p1 p3)
      = 16 * gf ^ 2 * c.u ^ 2 * (inv p1 p2 - mu ^ 2 - md ^ 2) * (c.mx ^ 2 + ml ^ 2 - inv p1 p2) := by
  obtain ⟨⟨h0, -⟩, -⟩ := inv_facts hM h
  have e : inv p1 p3 = c.mx ^ 2 + mu ^ 2 + md ^ 2 + ml ^ 2 - inv p2 p3 - inv p1 p2 := by linarith
  unfold msqrdLUD
  rw [e]
  ring

/-- **C137, different flavours**, neutrino of the flavour of the first lepton. -/
theorem msqrd_flavour_nonneg (c : Core) (g : Gen) (hg : g ≠ c.gen) (hM : 0 < c.mx) {p1 p2 p3 : P4}
    (h : Physical c.mx [0, lepMass g, lepMass c.gen] [p1, p2, p3]) :
    0 ≤ (msqrdVLL c g g c.gen).1 (inv p2 p3) (inv p1 p3) := by
  obtain ⟨-, -, -, h4, h5⟩ := inv_facts hM h
  have e1 : c.gen ≠ g := fun h => hg h.symm
  have em : (msqrdVLL c g g c.gen).1 = msqrdLUD c 0 (lepMass g) (lepMass c.gen) := by
    simp [msqrdVLL, e1]
  have hg0 := lepMass_pos g
  have hl0 := lepMass_pos c.gen
  rw [em, lud_physical c hM h rfl]
  have a1 : 0 ≤ inv p1 p2 - 0 ^ 2 - lepMass g ^ 2 := by nlinarith
  have a2 : 0 ≤ c.mx ^ 2 + lepMass c.gen ^ 2 - inv p1 p2 := by nlinarith
  positivity

/-- **C137 fails, different flavours**, neutrino of the flavour of the second lepton: the matrix
element is written for the two charged leptons in the other order, and is negative exactly where the
neutrino and the first charged lepton have an invariant mass below the mass of the second. -/
theorem msqrd_flavour_negative_iff (c : Core) (g : Gen) (hg : g ≠ c.gen) (hu : c.u ≠ 0) (hM : 0 < c.mx)
    {p1 p2 p3 : P4} (h : Physical c.mx [0, lepMass c.gen, lepMass g] [p1, p2, p3]) :
    (msqrdVLL c g c.gen g).1 (inv p2 p3) (inv p1 p3) < 0 ↔ inv p1 p2 < lepMass g ^ 2 := by
  obtain ⟨⟨-, hle⟩, -, -, h4, h5⟩ := inv_facts hM h
  have e1 : c.gen ≠ g := fun h => hg h.symm
  have em : (msqrdVLL c g c.gen g).1 = msqrdLUD c 0 (lepMass g) (lepMass c.gen) := by
    simp [msqrdVLL, e1]
  have hg0 := lepMass_pos g
  have hl0 := lepMass_pos c.gen
  have hgf : 0 < gf := by norm_num [gf]
  rw [em, lud_physical c hM h (by ring)]
  have a2 : 0 < c.mx ^ 2 + lepMass c.gen ^ 2 - inv p1 p2 := by
    have : lepMass g ≤ c.mx := by linarith
    nlinarith
  have hp : 0 < 16 * gf ^ 2 * c.u ^ 2 * (c.mx ^ 2 + lepMass c.gen ^ 2 - inv p1 p2) := by positivity
  rw [show 16 * gf ^ 2 * c.u ^ 2 * (inv p1 p2 - 0 ^ 2 - lepMass g ^ 2)
      * (c.mx ^ 2 + lepMass c.gen ^ 2 - inv p1 p2)
      = (16 * gf ^ 2 * c.u ^ 2 * (c.mx ^ 2 + lepMass c.gen ^ 2 - inv p1 p2))
        * (inv p1 p2 - lepMass g ^ 2) by ring]
  rw [← neg_pos, ← mul_neg, mul_pos_iff_of_pos_left hp]
  constructor <;> intro h <;> linarith

/-- **C137 fails, witness.** The decay of a neutrino of flavour `e` into `vm e mu` (any mass above
threshold) has physical momenta with a negative matrix element. -/
theorem msqrd_flavour_negative (c : Core) (g : Gen) (hlt : lepMass c.gen < lepMass g) (hu : c.u ≠ 0)
    (hopen : lepMass c.gen + lepMass g ≤ c.mx) :
    ∃ p1 p2 p3 : P4, Physical c.mx [0, lepMass c.gen, lepMass g] [p1, p2, p3] ∧
      (msqrdVLL c g c.gen g).1 (inv p2 p3) (inv p1 p3) < 0 := by
  have hg0 := lepMass_pos g
  have hl0 := lepMass_pos c.gen
  have hM : 0 < c.mx := by linarith
  have hg : g ≠ c.gen := by rintro rfl; exact lt_irrefl _ hlt
  obtain ⟨ps, hph, -⟩ := energy_limit_attained (ms := [lepMass g]) hl0.le
    (by simp [hg0.le]) (by simp) (by simpa using hopen) hM
  obtain ⟨hn, hs, ht⟩ := hph
  match ps, hs, ht with
  | [a, b], hs, ht =>
    have hph' : Physical c.mx [0, lepMass c.gen, lepMass g] [⟨0, 0, 0, 0⟩, a, b] := by
      refine ⟨?_, List.Forall₂.cons ⟨by simp, le_rfl⟩ hs, ?_⟩
      · intro m hm
        rcases List.mem_cons.mp hm with rfl | hm
        · exact le_rfl
        · exact hn m hm
      · rw [← ht]; simp [total]
    refine ⟨_, a, b, hph', ?_⟩
    rw [msqrd_flavour_negative_iff c g hg hu hM hph']
    simp only [List.forall₂_cons, List.Forall₂.nil, and_true] at hs
    obtain ⟨⟨s1, -⟩, -⟩ := hs
    unfold inv
    simp only [zero_add]
    rw [show a.e ^ 2 - a.x ^ 2 - a.y ^ 2 - a.z ^ 2 = lepMass c.gen ^ 2 by linarith]
    nlinarith

/-- **C137, three neutrinos.** The matrix element has the sign of the mixing, so it is nonnegative only
for mixing angles with a nonnegative tangent of `2θ`. -/
theorem msqrd_v_v_v_sign (c : Core) (g : Gen) (hM : 0 < c.mx) {p1 p2 p3 : P4}
    (h : Physical c.mx [0, 0, 0] [p1, p2, p3]) :
    (0 ≤ c.u → 0 ≤ msqrdVVV c g (inv p2 p3) (inv p1 p3)) ∧
      (c.u ≤ 0 → msqrdVVV c g (inv p2 p3) (inv p1 p3) ≤ 0) := by
  obtain ⟨⟨h0, -⟩, ⟨h1, -⟩, ⟨h3, -⟩, h4, -⟩ := inv_facts hM h
  unfold msqrdVVV
  simp only
  obtain ⟨pre, hpre⟩ : ∃ pre : ℝ, pre = if g = c.gen then 2 else 1 := ⟨_, rfl⟩
  have hp0 : 0 < pre := by rw [hpre]; split_ifs <;> norm_num
  rw [← hpre]
  generalize inv p2 p3 = s at *
  generalize inv p1 p3 = t at *
  generalize inv p1 p2 = w at *
  have hw : c.mx ^ 2 = s + t + w := by linarith
  have e : -pre * 16 * gf ^ 2 * (s ^ 2 + s * t + t ^ 2 - c.mx ^ 2 * (s + t)) * c.u
      = 16 * pre * gf ^ 2 * (s * t + w * (s + t)) * c.u := by rw [hw]; ring
  rw [e]
  have s0 : 0 ≤ s := by linarith
  have t0 : 0 ≤ t := by linarith
  have w0 : 0 ≤ w := by linarith
  constructor
  · intro hu; positivity
  · intro hu
    exact mul_nonpos_of_nonneg_of_nonpos (by positivity) hu

/-- **C137 fails, witness.** Three neutrinos with equal energies: the matrix element is strictly
negative for every negative mixing. -/
theorem msqrd_v_v_v_negative (c : Core) (g : Gen) (hM : 0 < c.mx) (hu : c.u < 0) :
    ∃ p1 p2 p3 : P4, Physical c.mx [0, 0, 0] [p1, p2, p3] ∧
      msqrdVVV c g (inv p2 p3) (inv p1 p3) < 0 := by
  have h3 : Real.sqrt 3 ^ 2 = 3 := Real.sq_sqrt (by norm_num)
  have hgf : 0 < gf := by norm_num [gf]
  refine ⟨⟨c.mx / 3, c.mx / 3, 0, 0⟩, ⟨c.mx / 3, -c.mx / 6, c.mx / 6 * Real.sqrt 3, 0⟩,
    ⟨c.mx / 3, -c.mx / 6, -(c.mx / 6 * Real.sqrt 3), 0⟩, ⟨by simp, ?_, ?_⟩, ?_⟩
  · refine List.Forall₂.cons ⟨?_, ?_⟩ (List.Forall₂.cons ⟨?_, ?_⟩ (List.Forall₂.cons ⟨?_, ?_⟩
      List.Forall₂.nil)) <;> simp only
    · ring
    · positivity
    · linear_combination (-(c.mx / 6) ^ 2) * h3
    · positivity
    · linear_combination (-(c.mx / 6) ^ 2) * h3
    · positivity
  · simp only [total, List.map_cons, List.map_nil, List.sum_cons, List.sum_nil, add_zero]
    ext <;> simp only <;> ring
  · unfold msqrdVVV inv
    simp only
    obtain ⟨pre, hpre⟩ : ∃ pre : ℝ, pre = if g = c.gen then 2 else 1 := ⟨_, rfl⟩
    have hp0 : 0 < pre := by rw [hpre]; split_ifs <;> norm_num
    rw [← hpre]
    have e1 : (c.mx / 3 + c.mx / 3) ^ 2 - (-c.mx / 6 + -c.mx / 6) ^ 2
        - (c.mx / 6 * Real.sqrt 3 + -(c.mx / 6 * Real.sqrt 3)) ^ 2 - (0 + 0) ^ 2
        = c.mx ^ 2 / 3 := by ring
    have e2 : (c.mx / 3 + c.mx / 3) ^ 2 - (c.mx / 3 + -c.mx / 6) ^ 2
        - (0 + -(c.mx / 6 * Real.sqrt 3)) ^ 2 - (0 + 0) ^ 2 = c.mx ^ 2 / 3 := by
      linear_combination (-(c.mx / 6) ^ 2) * h3
    rw [e1, e2]
    have : -pre * 16 * gf ^ 2 * ((c.mx ^ 2 / 3) ^ 2 + c.mx ^ 2 / 3 * (c.mx ^ 2 / 3)
        + (c.mx ^ 2 / 3) ^ 2 - c.mx ^ 2 * (c.mx ^ 2 / 3 + c.mx ^ 2 / 3)) * c.u
        = pre * 16 * gf ^ 2 * c.mx ^ 4 / 3 * c.u := by ring
    rw [this]
    exact mul_neg_of_pos_of_neg (by positivity) hu

/-! ### Non-vacuity -/

/-- A mass at which `vm e mu` is open for flavour `e`. -/
example : lepMass .fst < lepMass .snd ∧ lepMass .fst + lepMass .snd ≤ (200 : ℝ) := by
  constructor <;> norm_num [lepMass]

/-- Momenta of `N → ν ℓ ℓ` for masses `0, 3, 3`. -/
example : Physical 12 [0, 3, 3] [⟨2, 0, 0, 2⟩, ⟨5, Real.sqrt 15, 0, -1⟩,
    ⟨5, -Real.sqrt 15, 0, -1⟩] := by
  have h : Real.sqrt 15 ^ 2 = 15 := Real.sq_sqrt (by norm_num)
  refine ⟨by simp, ?_, ?_⟩
  · refine List.Forall₂.cons ⟨by norm_num, by norm_num⟩ (List.Forall₂.cons ⟨?_, by norm_num⟩
      (List.Forall₂.cons ⟨?_, by norm_num⟩ List.Forall₂.nil)) <;> simp only <;> nlinarith
  · simp only [total, List.map_cons, List.map_nil, List.sum_cons, List.sum_nil, add_zero]
    ext <;> norm_num

end Hazma.RhNeutrino
