import Verif.Model.GevXs
import Verif.Props.CrossSections
import Mathlib.LinearAlgebra.CrossProduct
import Mathlib.Tactic

/-!
# Cross sections of the GeV vector mediator

Factorisation into width and a channel-independent factor, thresholds, the
annihilation into two mediators, and the contractions of the two-meson currents.
-/

namespace Hazma.GevXs

open Hazma.GevCache (widthFF)
open Hazma.ThreeBody (twoBodyPrefactor)
open Hazma.Kinematics (kallenLambda)
open Hazma.Rambo (P4)

/-! ### Factorisation -/

/-- The s-channel factor: everything in the cross section that does not depend on
the final state (documented in the docstring of `__width_to_cs`). -/
noncomputable def sFactor (mx mv gvxx wv q : ℝ) : ℝ :=
  gvxx ^ 2 * (2 * mx ^ 2 + q ^ 2) /
    (√(1 - 4 * mx ^ 2 / q ^ 2) * q * ((mv ^ 2 - q ^ 2) ^ 2 + mv ^ 2 * wv ^ 2))

private lemma sqrt_scale {m q : ℝ} (hq : 0 < q) :
    √(q ^ 2 - 4 * m ^ 2) = q * √(1 - 4 * m ^ 2 / q ^ 2) := by
  have : q ^ 2 - 4 * m ^ 2 = q ^ 2 * (1 - 4 * m ^ 2 / q ^ 2) := by field_simp
  rw [this, Real.sqrt_mul (by positivity), Real.sqrt_sq hq.le]

private lemma beta_pos {m q : ℝ} (hm : 0 ≤ m) (h : 2 * m < q) : 0 < 1 - 4 * m ^ 2 / q ^ 2 := by
  have hq : 0 < q := by linarith
  rw [sub_pos, div_lt_one (by positivity)]
  nlinarith

private lemma beta_nonpos {m q : ℝ} (hq : 0 < q) (h : q ≤ 2 * m) : 1 - 4 * m ^ 2 / q ^ 2 ≤ 0 := by
  rw [sub_nonpos, le_div_iff₀ (by positivity)]
  nlinarith

/-- Lepton pairs: the cross section is the width of a mediator of mass `q` times
the s-channel factor, at every energy above the dark matter threshold and for every
fermion mass (open or not). -/
theorem fermion_cross_section_factorises (mx mv gvxx wv g mf q : ℝ) (hmx : 0 ≤ mx) (hmf : 0 ≤ mf)
    (hq : 2 * mx < q) :
    sigmaFF mx mv gvxx wv g mf q = widthFF q mf g * sFactor mx mv gvxx wv q := by
  have hq0 : 0 < q := by linarith
  unfold sigmaFF widthFF sFactor
  by_cases h : q > 2 * mf
  · rw [if_pos ⟨hq, h⟩]
    have hb := beta_pos hmf h
    have e : max (-4 * mf ^ 2 + q ^ 2) 0 = q ^ 2 - 4 * mf ^ 2 := by
      rw [max_eq_left (by nlinarith)]; ring
    rw [e, sqrt_scale hq0]
    have hs : √(1 - 4 * mx ^ 2 / q ^ 2) ≠ 0 := (Real.sqrt_pos.2 (beta_pos hmx hq)).ne'
    simp only
    have hp : mv ^ 4 + (q ^ 2) ^ 2 + mv ^ 2 * (-2 * q ^ 2 + wv ^ 2) =
        (mv ^ 2 - q ^ 2) ^ 2 + mv ^ 2 * wv ^ 2 := by ring
    rw [hp]
    by_cases hz : (mv ^ 2 - q ^ 2) ^ 2 + mv ^ 2 * wv ^ 2 = 0
    · rw [hz]; simp
    · have := Real.pi_ne_zero
      field_simp
  · rw [if_neg (by tauto)]
    have e : max (-4 * mf ^ 2 + q ^ 2) 0 = 0 := max_eq_right (by nlinarith)
    rw [e]; simp

/-- Hadronic channels: the same factor, above the dark matter threshold. -/
theorem hadron_cross_section_factorises (masses : List ℝ) (J : ℝ → ℝ) (mx mv gvxx wv q : ℝ)
    (hmx : 0 ≤ mx) (hq : 2 * mx < q) (hp : (mv ^ 2 - q ^ 2) ^ 2 + mv ^ 2 * wv ^ 2 ≠ 0) :
    hadXs masses J mx mv gvxx wv q = .num (hadWidth masses J q * sFactor mx mv gvxx wv q) := by
  have hq0 : 0 < q := by linarith
  unfold hadXs hadWidth sFactor
  by_cases h : masses.sum < q
  · rw [if_pos h, if_pos h]
    have h1 : ¬ q ^ 2 - 4 * mx ^ 2 < 0 := by nlinarith
    have hs : √(1 - 4 * mx ^ 2 / q ^ 2) ≠ 0 := (Real.sqrt_pos.2 (beta_pos hmx hq)).ne'
    simp only [h1, if_false]
    have hpe : (q ^ 2 - mv ^ 2) ^ 2 + (mv * wv) ^ 2 = (mv ^ 2 - q ^ 2) ^ 2 + mv ^ 2 * wv ^ 2 := by ring
    rw [sqrt_scale hq0, hpe]
    have hd : q * √(1 - 4 * mx ^ 2 / q ^ 2) * ((mv ^ 2 - q ^ 2) ^ 2 + mv ^ 2 * wv ^ 2) ≠ 0 :=
      mul_ne_zero (mul_ne_zero hq0.ne' hs) hp
    simp only [npDiv, hd, if_false, npMul]
    congr 1
    field_simp
    ring
  · rw [if_neg h, if_neg h]; simp

private lemma widthToCs_eq (mx mv gvxx wv q : ℝ) (hq : q ≠ 0) :
    widthToCs mx mv gvxx wv q = sFactor mx mv gvxx wv q := by
  unfold widthToCs sFactor
  simp only [div_pow]
  have e1 : 1 - 4 * (mx ^ 2 / q ^ 2) = 1 - 4 * mx ^ 2 / q ^ 2 := by ring
  rw [e1]
  have e2 : (1 + (wv ^ 2 / q ^ 2 - 2) * (mv ^ 2 / q ^ 2) + (mv ^ 2) ^ 2 / (q ^ 2) ^ 2) =
      ((mv ^ 2 - q ^ 2) ^ 2 + mv ^ 2 * wv ^ 2) / q ^ 4 := by field_simp; ring
  rw [e2]
  have e3 : gvxx ^ 2 * (1 + 2 * (mx ^ 2 / q ^ 2)) = gvxx ^ 2 * (2 * mx ^ 2 + q ^ 2) / q ^ 2 := by
    field_simp; ring
  rw [e3]
  by_cases hz : (mv ^ 2 - q ^ 2) ^ 2 + mv ^ 2 * wv ^ 2 = 0
  · rw [hz]; simp
  by_cases hs : √(1 - 4 * mx ^ 2 / q ^ 2) = 0
  · rw [hs]; simp
  field_simp

/-- Two neutral pions and a photon: the omega branching ratio times the width into
a pion and an omega, times the same factor. -/
theorem pi0_pi0_gamma_factorises (mpi0 momega : ℝ) (J : ℝ → ℝ) (mx mv gvxx wv q : ℝ)
    (hmx : 0 ≤ mx) (hm : mpi0 ≤ momega) (hq : 2 * mx < q) :
    sigmaPi0Pi0Gamma mpi0 momega J mx mv gvxx wv q =
      8.34e-2 * hadWidth [mpi0, momega] J q * sFactor mx mv gvxx wv q := by
  have hq0 : 0 < q := by linarith
  unfold sigmaPi0Pi0Gamma sigmaFromWidth
  by_cases h : q > [mpi0, mpi0, 0].sum
  · rw [if_pos ⟨h, hq⟩, widthToCs_eq _ _ _ _ _ hq0.ne']
  · rw [if_neg (by tauto)]
    have : ¬ [mpi0, momega].sum < q := by
      simp only [List.sum_cons, List.sum_nil] at h ⊢
      push Not at h ⊢
      linarith
    rw [hadWidth, if_neg this]; simp

/-- The consequence users rely on: cross sections of two channels are in the ratio
of the widths of a mediator with mass equal to the energy, so the factor cancels in
branching fractions. -/
theorem ratio_of_cross_sections (m1 m2 : List ℝ) (J1 J2 : ℝ → ℝ) (mx mv gvxx wv q : ℝ)
    (hmx : 0 ≤ mx) (hq : 2 * mx < q) (hp : (mv ^ 2 - q ^ 2) ^ 2 + mv ^ 2 * wv ^ 2 ≠ 0) :
    npMul (hadXs m1 J1 mx mv gvxx wv q) (hadWidth m2 J2 q) =
      npMul (hadXs m2 J2 mx mv gvxx wv q) (hadWidth m1 J1 q) := by
  rw [hadron_cross_section_factorises m1 J1 mx mv gvxx wv q hmx hq hp,
    hadron_cross_section_factorises m2 J2 mx mv gvxx wv q hmx hq hp]
  simp only [npMul]
  congr 1
  ring

/-! ### Thresholds -/

/-- Below (and at) the dark matter threshold the lepton channels, the
pion-pion-photon channel and the two-mediator channel vanish. -/
theorem below_threshold_partial (mx mv gvxx wv g mf mpi0 momega : ℝ) (J : ℝ → ℝ) (q : ℝ)
    (hq : q ≤ 2 * mx) :
    sigmaFF mx mv gvxx wv g mf q = 0 ∧ sigmaPi0Pi0Gamma mpi0 momega J mx mv gvxx wv q = 0 ∧
      sigmaVV mx mv gvxx (.float q) = 0 := by
  refine ⟨?_, ?_, ?_⟩
  · unfold sigmaFF; rw [if_neg]; rintro ⟨h, -⟩; linarith
  · unfold sigmaPi0Pi0Gamma sigmaFromWidth; rw [if_neg]; rintro ⟨-, h⟩; linarith
  · show (if 2 * mv < q ∧ 2 * mx < q then vvValue mx mv gvxx q else 0) = 0
    rw [if_neg]; rintro ⟨-, h⟩; linarith

/-- **Violation.** The hadronic channels do not look at the dark matter threshold:
with the final state open they give NaN below it, and at it an infinity (or NaN where
the form factor vanishes). -/
theorem hadron_below_threshold (masses : List ℝ) (J : ℝ → ℝ) (mx mv gvxx wv q : ℝ) (hmx : 0 ≤ mx)
    (hpos : 0 < q) (hopen : masses.sum < q) :
    (q < 2 * mx → hadXs masses J mx mv gvxx wv q = .nan) ∧
    (q = 2 * mx → gvxx ≠ 0 → 0 < J q → hadXs masses J mx mv gvxx wv q = .pinf) ∧
    (q = 2 * mx → gvxx ≠ 0 → J q = 0 → hadXs masses J mx mv gvxx wv q = .nan) := by
  have at2 : q = 2 * mx → gvxx ≠ 0 → hadXs masses J mx mv gvxx wv q = npMul .pinf (J q) := by
    intro h hg
    unfold hadXs
    have e : q ^ 2 - 4 * mx ^ 2 = 0 := by rw [h]; ring
    have hn : (0 : ℝ) < gvxx ^ 2 * (q ^ 2 + 2 * mx ^ 2) := by positivity
    rw [if_pos hopen]
    simp only [e, lt_irrefl, if_false, Real.sqrt_zero, zero_mul, npDiv, if_true, hn.ne', hn]
    have h2 : (1 : ℝ) / 2 * q ≠ 0 := by positivity
    have h3 : (0 : ℝ) < 1 / 2 * q := by positivity
    simp only [npMul, h2, h3, if_false, if_true]
  refine ⟨fun h => ?_, fun h hg hJ => ?_, fun h hg hJ => ?_⟩
  · unfold hadXs
    have : q ^ 2 - 4 * mx ^ 2 < 0 := by nlinarith
    rw [if_pos hopen]
    simp only [this, if_true]
  · rw [at2 h hg]; simp [npMul, hJ, hJ.ne']
  · rw [at2 h hg]; simp [npMul, hJ]

/-- A closed final state gives zero whatever the dark matter mass. -/
theorem closed_final_state (masses : List ℝ) (J : ℝ → ℝ) (mx mv gvxx wv q : ℝ)
    (h : q ≤ masses.sum) : hadXs masses J mx mv gvxx wv q = .num 0 ∧ hadWidth masses J q = 0 := by
  constructor
  · unfold hadXs; rw [if_neg (not_lt.2 h)]
  · unfold hadWidth; rw [if_neg (not_lt.2 h)]

/-! ### Two-meson currents -/

/-- Minkowski product. -/
def mdot (a b : P4) : ℝ := a.e * b.e - a.x * b.x - a.y * b.y - a.z * b.z

/-- Two pseudoscalars with momenta `p₁`, `p₂`: contraction of the current
`J = p₁ - p₂` with the polarisation sum of the mediator, `-g + QQ/s`, divided by
`3 s`.  The code's structure equals it for equal masses, and differs by a term in the
mass difference otherwise. -/
theorem two_pseudoscalar_contraction (p1 p2 : P4) (m1 m2 q : ℝ)
    (h1 : mdot p1 p1 = m1 ^ 2) (h2 : mdot p2 p2 = m2 ^ 2)
    (hq : mdot p1 p1 + 2 * mdot p1 p2 + mdot p2 p2 = q ^ 2) (hq0 : q ≠ 0) :
    let JJ := mdot p1 p1 - 2 * mdot p1 p2 + mdot p2 p2
    let JQ := mdot p1 p1 - mdot p2 p2
    (-JJ + JQ ^ 2 / q ^ 2) / (3 * q ^ 2) =
      lorentz .pp m1 m2 q + (m1 ^ 2 - m2 ^ 2) ^ 2 / (3 * q ^ 4) := by
  intro JJ JQ
  have h12 : 2 * mdot p1 p2 = q ^ 2 - m1 ^ 2 - m2 ^ 2 := by linarith
  simp only [JJ, JQ, h1, h2, h12, lorentz]
  field_simp
  ring

/-- In particular for the pairs the code uses it for (equal masses) the structure is
exact. -/
theorem two_pseudoscalar_equal (p1 p2 : P4) (m q : ℝ)
    (h1 : mdot p1 p1 = m ^ 2) (h2 : mdot p2 p2 = m ^ 2)
    (hq : mdot p1 p1 + 2 * mdot p1 p2 + mdot p2 p2 = q ^ 2) (hq0 : q ≠ 0) :
    -(mdot p1 p1 - 2 * mdot p1 p2 + mdot p2 p2) / (3 * q ^ 2) = lorentz .pp m m q := by
  have h12 : 2 * mdot p1 p2 = q ^ 2 - m ^ 2 - m ^ 2 := by linarith
  simp only [h1, h2, h12, lorentz]
  field_simp
  ring

open Matrix in
/-- Pseudoscalar and vector (or photon) in the rest frame: the current is `q ε × k`;
summed over polarisations with any tensor `δ + c k k` (a massive vector has
`c = 1/m²`, a photon `c = -1/|k|²` or `0`) its square is `2 q² |k|²`. -/
theorem polarisation_sum (k : Fin 3 → ℝ) (c q : ℝ) :
    ∑ i, ∑ j, ((if i = j then (1 : ℝ) else 0) + c * k i * k j) *
      ((q • (crossProduct (Pi.single i (1 : ℝ)) k)) ⬝ᵥ (q • (crossProduct (Pi.single j (1 : ℝ)) k))) =
      2 * q ^ 2 * (k ⬝ᵥ k) := by
  simp [cross_apply, Fin.sum_univ_three, dotProduct, Pi.single_apply]
  ring

/-- The structures for a pseudoscalar with a photon or a vector are that sum divided
by `3 q²`, at the momentum of the two-body decay. -/
theorem vector_structures (m1 m2 q k : ℝ) (hq : q ≠ 0)
    (hk : k ^ 2 = kallenLambda (q ^ 2) (m1 ^ 2) (m2 ^ 2) / (4 * q ^ 2)) :
    2 * q ^ 2 * k ^ 2 / (3 * q ^ 2) = lorentz .pv m1 m2 q ∧
      (m2 = 0 → 2 * q ^ 2 * k ^ 2 / (3 * q ^ 2) = lorentz .pa m1 m2 q) := by
  rw [hk]
  constructor
  · simp only [lorentz, kallenLambda]; field_simp; ring
  · rintro rfl; simp only [lorentz, kallenLambda]; field_simp; ring

private lemma rpow32 {x : ℝ} (hx : 0 ≤ x) : x ^ (3 / 2 : ℝ) = x * √x := by
  rcases hx.eq_or_lt with rfl | h
  · rw [Real.zero_rpow (by norm_num)]; simp
  · rw [Real.sqrt_eq_rpow, show (3 / 2 : ℝ) = 1 + 1 / 2 by norm_num, Real.rpow_add h, Real.rpow_one]

private lemma kallen_factor (q m1 m2 : ℝ) : kallenLambda (q ^ 2) (m1 ^ 2) (m2 ^ 2) =
    (q ^ 2 - (m1 - m2) ^ 2) * (q ^ 2 - (m1 + m2) ^ 2) := by unfold kallenLambda; ring

/-- The closed forms the module also contains (and does not call) agree with the
class methods: two pseudoscalars of equal mass. -/
theorem closed_form_pp (m mx mv gvxx wv : ℝ) (F : ℝ → ℝ) (q : ℝ) (hm : 0 ≤ m) (hmx : 0 ≤ mx)
    (h1 : 2 * m < q) (h2 : 2 * mx < q) (hp : (mv ^ 2 - q ^ 2) ^ 2 + mv ^ 2 * wv ^ 2 ≠ 0) :
    hadXs [m, m] (integrated .pp m m F) mx mv gvxx wv q =
      .num (gvxx ^ 2 * xsPP (q ^ 2) mx m (F q) mv wv) := by
  have hq0 : 0 < q := by linarith
  rw [hadron_cross_section_factorises _ _ _ _ _ _ _ hmx h2 hp]
  congr 1
  have ho : [m, m].sum < q := by simp; linarith
  have hk : kallenLambda (q ^ 2) (m ^ 2) (m ^ 2) = q ^ 2 * (q ^ 2 - 4 * m ^ 2) := by
    unfold kallenLambda; ring
  have hx : 0 < q ^ 2 - 4 * m ^ 2 := by nlinarith
  have hxx : 0 < q ^ 2 - 4 * mx ^ 2 := by nlinarith
  have hs := sqrt_scale (m := mx) hq0
  have hsx : 0 < √(q ^ 2 - 4 * mx ^ 2) := Real.sqrt_pos.2 hxx
  have hsx' : √(1 - 4 * mx ^ 2 / q ^ 2) = √(q ^ 2 - 4 * mx ^ 2) / q := by
    rw [hs]; field_simp
  unfold hadWidth integrated twoBodyPrefactor lorentz xsPP sFactor
  rw [if_pos ho, hk, max_eq_left (by positivity), Real.sqrt_mul (by positivity), Real.sqrt_sq hq0.le,
    show -4 * m ^ 2 + q ^ 2 = q ^ 2 - 4 * m ^ 2 by ring,
    show -4 * mx ^ 2 + q ^ 2 = q ^ 2 - 4 * mx ^ 2 by ring, rpow32 hx.le, hsx',
    show mv ^ 4 + (q ^ 2) ^ 2 + mv ^ 2 * (wv ^ 2 - 2 * q ^ 2) =
      (mv ^ 2 - q ^ 2) ^ 2 + mv ^ 2 * wv ^ 2 by ring]
  have := Real.pi_ne_zero
  simp only
  field_simp
  ring

/-- Pseudoscalar and photon. -/
theorem closed_form_pa (m mx mv gvxx wv : ℝ) (F : ℝ → ℝ) (q : ℝ) (hm : 0 ≤ m) (hmx : 0 ≤ mx)
    (h1 : m < q) (h2 : 2 * mx < q) (hp : (mv ^ 2 - q ^ 2) ^ 2 + mv ^ 2 * wv ^ 2 ≠ 0) :
    hadXs [m, 0] (integrated .pa m 0 F) mx mv gvxx wv q =
      .num (gvxx ^ 2 * xsPA (q ^ 2) mx m (F q) mv wv) := by
  have hq0 : 0 < q := by linarith
  rw [hadron_cross_section_factorises _ _ _ _ _ _ _ hmx h2 hp]
  congr 1
  have ho : [m, 0].sum < q := by simpa using h1
  have hk : kallenLambda (q ^ 2) (m ^ 2) (0 ^ 2) = (q ^ 2 - m ^ 2) ^ 2 := by
    unfold kallenLambda; ring
  have hx : 0 < q ^ 2 - m ^ 2 := by nlinarith
  have hxx : 0 < q ^ 2 - 4 * mx ^ 2 := by nlinarith
  have hs := sqrt_scale (m := mx) hq0
  have hsx : 0 < √(q ^ 2 - 4 * mx ^ 2) := Real.sqrt_pos.2 hxx
  have hsx' : √(1 - 4 * mx ^ 2 / q ^ 2) = √(q ^ 2 - 4 * mx ^ 2) / q := by
    rw [hs]; field_simp
  unfold hadWidth integrated twoBodyPrefactor lorentz xsPA sFactor
  rw [if_pos ho, hk, max_eq_left (by positivity), Real.sqrt_sq hx.le,
    show -4 * mx ^ 2 + q ^ 2 = q ^ 2 - 4 * mx ^ 2 by ring,
    Real.sqrt_mul (by positivity : (0 : ℝ) ≤ q ^ 2), Real.sqrt_sq hq0.le, hsx',
    show mv ^ 4 + (q ^ 2) ^ 2 + mv ^ 2 * (wv ^ 2 - 2 * q ^ 2) =
      (mv ^ 2 - q ^ 2) ^ 2 + mv ^ 2 * wv ^ 2 by ring]
  have := Real.pi_ne_zero
  simp only
  field_simp
  ring

/-- Pseudoscalar and vector meson. -/
theorem closed_form_pv (m M mx mv gvxx wv : ℝ) (F : ℝ → ℝ) (q : ℝ) (hm : 0 ≤ m) (hM : 0 ≤ M)
    (hmx : 0 ≤ mx) (h1 : m + M < q) (h2 : 2 * mx < q)
    (hp : (mv ^ 2 - q ^ 2) ^ 2 + mv ^ 2 * wv ^ 2 ≠ 0) :
    hadXs [m, M] (integrated .pv m M F) mx mv gvxx wv q =
      .num (gvxx ^ 2 * xsPV (q ^ 2) mx m M (F q) mv wv) := by
  have hq0 : 0 < q := by linarith
  rw [hadron_cross_section_factorises _ _ _ _ _ _ _ hmx h2 hp]
  congr 1
  have ho : [m, M].sum < q := by simpa using h1
  obtain ⟨L, hL⟩ : ∃ L, L = (q ^ 2 - (m - M) ^ 2) * (q ^ 2 - (m + M) ^ 2) := ⟨_, rfl⟩
  have hLpos : 0 < L := by
    have a : 0 < q ^ 2 - (m + M) ^ 2 := by nlinarith
    have b : 0 < q ^ 2 - (m - M) ^ 2 := by nlinarith [mul_nonneg hm hM]
    rw [hL]; positivity
  have hnum : m ^ 4 + (M ^ 2 - q ^ 2) ^ 2 - 2 * m ^ 2 * (M ^ 2 + q ^ 2) = L := by rw [hL]; ring
  have hxx : 0 < q ^ 2 - 4 * mx ^ 2 := by nlinarith
  have hs := sqrt_scale (m := mx) hq0
  have hsx : 0 < √(q ^ 2 - 4 * mx ^ 2) := Real.sqrt_pos.2 hxx
  have hsx' : √(1 - 4 * mx ^ 2 / q ^ 2) = √(q ^ 2 - 4 * mx ^ 2) / q := by
    rw [hs]; field_simp
  unfold hadWidth integrated twoBodyPrefactor lorentz xsPV sFactor
  rw [if_pos ho, kallen_factor, hnum, ← hL, max_eq_left hLpos.le,
    show -4 * mx ^ 2 + q ^ 2 = q ^ 2 - 4 * mx ^ 2 by ring, rpow32 (by positivity),
    Real.sqrt_div hLpos.le, Real.sqrt_sq hq0.le, hsx',
    show mv ^ 4 + (q ^ 2) ^ 2 + mv ^ 2 * (wv ^ 2 - 2 * q ^ 2) =
      (mv ^ 2 - q ^ 2) ^ 2 + mv ^ 2 * wv ^ 2 by ring]
  have := Real.pi_ne_zero
  field_simp
  ring

/-! ### Two mediators -/

private lemma vv_arg {a b : ℝ} (ha : 0 < a) (ha1 : a ≤ 1) (hb : 0 < b) (hb1 : b ≤ 1) :
    √a * √b / ((1 + b) / 2) ∈ Set.Icc (-1 : ℝ) 1 := by
  have h1 : √a ≤ 1 := Real.sqrt_le_one.2 ha1
  have h2 : √b ≤ (1 + b) / 2 := by
    nlinarith [Real.sq_sqrt hb.le, sq_nonneg (√b - 1), Real.sqrt_nonneg b]
  have hd : 0 < (1 + b) / 2 := by linarith
  constructor
  · have : 0 ≤ √a * √b / ((1 + b) / 2) := by positivity
    linarith
  · rw [div_le_one hd]
    nlinarith [Real.sqrt_nonneg a, Real.sqrt_nonneg b]

private lemma vv_float (mx mv g q : ℝ) : sigmaVV mx mv g (.float q) =
    if 2 * mv < q ∧ 2 * mx < q then vvValue mx mv g q else 0 := rfl

private lemma vv_int (mx mv g : ℝ) (n : ℤ) : sigmaVV mx mv g (.int n) =
    if 2 * mv < (n : ℝ) ∧ 2 * mx < (n : ℝ) then truncate (vvValue mx mv g n) else 0 := rfl

/-- **Violation of the agreement between the two models.** The GeV model's cross
section into two mediators is twice the MeV model's, for all masses and couplings and
every (float) energy above both thresholds; both are zero below. -/
theorem vv_twice_mev (mx mv g q : ℝ) (hmx : 0 ≤ mx) (hmv : 0 ≤ mv) (hx : q ≠ 2 * mx) (hv : q ≠ 2 * mv) :
    sigmaVV mx mv g (.float q) = 2 * Xs.vectorVV q mx mv g := by
  rw [vv_float]
  unfold Xs.vectorVV
  by_cases h : 2 * mv < q ∧ 2 * mx < q
  swap
  · have : q < 2 * mv ∨ q < 2 * mx := by
      by_contra hc
      push Not at hc
      exact h ⟨lt_of_le_of_ne hc.1 hv.symm, lt_of_le_of_ne hc.2 hx.symm⟩
    rw [if_neg h, if_pos this]; simp
  obtain ⟨h1, h2⟩ := h
  rw [if_pos ⟨h1, h2⟩, if_neg (by push Not; exact ⟨h1.le, h2.le⟩)]
  have hq0 : 0 < q := by linarith
  have ba := beta_pos hmx h2
  have bb := beta_pos hmv h1
  have ba1 : 1 - 4 * mx ^ 2 / q ^ 2 ≤ 1 := by have : 0 ≤ 4 * mx ^ 2 / q ^ 2 := by positivity
                                              linarith
  have bb1 : 1 - 4 * mv ^ 2 / q ^ 2 ≤ 1 := by have : 0 ≤ 4 * mv ^ 2 / q ^ 2 := by positivity
                                              linarith
  have hsh : 0 < -2 * mv ^ 2 + q ^ 2 := by nlinarith
  have hra := Real.sqrt_pos.2 ba
  have hrb := Real.sqrt_pos.2 bb
  have harg := vv_arg ba ba1 bb bb1
  have e0 : (1 + (1 - 4 * mv ^ 2 / q ^ 2)) / 2 = 1 - 2 * (mv / q) ^ 2 := by
    field_simp; ring
  rw [e0] at harg
  unfold vvValue
  simp only
  have eX : 1 - 4 * (mx / q) ^ 2 = 1 - 4 * mx ^ 2 / q ^ 2 := by field_simp
  have eV : 1 - 4 * (mv / q) ^ 2 = 1 - 4 * mv ^ 2 / q ^ 2 := by field_simp
  rw [eX, eV, Real.artanh_eq_half_log harg,
    show -4 * mv ^ 2 + q ^ 2 = q ^ 2 - 4 * mv ^ 2 by ring,
    show -4 * mx ^ 2 + q ^ 2 = q ^ 2 - 4 * mx ^ 2 by ring, sqrt_scale hq0, sqrt_scale hq0]
  obtain ⟨a, hadef⟩ : ∃ a, a = √(1 - 4 * mx ^ 2 / q ^ 2) := ⟨_, rfl⟩
  obtain ⟨b, hbdef⟩ : ∃ b, b = √(1 - 4 * mv ^ 2 / q ^ 2) := ⟨_, rfl⟩
  rw [← hadef] at hra harg ⊢
  rw [← hbdef] at hrb harg ⊢
  have ha2 : a ^ 2 = 1 - 4 * mx ^ 2 / q ^ 2 := by rw [hadef, Real.sq_sqrt ba.le]
  obtain ⟨D, hDdef⟩ : ∃ D, D = -2 * mv ^ 2 + q ^ 2 := ⟨_, rfl⟩
  have hmuv : 1 - 2 * (mv / q) ^ 2 = D / q ^ 2 := by rw [hDdef]; field_simp; ring
  rw [← hDdef] at hsh ⊢
  have hm1 : -1 + 2 * (mv / q) ^ 2 = -(D / q ^ 2) := by rw [← hmuv]; ring
  have elog : (1 + a * b / (D / q ^ 2)) / (1 - a * b / (D / q ^ 2)) =
      (q * b * (q * a) + D) / (-(q * b) * (q * a) + D) := by
    have n1 : 1 + a * b / (D / q ^ 2) = (q * b * (q * a) + D) / D := by
      field_simp; ring
    have n2 : 1 - a * b / (D / q ^ 2) = (-(q * b) * (q * a) + D) / D := by
      field_simp; ring
    rw [n1, n2, div_div_div_cancel_right₀ hsh.ne']
  rw [hm1, hmuv, elog]
  obtain ⟨ℓ, hℓ⟩ : ∃ ℓ, ℓ = Real.log ((q * b * (q * a) + D) / (-(q * b) * (q * a) + D)) := ⟨_, rfl⟩
  rw [← hℓ]
  have hden : q ^ 2 - 4 * mx ^ 2 = q ^ 2 * a ^ 2 := by rw [ha2]; field_simp
  rw [hden]
  have hD' : ((mv / q) ^ 2) ^ 2 + (mx / q) ^ 2 - 4 * (mv / q) ^ 2 * (mx / q) ^ 2 =
      (mx ^ 2 * q ^ 2 + (-4 * mv ^ 2 * mx ^ 2 + mv ^ 4)) / q ^ 4 := by field_simp; ring
  have hN : 2 * ((mv / q) ^ 2) ^ 2 + (mx / q) ^ 2 + 4 * ((mx / q) ^ 2) ^ 2 =
      (mx ^ 2 * q ^ 2 + (2 * mv ^ 4 + mx ^ 4 * 4)) / q ^ 4 := by field_simp; ring
  obtain ⟨P, hPdef⟩ : ∃ P, P = 4 * mx ^ 2 * q ^ 2 + (-8 * mx ^ 4 + (4 * mv ^ 4 + mv ^ 2 * -8 * mx ^ 2)) +
    q ^ 4 := ⟨_, rfl⟩
  have hP : 1 + 4 * ((mv / q) ^ 2) ^ 2 + 4 * (mx / q) ^ 2 - 8 * (mv / q) ^ 2 * (mx / q) ^ 2 -
      8 * ((mx / q) ^ 2) ^ 2 = P / q ^ 4 := by rw [hPdef]; field_simp; ring
  rw [hD', hN, hP, ← hPdef, div_div_div_cancel_right₀ (by positivity)]
  obtain ⟨R, hR⟩ : ∃ R, R = (mx ^ 2 * q ^ 2 + (2 * mv ^ 4 + mx ^ 4 * 4)) /
    (mx ^ 2 * q ^ 2 + (-4 * mv ^ 2 * mx ^ 2 + mv ^ 4)) := ⟨_, rfl⟩
  have hR' : (mx ^ 2 * q ^ 2 + (2 * mv ^ 4 + mx ^ 4 * 4)) * (q * a * (q * b + q * b)) /
    (mx ^ 2 * q ^ 2 + (-4 * mv ^ 2 * mx ^ 2 + mv ^ 4)) = R * (q * a * (q * b + q * b)) := by
    rw [hR]; ring
  rw [← hR, hR']
  have := Real.pi_ne_zero
  field_simp
  ring

/-- The sign, and the threshold, of the GeV cross section into two mediators. -/
theorem vv_positive (mx mv g q : ℝ) (hmx : 0 ≤ mx) (hmv : 0 < mv) :
    0 ≤ sigmaVV mx mv g (.float q) ∧
      (0 < sigmaVV mx mv g (.float q) ↔ 2 * mv < q ∧ 2 * mx < q ∧ g ≠ 0) := by
  by_cases h : 2 * mv < q ∧ 2 * mx < q
  · rw [vv_twice_mev mx mv g q hmx hmv.le h.2.ne' h.1.ne']
    obtain ⟨h1, h2⟩ := Xs.vectorVV_sign q mx mv g hmx hmv h.2.ne'
    exact ⟨by linarith, by rw [← h2]; constructor <;> intro h <;> linarith⟩
  · rw [vv_float, if_neg h]
    exact ⟨le_rfl, fun h' => absurd h' (lt_irrefl _), fun h' => absurd ⟨h'.1, h'.2.1⟩ h⟩

/-- **Violation.** An `int` energy loses the fractional part of the answer: below one
the result is zero although the `float` of the same value gives a positive cross
section. -/
theorem vv_integer_energy (mx mv g : ℝ) (n : ℤ) (hmx : 0 ≤ mx) (hmv : 0 < mv) :
    sigmaVV mx mv g (.int n) = ⌊sigmaVV mx mv g (.float n)⌋ := by
  have hp := (vv_positive mx mv g n hmx hmv).1
  rw [vv_float] at hp
  rw [vv_float, vv_int]
  split_ifs with h
  · rw [if_pos h] at hp
    simp [truncate, hp]
  · simp

private lemma vv_scale (mx mv q g c : ℝ) : vvValue mx mv (c * g) q = c ^ 4 * vvValue mx mv g q := by
  unfold vvValue; simp only; ring

/-- For all masses and every integer energy above threshold there are couplings for
which the two answers differ. -/
theorem vv_integer_differs (mx mv : ℝ) (n : ℤ) (hmx : 0 ≤ mx) (hmv : 0 < mv) (h1 : 2 * mv < n)
    (h2 : 2 * mx < n) :
    ∃ g, 0 < sigmaVV mx mv g (.float n) ∧ sigmaVV mx mv g (.int n) = 0 := by
  have hv : ∀ g, sigmaVV mx mv g (.float n) = vvValue mx mv g n := by
    intro g; rw [vv_float, if_pos ⟨h1, h2⟩]
  obtain ⟨V, hV⟩ : ∃ V, V = vvValue mx mv 1 n := ⟨_, rfl⟩
  have hVpos : 0 < V := by
    rw [hV, ← hv]; exact (vv_positive mx mv 1 n hmx hmv).2.2 ⟨h1, h2, one_ne_zero⟩
  -- c⁴ V = 1/2
  obtain ⟨c, hc, hc4⟩ : ∃ c : ℝ, 0 < c ∧ c ^ 4 = 1 / (2 * V) := by
    refine ⟨√√(1 / (2 * V)), by positivity, ?_⟩
    have : (√√(1 / (2 * V))) ^ 4 = ((√√(1 / (2 * V))) ^ 2) ^ 2 := by ring
    rw [this, Real.sq_sqrt (by positivity), Real.sq_sqrt (by positivity)]
  have hval : vvValue mx mv c n = 1 / 2 := by
    have := vv_scale mx mv n 1 c
    rw [mul_one] at this
    rw [this, hc4, ← hV]; field_simp
  refine ⟨c, by rw [hv, hval]; norm_num, ?_⟩
  rw [vv_integer_energy mx mv c n hmx hmv, hv, hval]
  norm_num

/-! ### Massless mediator: comparison with pair annihilation into photons -/

/-- Spin-averaged squared matrix element of `χ χ̄ → γ γ` with coupling `g` (Peskin and
Schroeder, eq. 5.105 by crossing), as a function of the products `p·k₁`, `p·k₂`. -/
noncomputable def msqTwoPhotons (g m a b : ℝ) : ℝ :=
  2 * g ^ 4 * (b / a + a / b + 2 * m ^ 2 * (1 / a + 1 / b) - m ^ 4 * (1 / a + 1 / b) ^ 2)

/-- Cross section for distinguishable particles: `1/(32 π s β) ∫ |M|² d cos θ`.  For
two identical particles in the final state half of it is to be taken. -/
noncomputable def xsTwoPhotons (g m q : ℝ) : ℝ :=
  let β := √(1 - 4 * m ^ 2 / q ^ 2)
  1 / (32 * Real.pi * q ^ 2 * β) *
    ∫ z in (-1 : ℝ)..1, msqTwoPhotons g m (q ^ 2 / 4 * (1 - β * z)) (q ^ 2 / 4 * (1 + β * z))

private lemma integral_inv (β : ℝ) (h0 : 0 < β) (h1 : β < 1) (A B C : ℝ) :
    ∫ z in (-1 : ℝ)..1, (A + B / (1 - β ^ 2 * z ^ 2) + C / (1 - β ^ 2 * z ^ 2) ^ 2) =
      2 * A + B / β * Real.log ((1 + β) / (1 - β)) +
        C * (1 / (1 - β ^ 2) + 1 / (2 * β) * Real.log ((1 + β) / (1 - β))) := by
  have hz : ∀ z ∈ Set.uIcc (-1 : ℝ) 1, 0 < 1 - β * z ∧ 0 < 1 + β * z := by
    intro z hz
    rw [Set.uIcc_of_le (by norm_num)] at hz
    constructor <;> nlinarith [hz.1, hz.2]
  have hd : ∀ z ∈ Set.uIcc (-1 : ℝ) 1, HasDerivAt
      (fun z => A * z + (B / (2 * β) + C / (4 * β)) * (Real.log (1 + β * z) - Real.log (1 - β * z)) +
        C * (z / (2 * (1 - β ^ 2 * z ^ 2))))
      (A + B / (1 - β ^ 2 * z ^ 2) + C / (1 - β ^ 2 * z ^ 2) ^ 2) z := by
    intro z hzm
    obtain ⟨hm, hp⟩ := hz z hzm
    have hprod : 1 - β ^ 2 * z ^ 2 = (1 - β * z) * (1 + β * z) := by ring
    have hne : 1 - β ^ 2 * z ^ 2 ≠ 0 := by rw [hprod]; positivity
    have d1 : HasDerivAt (fun z : ℝ => 1 + β * z) β z := by
      simpa using ((hasDerivAt_id z).const_mul β).const_add 1
    have d2 : HasDerivAt (fun z : ℝ => 1 - β * z) (-β) z := by
      simpa using ((hasDerivAt_id z).const_mul β).const_sub 1
    have d3 : HasDerivAt (fun z : ℝ => 2 * (1 - β ^ 2 * z ^ 2)) (-(4 * β ^ 2 * z)) z := by
      have := ((((hasDerivAt_id z).pow 2).const_mul (β ^ 2)).const_sub 1).const_mul 2
      exact this.congr_deriv (by simp; ring)
    have d := (((hasDerivAt_id z).const_mul A).add (((d1.log hp.ne').sub (d2.log hm.ne')).const_mul
      (B / (2 * β) + C / (4 * β)))).add
      (((hasDerivAt_id z).div d3 (mul_ne_zero two_ne_zero hne)).const_mul C)
    refine d.congr_deriv ?_
    simp only [id]
    rw [hprod]
    field_simp
    ring
  rw [intervalIntegral.integral_eq_sub_of_hasDerivAt hd]
  · have e1 : (1 : ℝ) - β ^ 2 ≠ 0 := by nlinarith
    have hp1 : (0 : ℝ) < 1 + β := by linarith
    have hm1 : (0 : ℝ) < 1 - β := by linarith
    rw [Real.log_div hp1.ne' hm1.ne']
    norm_num
    rw [show (1 : ℝ) + -β = 1 - β by ring]
    field_simp
    ring
  · apply ContinuousOn.intervalIntegrable
    intro z hzm
    obtain ⟨hm, hp⟩ := hz z hzm
    have hprod : 1 - β ^ 2 * z ^ 2 = (1 - β * z) * (1 + β * z) := by ring
    have hne : 1 - β ^ 2 * z ^ 2 ≠ 0 := by rw [hprod]; positivity
    apply ContinuousAt.continuousWithinAt
    have c1 : ContinuousAt (fun z : ℝ => 1 - β ^ 2 * z ^ 2) z := by fun_prop
    exact ((continuousAt_const.add (continuousAt_const.div c1 hne)).add
      (continuousAt_const.div (c1.pow 2) (pow_ne_zero 2 hne)))

/-- For a massless mediator the GeV cross section is the full-sphere integral: the
factor one half for two identical particles is missing. -/
theorem massless_vv_is_full_sphere (mx g q : ℝ) (hmx : 0 < mx) (hq : 2 * mx < q) :
    sigmaVV mx 0 g (.float q) = xsTwoPhotons g mx q ∧
      Xs.vectorVV q mx 0 g = 1 / 2 * xsTwoPhotons g mx q := by
  have hq0 : 0 < q := by linarith
  have key : sigmaVV mx 0 g (.float q) = xsTwoPhotons g mx q := by
    have hb := beta_pos hmx.le hq
    have hb1 : 1 - 4 * mx ^ 2 / q ^ 2 < 1 := by
      have : 0 < 4 * mx ^ 2 / q ^ 2 := by positivity
      linarith
    rw [vv_float, if_pos ⟨by linarith, hq⟩]
    unfold xsTwoPhotons vvValue
    simp only
    have eX : 1 - 4 * (mx / q) ^ 2 = 1 - 4 * mx ^ 2 / q ^ 2 := by field_simp
    obtain ⟨β, hβ⟩ : ∃ β, β = √(1 - 4 * mx ^ 2 / q ^ 2) := ⟨_, rfl⟩
    have hβ0 : 0 < β := by rw [hβ]; exact Real.sqrt_pos.2 hb
    have hβ2 : β ^ 2 = 1 - 4 * mx ^ 2 / q ^ 2 := by rw [hβ, Real.sq_sqrt hb.le]
    have hβ1 : β < 1 := by
      have : β ^ 2 < 1 := by rw [hβ2]; exact hb1
      nlinarith
    have hmq : mx ^ 2 = q ^ 2 * (1 - β ^ 2) / 4 := by rw [hβ2]; field_simp; ring
    rw [eX, ← hβ]
    -- the integrand
    have hint : ∫ z in (-1 : ℝ)..1, msqTwoPhotons g mx (q ^ 2 / 4 * (1 - β * z)) (q ^ 2 / 4 * (1 + β * z))
        = ∫ z in (-1 : ℝ)..1, (2 * g ^ 4) * (-2 + (4 + 4 * (1 - β ^ 2)) / (1 - β ^ 2 * z ^ 2) +
          (-4 * (1 - β ^ 2) ^ 2) / (1 - β ^ 2 * z ^ 2) ^ 2) := by
      apply intervalIntegral.integral_congr
      intro z hzm
      rw [Set.uIcc_of_le (by norm_num)] at hzm
      have hm : 0 < 1 - β * z := by nlinarith [hzm.1, hzm.2]
      have hp : 0 < 1 + β * z := by nlinarith [hzm.1, hzm.2]
      have hprod : 1 - β ^ 2 * z ^ 2 = (1 - β * z) * (1 + β * z) := by ring
      simp only [msqTwoPhotons]
      rw [show mx ^ 4 = (mx ^ 2) ^ 2 by ring, hmq, hprod]
      field_simp
      ring
    rw [hint, intervalIntegral.integral_const_mul, integral_inv β hβ0 hβ1]
    have harg : β * √(1 - 4 * (0 / q) ^ 2) / (1 - 2 * (0 / q) ^ 2) = β := by simp
    have hart : Real.artanh β = 1 / 2 * Real.log ((1 + β) / (1 - β)) :=
      Real.artanh_eq_half_log ⟨by linarith, hβ1.le⟩
    rw [harg, hart]
    have hmux : (mx / q) ^ 2 = (1 - β ^ 2) / 4 := by rw [div_pow, hmq]; field_simp
    rw [hmux]
    have e1 : (1 : ℝ) - β ^ 2 ≠ 0 := by nlinarith
    have := Real.pi_ne_zero
    simp only [zero_div, ne_eq, OfNat.ofNat_ne_zero, not_false_eq_true, zero_pow, mul_zero, sub_zero,
      Real.sqrt_one, mul_one, zero_add, add_zero, zero_mul]
    obtain ⟨ℓ, hℓ⟩ : ∃ ℓ, ℓ = Real.log ((1 + β) / (1 - β)) := ⟨_, rfl⟩
    rw [← hℓ]
    field_simp
    ring
  refine ⟨key, ?_⟩
  have h := vv_twice_mev mx 0 g q hmx.le le_rfl hq.ne' (by simpa using hq0.ne')
  rw [key] at h
  rw [h]; ring

/-! ### Concrete cases -/

-- Muons: open at 300 MeV for 100 MeV dark matter, closed for 160 MeV dark matter.
example : sigmaFF 160 1000 1 10 1 105.6583745 300 = 0 :=
  (below_threshold_partial 160 1000 1 10 1 105.6583745 135 782 (fun _ => 1) 300 (by norm_num)).1

-- Charged pions with 160 MeV dark matter at 300 MeV: NaN.
example : hadXs [139.57, 139.57] (integrated .pp 139.57 139.57 fun _ => 1) 160 1000 1 10 300 = .nan :=
  (hadron_below_threshold _ _ 160 1000 1 10 300 (by norm_num) (by norm_num) (by norm_num)).1
    (by norm_num)

-- Unequal masses: the contraction and the code differ.
example : (9 - 2 * 1 ^ 2 - 2 * 0 ^ 2 : ℝ) / (3 * 9) = lorentz .pp 1 0 3 := by norm_num [lorentz]

-- An integer energy of 1000 MeV and a float one.
example : ∃ g, 0 < sigmaVV 100 200 g (.float 1000) ∧ sigmaVV 100 200 g (.int 1000) = 0 := by
  have := vv_integer_differs 100 200 1000 (by norm_num) (by norm_num) (by norm_num) (by norm_num)
  simpa using this

end Hazma.GevXs
