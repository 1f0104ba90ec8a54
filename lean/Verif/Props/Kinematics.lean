import Verif.Model.Kinematics
import Mathlib.Tactic

/-!
# Properties of the two-body kinematics (C01, C02)
-/

namespace Hazma.Kinematics

open Hazma

/-- `kallen_lambda` of squared energies factorises. -/
theorem kallen_factor (E a b : ℝ) :
    kallenLambda (E ^ 2) (a ^ 2) (b ^ 2)
      = ((E - a - b) * (E + a + b)) * ((E - a + b) * (E + a - b)) := by
  unfold kallenLambda; ring

private theorem radicand_swap (E a b : ℝ) :
    ((E - max a b - min a b) * (E + max a b + min a b)) = (E - a - b) * (E + a + b) ∧
    ((E - max a b + min a b) * (E + max a b - min a b)) = (E - a + b) * (E + a - b) := by
  rcases le_total a b with h | h
  · simp only [max_eq_right h, min_eq_left h]; constructor <;> ring
  · simp only [max_eq_left h, min_eq_right h]; exact ⟨trivial, trivial⟩

/-- **C01.** At and above threshold `two_body_momentum` is a non-negative number
`p` for which the two on-shell energies add up to the centre-of-mass energy. -/
theorem two_body_momentum_physical (cme m1 m2 : ℝ) (h1 : 0 ≤ m1) (h2 : 0 ≤ m2)
    (hpos : 0 < cme) (hthr : m1 + m2 ≤ cme) :
    ∃ p : ℝ, twoBodyMomentum cme m1 m2 = XReal.num p ∧ 0 ≤ p ∧
      Real.sqrt (p ^ 2 + m1 ^ 2) + Real.sqrt (p ^ 2 + m2 ^ 2) = cme ∧
      p = Real.sqrt (kallenLambda (cme ^ 2) (m1 ^ 2) (m2 ^ 2)) / (2 * cme) ∧
      (p = 0 ↔ cme = m1 + m2) := by
  obtain ⟨ra, rb⟩ := radicand_swap cme m1 m2
  have hu : 0 ≤ (cme - m1 - m2) * (cme + m1 + m2) := by
    apply mul_nonneg <;> linarith
  have hl : 0 < (cme - m1 + m2) * (cme + m1 - m2) ∨ cme = m1 + m2 := by
    rcases eq_or_lt_of_le hthr with h | h
    · right; exact h.symm
    · left; apply mul_pos <;> linarith
  have hl0 : 0 ≤ (cme - m1 + m2) * (cme + m1 - m2) := by
    apply mul_nonneg <;> linarith
  set u := Real.sqrt ((cme - m1 - m2) * (cme + m1 + m2)) with hudef
  set l := Real.sqrt ((cme - m1 + m2) * (cme + m1 - m2)) with hldef
  have hu2 : u ^ 2 = (cme - m1 - m2) * (cme + m1 + m2) := Real.sq_sqrt hu
  have hl2 : l ^ 2 = (cme - m1 + m2) * (cme + m1 - m2) := Real.sq_sqrt hl0
  have hun : 0 ≤ u := Real.sqrt_nonneg _
  have hln : 0 ≤ l := Real.sqrt_nonneg _
  refine ⟨u * l / (2 * cme), ?_, by positivity, ?_, ?_, ?_⟩
  · simp only [twoBodyMomentum, ra, rb, XReal.sqrt, not_lt.mpr hu, not_lt.mpr hl0, if_false,
      XReal.mul, XReal.divReal, hudef, hldef]
  · have e1 : (u * l / (2 * cme)) ^ 2 + m1 ^ 2 = ((cme ^ 2 + m1 ^ 2 - m2 ^ 2) / (2 * cme)) ^ 2 := by
      rw [div_pow, mul_pow, hu2, hl2]; field_simp; ring
    have e2 : (u * l / (2 * cme)) ^ 2 + m2 ^ 2 = ((cme ^ 2 + m2 ^ 2 - m1 ^ 2) / (2 * cme)) ^ 2 := by
      rw [div_pow, mul_pow, hu2, hl2]; field_simp; ring
    have n1 : 0 ≤ (cme ^ 2 + m1 ^ 2 - m2 ^ 2) / (2 * cme) := by
      apply div_nonneg _ (by linarith); nlinarith
    have n2 : 0 ≤ (cme ^ 2 + m2 ^ 2 - m1 ^ 2) / (2 * cme) := by
      apply div_nonneg _ (by linarith); nlinarith
    rw [e1, e2, Real.sqrt_sq n1, Real.sqrt_sq n2]; field_simp; ring
  · rw [kallen_factor, Real.sqrt_mul hu]
  · constructor
    · intro h
      have h' : u * l = 0 := by
        rcases div_eq_zero_iff.mp h with h | h
        · exact h
        · linarith
      rcases hl with hl | hl
      · have : l ≠ 0 := by
          intro h0; rw [h0] at hl2; nlinarith
        have hu0 : u = 0 := by
          rcases mul_eq_zero.mp h' with h | h
          · exact h
          · exact absurd h this
        rw [hu0] at hu2
        have : (cme - m1 - m2) * (cme + m1 + m2) = 0 := by rw [← hu2]; norm_num
        rcases mul_eq_zero.mp this with h | h <;> linarith
      · exact hl
    · intro h
      have : u = 0 := by
        rw [hudef, h]
        have : (m1 + m2 - m1 - m2) * (m1 + m2 + m1 + m2) = 0 := by ring
        rw [this, Real.sqrt_zero]
      rw [this]; simp

/-- Concrete case: a 100 MeV pair with masses 30 and 40. -/
example : ∃ p : ℝ, twoBodyMomentum 100 30 40 = XReal.num p ∧ 0 < p := by
  obtain ⟨p, h, h0, -, -, hz⟩ := two_body_momentum_physical 100 30 40 (by norm_num) (by norm_num)
    (by norm_num) (by norm_num)
  refine ⟨p, h, lt_of_le_of_ne h0 ?_⟩
  intro h; have := hz.mp h.symm; norm_num at this

/-- **C01.** The momentum does not depend on which particle is called first, for
every argument (below threshold as well). -/
theorem two_body_momentum_symm (cme m1 m2 : ℝ) :
    twoBodyMomentum cme m1 m2 = twoBodyMomentum cme m2 m1 := by
  simp only [twoBodyMomentum, max_comm m1 m2, min_comm m1 m2]

/-- **C02.** Below threshold the momentum is NaN. -/
theorem two_body_momentum_nan_below (cme m1 m2 : ℝ)
    (hpos : 0 < cme) (hthr : cme < m1 + m2) :
    twoBodyMomentum cme m1 m2 = XReal.nan := by
  obtain ⟨ra, rb⟩ := radicand_swap cme m1 m2
  have hu : (cme - m1 - m2) * (cme + m1 + m2) < 0 := by
    apply mul_neg_of_neg_of_pos <;> linarith
  simp only [twoBodyMomentum, ra, rb, XReal.sqrt, hu, if_true]
  split_ifs <;> simp [XReal.mul, XReal.divReal]

/-- Concrete case in the region `cme < |m1 - m2|` where the Källén polynomial is
positive and one square root over the product would have been finite. -/
example : twoBodyMomentum 1 5 2 = XReal.nan ∧ 0 < kallenLambda (1 ^ 2) (5 ^ 2) (2 ^ 2) :=
  ⟨two_body_momentum_nan_below 1 5 2 (by norm_num) (by norm_num),
    by unfold kallenLambda; norm_num⟩

/-- **C02.** `cross_section_prefactor` is NaN below threshold, `+inf` at it and
the positive flux factor `1/(4 p cme)` above it. -/
theorem cross_section_prefactor_regions (m1 m2 cme : ℝ) (h1 : 0 ≤ m1) (h2 : 0 ≤ m2)
    (hpos : 0 < cme) :
    (cme < m1 + m2 → crossSectionPrefactor m1 m2 cme = XReal.nan) ∧
    (cme = m1 + m2 → crossSectionPrefactor m1 m2 cme = XReal.pinf) ∧
    (m1 + m2 < cme → ∃ f p : ℝ, crossSectionPrefactor m1 m2 cme = XReal.num f ∧ 0 < f ∧
        0 < p ∧ Real.sqrt (p ^ 2 + m1 ^ 2) + Real.sqrt (p ^ 2 + m2 ^ 2) = cme ∧
        f = 1 / (4 * p * cme)) := by
  refine ⟨?_, ?_, ?_⟩
  · intro h
    simp [crossSectionPrefactor, two_body_momentum_nan_below cme m1 m2 hpos h, XReal.mul,
      XReal.recip]
  · intro h
    obtain ⟨p, hp, -, -, -, hz⟩ := two_body_momentum_physical cme m1 m2 h1 h2 hpos h.ge
    have : p = 0 := hz.mpr h
    simp [crossSectionPrefactor, hp, this, XReal.mul, XReal.recip]
  · intro h
    obtain ⟨p, hp, hp0, he, -, hz⟩ := two_body_momentum_physical cme m1 m2 h1 h2 hpos h.le
    have hne : p ≠ 0 := fun h0 => by have := hz.mp h0; linarith
    have hp' : 0 < p := lt_of_le_of_ne hp0 hne.symm
    refine ⟨1 / (4 * p * cme), p, ?_, by positivity, hp', he, rfl⟩
    have : (4 * p * cme) ≠ 0 := by positivity
    simp [crossSectionPrefactor, hp, XReal.mul, XReal.recip, hne, hpos.ne']

example : ∃ f : ℝ, crossSectionPrefactor 3 4 100 = XReal.num f ∧ 0 < f := by
  obtain ⟨f, p, h, hf, -⟩ := (cross_section_prefactor_regions 3 4 100 (by norm_num) (by norm_num)
    (by norm_num)).2.2 (by norm_num)
  exact ⟨f, h, hf⟩

/-- **C02.** `kinematically_accessable` holds exactly when the two-body momentum is a positive
number. -/
theorem kinematically_accessible_iff_momentum (cme m1 m2 : ℝ) (h1 : 0 ≤ m1) (h2 : 0 ≤ m2)
    (hpos : 0 < cme) :
    kinematicallyAccessible cme [m1, m2] ↔ ∃ p, 0 < p ∧ twoBodyMomentum cme m1 m2 = XReal.num p := by
  have hs : kinematicallyAccessible cme [m1, m2] ↔ m1 + m2 < cme := by
    unfold kinematicallyAccessible; simp
  rw [hs]
  constructor
  · intro h
    obtain ⟨p, hp, hp0, -, -, hz⟩ := two_body_momentum_physical cme m1 m2 h1 h2 hpos h.le
    exact ⟨p, lt_of_le_of_ne hp0 fun h0 => by have := hz.mp h0.symm; linarith, hp⟩
  · rintro ⟨p, hp0, hp⟩
    by_contra hc
    rcases lt_or_eq_of_le (not_lt.mp hc) with h | h
    · rw [two_body_momentum_nan_below cme m1 m2 hpos h] at hp; cases hp
    · obtain ⟨p', hp', -, -, -, hz⟩ := two_body_momentum_physical cme m1 m2 h1 h2 hpos h.ge
      rw [hp'] at hp
      injection hp with hp
      exact hp0.ne' (hp ▸ hz.mpr h)

example : ¬ kinematicallyAccessible 7 [3, 4] ∧ kinematicallyAccessible 8 [3, 4] := by
  unfold kinematicallyAccessible; norm_num

/-- Adding the momenta is what makes `ldot`, `minkowski_dot` and `lnorm_sqr`
interchangeable: they are the same bilinear form. -/
theorem minkowski_forms_agree (a b : Fin 4 → ℝ) :
    ldot a b = minkowskiDot a b ∧ minkowskiDot a a = lnormSqr a ∧
    minkowskiDot a b = (lnormSqr (a + b) - lnormSqr a - lnormSqr b) / 2 := by
  refine ⟨rfl, ?_, ?_⟩
  · unfold minkowskiDot lnormSqr; ring
  · unfold minkowskiDot lnormSqr; simp only [Pi.add_apply]; ring

end Hazma.Kinematics
