import Verif.Model.AltarelliParisi
import Mathlib.Analysis.Complex.ExponentialBounds
import Mathlib.Tactic

/-! # Altarelli-Parisi radiation -/

namespace Hazma.AltarelliParisi

/-- The mask of the code is exactly "the logarithm exceeds one". -/
theorem log_gt_one {y : ℝ} (hy : 0 < y) : Real.exp 1 < y ↔ 1 < Real.log y :=
  (Real.lt_log_iff_exp_lt hy).symm

/-- Closed form: the splitting function times the logarithm above one, cut at zero. -/
theorem ap_formula (alpha e Q m q : ℝ) (split : ℝ → ℝ) (hQ : 0 < Q) (hm : 0 < m)
    (he : 2 * e < Q) :
    dndePhotonFsr alpha e (Q ^ 2) m split q
      = q ^ 2 * (alpha / (Real.pi * Q)) * split (2 * e / Q)
        * max (Real.log ((Q ^ 2 - 2 * e * Q) / m ^ 2) - 1) 0 := by
  unfold dndePhotonFsr dndxPhotonFsr
  have hx : e * (2 / Q) = 2 * e / Q := by ring
  have hsx : Q ^ 2 * (1 - 2 * e / Q) / m ^ 2 = (Q ^ 2 - 2 * e * Q) / m ^ 2 := by field_simp
  have hpos : 0 < (Q ^ 2 - 2 * e * Q) / m ^ 2 := by
    have : 0 < Q ^ 2 - 2 * e * Q := by nlinarith
    positivity
  simp only [Real.sqrt_sq hQ.le, hx, hsx]
  have hpi := Real.pi_pos
  by_cases h : (Q ^ 2 - 2 * e * Q) / m ^ 2 > Real.exp 1
  · rw [if_pos h, max_eq_left (by linarith [(log_gt_one hpos).mp h])]
    field_simp
  · have : Real.log ((Q ^ 2 - 2 * e * Q) / m ^ 2) - 1 ≤ 0 := by
      by_contra hc
      exact h ((log_gt_one hpos).mpr (by linarith))
    rw [if_neg h, max_eq_right this]
    ring

theorem fermionSplitting_pos {x : ℝ} (hx : 0 < x) : 0 < fermionSplitting x := by
  unfold fermionSplitting; positivity

theorem scalarSplitting_pos {x : ℝ} (hx : 0 < x) (h1 : x < 1) : 0 < scalarSplitting x := by
  unfold scalarSplitting; have : 0 < 1 - x := by linarith
  positivity

/-- C33, support: zero exactly when the photon energy reaches
`(Q² - exp(1) m²)/(2Q)` (or the charge vanishes). -/
theorem ap_support (alpha e Q m q : ℝ) (ha : 0 < alpha) (hQ : 0 < Q) (hm : 0 < m) (he : 0 < e)
    (hq : q ≠ 0) :
    (0 < apFermion alpha e (Q ^ 2) m q ↔ e < (Q ^ 2 - Real.exp 1 * m ^ 2) / (2 * Q))
    ∧ (0 < apScalar alpha e (Q ^ 2) m q ↔ e < (Q ^ 2 - Real.exp 1 * m ^ 2) / (2 * Q))
    ∧ (¬ e < (Q ^ 2 - Real.exp 1 * m ^ 2) / (2 * Q) →
        apFermion alpha e (Q ^ 2) m q = 0 ∧ apScalar alpha e (Q ^ 2) m q = 0) := by
  have hm2 : 0 < m ^ 2 := by positivity
  have hpi := Real.pi_pos
  have hend : e < (Q ^ 2 - Real.exp 1 * m ^ 2) / (2 * Q)
      ↔ Real.exp 1 < (Q ^ 2 - 2 * e * Q) / m ^ 2 := by
    rw [lt_div_iff₀ (by positivity), lt_div_iff₀ hm2]
    constructor <;> intro h <;> linarith
  have hzero : ∀ split, ¬ e < (Q ^ 2 - Real.exp 1 * m ^ 2) / (2 * Q) →
      dndePhotonFsr alpha e (Q ^ 2) m split q = 0 := by
    intro split h
    unfold dndePhotonFsr dndxPhotonFsr
    have hsx : Q ^ 2 * (1 - e * (2 / Real.sqrt (Q ^ 2))) / m ^ 2 = (Q ^ 2 - 2 * e * Q) / m ^ 2 := by
      rw [Real.sqrt_sq hQ.le]; field_simp
    simp only [hsx]
    rw [if_neg (fun hc => h (hend.mpr hc))]
    ring
  have hposi : ∀ split, (∀ x, 0 < x → x < 1 → 0 < split x) →
      e < (Q ^ 2 - Real.exp 1 * m ^ 2) / (2 * Q) →
      0 < dndePhotonFsr alpha e (Q ^ 2) m split q := by
    intro split hs h
    have hexp := Real.exp_pos 1
    have h2 : 2 * e < Q := by
      rw [lt_div_iff₀ (by positivity)] at h
      by_contra hc
      have : Q * Q ≤ 2 * e * Q := mul_le_mul_of_nonneg_right (not_lt.mp hc) hQ.le
      nlinarith [mul_pos hexp hm2]
    rw [ap_formula alpha e Q m q split hQ hm h2]
    have hlog := (log_gt_one (by linarith [hend.mp h])).mp (hend.mp h)
    have hx1 : 2 * e / Q < 1 := by rw [div_lt_one hQ]; exact h2
    have hsp := hs (2 * e / Q) (by positivity) hx1
    rw [max_eq_left (by linarith)]
    have : 0 < Real.log ((Q ^ 2 - 2 * e * Q) / m ^ 2) - 1 := by linarith
    positivity
  refine ⟨⟨?_, hposi _ fun x h _ => fermionSplitting_pos h⟩,
    ⟨?_, hposi _ fun x h h1 => scalarSplitting_pos h h1⟩, fun h => ⟨hzero _ h, hzero _ h⟩⟩
  · intro h
    by_contra hc
    have := hzero fermionSplitting hc
    unfold apFermion at h
    linarith
  · intro h
    by_contra hc
    have := hzero scalarSplitting hc
    unfold apScalar at h
    linarith

/-- C33: non-negative for every positive photon energy, any charge. -/
theorem ap_nonneg (alpha e Q m q : ℝ) (ha : 0 < alpha) (hQ : 0 < Q) (hm : 0 < m) (he : 0 < e) :
    0 ≤ apFermion alpha e (Q ^ 2) m q ∧ 0 ≤ apScalar alpha e (Q ^ 2) m q := by
  rcases eq_or_ne q 0 with rfl | hq
  · unfold apFermion apScalar dndePhotonFsr dndxPhotonFsr
    constructor <;> simp
  · obtain ⟨h1, h2, h3⟩ := ap_support alpha e Q m q ha hQ hm he hq
    by_cases h : e < (Q ^ 2 - Real.exp 1 * m ^ 2) / (2 * Q)
    · exact ⟨(h1.mpr h).le, (h2.mpr h).le⟩
    · exact ⟨(h3 h).1.ge, (h3 h).2.ge⟩

/-- C33: proportional to the squared charge. -/
theorem ap_charge_sq (alpha e s m q : ℝ) :
    apFermion alpha e s m q = q ^ 2 * apFermion alpha e s m 1
    ∧ apScalar alpha e s m q = q ^ 2 * apScalar alpha e s m 1 := by
  unfold apFermion apScalar dndePhotonFsr dndxPhotonFsr
  constructor <;> ring

/-- C33: scalars radiate less than fermions; the difference is the `x` term of the splitting
function. -/
theorem ap_scalar_le_fermion (alpha e Q m q : ℝ) (ha : 0 < alpha) (hQ : 0 < Q) (hm : 0 < m)
    (he : 0 < e) : apScalar alpha e (Q ^ 2) m q ≤ apFermion alpha e (Q ^ 2) m q := by
  rcases eq_or_ne q 0 with rfl | hq
  · unfold apFermion apScalar dndePhotonFsr dndxPhotonFsr; simp
  · by_cases h : e < (Q ^ 2 - Real.exp 1 * m ^ 2) / (2 * Q)
    · have h2 : 2 * e < Q := by
        rw [lt_div_iff₀ (by positivity)] at h
        by_contra hc
        have : Q * Q ≤ 2 * e * Q := mul_le_mul_of_nonneg_right (not_lt.mp hc) hQ.le
        nlinarith [mul_pos (Real.exp_pos 1) (pow_pos hm 2)]
      unfold apScalar apFermion
      rw [ap_formula alpha e Q m q _ hQ hm h2, ap_formula alpha e Q m q _ hQ hm h2]
      have hpi := Real.pi_pos
      have hx : 0 < 2 * e / Q := by positivity
      have : scalarSplitting (2 * e / Q) ≤ fermionSplitting (2 * e / Q) := by
        unfold scalarSplitting fermionSplitting
        gcongr
        nlinarith [sq_nonneg (2 * e / Q)]
      gcongr
    · obtain ⟨-, -, h3⟩ := ap_support alpha e Q m q ha hQ hm he hq
      rw [(h3 h).1, (h3 h).2]

/-- C34: the deprecated functions give exactly the pair: twice the single-particle spectrum. -/
theorem deprecated_ap_is_pair (alpha e Q m : ℝ) (hQ : 0 < Q) (hm : 0 < m) :
    oldApFermion alpha e Q m = 2 * apFermion alpha e (Q ^ 2) m 1
    ∧ oldApScalar alpha e Q m = 2 * apScalar alpha e (Q ^ 2) m 1 := by
  have hm2 : 0 < m ^ 2 := by positivity
  have key : ∀ split, dndeAltarelliParisi alpha e Q m split
      = 2 * dndePhotonFsr alpha e (Q ^ 2) m split 1 := by
    intro split
    unfold dndeAltarelliParisi dndePhotonFsr dndxPhotonFsr
    have hx : e * (2 / Q) = 2 * e / Q := by ring
    simp only [Real.sqrt_sq hQ.le, hx]
    obtain ⟨x, hxd⟩ : ∃ x, x = 2 * e / Q := ⟨_, rfl⟩
    rw [← hxd]
    have harg : (1 - x) / (m / Q) ^ 2 = Q ^ 2 * (1 - x) / m ^ 2 := by field_simp
    rw [harg]
    have hc : x > 1 - Real.exp 1 * (m / Q) ^ 2 ↔ Q ^ 2 * (1 - x) / m ^ 2 < Real.exp 1 := by
      rw [div_lt_iff₀ hm2, div_pow]
      constructor
      · intro h
        have : Q ^ 2 * (1 - x) < Q ^ 2 * (Real.exp 1 * (m ^ 2 / Q ^ 2)) :=
          mul_lt_mul_of_pos_left (by linarith) (by positivity)
        calc _ < _ := this
          _ = _ := by field_simp
      · intro h
        have h2 : Q ^ 2 * (1 - x) < Q ^ 2 * (Real.exp 1 * (m ^ 2 / Q ^ 2)) := by
          calc _ < _ := h
            _ = _ := by field_simp
        have := lt_of_mul_lt_mul_left h2 (by positivity)
        linarith
    have hpi := Real.pi_pos
    by_cases h1 : Q ^ 2 * (1 - x) / m ^ 2 < Real.exp 1
    · rw [if_pos (hc.mpr h1), if_neg (by linarith)]; ring
    · rw [if_neg (fun h => h1 (hc.mp h))]
      by_cases h2 : Q ^ 2 * (1 - x) / m ^ 2 > Real.exp 1
      · rw [if_pos h2]; field_simp
      · have : Q ^ 2 * (1 - x) / m ^ 2 = Real.exp 1 := le_antisymm (not_lt.mp h2) (not_lt.mp h1)
        rw [if_neg h2, this, Real.log_exp]; ring
  exact ⟨key _, key _⟩

/-- A 1 GeV process radiating a 100 MeV photon off a muon-like particle is inside the support. -/
example : 0 < apFermion (1 / 137) 100 (1000 ^ 2) 106 1 ∧ 0 < apScalar (1 / 137) 100 (1000 ^ 2) 106 1
    ∧ apFermion (1 / 137) 490 (1000 ^ 2) 106 1 = 0 := by
  have h1 := ap_support (1 / 137) 100 1000 106 1 (by norm_num) (by norm_num) (by norm_num)
    (by norm_num) one_ne_zero
  have h2 := ap_support (1 / 137) 490 1000 106 1 (by norm_num) (by norm_num) (by norm_num)
    (by norm_num) one_ne_zero
  have hlt := Real.exp_one_lt_d9
  have hgt := Real.exp_one_gt_d9
  refine ⟨h1.1.mpr ?_, h1.2.1.mpr ?_, (h2.2.2 ?_).1⟩
  · rw [lt_div_iff₀ (by norm_num)]; norm_num at *; linarith
  · rw [lt_div_iff₀ (by norm_num)]; norm_num at *; linarith
  · rw [lt_div_iff₀ (by norm_num)]; norm_num at *; linarith

end Hazma.AltarelliParisi
