import Verif.Lemmas.PhaseThree
import Verif.Props.RamboUnbiased
import Verif.Props.ThreeBody
import Verif.Props.Kinematics
import Mathlib.Tactic

/-! # Two- and three-body quadratures compute Lorentz-invariant phase space

Lorentz-invariant phase space is `∏ d³pᵢ/((2π)³ 2Eᵢ) (2π)⁴ δ⁴(P - Σ pᵢ)`.  Momentum conservation fixes the last momentum and the
energy delta function is tested with an arbitrary function `g` of the centre-of-mass energy.
-/

namespace Hazma.PhaseSpaceMeasure

open MeasureTheory Set Hazma.RamboMeasure Hazma.RamboUnbiased Hazma.ThreeBody Hazma.Kinematics
open scoped ENNReal

/-! ### Specification -/

/-- Squared invariant mass of two particles. -/
noncomputable def pairMassSq (ma mb : ℝ) (pa pb : V) : ℝ := (energy ma pa + energy mb pb) ^ 2 - ‖pa + pb‖ ^ 2

/-! ### Helper lemmas -/

theorem third_iff {m1 m2 m3 E1 E2 E3 : ℝ} (n1 : 0 ≤ m1) (n2 : 0 ≤ m2) (n3 : 0 ≤ m3) (h1 : m1 ≤ E1) (h2 : m2 ≤ E2) :
    E3 ∈ third m1 m2 m3 E1 E2 ↔ Dalitz (E3 + (E1 + E2)) m1 m2 m3 E1 E2 := by
  have k1 : 0 ≤ E1 ^ 2 - m1 ^ 2 := by nlinarith
  have k2 : 0 ≤ E2 ^ 2 - m2 ^ 2 := by nlinarith
  unfold third
  obtain ⟨p, hp⟩ : ∃ p, p = Real.sqrt (E1 ^ 2 - m1 ^ 2) := ⟨_, rfl⟩
  obtain ⟨q, hq⟩ : ∃ q, q = Real.sqrt (E2 ^ 2 - m2 ^ 2) := ⟨_, rfl⟩
  have hp0 : 0 ≤ p := hp ▸ Real.sqrt_nonneg _
  have hq0 : 0 ≤ q := hq ▸ Real.sqrt_nonneg _
  have hp2 : p ^ 2 = E1 ^ 2 - m1 ^ 2 := by rw [hp, Real.sq_sqrt k1]
  have hq2 : q ^ 2 = E2 ^ 2 - m2 ^ 2 := by rw [hq, Real.sq_sqrt k2]
  rw [← hp, ← hq, mem_Icc]
  have hdot : dot12 (E3 + (E1 + E2)) m1 m2 m3 E1 E2 = (E3 ^ 2 - m3 ^ 2 - p ^ 2 - q ^ 2) / 2 := by
    unfold dot12; rw [hp2, hq2]; ring
  constructor
  · rintro ⟨a, b⟩
    have hE3 : 0 ≤ E3 := (Real.sqrt_nonneg _).trans a
    have a' := (Real.sqrt_le_left hE3).mp a
    have b' := (Real.le_sqrt hE3 (by positivity)).mp b
    refine ⟨h1, h2, ?_, ?_⟩
    · have : m3 ≤ E3 := by
        have hh : m3 ^ 2 ≤ E3 ^ 2 := by nlinarith [sq_nonneg (p - q)]
        exact (sq_le_sq₀ n3 hE3).mp hh
      linarith
    · rw [hdot, ← hp2, ← hq2, ← mul_pow]
      exact sq_le_sq' (by nlinarith) (by nlinarith)
  · rintro ⟨-, -, h3, hc⟩
    have h3' : m3 ≤ E3 := by linarith
    have hE3 : 0 ≤ E3 := n3.trans h3'
    rw [hdot, ← hp2, ← hq2, ← mul_pow] at hc
    have hab := abs_le_of_sq_le_sq' hc (mul_nonneg hp0 hq0)
    exact ⟨(Real.sqrt_le_left hE3).mpr (by nlinarith [hab.1]), (Real.le_sqrt hE3 (by positivity)).mpr (by nlinarith [hab.2])⟩

/-- The Dalitz region as a set in the energies. -/
def region (m1 m2 m3 : ℝ) : Set (ℝ × ℝ × ℝ) := {x | Dalitz x.1 m1 m2 m3 x.2.1 x.2.2}

theorem region_measurable (m1 m2 m3 : ℝ) : MeasurableSet (region m1 m2 m3) := by
  have : region m1 m2 m3 = {x : ℝ × ℝ × ℝ | m1 ≤ x.2.1} ∩ {x | m2 ≤ x.2.2} ∩ {x | m3 ≤ x.1 - x.2.1 - x.2.2}
      ∩ {x | dot12 x.1 m1 m2 m3 x.2.1 x.2.2 ^ 2 ≤ (x.2.1 ^ 2 - m1 ^ 2) * (x.2.2 ^ 2 - m2 ^ 2)} := by
    ext x
    constructor
    · rintro ⟨a, b, c, d⟩; exact ⟨⟨⟨a, b⟩, c⟩, d⟩
    · rintro ⟨⟨⟨a, b⟩, c⟩, d⟩; exact ⟨a, b, c, d⟩
  rw [this]
  unfold dot12
  refine MeasurableSet.inter (MeasurableSet.inter (MeasurableSet.inter ?_ ?_) ?_) ?_ <;>
    exact measurableSet_le (by fun_prop) (by fun_prop)

theorem energies_dalitz {m1 m2 m3 : ℝ} (n1 : 0 ≤ m1) (n2 : 0 ≤ m2) (n3 : 0 ≤ m3) {Ψ : ℝ × ℝ × ℝ → ℝ≥0∞} (hΨ : Measurable Ψ) :
    ∫⁻ E1 in Ici m1, ∫⁻ E2 in Ici m2, ∫⁻ E3 in third m1 m2 m3 E1 E2, Ψ (E3 + (E1 + E2), E1, E2)
      = ∫⁻ Q in Ioi (m1 + m2 + m3), ∫⁻ E1, ∫⁻ E2, (region m1 m2 m3).indicator Ψ (Q, E1, E2) := by
  have hR := region_measurable m1 m2 m3
  have hI : Measurable ((region m1 m2 m3).indicator Ψ) := hΨ.indicator hR
  obtain ⟨I, hIe⟩ : ∃ I, I = (region m1 m2 m3).indicator Ψ := ⟨_, rfl⟩
  rw [← hIe] at hI ⊢
  have hz : ∀ Q E1 E2, ¬ Dalitz Q m1 m2 m3 E1 E2 → I (Q, E1, E2) = 0 := by
    intro Q E1 E2 h
    rw [hIe]
    exact indicator_of_notMem (show (Q, E1, E2) ∉ region m1 m2 m3 from h) _
  have h3 : ∀ E1 ∈ Ici m1, ∀ E2 ∈ Ici m2, ∫⁻ E3 in third m1 m2 m3 E1 E2, Ψ (E3 + (E1 + E2), E1, E2) = ∫⁻ Q, I (Q, E1, E2) := by
    intro E1 h1 E2 h2
    rw [← lintegral_indicator (by unfold third; exact measurableSet_Icc), ← lintegral_add_right_eq_self (fun Q => I (Q, E1, E2)) (E1 + E2)]
    refine lintegral_congr fun E3 => ?_
    by_cases h : E3 ∈ third m1 m2 m3 E1 E2
    · rw [indicator_of_mem h, hIe, indicator_of_mem (show (E3 + (E1 + E2), E1, E2) ∈ region m1 m2 m3 from (third_iff n1 n2 n3 h1 h2).mp h)]
    · rw [indicator_of_notMem h, hz _ _ _ fun hd => h ((third_iff n1 n2 n3 h1 h2).mpr hd)]
  have h2 : ∀ E1 ∈ Ici m1, ∫⁻ E2 in Ici m2, ∫⁻ E3 in third m1 m2 m3 E1 E2, Ψ (E3 + (E1 + E2), E1, E2) = ∫⁻ E2, ∫⁻ Q, I (Q, E1, E2) := by
    intro E1 h1
    rw [← lintegral_indicator measurableSet_Ici]
    refine lintegral_congr fun E2 => ?_
    by_cases h : E2 ∈ Ici m2
    · rw [indicator_of_mem h, h3 E1 h1 E2 h]
    · rw [indicator_of_notMem h]
      have : ∀ Q, I (Q, E1, E2) = 0 := fun Q => hz _ _ _ fun hd => h hd.h2
      simp [this]
  have h1 : ∫⁻ E1 in Ici m1, ∫⁻ E2 in Ici m2, ∫⁻ E3 in third m1 m2 m3 E1 E2, Ψ (E3 + (E1 + E2), E1, E2) = ∫⁻ E1, ∫⁻ E2, ∫⁻ Q, I (Q, E1, E2) := by
    rw [← lintegral_indicator measurableSet_Ici]
    refine lintegral_congr fun E1 => ?_
    by_cases h : E1 ∈ Ici m1
    · rw [indicator_of_mem h, h2 E1 h]
    · rw [indicator_of_notMem h]
      have : ∀ E2 Q, I (Q, E1, E2) = 0 := fun E2 Q => hz _ _ _ fun hd => h hd.h1
      simp [this]
  rw [h1]
  have s1 : ∀ E1, ∫⁻ E2, ∫⁻ Q, I (Q, E1, E2) = ∫⁻ Q, ∫⁻ E2, I (Q, E1, E2) := by
    intro E1
    refine lintegral_lintegral_swap ?_
    have : Measurable fun x : ℝ × ℝ => I (x.2, E1, x.1) := hI.comp (by fun_prop)
    exact this.aemeasurable
  simp only [s1]
  have s2 : ∫⁻ E1, ∫⁻ Q, ∫⁻ E2, I (Q, E1, E2) = ∫⁻ Q, ∫⁻ E1, ∫⁻ E2, I (Q, E1, E2) := by
    refine lintegral_lintegral_swap ?_
    have h0 : Measurable fun x : (ℝ × ℝ) × ℝ => I (x.1.2, x.1.1, x.2) := hI.comp (by fun_prop)
    have : Measurable fun x : ℝ × ℝ => ∫⁻ E2, I (x.2, x.1, E2) := h0.lintegral_prod_right'
    exact this.aemeasurable
  rw [s2, restrict_Ioi_eq_restrict_Ici, ← lintegral_indicator measurableSet_Ici]
  refine lintegral_congr fun Q => ?_
  by_cases h : Q ∈ Ici (m1 + m2 + m3)
  · rw [indicator_of_mem h]
  · rw [indicator_of_notMem h]
    have : ∀ E1 E2, I (Q, E1, E2) = 0 := fun E1 E2 => hz _ _ _ fun hd => h (by
      have := hd.h1; have := hd.h2; have := hd.h3
      rw [mem_Ici]; linarith)
    simp [this]

theorem half_scale {Q : ℝ} (hQ : 0 < Q) {F : ℝ → ℝ≥0∞} (hF : Measurable F) :
    ∫⁻ E, F E = ENNReal.ofReal (Q / 2) * ∫⁻ x, F (Q * x / 2) := by
  have h := smul_lintegral (volume : Measure ℝ) (t := Q / 2) (by positivity) hF
  have e : ∀ x : ℝ, F ((Q / 2) • x) = F (Q * x / 2) := by
    intro x; congr 1; rw [smul_eq_mul]; ring
  simp only [e] at h
  rw [h, ← mul_assoc, ← ENNReal.ofReal_mul (by positivity), Module.finrank_self, pow_one, mul_inv_cancel₀ (by positivity), ENNReal.ofReal_one, one_mul]

theorem quad_nonneg {q m1 m2 m3 : ℝ} (n1 : 0 ≤ m1) (n2 : 0 ≤ m2) (n3 : 0 ≤ m3) (hopen : m1 + m2 + m3 < q) {M : Msqrd}
    (hpos : ∀ e1 e2, Dalitz q m1 m2 m3 e1 e2 → 0 ≤ M (q ^ 2 - 2 * q * e1 + m1 ^ 2) (q ^ 2 - 2 * q * e2 + m2 ^ 2)) :
    0 ≤ integrateQuad ⟨q, (m1, m2, m3), none, M⟩ := by
  have hpi := Real.pi_pos
  have hq : 0 < q := by linarith
  unfold integrateQuad
  simp only
  have := iterated_eq hq n1 n2 n3 hopen.le fun x y => M (q ^ 2 * (1 - x + (m1 / q) ^ 2)) (q ^ 2 * (1 - y + (m2 / q) ^ 2))
  rw [this]
  refine mul_nonneg (by positivity) (integral_nonneg fun x => integral_nonneg fun y => ?_)
  by_cases hz : (x, y) ∈ dalitzSet q m1 m2 m3
  · rw [indicator_of_mem hz]
    have h := hpos _ _ hz
    have e : ∀ x m : ℝ, q ^ 2 * (1 - x + (m / q) ^ 2) = q ^ 2 - 2 * q * (q * x / 2) + m ^ 2 := by
      intro x m; field_simp
    simp only [e]
    exact h
  · rw [indicator_of_notMem hz]
    exact le_rfl

/-- The quadrature as a Lebesgue integral over the Dalitz region. -/
theorem quad_lintegral {q m1 m2 m3 : ℝ} (n1 : 0 ≤ m1) (n2 : 0 ≤ m2) (n3 : 0 ≤ m3) (hopen : m1 + m2 + m3 < q) {M : Msqrd}
    (hM : Continuous fun z : ℝ × ℝ => M z.1 z.2)
    (hpos : ∀ e1 e2, Dalitz q m1 m2 m3 e1 e2 → 0 ≤ M (q ^ 2 - 2 * q * e1 + m1 ^ 2) (q ^ 2 - 2 * q * e2 + m2 ^ 2)) :
    ENNReal.ofReal (integrateQuad ⟨q, (m1, m2, m3), none, M⟩)
      = ENNReal.ofReal (1 / (32 * Real.pi ^ 3)) * ∫⁻ E1, ∫⁻ E2, (region m1 m2 m3).indicator
          (fun x => ENNReal.ofReal (M (x.1 ^ 2 - 2 * x.1 * x.2.1 + m1 ^ 2) (x.1 ^ 2 - 2 * x.1 * x.2.2 + m2 ^ 2))) (q, E1, E2) := by
  have hpi := Real.pi_pos
  have hq : 0 < q := by linarith
  have hR := region_measurable m1 m2 m3
  obtain ⟨h, hh⟩ : ∃ h : ℝ → ℝ → ℝ, h = fun x y => M (q ^ 2 * (1 - x + (m1 / q) ^ 2)) (q ^ 2 * (1 - y + (m2 / q) ^ 2)) := ⟨_, rfl⟩
  have hhc : Continuous fun z : ℝ × ℝ => h z.1 z.2 := by
    rw [hh]
    exact hM.comp (f := fun z : ℝ × ℝ => (q ^ 2 * (1 - z.1 + (m1 / q) ^ 2), q ^ 2 * (1 - z.2 + (m2 / q) ^ 2))) (by fun_prop)
  have hval : ∀ x y, h x y = M (q ^ 2 - 2 * q * (q * x / 2) + m1 ^ 2) (q ^ 2 - 2 * q * (q * y / 2) + m2 ^ 2) := by
    intro x y
    rw [hh]
    simp only
    congr 1 <;> field_simp
  have hint := dalitz_integrable hq n1 n2 n3 hhc
  have hquad : integrateQuad ⟨q, (m1, m2, m3), none, M⟩ = q ^ 2 / (128 * Real.pi ^ 3)
      * ∫ z, (dalitzSet q m1 m2 m3).indicator (fun z => h z.1 z.2) z ∂((volume : Measure ℝ).prod volume) := by
    unfold integrateQuad
    simp only
    have := iterated_eq hq n1 n2 n3 hopen.le h
    rw [hh] at this
    rw [this, ← hh, integral_prod _ hint]
  have hnn : ∀ z, 0 ≤ (dalitzSet q m1 m2 m3).indicator (fun z => h z.1 z.2) z := by
    intro z
    by_cases hz : z ∈ dalitzSet q m1 m2 m3
    · rw [indicator_of_mem hz, hval]
      exact hpos _ _ hz
    · rw [indicator_of_notMem hz]
  rw [hquad, ENNReal.ofReal_mul (by positivity), ofReal_integral_eq_lintegral_ofReal hint (Filter.Eventually.of_forall hnn)]
  have hmeas : Measurable fun z : ℝ × ℝ => ENNReal.ofReal ((dalitzSet q m1 m2 m3).indicator (fun z => h z.1 z.2) z) :=
    (hhc.measurable.indicator (dalitzSet_compact hq n1 n2 n3).measurableSet).ennreal_ofReal
  rw [lintegral_prod _ hmeas.aemeasurable]
  have hΨ : Measurable fun x : ℝ × ℝ × ℝ =>
      ENNReal.ofReal (M (x.1 ^ 2 - 2 * x.1 * x.2.1 + m1 ^ 2) (x.1 ^ 2 - 2 * x.1 * x.2.2 + m2 ^ 2)) := by
    have : Measurable fun x : ℝ × ℝ × ℝ => (x.1 ^ 2 - 2 * x.1 * x.2.1 + m1 ^ 2, x.1 ^ 2 - 2 * x.1 * x.2.2 + m2 ^ 2) := by fun_prop
    exact (hM.measurable.comp this).ennreal_ofReal
  obtain ⟨I, hIe⟩ : ∃ I, I = (region m1 m2 m3).indicator (fun x : ℝ × ℝ × ℝ =>
      ENNReal.ofReal (M (x.1 ^ 2 - 2 * x.1 * x.2.1 + m1 ^ 2) (x.1 ^ 2 - 2 * x.1 * x.2.2 + m2 ^ 2))) := ⟨_, rfl⟩
  have hI : Measurable I := hIe ▸ hΨ.indicator hR
  rw [← hIe]
  have hpt : ∀ x y, ENNReal.ofReal ((dalitzSet q m1 m2 m3).indicator (fun z => h z.1 z.2) (x, y)) = I (q, q * x / 2, q * y / 2) := by
    intro x y
    by_cases hz : (x, y) ∈ dalitzSet q m1 m2 m3
    · rw [indicator_of_mem hz, hIe, indicator_of_mem (show (q, q * x / 2, q * y / 2) ∈ region m1 m2 m3 from hz)]
      simp only
      rw [hval]
    · rw [indicator_of_notMem hz, hIe, indicator_of_notMem (show (q, q * x / 2, q * y / 2) ∉ region m1 m2 m3 from hz), ENNReal.ofReal_zero]
  simp only [hpt]
  have hA : Measurable fun E1 : ℝ => ∫⁻ E2, I (q, E1, E2) := by
    have h0 : Measurable fun x : ℝ × ℝ => I (q, x.1, x.2) := hI.comp (by fun_prop)
    exact h0.lintegral_prod_right'
  have hB : ∀ E1 : ℝ, Measurable fun E2 : ℝ => I (q, E1, E2) := fun E1 => hI.comp (by fun_prop)
  rw [half_scale hq hA]
  simp only [half_scale hq (hB _)]
  rw [lintegral_const_mul' _ _ ENNReal.ofReal_ne_top, ← mul_assoc, ← mul_assoc, ← ENNReal.ofReal_mul (by positivity), ← ENNReal.ofReal_mul (by positivity)]
  congr 2
  field_simp
  norm_num

/-- Momenta of given energies exist everywhere in the Dalitz region. -/
theorem dalitz_momenta {q m1 m2 m3 e1 e2 : ℝ} (n1 : 0 ≤ m1) (n2 : 0 ≤ m2) (n3 : 0 ≤ m3) (h : Dalitz q m1 m2 m3 e1 e2) :
    ∃ k : Fin 2 → V, enr m1 ‖k 0‖ = e1 ∧ enr m2 ‖k 1‖ = e2 ∧ enr m3 ‖k 0 + k 1‖ = q - e1 - e2 := by
  have k1 : 0 ≤ e1 ^ 2 - m1 ^ 2 := by nlinarith [h.h1]
  have k2 : 0 ≤ e2 ^ 2 - m2 ^ 2 := by nlinarith [h.h2]
  obtain ⟨a, ha⟩ : ∃ a, a = Real.sqrt (e1 ^ 2 - m1 ^ 2) := ⟨_, rfl⟩
  obtain ⟨b, hb⟩ : ∃ b, b = Real.sqrt (e2 ^ 2 - m2 ^ 2) := ⟨_, rfl⟩
  have ha2 : a ^ 2 = e1 ^ 2 - m1 ^ 2 := by rw [ha, Real.sq_sqrt k1]
  have hb2 : b ^ 2 = e2 ^ 2 - m2 ^ 2 := by rw [hb, Real.sq_sqrt k2]
  obtain ⟨c, hc⟩ : ∃ c, c = dot12 q m1 m2 m3 e1 e2 := ⟨_, rfl⟩
  have hcc : c ^ 2 ≤ (a * b) ^ 2 := by rw [mul_pow, ha2, hb2, hc]; exact h.hc
  obtain ⟨z, x, hz, hx⟩ : ∃ z x : ℝ, a * z = c ∧ x ^ 2 + z ^ 2 = b ^ 2 := by
    rcases eq_or_ne a 0 with h0 | h0
    · refine ⟨0, b, ?_, by ring⟩
      rw [h0] at hcc
      nlinarith [sq_nonneg c]
    · have ha0 : 0 < a ^ 2 := by positivity
      refine ⟨c / a, Real.sqrt (b ^ 2 - (c / a) ^ 2), by field_simp, ?_⟩
      rw [Real.sq_sqrt, sub_add_cancel]
      rw [div_pow, sub_nonneg, div_le_iff₀ ha0]
      nlinarith
  have hdot : a * z = (q ^ 2 + m1 ^ 2 + m2 ^ 2 - m3 ^ 2) / 2 - q * (e1 + e2) + e1 * e2 := by rw [hz, hc]; rfl
  have hs : vec 0 0 a + vec x 0 z = vec x 0 (a + z) := by
    unfold vec
    ext i
    fin_cases i <;> simp
  have key : ∀ m e w : ℝ, 0 ≤ e → w + m ^ 2 = e ^ 2 → 0 ≤ w → enr m (Real.sqrt w) = e := by
    intro m e w he hw hw0
    unfold enr
    rw [Real.sq_sqrt hw0, hw, Real.sqrt_sq he]
  refine ⟨![vec 0 0 a, vec x 0 z], ?_, ?_, ?_⟩
  · simp only [Matrix.cons_val_zero, vec_norm]
    exact key _ _ _ (n1.trans h.h1) (by linarith) (by positivity)
  · simp only [Matrix.cons_val_one, Matrix.cons_val_zero, vec_norm]
    exact key _ _ _ (n2.trans h.h2) (by linarith) (by positivity)
  · simp only [Matrix.cons_val_one, Matrix.cons_val_zero, hs, vec_norm]
    refine key _ _ _ (n3.trans h.h3) ?_ (by positivity)
    nlinarith

theorem atRest_zero (k : Fin 2 → V) : atRest k 0 = k 0 := by
  unfold atRest; exact Fin.snoc_castSucc (α := fun _ => V) _ _ (0 : Fin 2)

theorem atRest_one (k : Fin 2 → V) : atRest k 1 = k 1 := by
  unfold atRest; exact Fin.snoc_castSucc (α := fun _ => V) _ _ (1 : Fin 2)

theorem atRest_two (k : Fin 2 → V) : atRest k 2 = -(k 0 + k 1) := by
  unfold atRest
  have := Fin.snoc_last (α := fun _ => V) (-∑ i, k i) k
  rw [Fin.sum_univ_two] at this
  rw [Fin.sum_univ_two]
  exact this

theorem energy_enr (m : ℝ) (p : V) : energy m p = enr m ‖p‖ := rfl

theorem enr_sq (m : ℝ) (p : ℝ) : enr m p ^ 2 = p ^ 2 + m ^ 2 := Real.sq_sqrt (by positivity)

theorem pair12 (m : Fin 3 → ℝ) (k : Fin 2 → V) {Q : ℝ} (hQ : Q = enr (m 2) ‖k 0 + k 1‖ + (enr (m 0) ‖k 0‖ + enr (m 1) ‖k 1‖)) :
    pairMassSq (m 1) (m 2) (atRest k 1) (atRest k 2) = Q ^ 2 - 2 * Q * enr (m 0) ‖k 0‖ + m 0 ^ 2 := by
  unfold pairMassSq
  rw [atRest_one, atRest_two, energy_enr, energy_enr, norm_neg, show k 1 + -(k 0 + k 1) = -k 0 by abel, norm_neg, hQ]
  have := enr_sq (m 0) ‖k 0‖
  nlinarith

theorem pair02 (m : Fin 3 → ℝ) (k : Fin 2 → V) {Q : ℝ} (hQ : Q = enr (m 2) ‖k 0 + k 1‖ + (enr (m 0) ‖k 0‖ + enr (m 1) ‖k 1‖)) :
    pairMassSq (m 0) (m 2) (atRest k 0) (atRest k 2) = Q ^ 2 - 2 * Q * enr (m 1) ‖k 1‖ + m 1 ^ 2 := by
  unfold pairMassSq
  rw [atRest_zero, atRest_two, energy_enr, energy_enr, norm_neg, show k 0 + -(k 0 + k 1) = -k 1 by abel, norm_neg, hQ]
  have := enr_sq (m 1) ‖k 1‖
  nlinarith

theorem pos_dalitz {m : Fin 3 → ℝ} (hm : ∀ i, 0 ≤ m i) {M : Msqrd}
    (hpos : ∀ k : Fin 2 → V, 0 ≤ M (pairMassSq (m 1) (m 2) (atRest k 1) (atRest k 2)) (pairMassSq (m 0) (m 2) (atRest k 0) (atRest k 2))) {Q : ℝ} :
    ∀ e1 e2, Dalitz Q (m 0) (m 1) (m 2) e1 e2 → 0 ≤ M (Q ^ 2 - 2 * Q * e1 + m 0 ^ 2) (Q ^ 2 - 2 * Q * e2 + m 1 ^ 2) := by
  intro e1 e2 hd
  obtain ⟨k, h1, h2, h3⟩ := dalitz_momenta (hm 0) (hm 1) (hm 2) hd
  have hQk : Q = enr (m 2) ‖k 0 + k 1‖ + (enr (m 0) ‖k 0‖ + enr (m 1) ‖k 1‖) := by rw [h1, h2, h3]; ring
  have := hpos k
  rw [pair12 m k hQk, pair02 m k hQk, h1, h2] at this
  exact this

/-! ### C298 -/

/-- The three-body quadrature is Lorentz-invariant phase space of the squared matrix element. -/
theorem three_body_quadrature {m : Fin 3 → ℝ} (hm : ∀ i, 0 ≤ m i) {M : Msqrd} (hM : Continuous fun z : ℝ × ℝ => M z.1 z.2)
    (hpos : ∀ k : Fin 2 → V, 0 ≤ M (pairMassSq (m 1) (m 2) (atRest k 1) (atRest k 2)) (pairMassSq (m 0) (m 2) (atRest k 0) (atRest k 2)))
    {g : ℝ → ℝ≥0∞} (hg : Measurable g) :
    ∫⁻ Q in Ioi (∑ i, m i), g Q * ENNReal.ofReal (integrateQuad ⟨Q, (m 0, m 1, m 2), none, M⟩)
      = ENNReal.ofReal ((2 * Real.pi) ^ 4 / (2 * Real.pi) ^ 9) * ∫⁻ k : Fin 2 → V,
          ENNReal.ofReal (∏ i, 1 / (2 * energy (m i) (atRest k i)))
            * ENNReal.ofReal (M (pairMassSq (m 1) (m 2) (atRest k 1) (atRest k 2)) (pairMassSq (m 0) (m 2) (atRest k 0) (atRest k 2)))
            * g (∑ i, energy (m i) (atRest k i)) := by
  have hpi := Real.pi_pos
  have hR := region_measurable (m 0) (m 1) (m 2)
  obtain ⟨μ, hμ⟩ : ∃ μ : ℝ × ℝ × ℝ → ℝ≥0∞, μ = fun x =>
      ENNReal.ofReal (M (x.1 ^ 2 - 2 * x.1 * x.2.1 + m 0 ^ 2) (x.1 ^ 2 - 2 * x.1 * x.2.2 + m 1 ^ 2)) := ⟨_, rfl⟩
  have hμm : Measurable μ := by
    rw [hμ]
    have : Measurable fun x : ℝ × ℝ × ℝ => (x.1 ^ 2 - 2 * x.1 * x.2.1 + m 0 ^ 2, x.1 ^ 2 - 2 * x.1 * x.2.2 + m 1 ^ 2) := by fun_prop
    exact (hM.measurable.comp this).ennreal_ofReal
  have hΨ : Measurable fun x : ℝ × ℝ × ℝ => g x.1 * μ x := (hg.comp measurable_fst).mul hμm
  have hΦ : Measurable fun x : ℝ × ℝ × ℝ => (fun y : ℝ × ℝ × ℝ => g y.1 * μ y) (x.2.2 + (x.1 + x.2.1), x.1, x.2.1) :=
    hΨ.comp (by fun_prop)
  have hk : ∀ k : Fin 2 → V, ENNReal.ofReal (∏ i, 1 / (2 * energy (m i) (atRest k i)))
            * ENNReal.ofReal (M (pairMassSq (m 1) (m 2) (atRest k 1) (atRest k 2)) (pairMassSq (m 0) (m 2) (atRest k 0) (atRest k 2)))
            * g (∑ i, energy (m i) (atRest k i))
      = ENNReal.ofReal (1 / (8 * (enr (m 0) ‖k 0‖ * enr (m 1) ‖k 1‖ * enr (m 2) ‖k 0 + k 1‖)))
        * (fun E1 E2 E3 : ℝ => (fun y : ℝ × ℝ × ℝ => g y.1 * μ y) (E3 + (E1 + E2), E1, E2))
          (enr (m 0) ‖k 0‖) (enr (m 1) ‖k 1‖) (enr (m 2) ‖k 0 + k 1‖) := by
    intro k
    rw [pair12 m k rfl, pair02 m k rfl, Fin.prod_univ_three, Fin.sum_univ_three, atRest_zero, atRest_one, atRest_two,
      energy_enr, energy_enr, energy_enr, norm_neg, hμ]
    simp only
    rw [mul_assoc, mul_comm (ENNReal.ofReal (M _ _))]
    have e1 : ∀ a b c : ℝ, 1 / (2 * a) * (1 / (2 * b)) * (1 / (2 * c)) = 1 / (8 * (a * b * c)) := by
      intro a b c; ring
    have e2 : ∀ a b c : ℝ, a + b + c = c + (a + b) := by
      intro a b c; ring
    rw [e1, e2]
  simp only [hk]
  rw [three_energies (hm 0) (hm 1) (Φ := fun E1 E2 E3 : ℝ => (fun y : ℝ × ℝ × ℝ => g y.1 * μ y) (E3 + (E1 + E2), E1, E2)) hΦ]
  have he := energies_dalitz (hm 0) (hm 1) (hm 2) hΨ
  rw [he, ← Fin.sum_univ_three, ← mul_assoc, ← ENNReal.ofReal_mul (by positivity), ← lintegral_const_mul' _ _ ENNReal.ofReal_ne_top]
  refine setLIntegral_congr_fun measurableSet_Ioi fun Q hQ => ?_
  have hQ' : m 0 + m 1 + m 2 < Q := by rw [← Fin.sum_univ_three]; exact hQ
  rw [quad_lintegral (hm 0) (hm 1) (hm 2) hQ' hM ?_]
  · rw [← hμ]
    have hin : ∀ E1 E2, (region (m 0) (m 1) (m 2)).indicator (fun x : ℝ × ℝ × ℝ => g x.1 * μ x) (Q, E1, E2)
        = g Q * (region (m 0) (m 1) (m 2)).indicator μ (Q, E1, E2) := by
      intro E1 E2
      by_cases h : (Q, E1, E2) ∈ region (m 0) (m 1) (m 2)
      · rw [indicator_of_mem h, indicator_of_mem h]
      · rw [indicator_of_notMem h, indicator_of_notMem h, mul_zero]
    have hI : Measurable ((region (m 0) (m 1) (m 2)).indicator μ) := hμm.indicator hR
    generalize (region (m 0) (m 1) (m 2)).indicator μ = I at hin hI
    simp only [hin]
    have hB : ∀ E1 : ℝ, Measurable fun E2 : ℝ => I (Q, E1, E2) := fun E1 => hI.comp (by fun_prop)
    have hA : Measurable fun E1 : ℝ => ∫⁻ E2, I (Q, E1, E2) := by
      have h0 : Measurable fun x : ℝ × ℝ => I (Q, x.1, x.2) := hI.comp (by fun_prop)
      exact h0.lintegral_prod_right'
    simp only [lintegral_const_mul _ (hB _)]
    rw [lintegral_const_mul _ hA, mul_left_comm]
    congr 3
    field_simp
    norm_num
  · exact pos_dalitz hm hpos

/-- Quadrature and Monte Carlo agree: RAMBO events, averaged with their weights and the squared matrix element of their momenta, give
the three-body quadrature.  Missing: as for the averages of RAMBO events, the rescaling to the masses is the exact one. -/
theorem rambo_quadrature_partial {m : Fin 3 → ℝ} (hm : ∀ i, 0 ≤ m i) {xi : ℝ → List ℝ → ℝ} (hxi : ExactScale xi m) {M : Msqrd}
    (hM : Continuous fun z : ℝ × ℝ => M z.1 z.2)
    (hpos : ∀ k : Fin 2 → V, 0 ≤ M (pairMassSq (m 1) (m 2) (atRest k 1) (atRest k 2)) (pairMassSq (m 0) (m 2) (atRest k 0) (atRest k 2)))
    {g : ℝ → ℝ≥0∞} (hg : Measurable g) :
    ∫⁻ Q in Ioi (∑ i, m i), g Q * ∫⁻ d, ENNReal.ofReal (M (pairMassSq (m 1) (m 2) (momenta (n := 3) (event xi m Q d) 1) (momenta (n := 3) (event xi m Q d) 2))
            (pairMassSq (m 0) (m 2) (momenta (n := 3) (event xi m Q d) 0) (momenta (n := 3) (event xi m Q d) 2)))
          * ENNReal.ofReal (Hazma.Rambo.weight Q ((Hazma.Rambo.baseWeight Q 3).getD 0) 3 (event xi m Q d)) ∂draws 3
      = ∫⁻ Q in Ioi (∑ i, m i), g Q * ENNReal.ofReal (integrateQuad ⟨Q, (m 0, m 1, m 2), none, M⟩) := by
  have hf : Measurable fun p : Fin 3 → V => ENNReal.ofReal (M (pairMassSq (m 1) (m 2) (p 1) (p 2)) (pairMassSq (m 0) (m 2) (p 0) (p 2))) := by
    have : Measurable fun p : Fin 3 → V => (pairMassSq (m 1) (m 2) (p 1) (p 2), pairMassSq (m 0) (m 2) (p 0) (p 2)) := by
      unfold pairMassSq energy; fun_prop
    exact (hM.measurable.comp this).ennreal_ofReal
  rw [three_body_quadrature hm hM hpos hg]
  exact events_average_partial (N := 1) hm hxi hf hg

/-- The same at almost every centre-of-mass energy. -/
theorem rambo_quadrature_ae_partial {m : Fin 3 → ℝ} (hm : ∀ i, 0 ≤ m i) {xi : ℝ → List ℝ → ℝ} (hxi : ExactScale xi m) {M : Msqrd}
    (hM : Continuous fun z : ℝ × ℝ => M z.1 z.2)
    (hpos : ∀ k : Fin 2 → V, 0 ≤ M (pairMassSq (m 1) (m 2) (atRest k 1) (atRest k 2)) (pairMassSq (m 0) (m 2) (atRest k 0) (atRest k 2))) :
    ∀ᵐ Q ∂volume.restrict (Ioi (∑ i, m i)),
      ∫⁻ d, ENNReal.ofReal (M (pairMassSq (m 1) (m 2) (momenta (n := 3) (event xi m Q d) 1) (momenta (n := 3) (event xi m Q d) 2))
            (pairMassSq (m 0) (m 2) (momenta (n := 3) (event xi m Q d) 0) (momenta (n := 3) (event xi m Q d) 2)))
          * ENNReal.ofReal (Hazma.Rambo.weight Q ((Hazma.Rambo.baseWeight Q 3).getD 0) 3 (event xi m Q d)) ∂draws 3
        = ENNReal.ofReal (integrateQuad ⟨Q, (m 0, m 1, m 2), none, M⟩) := by
  have hf : Measurable fun p : Fin 3 → V => ENNReal.ofReal (M (pairMassSq (m 1) (m 2) (p 1) (p 2)) (pairMassSq (m 0) (m 2) (p 0) (p 2))) := by
    have : Measurable fun p : Fin 3 → V => (pairMassSq (m 1) (m 2) (p 1) (p 2), pairMassSq (m 0) (m 2) (p 0) (p 2)) := by
      unfold pairMassSq energy; fun_prop
    exact (hM.measurable.comp this).ennreal_ofReal
  have hq : AEMeasurable (fun Q => ENNReal.ofReal (integrateQuad ⟨Q, (m 0, m 1, m 2), none, M⟩)) (volume.restrict (Ioi (∑ i, m i))) := by
    have hΨ : Measurable fun x : ℝ × ℝ × ℝ =>
        ENNReal.ofReal (M (x.1 ^ 2 - 2 * x.1 * x.2.1 + m 0 ^ 2) (x.1 ^ 2 - 2 * x.1 * x.2.2 + m 1 ^ 2)) := by
      have : Measurable fun x : ℝ × ℝ × ℝ => (x.1 ^ 2 - 2 * x.1 * x.2.1 + m 0 ^ 2, x.1 ^ 2 - 2 * x.1 * x.2.2 + m 1 ^ 2) := by fun_prop
      exact (hM.measurable.comp this).ennreal_ofReal
    have hI := hΨ.indicator (region_measurable (m 0) (m 1) (m 2))
    refine AEMeasurable.congr (f := fun Q => ENNReal.ofReal (1 / (32 * Real.pi ^ 3)) * ∫⁻ E1, ∫⁻ E2, (region (m 0) (m 1) (m 2)).indicator
          (fun x => ENNReal.ofReal (M (x.1 ^ 2 - 2 * x.1 * x.2.1 + m 0 ^ 2) (x.1 ^ 2 - 2 * x.1 * x.2.2 + m 1 ^ 2))) (Q, E1, E2)) ?_ ?_
    · obtain ⟨I, hIe⟩ : ∃ I, I = (region (m 0) (m 1) (m 2)).indicator (fun x : ℝ × ℝ × ℝ =>
          ENNReal.ofReal (M (x.1 ^ 2 - 2 * x.1 * x.2.1 + m 0 ^ 2) (x.1 ^ 2 - 2 * x.1 * x.2.2 + m 1 ^ 2))) := ⟨_, rfl⟩
      rw [← hIe] at hI ⊢
      refine Measurable.aemeasurable (Measurable.const_mul ?_ _)
      have h1 : Measurable fun x : (ℝ × ℝ) × ℝ => I (x.1.1, x.1.2, x.2) := hI.comp (by fun_prop)
      have h2 : Measurable fun x : ℝ × ℝ => ∫⁻ E2, I (x.1, x.2, E2) := h1.lintegral_prod_right'
      exact h2.lintegral_prod_right'
    · refine (ae_restrict_iff' measurableSet_Ioi).mpr (Filter.Eventually.of_forall fun Q hQ => ?_)
      have hQ' : m 0 + m 1 + m 2 < Q := by rw [← Fin.sum_univ_three]; exact hQ
      exact (quad_lintegral (hm 0) (hm 1) (hm 2) hQ' hM (pos_dalitz hm hpos)).symm
  have hr : AEMeasurable (fun Q => ∫⁻ d, ENNReal.ofReal (M (pairMassSq (m 1) (m 2) (momenta (n := 3) (event xi m Q d) 1) (momenta (n := 3) (event xi m Q d) 2))
            (pairMassSq (m 0) (m 2) (momenta (n := 3) (event xi m Q d) 0) (momenta (n := 3) (event xi m Q d) 2)))
          * ENNReal.ofReal (Hazma.Rambo.weight Q ((Hazma.Rambo.baseWeight Q 3).getD 0) 3 (event xi m Q d)) ∂draws 3)
        (volume.restrict (Ioi (∑ i, m i))) := by
    have ho := obs_measurable (N := 1) hm hf
    refine AEMeasurable.congr (f := fun Q => ∫⁻ q : Fin 3 → V, ENNReal.ofReal (∏ i, rho (q i)) * obs m
      (fun p : Fin 3 → V => ENNReal.ofReal (M (pairMassSq (m 1) (m 2) (p 1) (p 2)) (pairMassSq (m 0) (m 2) (p 0) (p 2)))) Q (cmom q)) ?_ ?_
    · generalize obs m _ = F at ho
      have hc : Measurable fun x : ℝ × (Fin 3 → V) => (x.1, cmom (N := 2) x.2) := measurable_fst.prodMk (cmom_measurable.comp measurable_snd)
      have hp : Measurable fun x : ℝ × (Fin 3 → V) => ENNReal.ofReal (∏ i, rho (x.2 i)) :=
        Measurable.ennreal_ofReal (Finset.measurable_prod _ fun i _ => rho_measurable.comp (by fun_prop))
      have h1 : Measurable fun x : ℝ × (Fin 3 → V) => ENNReal.ofReal (∏ i, rho (x.2 i)) * F x.1 (cmom (N := 2) x.2) := hp.mul (ho.comp hc)
      exact h1.lintegral_prod_right'.aemeasurable
    · refine (ae_restrict_iff' measurableSet_Ioi).mpr (Filter.Eventually.of_forall fun Q hQ => ?_)
      exact (event_lintegral (N := 1) hm hxi hf hQ).symm
  refine ae_eq_of_forall_setLIntegral_eq_of_sigmaFinite₀ hr hq fun s hs _ => ?_
  have h := rambo_quadrature_partial hm hxi hM hpos (g := s.indicator fun _ => 1) (measurable_const.indicator hs)
  have hone : ∀ (Q : ℝ) (X : ℝ → ℝ≥0∞), s.indicator (fun _ => 1) Q * X Q = s.indicator X Q := by
    intro Q X
    by_cases hQ : Q ∈ s
    · rw [indicator_of_mem hQ, indicator_of_mem hQ, one_mul]
    · rw [indicator_of_notMem hQ, indicator_of_notMem hQ, zero_mul]
  have key : ∀ X : ℝ → ℝ≥0∞, ∫⁻ Q in Ioi (∑ i, m i), s.indicator (fun _ => 1) Q * X Q = ∫⁻ Q in s, X Q ∂(volume.restrict (Ioi (∑ i, m i))) := by
    intro X
    rw [← lintegral_indicator hs, lintegral_congr fun Q => hone Q X]
  exact (key _).symm.trans (h.trans (key _))

/-- For massless particles the events and weights are those that `generate` returns. -/
theorem generate_quadrature_massless {eps : ℝ} {S : ℝ → Hazma.Rambo.State}
    (hS : ∀ Q, 0 < Q → Hazma.Rambo.create Q (List.replicate 3 0) = some (S Q)) {M : Msqrd} (hM : Continuous fun z : ℝ × ℝ => M z.1 z.2)
    (hpos : ∀ k : Fin 2 → V, 0 ≤ M (pairMassSq 0 0 (atRest k 1) (atRest k 2)) (pairMassSq 0 0 (atRest k 0) (atRest k 2))) :
    ∀ᵐ Q ∂volume.restrict (Ioi (0 : ℝ)),
      ∫⁻ d, (List.zipWith (fun ev w => ENNReal.ofReal (M (pairMassSq 0 0 (momenta (n := 3) ev 1) (momenta (n := 3) ev 2))
              (pairMassSq 0 0 (momenta (n := 3) ev 0) (momenta (n := 3) ev 2))) * ENNReal.ofReal w)
          (Hazma.Rambo.generate (S Q) eps [List.ofFn fun i => toDraw (d i)]).1 (Hazma.Rambo.generate (S Q) eps [List.ofFn fun i => toDraw (d i)]).2).sum ∂draws 3
        = ENNReal.ofReal (integrateQuad ⟨Q, (0, 0, 0), none, M⟩) := by
  have h := rambo_quadrature_ae_partial (m := fun _ => 0) (fun _ => le_rfl) (exactScale_massless 3) hM hpos
  rw [Finset.sum_const_zero] at h
  filter_upwards [h, ae_restrict_mem measurableSet_Ioi] with Q hQ hQ0
  rw [← hQ]
  refine lintegral_congr_ae ?_
  filter_upwards [draws_good 1, draws_range 3] with d hd hr
  rw [generate_massless hQ0 (hS Q hQ0) hr hd]
  simp

/-- The two-body formula is Lorentz-invariant phase space of a squared matrix element that depends on the polar angle of the first
particle. -/
theorem two_body_formula {m : Fin 2 → ℝ} (hm : ∀ i, 0 ≤ m i) {M : ℝ → ℝ} (hM : Continuous M) (hpos : ∀ z ∈ Icc (-1 : ℝ) 1, 0 ≤ M z)
    {g : ℝ → ℝ≥0∞} (hg : Measurable g) {I : ℝ → ℝ} (hI : ∀ Q, ∑ i, m i < Q → twoBodyIntegrate Q (m 0) (m 1) M = .num (I Q)) :
    ∫⁻ Q in Ioi (∑ i, m i), g Q * ENNReal.ofReal (I Q)
      = ENNReal.ofReal ((2 * Real.pi) ^ 4 / (2 * Real.pi) ^ 6) * ∫⁻ k : Fin 1 → V,
          ENNReal.ofReal (∏ i, 1 / (2 * energy (m i) (atRest k i))) * ENNReal.ofReal (M (atRest k 0 2 / ‖atRest k 0‖))
            * g (∑ i, energy (m i) (atRest k i)) := by
  have hpi := Real.pi_pos
  have ha : ∀ i : Fin 2, 0 < (fun _ => 1 : Fin 2 → ℝ) i := fun _ => one_pos
  have het : ∀ p : ℝ, etot m (fun _ => 1) p = enr (m 0) p + enr (m 1) p := by
    intro p; unfold etot enr; rw [Fin.sum_univ_two]; simp
  have hint0 : 0 ≤ ∫ z in (-1 : ℝ)..1, M z := intervalIntegral.integral_nonneg (by norm_num) hpos
  -- the angular integral
  have hang : ∫⁻ c in Ioo (-1 : ℝ) 1, ENNReal.ofReal (M c) = ENNReal.ofReal (∫ z in (-1 : ℝ)..1, M z) := by
    rw [intervalIntegral.integral_of_le (by norm_num), integral_Ioc_eq_integral_Ioo, ofReal_integral_eq_lintegral_ofReal]
    · exact (hM.integrableOn_Icc).mono_set Ioo_subset_Icc_self
    · exact (ae_restrict_iff' measurableSet_Ioo).mpr (Filter.Eventually.of_forall fun z hz => hpos z ⟨hz.1.le, hz.2.le⟩)
  -- the right-hand side in terms of the momentum
  have hR : ∫⁻ k : Fin 1 → V, ENNReal.ofReal (∏ i, 1 / (2 * energy (m i) (atRest k i))) * ENNReal.ofReal (M (atRest k 0 2 / ‖atRest k 0‖))
            * g (∑ i, energy (m i) (atRest k i))
      = ∫⁻ v : V, ENNReal.ofReal (1 / (4 * (enr (m 0) ‖v‖ * enr (m 1) ‖v‖))) * ENNReal.ofReal (M (inner ℝ (vec 0 0 1) v / ‖v‖))
            * g (enr (m 0) ‖v‖ + enr (m 1) ‖v‖) := by
    have hen : ∀ m : ℝ, Measurable (enr m) := fun m => by unfold enr; fun_prop
    have hm0 := hen (m 0)
    have hm1 := hen (m 1)
    have hmeas : Measurable fun v : V => ENNReal.ofReal (1 / (4 * (enr (m 0) ‖v‖ * enr (m 1) ‖v‖))) * ENNReal.ofReal (M (inner ℝ (vec 0 0 1) v / ‖v‖))
            * g (enr (m 0) ‖v‖ + enr (m 1) ‖v‖) := by
      refine Measurable.mul (Measurable.mul (by fun_prop) (Measurable.ennreal_ofReal (hM.measurable.comp (by fun_prop)))) (hg.comp (by fun_prop))
    rw [← (volume_preserving_funUnique (Fin 1) V).lintegral_comp hmeas]
    refine lintegral_congr fun k => ?_
    have r0 : atRest k 0 = k 0 := by
      unfold atRest; exact Fin.snoc_castSucc (α := fun _ => V) _ _ (0 : Fin 1)
    have r1 : atRest k 1 = -k 0 := by
      unfold atRest
      have := Fin.snoc_last (α := fun _ => V) (-∑ i, k i) k
      rw [Fin.sum_univ_one] at this
      rw [Fin.sum_univ_one]
      exact this
    have hu : (MeasurableEquiv.funUnique (Fin 1) V) k = k 0 := rfl
    rw [hu, Fin.prod_univ_two, Fin.sum_univ_two, r0, r1, energy_enr, energy_enr, norm_neg]
    have hz : inner ℝ (vec 0 0 1) (k 0) = k 0 2 := by
      rw [inner3]; unfold vec; simp
    rw [hz]
    congr 3
    ring
  rw [hR]
  have hen : ∀ m : ℝ, Measurable (enr m) := fun m => by unfold enr; fun_prop
  have hm0 := hen (m 0)
  have hm1 := hen (m 1)
  have hF : Measurable (Function.uncurry fun r i : ℝ => ENNReal.ofReal (1 / (4 * (enr (m 0) r * enr (m 1) r))) * ENNReal.ofReal (M (i / r))
      * g (enr (m 0) r + enr (m 1) r)) := by
    refine Measurable.mul (Measurable.mul (by fun_prop) (Measurable.ennreal_ofReal (hM.measurable.comp (by fun_prop)))) (hg.comp (by fun_prop))
  have hv1 : ‖vec 0 0 1‖ = 1 := by rw [vec_norm]; simp
  rw [axis_lintegral (vec 0 0 1) hF, hv1]
  -- the left-hand side in terms of the momentum
  have hL : ∫⁻ Q in Ioi (∑ i, m i), g Q * ENNReal.ofReal (I Q)
      = ∫⁻ p in Ioi (0 : ℝ), ENNReal.ofReal (p * ∑ i, (1 : ℝ) ^ 2 / Real.sqrt ((p * 1) ^ 2 + m i ^ 2))
        * (g (etot m (fun _ => 1) p) * ENNReal.ofReal (I (etot m (fun _ => 1) p))) := by
    rw [← etot_image m (fun _ => 1) hm ha, lintegral_image_eq_lintegral_abs_deriv_mul measurableSet_Ioi
      (fun t ht => (etot_deriv m (fun _ => 1) ha ht).hasDerivWithinAt)
      ((etot_mono m (fun _ => 1) ha).injOn.mono Ioi_subset_Ici_self)]
    refine setLIntegral_congr_fun measurableSet_Ioi fun p hp => ?_
    have hp0 : 0 < p := hp
    have hnn : 0 ≤ p * ∑ i, (1 : ℝ) ^ 2 / Real.sqrt ((p * 1) ^ 2 + m i ^ 2) :=
      mul_nonneg hp0.le (Finset.sum_nonneg fun i _ => by positivity)
    rw [abs_of_nonneg hnn]
  rw [hL, ← mul_assoc, ← ENNReal.ofReal_mul (by positivity), ← lintegral_const_mul' _ _ ENNReal.ofReal_ne_top]
  refine setLIntegral_congr_fun measurableSet_Ioi fun p hp => ?_
  have hp0 : 0 < p := hp
  have hE0 : 0 < enr (m 0) p := Real.sqrt_pos.mpr (by positivity)
  have hE1 : 0 < enr (m 1) p := Real.sqrt_pos.mpr (by positivity)
  have hQ : ∑ i, m i < etot m (fun _ => 1) p := by
    rw [← etot_zero m (fun _ => 1) hm]
    exact etot_mono m _ ha self_mem_Ici (Ioi_subset_Ici_self hp) hp
  have hIQ := hI _ hQ
  rw [het] at hIQ hQ ⊢
  rw [Fin.sum_univ_two] at hQ
  obtain ⟨p', hp', hp'0, hsum, -, -⟩ := two_body_momentum_physical _ _ _ (hm 0) (hm 1) (add_pos hE0 hE1) hQ.le
  have hpp : p' = p := by
    have hmono := (etot_mono m (fun _ => 1) ha).injOn
    refine hmono hp'0 hp0.le ?_
    rw [het, het]
    exact hsum
  rw [hpp] at hp'
  have hIv : I (enr (m 0) p + enr (m 1) p) = (∫ z in (-1 : ℝ)..1, M z) * (1 / (8 * Real.pi) * p / (enr (m 0) p + enr (m 1) p)) := by
    unfold twoBodyIntegrate at hIQ
    rw [hp'] at hIQ
    exact (XReal.num.inj hIQ).symm
  rw [hIv]
  have hcin : ∀ c ∈ Ioo (-1 : ℝ) 1, ENNReal.ofReal (p ^ 2) * (ENNReal.ofReal (1 / (4 * (enr (m 0) p * enr (m 1) p))) * ENNReal.ofReal (M (1 * p * c / p))
      * g (enr (m 0) p + enr (m 1) p))
      = ENNReal.ofReal (p ^ 2 * (1 / (4 * (enr (m 0) p * enr (m 1) p)))) * g (enr (m 0) p + enr (m 1) p) * ENNReal.ofReal (M c) := by
    intro c _
    rw [ENNReal.ofReal_mul (by positivity), one_mul, mul_div_cancel_left₀ _ hp0.ne']
    ring
  rw [setLIntegral_congr_fun measurableSet_Ioo hcin, lintegral_const_mul _ hM.measurable.ennreal_ofReal, hang]
  have hs : ∑ i, (1 : ℝ) ^ 2 / Real.sqrt ((p * 1) ^ 2 + m i ^ 2) = 1 / enr (m 0) p + 1 / enr (m 1) p := by
    rw [Fin.sum_univ_two]; unfold enr; simp
  rw [hs]
  generalize (∫ z in (-1 : ℝ)..1, M z) = J at hint0
  generalize enr (m 0) p = E0 at hE0
  generalize enr (m 1) p = E1 at hE1
  generalize g (E0 + E1) = X
  have l : ENNReal.ofReal (p * (1 / E0 + 1 / E1)) * (X * ENNReal.ofReal (J * (1 / (8 * Real.pi) * p / (E0 + E1))))
      = ENNReal.ofReal (p * (1 / E0 + 1 / E1) * (J * (1 / (8 * Real.pi) * p / (E0 + E1)))) * X := by
    rw [ENNReal.ofReal_mul (p := p * (1 / E0 + 1 / E1)) (by positivity)]
    ring
  have r : ENNReal.ofReal ((2 * Real.pi) ^ 4 / (2 * Real.pi) ^ 6 * (2 * Real.pi)) * (ENNReal.ofReal (p ^ 2 * (1 / (4 * (E0 * E1)))) * X * ENNReal.ofReal J)
      = ENNReal.ofReal ((2 * Real.pi) ^ 4 / (2 * Real.pi) ^ 6 * (2 * Real.pi) * (p ^ 2 * (1 / (4 * (E0 * E1)))) * J) * X := by
    rw [ENNReal.ofReal_mul (q := J) (by positivity), ENNReal.ofReal_mul (q := p ^ 2 * (1 / (4 * (E0 * E1)))) (by positivity)]
    ring
  rw [l, r]
  congr 2
  field_simp
  ring

/-- The two-body formula returns a number at every energy above threshold. -/
theorem two_body_number {m : Fin 2 → ℝ} (hm : ∀ i, 0 ≤ m i) (M : ℝ → ℝ) : ∃ I : ℝ → ℝ, ∀ Q, ∑ i, m i < Q →
    twoBodyIntegrate Q (m 0) (m 1) M = .num (I Q) := by
  have h : ∀ Q, ∃ v : ℝ, ∑ i, m i < Q → twoBodyIntegrate Q (m 0) (m 1) M = .num v := by
    intro Q
    by_cases hQ : ∑ i, m i < Q
    · rw [Fin.sum_univ_two] at hQ
      obtain ⟨p, hp, -⟩ := two_body_momentum_physical Q _ _ (hm 0) (hm 1) (by linarith [hm 0, hm 1]) hQ.le
      refine ⟨(∫ z in (-1 : ℝ)..1, M z) * (1 / (8 * Real.pi) * p / Q), fun _ => ?_⟩
      unfold twoBodyIntegrate
      rw [hp]
    · exact ⟨0, fun h => absurd h hQ⟩
  exact ⟨fun Q => (h Q).choose, fun Q => (h Q).choose_spec⟩

/-- Three pions with an amplitude that grows with the mass of one pair: all hypotheses hold. -/
example : ∫⁻ Q in Ioi (∑ _i : Fin 3, (140 : ℝ)), 1 * ENNReal.ofReal (integrateQuad ⟨Q, (140, 140, 140), none, fun s _ => s ^ 2⟩)
      = ENNReal.ofReal ((2 * Real.pi) ^ 4 / (2 * Real.pi) ^ 9) * ∫⁻ k : Fin 2 → V,
          ENNReal.ofReal (∏ i, 1 / (2 * energy 140 (atRest k i))) * ENNReal.ofReal (pairMassSq 140 140 (atRest k 1) (atRest k 2) ^ 2) * 1 :=
  three_body_quadrature (m := fun _ => 140) (M := fun s _ => s ^ 2) (g := fun _ => 1) (by intro; norm_num) (by fun_prop) (by intro; positivity)
    measurable_const

/-- A pion and a muon emitted with the angular distribution `1 + z²`. -/
example : ∃ I : ℝ → ℝ, (∀ Q, 246 < Q → twoBodyIntegrate Q 140 106 (fun z => 1 + z ^ 2) = .num (I Q)) ∧
    ∫⁻ Q in Ioi (246 : ℝ), ENNReal.ofReal Q * ENNReal.ofReal (I Q)
      = ENNReal.ofReal ((2 * Real.pi) ^ 4 / (2 * Real.pi) ^ 6) * ∫⁻ k : Fin 1 → V,
          ENNReal.ofReal (∏ i, 1 / (2 * energy ((![140, 106] : Fin 2 → ℝ) i) (atRest k i)))
            * ENNReal.ofReal (1 + (atRest k 0 2 / ‖atRest k 0‖) ^ 2) * ENNReal.ofReal (∑ i, energy ((![140, 106] : Fin 2 → ℝ) i) (atRest k i)) := by
  have hm : ∀ i, 0 ≤ (![140, 106] : Fin 2 → ℝ) i := by intro i; fin_cases i <;> norm_num
  obtain ⟨I, hI⟩ := two_body_number hm fun z => 1 + z ^ 2
  have h := two_body_formula hm (M := fun z => 1 + z ^ 2) (by fun_prop) (fun z _ => by positivity) ENNReal.measurable_ofReal hI
  have hs : ∑ i, (![140, 106] : Fin 2 → ℝ) i = 246 := by rw [Fin.sum_univ_two]; norm_num
  rw [hs] at h hI
  exact ⟨I, hI, h⟩

end Hazma.PhaseSpaceMeasure
