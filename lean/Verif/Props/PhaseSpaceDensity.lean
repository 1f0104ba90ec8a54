import Verif.Props.PhaseSpaceMeasure
import Verif.Props.PhaseApi
import Mathlib.Tactic

/-! # Energy and invariant-mass distributions are marginals of Lorentz-invariant phase space -/

namespace Hazma.PhaseSpaceDensity

open MeasureTheory Set Hazma.RamboMeasure Hazma.RamboUnbiased Hazma.ThreeBody Hazma.Kinematics Hazma.PhaseSpaceMeasure Hazma.PhaseSpace
open scoped ENNReal

/-! ### Helper lemmas -/

/-- The squared matrix element as a function of the centre-of-mass energy and the first two energies. -/
noncomputable def mu (m : Fin 3 → ℝ) (M : Msqrd) (x : ℝ × ℝ × ℝ) : ℝ≥0∞ :=
  ENNReal.ofReal (M (x.1 ^ 2 - 2 * x.1 * x.2.1 + m 0 ^ 2) (x.1 ^ 2 - 2 * x.1 * x.2.2 + m 1 ^ 2))

theorem mu_measurable {m : Fin 3 → ℝ} {M : Msqrd} (hM : Continuous fun z : ℝ × ℝ => M z.1 z.2) : Measurable (mu m M) := by
  unfold mu
  have : Measurable fun x : ℝ × ℝ × ℝ => (x.1 ^ 2 - 2 * x.1 * x.2.1 + m 0 ^ 2, x.1 ^ 2 - 2 * x.1 * x.2.2 + m 1 ^ 2) := by fun_prop
  exact (hM.measurable.comp this).ennreal_ofReal

/-- Phase space in the first two energies. -/
theorem lips_energies {m : Fin 3 → ℝ} (hm : ∀ i, 0 ≤ m i) {M : Msqrd} (hM : Continuous fun z : ℝ × ℝ => M z.1 z.2)
    {G : ℝ × ℝ × ℝ → ℝ≥0∞} (hG : Measurable G) :
    ENNReal.ofReal ((2 * Real.pi) ^ 4 / (2 * Real.pi) ^ 9) * ∫⁻ k : Fin 2 → V,
          ENNReal.ofReal (∏ i, 1 / (2 * energy (m i) (atRest k i)))
            * ENNReal.ofReal (M (pairMassSq (m 1) (m 2) (atRest k 1) (atRest k 2)) (pairMassSq (m 0) (m 2) (atRest k 0) (atRest k 2)))
            * G (∑ i, energy (m i) (atRest k i), energy (m 0) (atRest k 0), energy (m 1) (atRest k 1))
      = ENNReal.ofReal (1 / (32 * Real.pi ^ 3)) * ∫⁻ Q in Ioi (∑ i, m i), ∫⁻ E1, ∫⁻ E2,
          G (Q, E1, E2) * (region (m 0) (m 1) (m 2)).indicator (mu m M) (Q, E1, E2) := by
  have hpi := Real.pi_pos
  have hμm := mu_measurable (m := m) hM
  have hΨ : Measurable fun x : ℝ × ℝ × ℝ => G x * mu m M x := hG.mul hμm
  have hΦ : Measurable fun x : ℝ × ℝ × ℝ => (fun y : ℝ × ℝ × ℝ => G y * mu m M y) (x.2.2 + (x.1 + x.2.1), x.1, x.2.1) :=
    hΨ.comp (by fun_prop)
  have hk : ∀ k : Fin 2 → V, ENNReal.ofReal (∏ i, 1 / (2 * energy (m i) (atRest k i)))
            * ENNReal.ofReal (M (pairMassSq (m 1) (m 2) (atRest k 1) (atRest k 2)) (pairMassSq (m 0) (m 2) (atRest k 0) (atRest k 2)))
            * G (∑ i, energy (m i) (atRest k i), energy (m 0) (atRest k 0), energy (m 1) (atRest k 1))
      = ENNReal.ofReal (1 / (8 * (enr (m 0) ‖k 0‖ * enr (m 1) ‖k 1‖ * enr (m 2) ‖k 0 + k 1‖)))
        * (fun E1 E2 E3 : ℝ => (fun y : ℝ × ℝ × ℝ => G y * mu m M y) (E3 + (E1 + E2), E1, E2))
          (enr (m 0) ‖k 0‖) (enr (m 1) ‖k 1‖) (enr (m 2) ‖k 0 + k 1‖) := by
    intro k
    unfold mu
    rw [pair12 m k rfl, pair02 m k rfl, Fin.prod_univ_three, Fin.sum_univ_three, atRest_zero, atRest_one, atRest_two,
      energy_enr, energy_enr, energy_enr, norm_neg]
    simp only
    rw [mul_assoc, mul_comm (ENNReal.ofReal (M _ _))]
    have e1 : ∀ a b c : ℝ, 1 / (2 * a) * (1 / (2 * b)) * (1 / (2 * c)) = 1 / (8 * (a * b * c)) := by
      intro a b c; ring
    have e2 : ∀ a b c : ℝ, a + b + c = c + (a + b) := by
      intro a b c; ring
    rw [e1, e2]
  simp only [hk]
  rw [three_energies (hm 0) (hm 1) (Φ := fun E1 E2 E3 : ℝ => (fun y : ℝ × ℝ × ℝ => G y * mu m M y) (E3 + (E1 + E2), E1, E2)) hΦ]
  have he := energies_dalitz (hm 0) (hm 1) (hm 2) hΨ
  rw [he, ← Fin.sum_univ_three, ← mul_assoc, ← ENNReal.ofReal_mul (by positivity)]
  have hin : ∀ Q E1 E2, (region (m 0) (m 1) (m 2)).indicator (fun x : ℝ × ℝ × ℝ => G x * mu m M x) (Q, E1, E2)
      = G (Q, E1, E2) * (region (m 0) (m 1) (m 2)).indicator (mu m M) (Q, E1, E2) := by
    intro Q E1 E2
    by_cases h : (Q, E1, E2) ∈ region (m 0) (m 1) (m 2)
    · rw [indicator_of_mem h, indicator_of_mem h]
    · rw [indicator_of_notMem h, indicator_of_notMem h, mul_zero]
  simp only [hin]
  congr 2
  field_simp
  norm_num

/-- One slice of the Dalitz region between the code's bounds. -/
theorem slice_eq {q m1 m2 m3 : ℝ} (hq : 0 < q) (n1 : 0 ≤ m1) (n2 : 0 ≤ m2) (n3 : 0 ≤ m3) (hopen : m1 + m2 + m3 ≤ q) (h : ℝ → ℝ → ℝ)
    {x : ℝ} (hx : x ≠ (boundsX q m1 m2 m3).2) :
    (if x < (boundsX q m1 m2 m3).1 ∨ (boundsX q m1 m2 m3).2 < x then 0
      else ∫ y in (boundsY q m1 m2 m3 x).1..(boundsY q m1 m2 m3 x).2, h x y)
      = ∫ y, (dalitzSet q m1 m2 m3).indicator (fun z => h z.1 z.2) (x, y) := by
  by_cases hr : x < (boundsX q m1 m2 m3).1 ∨ (boundsX q m1 m2 m3).2 < x
  · rw [if_pos hr]
    have : ∀ y, (dalitzSet q m1 m2 m3).indicator (fun z => h z.1 z.2) (x, y) = 0 := by
      intro y
      apply Set.indicator_of_notMem
      intro hd
      obtain ⟨p1, p2, p3, hph, he1, he2⟩ := dalitz_physical n1 n2 n3 hd
      obtain ⟨lo, hi, hlim, hge, hle⟩ := energy_limits_contain hq hph (i := 0) (by simp)
      simp only [energyLimits, List.map_cons, List.getElem?_cons_zero, Option.some.injEq,
        Prod.mk.injEq, List.sum_cons, List.sum_nil] at hlim
      rw [List.getD_cons_zero, he1, ← hlim.2, le_div_iff₀ (by positivity)] at hle
      rw [List.getD_cons_zero, he1, ← hlim.1] at hge
      simp only [boundsX] at hr
      rcases hr with hr | hr
      · rw [show 2 * (m1 / q) = (2 * m1) / q by ring, lt_div_iff₀ hq] at hr; simp only at hge; linarith
      · have : (m1 / q) ^ 2 + (1 - (m2 / q + m3 / q) ^ 2)
            = (m1 ^ 2 + q ^ 2 - (m2 + m3) ^ 2) / q ^ 2 := by field_simp; ring
        rw [this, div_lt_iff₀ (by positivity)] at hr
        simp only at hle
        nlinarith
    simp [this]
  · rw [if_neg hr]
    push Not at hr
    obtain ⟨hx1, hx2⟩ := hr
    have hx2 := lt_of_le_of_ne hx2 hx
    have hs : 0 < 1 - x + (m1 / q) ^ 2 := by
      simp only [boundsX] at hx2
      nlinarith [sq_nonneg (m2 / q + m3 / q)]
    have hyle : (boundsY q m1 m2 m3 x).1 ≤ (boundsY q m1 m2 m3 x).2 := by
      simp only [boundsY]
      rw [div_le_div_iff_of_pos_right hs]
      have := Real.sqrt_nonneg (kallenLambda 1 ((m1 / q) ^ 2) (1 - x + (m1 / q) ^ 2)
        * kallenLambda (1 - x + (m1 / q) ^ 2) ((m2 / q) ^ 2) ((m3 / q) ^ 2))
      linarith
    rw [intervalIntegral.integral_of_le hyle, ← integral_Icc_eq_integral_Ioc,
      ← integral_indicator measurableSet_Icc]
    congr 1
    ext y
    by_cases hy : y ∈ Set.Icc (boundsY q m1 m2 m3 x).1 (boundsY q m1 m2 m3 x).2
    · have : (x, y) ∈ dalitzSet q m1 m2 m3 :=
        (bounds_iff_dalitz hq n1 n2 n3 hopen hs).mp ⟨⟨hx1, hx2.le⟩, hy⟩
      rw [Set.indicator_of_mem hy, Set.indicator_of_mem this]
    · have : (x, y) ∉ dalitzSet q m1 m2 m3 :=
        fun hd => hy ((bounds_iff_dalitz hq n1 n2 n3 hopen hs).mpr hd).2
      rw [Set.indicator_of_notMem hy, Set.indicator_of_notMem this]

theorem slice_lintegral {q m1 m2 m3 : ℝ} (hq : 0 < q) (n1 : 0 ≤ m1) (n2 : 0 ≤ m2) (n3 : 0 ≤ m3) (hopen : m1 + m2 + m3 ≤ q) {h : ℝ → ℝ → ℝ}
    (hc : Continuous fun z : ℝ × ℝ => h z.1 z.2) (hpos : ∀ z ∈ dalitzSet q m1 m2 m3, 0 ≤ h z.1 z.2)
    {x : ℝ} (hx : x ≠ (boundsX q m1 m2 m3).2) {c : ℝ} (hc0 : 0 ≤ c) :
    ENNReal.ofReal (if x < (boundsX q m1 m2 m3).1 ∨ (boundsX q m1 m2 m3).2 < x then 0
      else c * ∫ y in (boundsY q m1 m2 m3 x).1..(boundsY q m1 m2 m3 x).2, h x y)
      = ENNReal.ofReal c * ∫⁻ y, ENNReal.ofReal ((dalitzSet q m1 m2 m3).indicator (fun z => h z.1 z.2) (x, y)) := by
  have e : (if x < (boundsX q m1 m2 m3).1 ∨ (boundsX q m1 m2 m3).2 < x then 0
      else c * ∫ y in (boundsY q m1 m2 m3 x).1..(boundsY q m1 m2 m3 x).2, h x y)
      = c * ∫ y, (dalitzSet q m1 m2 m3).indicator (fun z => h z.1 z.2) (x, y) := by
    rw [← slice_eq hq n1 n2 n3 hopen h hx]
    split_ifs
    · rw [mul_zero]
    · rfl
  have hD := dalitzSet_compact hq n1 n2 n3
  have hcomp : IsCompact {y | (x, y) ∈ dalitzSet q m1 m2 m3} := by
    refine IsCompact.of_isClosed_subset (hD.image continuous_snd) (hD.isClosed.preimage (by fun_prop : Continuous fun y : ℝ => (x, y))) ?_
    intro y hy
    exact ⟨(x, y), hy, rfl⟩
  have hind : (fun y => (dalitzSet q m1 m2 m3).indicator (fun z => h z.1 z.2) (x, y))
      = {y | (x, y) ∈ dalitzSet q m1 m2 m3}.indicator fun y => h x y := by
    funext y
    by_cases hy : (x, y) ∈ dalitzSet q m1 m2 m3
    · rw [indicator_of_mem hy, indicator_of_mem (show y ∈ {y | (x, y) ∈ dalitzSet q m1 m2 m3} from hy)]
    · rw [indicator_of_notMem hy, indicator_of_notMem (show y ∉ {y | (x, y) ∈ dalitzSet q m1 m2 m3} from hy)]
  have hhx : Continuous fun y => h x y := hc.comp (by fun_prop : Continuous fun y : ℝ => (x, y))
  have hint : Integrable fun y => (dalitzSet q m1 m2 m3).indicator (fun z => h z.1 z.2) (x, y) := by
    rw [hind, integrable_indicator_iff hcomp.measurableSet]
    exact hhx.continuousOn.integrableOn_compact hcomp
  have hnn : ∀ y, 0 ≤ (dalitzSet q m1 m2 m3).indicator (fun z => h z.1 z.2) (x, y) := fun y =>
    indicator_nonneg hpos (x, y)
  rw [e, ENNReal.ofReal_mul hc0, ofReal_integral_eq_lintegral_ofReal hint (Filter.Eventually.of_forall hnn)]

/-- The first two energies, from the energy `e` of particle `i` and one further energy. -/
def others (i : Fin 3) (q e E : ℝ) : ℝ × ℝ × ℝ :=
  match i with
  | 0 => (q, e, E)
  | 1 => (q, E, e)
  | 2 => (q, q - e - E, E)

theorem others_measurable (i : Fin 3) : Measurable fun x : ℝ × ℝ × ℝ => others i x.1 x.2.1 x.2.2 := by
  fin_cases i <;> (unfold others; fun_prop)

theorem others_lintegral (i : Fin 3) (q : ℝ) {J : ℝ × ℝ × ℝ → ℝ≥0∞} (hJ : Measurable J) :
    ∫⁻ E1, ∫⁻ E2, J (q, E1, E2) = ∫⁻ e, ∫⁻ E, J (others i q e E) := by
  have h0 : Measurable fun x : ℝ × ℝ => J (q, x.1, x.2) := hJ.comp (by fun_prop)
  fin_cases i
  · rfl
  · exact lintegral_lintegral_swap h0.aemeasurable
  · have h1 : Measurable fun x : ℝ × ℝ => J (q, q - x.1 - x.2, x.2) := hJ.comp (by fun_prop)
    show _ = ∫⁻ e, ∫⁻ E, J (q, q - e - E, E)
    rw [lintegral_lintegral_swap h0.aemeasurable, lintegral_lintegral_swap (f := fun e E => J (q, q - e - E, E)) h1.aemeasurable]
    refine lintegral_congr fun E => ?_
    have := lintegral_sub_left_eq_self (μ := volume) (fun E1 => J (q, E1, E)) (q - E)
    rw [← this]
    refine lintegral_congr fun e => ?_
    congr 2
    ring_nf

theorem density_lintegral {m : Fin 3 → ℝ} (hm : ∀ i, 0 ≤ m i) {M : Msqrd} (hM : Continuous fun z : ℝ × ℝ => M z.1 z.2) {q : ℝ}
    (hopen : m 0 + m 1 + m 2 < q)
    (hpos : ∀ e1 e2, Dalitz q (m 0) (m 1) (m 2) e1 e2 → 0 ≤ M (q ^ 2 - 2 * q * e1 + m 0 ^ 2) (q ^ 2 - 2 * q * e2 + m 1 ^ 2)) (i : Fin 3) :
    ∀ᵐ e : ℝ, ENNReal.ofReal (partialIntegration ⟨q, (m 0, m 1, m 2), none, M⟩ e i)
      = ENNReal.ofReal (1 / (32 * Real.pi ^ 3)) * ∫⁻ E, (region (m 0) (m 1) (m 2)).indicator (mu m M) (others i q e E) := by
  have hpi := Real.pi_pos
  have hq : 0 < q := by linarith [hm 0, hm 1, hm 2]
  obtain ⟨g, hg⟩ : ∃ g : ℝ → ℝ → ℝ, g = fun x y => M (q ^ 2 * (1 - x + (m 0 / q) ^ 2)) (q ^ 2 * (1 - y + (m 1 / q) ^ 2)) := ⟨_, rfl⟩
  have hgc : Continuous fun z : ℝ × ℝ => g z.1 z.2 := by
    rw [hg]
    exact hM.comp (f := fun z : ℝ × ℝ => (q ^ 2 * (1 - z.1 + (m 0 / q) ^ 2), q ^ 2 * (1 - z.2 + (m 1 / q) ^ 2))) (by fun_prop)
  have hval : ∀ x y, g x y = M (q ^ 2 - 2 * q * (q * x / 2) + m 0 ^ 2) (q ^ 2 - 2 * q * (q * y / 2) + m 1 ^ 2) := by
    intro x y
    rw [hg]
    simp only
    congr 1 <;> field_simp
  have hgpos : ∀ z ∈ dalitzSet q (m 0) (m 1) (m 2), 0 ≤ g z.1 z.2 := by
    intro z hz
    rw [hval]
    exact hpos _ _ hz
  have hI : Measurable ((region (m 0) (m 1) (m 2)).indicator (mu m M)) := (mu_measurable hM).indicator (region_measurable _ _ _)
  -- the value at a point
  have hpt : ∀ x y, ENNReal.ofReal ((dalitzSet q (m 0) (m 1) (m 2)).indicator (fun z => g z.1 z.2) (x, y))
      = (region (m 0) (m 1) (m 2)).indicator (mu m M) (q, q * x / 2, q * y / 2) := by
    intro x y
    by_cases hz : (x, y) ∈ dalitzSet q (m 0) (m 1) (m 2)
    · rw [indicator_of_mem hz, indicator_of_mem (show (q, q * x / 2, q * y / 2) ∈ region (m 0) (m 1) (m 2) from hz)]
      unfold mu
      simp only
      rw [hval]
    · rw [indicator_of_notMem hz, indicator_of_notMem (show (q, q * x / 2, q * y / 2) ∉ region (m 0) (m 1) (m 2) from hz), ENNReal.ofReal_zero]
  have hne : ∀ c : ℝ, ∀ᵐ e : ℝ, 2 * e / q ≠ c := by
    intro c
    have h1 : ∀ᵐ e : ℝ, e ≠ c * q / 2 := by
      have := measure_singleton (μ := (volume : Measure ℝ)) (c * q / 2)
      exact compl_mem_ae_iff.mpr this
    filter_upwards [h1] with e he h
    apply he
    rw [← h]
    field_simp
  -- from the scaled slice to the integral over the energy
  have hfin : ∀ e, ENNReal.ofReal (q / (64 * Real.pi ^ 3)) * ∫⁻ y, (region (m 0) (m 1) (m 2)).indicator (mu m M) (others i q e (q * y / 2))
      = ENNReal.ofReal (1 / (32 * Real.pi ^ 3)) * ∫⁻ E, (region (m 0) (m 1) (m 2)).indicator (mu m M) (others i q e E) := by
    intro e
    have hB : Measurable fun E : ℝ => (region (m 0) (m 1) (m 2)).indicator (mu m M) (others i q e E) := by
      refine hI.comp ?_
      exact (others_measurable i).comp (by fun_prop : Measurable fun E : ℝ => (q, e, E))
    rw [half_scale hq hB, ← mul_assoc, ← ENNReal.ofReal_mul (by positivity)]
    congr 2
    field_simp
    norm_num
  have hx : ∀ e, q * (2 * e / q) / 2 = e := by intro e; field_simp
  fin_cases i
  · filter_upwards [hne (boundsX q (m 0) (m 1) (m 2)).2] with e he
    rw [← hfin e]
    have := slice_lintegral hq (hm 0) (hm 1) (hm 2) hopen.le hgc hgpos he (c := q / (64 * Real.pi ^ 3)) (by positivity)
    simp only [hpt, hx] at this
    rw [hg] at this
    exact this
  · filter_upwards [hne (boundsX q (m 1) (m 0) (m 2)).2] with e he
    rw [← hfin e]
    have hsw : ∀ x y, (dalitzSet q (m 1) (m 0) (m 2)).indicator (fun z => g z.2 z.1) (x, y)
        = (dalitzSet q (m 0) (m 1) (m 2)).indicator (fun z => g z.1 z.2) (y, x) := by
      intro x y
      by_cases h : (y, x) ∈ dalitzSet q (m 0) (m 1) (m 2)
      · rw [indicator_of_mem h, indicator_of_mem ((dalitzSet_swap q _ _ _ x y).mpr h)]
      · rw [indicator_of_notMem h, indicator_of_notMem fun h' => h ((dalitzSet_swap q _ _ _ x y).mp h')]
    have := slice_lintegral (h := fun x y => g y x) hq (hm 1) (hm 0) (hm 2) (by linarith) (hgc.comp continuous_swap)
      (fun z hz => hgpos (z.2, z.1) ((dalitzSet_swap q _ _ _ z.1 z.2).mp hz)) he (c := q / (64 * Real.pi ^ 3)) (by positivity)
    simp only [hsw, hpt, hx] at this
    rw [hg] at this
    exact this
  · filter_upwards [hne (boundsX q (m 2) (m 1) (m 0)).2] with e he
    rw [← hfin e]
    have hsw : ∀ x y, (dalitzSet q (m 2) (m 1) (m 0)).indicator (fun z => g (2 - (z.1 + z.2)) z.2) (x, y)
        = (dalitzSet q (m 0) (m 1) (m 2)).indicator (fun z => g z.1 z.2) (2 - (x + y), y) := by
      intro x y
      by_cases h : (2 - (x + y), y) ∈ dalitzSet q (m 0) (m 1) (m 2)
      · rw [indicator_of_mem h, indicator_of_mem ((dalitzSet_swap13 q _ _ _ x y).mpr h)]
      · rw [indicator_of_notMem h, indicator_of_notMem fun h' => h ((dalitzSet_swap13 q _ _ _ x y).mp h')]
    have := slice_lintegral (h := fun x y => g (2 - (x + y)) y) hq (hm 2) (hm 1) (hm 0) (by linarith)
      (hgc.comp (f := fun z : ℝ × ℝ => (2 - (z.1 + z.2), z.2)) (by fun_prop))
      (fun z hz => hgpos (2 - (z.1 + z.2), z.2) ((dalitzSet_swap13 q _ _ _ z.1 z.2).mp hz)) he (c := q / (64 * Real.pi ^ 3)) (by positivity)
    have hx3 : ∀ y, q * (2 - (2 * e / q + y)) / 2 = q - e - q * y / 2 := by intro y; field_simp; ring
    simp only [hsw, hpt, hx3] at this
    rw [hg] at this
    exact this

/-! ### C302 -/

/-- **C302, energies.** The energy density of particle `i` that `_partial_integration` computes is its density in Lorentz-invariant
phase space, whatever the function of the energies it is tested with. -/
theorem energy_density {m : Fin 3 → ℝ} (hm : ∀ i, 0 ≤ m i) {M : Msqrd} (hM : Continuous fun z : ℝ × ℝ => M z.1 z.2)
    (hpos : ∀ k : Fin 2 → V, 0 ≤ M (pairMassSq (m 1) (m 2) (atRest k 1) (atRest k 2)) (pairMassSq (m 0) (m 2) (atRest k 0) (atRest k 2)))
    {g : ℝ × ℝ → ℝ≥0∞} (hg : Measurable g) (i : Fin 3) :
    ∫⁻ Q in Ioi (∑ i, m i), ∫⁻ e, g (Q, e) * ENNReal.ofReal (partialIntegration ⟨Q, (m 0, m 1, m 2), none, M⟩ e i)
      = ENNReal.ofReal ((2 * Real.pi) ^ 4 / (2 * Real.pi) ^ 9) * ∫⁻ k : Fin 2 → V,
          ENNReal.ofReal (∏ i, 1 / (2 * energy (m i) (atRest k i)))
            * ENNReal.ofReal (M (pairMassSq (m 1) (m 2) (atRest k 1) (atRest k 2)) (pairMassSq (m 0) (m 2) (atRest k 0) (atRest k 2)))
            * g (∑ i, energy (m i) (atRest k i), energy (m i) (atRest k i)) := by
  have hpi := Real.pi_pos
  obtain ⟨G, hGe⟩ : ∃ G : ℝ × ℝ × ℝ → ℝ≥0∞, G = fun x => g (x.1, match i with
    | 0 => x.2.1
    | 1 => x.2.2
    | 2 => x.1 - x.2.1 - x.2.2) := ⟨_, rfl⟩
  have hG : Measurable G := by
    rw [hGe]
    refine hg.comp ?_
    fin_cases i <;> fun_prop
  have hGk : ∀ k : Fin 2 → V, g (∑ i, energy (m i) (atRest k i), energy (m i) (atRest k i))
      = G (∑ i, energy (m i) (atRest k i), energy (m 0) (atRest k 0), energy (m 1) (atRest k 1)) := by
    intro k
    rw [hGe]
    fin_cases i
    · rfl
    · rfl
    · simp only [Fin.sum_univ_three]
      congr 2
      show energy (m 2) (atRest k 2) = _
      ring
  have hGo : ∀ q e E, G (others i q e E) = g (q, e) := by
    intro q e E
    rw [hGe]
    fin_cases i
    · rfl
    · rfl
    · show g (q, q - (q - e - E) - E) = g (q, e)
      congr 2
      ring
  simp only [hGk]
  rw [lips_energies hm hM hG, ← lintegral_const_mul' _ _ ENNReal.ofReal_ne_top]
  refine setLIntegral_congr_fun measurableSet_Ioi fun Q hQ => ?_
  have hQ' : m 0 + m 1 + m 2 < Q := by rw [← Fin.sum_univ_three]; exact hQ
  have hI : Measurable ((region (m 0) (m 1) (m 2)).indicator (mu m M)) := (mu_measurable hM).indicator (region_measurable _ _ _)
  have hd := density_lintegral hm hM hQ' (pos_dalitz hm hpos) i
  obtain ⟨I, hIe⟩ : ∃ I, I = (region (m 0) (m 1) (m 2)).indicator (mu m M) := ⟨_, rfl⟩
  rw [← hIe] at hI hd ⊢
  rw [others_lintegral i Q (J := fun x => G x * I x) (hG.mul hI), ← lintegral_const_mul' _ _ ENNReal.ofReal_ne_top]
  refine lintegral_congr_ae ?_
  filter_upwards [hd] with e he
  rw [he]
  simp only [hGo]
  have hB : Measurable fun E : ℝ => I (others i Q e E) := by
    refine hI.comp ?_
    exact (others_measurable i).comp (by fun_prop : Measurable fun E : ℝ => (Q, e, E))
  rw [lintegral_const_mul _ hB, mul_left_comm]

/-- The squared invariant mass of the two particles other than `i`. -/
noncomputable def pairSq (m : Fin 3 → ℝ) (i : Fin 3) (p : Fin 3 → V) : ℝ :=
  match i with
  | 0 => pairMassSq (m 1) (m 2) (p 1) (p 2)
  | 1 => pairMassSq (m 0) (m 2) (p 0) (p 2)
  | 2 => pairMassSq (m 0) (m 1) (p 0) (p 1)

theorem pairSq_eq (m : Fin 3 → ℝ) (i : Fin 3) (k : Fin 2 → V) :
    pairSq m i (atRest k) = (∑ i, energy (m i) (atRest k i)) ^ 2 - 2 * (∑ i, energy (m i) (atRest k i)) * energy (m i) (atRest k i) + m i ^ 2 := by
  have hQ : ∑ i, energy (m i) (atRest k i) = enr (m 2) ‖k 0 + k 1‖ + (enr (m 0) ‖k 0‖ + enr (m 1) ‖k 1‖) := by
    rw [Fin.sum_univ_three, atRest_zero, atRest_one, atRest_two, energy_enr, energy_enr, energy_enr, norm_neg]
    ring
  fin_cases i
  · show pairMassSq _ _ _ _ = _
    rw [pair12 m k hQ]
    simp only [Fin.zero_eta, atRest_zero, energy_enr]
  · show pairMassSq _ _ _ _ = _
    rw [pair02 m k hQ]
    simp only [Fin.mk_one, atRest_one, energy_enr]
  · show pairMassSq _ _ _ _ = _
    rw [hQ]
    unfold pairMassSq
    simp only [Fin.reduceFinMk, atRest_zero, atRest_one, atRest_two, energy_enr, norm_neg]
    have := enr_sq (m 2) ‖k 0 + k 1‖
    nlinarith

/-- Change of variables from the energy of a particle to the invariant mass of the two others. -/
theorem energy_to_mass {Q : ℝ} (hQ : 0 < Q) (mi : ℝ) (F : ℝ → ℝ≥0∞) :
    ∫⁻ e in Iio ((Q ^ 2 + mi ^ 2) / (2 * Q)), F e
      = ∫⁻ x in Ioi (0 : ℝ), ENNReal.ofReal (x / Q) * F ((Q ^ 2 - x ^ 2 + mi ^ 2) / (2 * Q)) := by
  have himg : (fun x : ℝ => (Q ^ 2 - x ^ 2 + mi ^ 2) / (2 * Q)) '' Ioi 0 = Iio ((Q ^ 2 + mi ^ 2) / (2 * Q)) := by
    ext e
    constructor
    · rintro ⟨x, hx, rfl⟩
      have hx' : 0 < x := hx
      rw [mem_Iio, div_lt_div_iff_of_pos_right (by positivity)]
      nlinarith
    · intro he
      rw [mem_Iio, lt_div_iff₀ (by positivity)] at he
      have hnn : 0 < Q ^ 2 + mi ^ 2 - 2 * Q * e := by nlinarith
      refine ⟨Real.sqrt (Q ^ 2 + mi ^ 2 - 2 * Q * e), Real.sqrt_pos.mpr hnn, ?_⟩
      simp only
      rw [Real.sq_sqrt hnn.le, div_eq_iff (by positivity)]
      ring
  rw [← himg, lintegral_image_eq_lintegral_abs_deriv_mul (f' := fun x => -(x / Q)) measurableSet_Ioi]
  · refine setLIntegral_congr_fun measurableSet_Ioi fun x hx => ?_
    have hx' : 0 < x := hx
    simp only [abs_neg, abs_of_pos (div_pos hx' hQ)]
  · intro x _
    have h : HasDerivAt (fun x : ℝ => (Q ^ 2 - x ^ 2 + mi ^ 2) / (2 * Q)) ((0 - ((2 : ℕ) : ℝ) * x ^ (2 - 1) + 0) / (2 * Q)) x :=
      ((((hasDerivAt_const x (Q ^ 2)).sub (hasDerivAt_pow 2 x)).add (hasDerivAt_const x (mi ^ 2))).div_const _)
    have e : -(x / Q) = (0 - ((2 : ℕ) : ℝ) * x ^ (2 - 1) + 0) / (2 * Q) := by
      push_cast; field_simp; ring
    rw [e]; exact h.hasDerivWithinAt
  · intro a ha b hb hab
    simp only at hab
    rw [div_left_inj' (by positivity)] at hab
    have : a ^ 2 = b ^ 2 := by linarith
    exact (sq_eq_sq₀ (le_of_lt ha) (le_of_lt hb)).mp this

theorem massOf_vec (m : Fin 3 → ℝ) (i : Fin 3) : massOf (m 0, m 1, m 2) i = m i := by
  fin_cases i <;> rfl

/-- Above the largest energy the density is zero. -/
theorem density_above {m : Fin 3 → ℝ} {M : Msqrd} {Q : ℝ} (hQ : 0 < Q) (i : Fin 3) {e : ℝ}
    (he : (Q ^ 2 + m i ^ 2) / (2 * Q) < e) : partialIntegration ⟨Q, (m 0, m 1, m 2), none, M⟩ e i = 0 := by
  rw [div_lt_iff₀ (by positivity)] at he
  have key : ∀ a b c : ℝ, Q ^ 2 + a ^ 2 < e * (2 * Q) → (boundsX Q a b c).2 < 2 * e / Q := by
    intro a b c h
    simp only [boundsX]
    have : (a / Q) ^ 2 + (1 - (b / Q + c / Q) ^ 2) ≤ (a / Q) ^ 2 + 1 := by nlinarith [sq_nonneg (b / Q + c / Q)]
    refine this.trans_lt ?_
    rw [lt_div_iff₀ hQ]
    have h2 : ((a / Q) ^ 2 + 1) * Q * Q = a ^ 2 + Q ^ 2 := by field_simp
    nlinarith
  fin_cases i
  · simp only [partialIntegration]
    exact if_pos (Or.inr (key (m 0) (m 1) (m 2) he))
  · simp only [partialIntegration]
    exact if_pos (Or.inr (key (m 1) (m 0) (m 2) he))
  · simp only [partialIntegration]
    exact if_pos (Or.inr (key (m 2) (m 1) (m 0) he))

/-- **C302, invariant masses.** -/
theorem mass_density {m : Fin 3 → ℝ} (hm : ∀ i, 0 ≤ m i) {M : Msqrd} (hM : Continuous fun z : ℝ × ℝ => M z.1 z.2)
    (hpos : ∀ k : Fin 2 → V, 0 ≤ M (pairMassSq (m 1) (m 2) (atRest k 1) (atRest k 2)) (pairMassSq (m 0) (m 2) (atRest k 0) (atRest k 2)))
    {g : ℝ × ℝ → ℝ≥0∞} (hg : Measurable g) (i : Fin 3) :
    ∫⁻ Q in Ioi (∑ i, m i), ∫⁻ x in Ioi (0 : ℝ), g (Q, x) * ENNReal.ofReal (invariantMassDensity ⟨Q, (m 0, m 1, m 2), none, M⟩ x i)
      = ENNReal.ofReal ((2 * Real.pi) ^ 4 / (2 * Real.pi) ^ 9) * ∫⁻ k : Fin 2 → V,
          ENNReal.ofReal (∏ i, 1 / (2 * energy (m i) (atRest k i)))
            * ENNReal.ofReal (M (pairMassSq (m 1) (m 2) (atRest k 1) (atRest k 2)) (pairMassSq (m 0) (m 2) (atRest k 0) (atRest k 2)))
            * g (∑ i, energy (m i) (atRest k i), Real.sqrt (pairSq m i (atRest k))) := by
  have hg' : Measurable fun x : ℝ × ℝ => g (x.1, Real.sqrt (x.1 ^ 2 - 2 * x.1 * x.2 + m i ^ 2)) := hg.comp (by fun_prop)
  have h := energy_density hm hM hpos hg' i
  simp only [pairSq_eq]
  rw [← h]
  refine setLIntegral_congr_fun measurableSet_Ioi fun Q hQ => ?_
  have hQ0 : 0 < Q := by
    have : m 0 + m 1 + m 2 < Q := by rw [← Fin.sum_univ_three]; exact hQ
    linarith [hm 0, hm 1, hm 2]
  have hcut : ∫⁻ e, g (Q, Real.sqrt (Q ^ 2 - 2 * Q * e + m i ^ 2)) * ENNReal.ofReal (partialIntegration ⟨Q, (m 0, m 1, m 2), none, M⟩ e i)
      = ∫⁻ e in Iio ((Q ^ 2 + m i ^ 2) / (2 * Q)), g (Q, Real.sqrt (Q ^ 2 - 2 * Q * e + m i ^ 2))
          * ENNReal.ofReal (partialIntegration ⟨Q, (m 0, m 1, m 2), none, M⟩ e i) := by
    rw [Measure.restrict_congr_set Iio_ae_eq_Iic, ← lintegral_indicator measurableSet_Iic]
    refine lintegral_congr fun e => ?_
    by_cases he : e ∈ Iic ((Q ^ 2 + m i ^ 2) / (2 * Q))
    · rw [indicator_of_mem he]
    · rw [indicator_of_notMem he, density_above hQ0 i (not_le.mp he), ENNReal.ofReal_zero, mul_zero]
  simp only
  rw [hcut, energy_to_mass hQ0]
  refine setLIntegral_congr_fun measurableSet_Ioi fun x hx => ?_
  have hx' : 0 < x := hx
  have e1 : Q ^ 2 - 2 * Q * ((Q ^ 2 - x ^ 2 + m i ^ 2) / (2 * Q)) + m i ^ 2 = x ^ 2 := by field_simp; ring
  rw [e1, Real.sqrt_sq hx'.le]
  unfold invariantMassDensity
  simp only [massOf_vec]
  rw [ENNReal.ofReal_mul (by positivity)]
  ring

/-! ### The distributions the objects return -/

open Hazma.PhaseApi in
theorem partialCall_ok {o : Obj} {f : Msqrd} (h : o.call = .ok f) (e : ℝ) (i : Fin 3) :
    partialCall o e i = .ok (partialIntegration (o.state f) e i) := by
  unfold partialCall
  by_cases hr : inRange o e i
  · rw [if_pos hr, h]
  · rw [if_neg hr]
    congr 1
    unfold inRange at hr
    fin_cases i <;> exact (if_pos (not_not.mp hr)).symm

open Hazma.PhaseApi in
/-- **C302.** `energy_distributions(method='quad')` samples the energy densities at the centres of equal bins between the smallest and
the largest energy of each particle. -/
theorem energy_distributions {mc : Monte} {o : Obj} {f : Msqrd} (h : o.call = .ok f) (nbins npts : ℕ) :
    energyDistributions mc o nbins "quad" npts
      = mapE (fun i : Fin 3 => mkDist (linspace (massOf o.masses i) ((o.cme ^ 2 + massOf o.masses i ^ 2 - (o.msum - massOf o.masses i) ^ 2) / (2 * o.cme)) nbins)
          ((binCenters (linspace (massOf o.masses i) ((o.cme ^ 2 + massOf o.masses i ^ 2 - (o.msum - massOf o.masses i) ^ 2) / (2 * o.cme)) nbins)).map
            fun e => partialIntegration (o.state f) e i)) [0, 1, 2] := by
  unfold energyDistributions
  rw [if_pos rfl]
  refine mapE_congr fun i _ => ?_
  have hl : (energyLimits o.cme [o.masses.1, o.masses.2.1, o.masses.2.2]).getD i (0, 0)
      = (massOf o.masses i, (o.cme ^ 2 + massOf o.masses i ^ 2 - (o.msum - massOf o.masses i) ^ 2) / (2 * o.cme)) := by
    fin_cases i <;> simp [energyLimits, massOf, Obj.msum] <;> ring_nf
  unfold energyQuad1
  simp only [hl, partialCall_ok h, mapE_ok]

open Hazma.PhaseApi in
/-- **C302.** `invariant_mass_distributions(method='quad')` samples the mass densities of the pairs at the centres of equal bins between
the smallest and the largest mass of each pair. -/
theorem mass_distributions {mc : Monte} {o : Obj} {f : Msqrd} (h : o.call = .ok f) (hopen : o.msum ≤ o.cme) (nbins npts : ℕ) :
    massDistributions mc o nbins "quad" npts
      = mapE (fun p : (ℕ × ℕ) × Fin 3 => (mkDist (linspace (o.msum - massOf o.masses p.2) (o.cme - massOf o.masses p.2) nbins)
          ((binCenters (linspace (o.msum - massOf o.masses p.2) (o.cme - massOf o.masses p.2) nbins)).map
            fun x => invariantMassDensity (o.state f) x p.2)).map fun d => (p.1, d)) [((0, 1), 2), ((0, 2), 1), ((1, 2), 0)] := by
  unfold massDistributions
  rw [if_neg (not_lt.mpr hopen), if_pos rfl]
  refine mapE_congr fun p hp => ?_
  have hl : invariantMassLimits o.cme [o.masses.1, o.masses.2.1, o.masses.2.2] p.1.1 p.1.2
      = (o.msum - massOf o.masses p.2, o.cme - massOf o.masses p.2) := by
    simp only [opposite, List.mem_cons, List.not_mem_nil, or_false] at hp
    have h3 : Finset.range 3 = {0, 1, 2} := rfl
    rcases hp with rfl | rfl | rfl <;> refine Prod.ext ?_ ?_ <;>
      simp [invariantMassLimits, massOf, Obj.msum, h3, Finset.filter_insert, Finset.filter_singleton] <;> ring
  unfold massQuad1
  simp only [hl, partialCall_ok h, Except.map, mapE_ok]
  rfl

/-- Three pions with an amplitude that grows with the mass of one pair, tested with the mass of that pair: all hypotheses hold. -/
example : ∫⁻ Q in Ioi (∑ _i : Fin 3, (140 : ℝ)), ∫⁻ x in Ioi (0 : ℝ),
        ENNReal.ofReal x * ENNReal.ofReal (invariantMassDensity ⟨Q, (140, 140, 140), none, fun s _ => s ^ 2⟩ x 0)
      = ENNReal.ofReal ((2 * Real.pi) ^ 4 / (2 * Real.pi) ^ 9) * ∫⁻ k : Fin 2 → V,
          ENNReal.ofReal (∏ i, 1 / (2 * energy 140 (atRest k i))) * ENNReal.ofReal (pairMassSq 140 140 (atRest k 1) (atRest k 2) ^ 2)
            * ENNReal.ofReal (Real.sqrt (pairMassSq 140 140 (atRest k 1) (atRest k 2))) :=
  mass_density (m := fun _ => 140) (M := fun s _ => s ^ 2) (g := fun x => ENNReal.ofReal x.2) (by intro; norm_num) (by fun_prop)
    (by intro; positivity) (by fun_prop) 0

end Hazma.PhaseSpaceDensity
