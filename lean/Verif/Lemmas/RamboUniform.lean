import Verif.Lemmas.RamboCm
import Mathlib.MeasureTheory.Integral.Gamma
import Mathlib.MeasureTheory.Integral.IntegralEqImproper
import Mathlib.MeasureTheory.Measure.Lebesgue.VolumeOfBalls
import Mathlib.MeasureTheory.Constructions.HaarToSphere

/-! # Massless momenta in their centre of mass -/

namespace Hazma.RamboMeasure

open MeasureTheory Set
open scoped ENNReal

/-- Invariant mass of `(A, a)` and a massless momentum `q`. -/
noncomputable def invM (A : ℝ) (a q : V) : ℝ := Real.sqrt ((A + ‖q‖) ^ 2 - ‖a + q‖ ^ 2)

/-- Velocity of `(A, a)` and a massless momentum `q`. -/
noncomputable def bv (A : ℝ) (a q : V) : V := (invM A a q)⁻¹ • (a + q)

theorem invM_cmQ {A : ℝ} {a : V} (b : V) (hA : 0 < A) (h : ‖a‖ ≤ A) : invM A a (cmQ A a b) = cmM A a b := by
  unfold invM
  have h1 : a + cmQ A a b = cmM A a b • b := by unfold cmQ; abel
  rw [h1, cmQ_norm b hA h, norm_smul, mul_pow, Real.norm_eq_abs, sq_abs]
  have h2 := gam_sq b
  rw [show (A + (cmM A a b * gam b - A)) ^ 2 - cmM A a b ^ 2 * ‖b‖ ^ 2 = cmM A a b ^ 2 * (gam b ^ 2 - ‖b‖ ^ 2) by ring,
    h2, add_sub_cancel_right, mul_one, Real.sqrt_sq (cmM_pos b hA h).le]

theorem bv_cmQ {A : ℝ} {a : V} (b : V) (hA : 0 < A) (h : ‖a‖ ≤ A) : bv A a (cmQ A a b) = b := by
  unfold bv
  have h1 : a + cmQ A a b = cmM A a b • b := by unfold cmQ; abel
  rw [invM_cmQ b hA h, h1, smul_smul, inv_mul_cancel₀ (cmM_pos b hA h).ne', one_smul]

theorem bst_continuous : Continuous fun x : V × V => bst x.1 x.2 := by
  unfold bst
  have hg : Continuous fun x : V × V => gam x.1 := gam_continuous.comp continuous_fst
  have hne : ∀ x : V × V, 1 + gam x.1 ≠ 0 := fun x => by have := gam_pos x.1; positivity
  have h1 : Continuous fun x : V × V => inner ℝ x.1 x.2 / (1 + gam x.1) :=
    (by fun_prop : Continuous fun x : V × V => inner ℝ x.1 x.2).div (continuous_const.add hg) hne
  fun_prop

section Pi

variable {ι : Type*} [Fintype ι]

/-- Total energy of massless momenta and of the one that balances them. -/
noncomputable def Mt (k : ι → V) : ℝ := ∑ i, ‖k i‖ + ‖∑ i, k i‖

theorem Mt_continuous : Continuous (Mt (ι := ι)) := by unfold Mt; fun_prop

theorem Mt_smul {t : ℝ} (ht : 0 < t) (k : ι → V) : Mt (t • k) = t * Mt k := by
  unfold Mt
  simp only [Pi.smul_apply, ← Finset.smul_sum, norm_smul, Real.norm_eq_abs, abs_of_pos ht, ← Finset.mul_sum]
  ring

theorem Mt_pos [Nonempty ι] {k : ι → V} (h : ∀ i, k i ≠ 0) : 0 < Mt k :=
  add_pos_of_pos_of_nonneg (Finset.sum_pos (fun i _ => norm_pos_iff.mpr (h i)) Finset.univ_nonempty) (norm_nonneg _)

theorem Mt_bst (b : V) (q : ι → V) :
    Mt (fun i => bst b (q i)) = cmM (∑ i, ‖q i‖) (∑ i, q i) b := by
  unfold Mt cmM
  rw [sum_bst, sum_norm_bst]

/-- Integrating over massless momenta of which only the total energy and the momenta in the centre of mass matter. -/
theorem massless_lintegral [Nonempty ι] {Φ : ℝ → (ι → V) → ℝ≥0∞} (hΦ : Measurable (Function.uncurry Φ)) :
    (∫⁻ q' : ι → V, ∫⁻ q : V, ENNReal.ofReal (∏ i, ‖q' i‖⁻¹) * (ENNReal.ofReal ‖q‖⁻¹
      * Φ (∑ i, ‖q' i‖ + ‖q‖) (fun i => bst (bv (∑ i, ‖q' i‖) (∑ i, q' i) q) (q' i))))
      = ∫⁻ b : V, ∫⁻ k : ι → V, ENNReal.ofReal (∏ i, ‖k i‖⁻¹)
        * (ENNReal.ofReal (Mt k ^ 3 / (gam b * ‖∑ i, k i‖)) * Φ (gam b * Mt k) k) := by
  obtain ⟨R, hRd⟩ : ∃ R : V → (ι → V) → ℝ≥0∞, ∀ b k,
      R b k = ENNReal.ofReal (Mt k ^ 3 / (gam b * ‖∑ i, k i‖)) * Φ (gam b * Mt k) k := ⟨_, fun _ _ => rfl⟩
  have hMt : Measurable fun x : V × (ι → V) => Mt x.2 := (Mt_continuous.comp continuous_snd).measurable
  have hgm : Measurable fun x : V × (ι → V) => gam x.1 := (gam_continuous.comp continuous_fst).measurable
  have hR : Measurable fun x : V × (ι → V) => R x.1 x.2 := by
    simp only [hRd]
    refine Measurable.mul ?_ ?_
    · have : Measurable fun x : V × (ι → V) => ‖∑ i, x.2 i‖ := by fun_prop
      exact ((hMt.pow_const 3).div (hgm.mul this)).ennreal_ofReal
    · exact hΦ.comp ((hgm.mul hMt).prodMk measurable_snd)
  have h1 : (∫⁻ q' : ι → V, ∫⁻ q : V, ENNReal.ofReal (∏ i, ‖q' i‖⁻¹) * (ENNReal.ofReal ‖q‖⁻¹
      * Φ (∑ i, ‖q' i‖ + ‖q‖) (fun i => bst (bv (∑ i, ‖q' i‖) (∑ i, q' i) q) (q' i))))
      = ∫⁻ q' : ι → V, ∫⁻ b : V, ENNReal.ofReal (∏ i, ‖q' i‖⁻¹) * R b (fun i => bst b (q' i)) := by
    refine lintegral_congr_ae ?_
    filter_upwards [ae_ne_zero (ι := ι)] with q' hq'
    have hA : 0 < ∑ i, ‖q' i‖ := Finset.sum_pos (fun i _ => norm_pos_iff.mpr (hq' i)) Finset.univ_nonempty
    have ha : ‖∑ i, q' i‖ ≤ ∑ i, ‖q' i‖ := norm_sum_le _ _
    rw [lintegral_const_mul' _ _ ENNReal.ofReal_ne_top, lintegral_const_mul' _ _ ENNReal.ofReal_ne_top]
    congr 1
    rw [cm_lintegral hA ha]
    refine lintegral_congr fun b => ?_
    rw [hRd, bv_cmQ b hA ha, cmQ_norm b hA ha, Mt_bst, sum_bst]
    congr 3
    ring
  rw [h1, lintegral_lintegral_swap]
  · refine lintegral_congr fun b => ?_
    rw [boost_lintegral b (R b)]
    simp only [hRd]
  · have h2 : Measurable fun x : (ι → V) × V => ENNReal.ofReal (∏ i, ‖x.1 i‖⁻¹) := by
      have : Measurable fun x : (ι → V) × V => ∏ i, ‖x.1 i‖⁻¹ := by fun_prop
      exact this.ennreal_ofReal
    have h3 : Measurable fun x : (ι → V) × V => R x.2 (fun i => bst x.2 (x.1 i)) := by
      have hb : Measurable fun x : (ι → V) × V => fun i => bst x.2 (x.1 i) := by
        refine measurable_pi_lambda _ fun i => ?_
        have hi : Measurable fun x : (ι → V) × V => x.1 i := (measurable_pi_apply i).comp measurable_fst
        exact bst_continuous.measurable.comp (measurable_snd.prodMk hi)
      exact hR.comp (measurable_snd.prodMk hb)
    exact (h2.mul h3).aemeasurable

end Pi

theorem pack {a p y z c d : ℝ} (F : ℝ≥0∞) (ha : 0 ≤ a) (hp : 0 ≤ p) (hy : 0 ≤ y) (hc : 0 ≤ c)
    (h : a * p * y * z = c * d) :
    ENNReal.ofReal a * (ENNReal.ofReal p * (ENNReal.ofReal y * (ENNReal.ofReal z * F)))
      = ENNReal.ofReal c * (ENNReal.ofReal d * F) := by
  rw [← mul_assoc, ← mul_assoc, ← mul_assoc, ← mul_assoc, ← ENNReal.ofReal_mul ha, ← ENNReal.ofReal_mul (by positivity),
    ← ENNReal.ofReal_mul (by positivity), ← ENNReal.ofReal_mul hc, h]

theorem gamma_lintegral (m : ℕ) {r : ℝ} (hr : 0 < r) :
    ∫⁻ t in Ioi (0 : ℝ), ENNReal.ofReal (t ^ m * Real.exp (-(r * t))) = ENNReal.ofReal (m.factorial / r ^ (m + 1)) := by
  have hm : (-1 : ℝ) < m := by have : (0 : ℝ) ≤ m := Nat.cast_nonneg m; linarith
  have hv := Real.integral_rpow_mul_exp_neg_mul_Ioi (a := m + 1) (r := r) (by positivity) hr
  have hi := integrableOn_rpow_mul_exp_neg_mul_rpow (p := 1) (s := m) (b := r) hm one_pos hr
  have e1 : ∀ t ∈ Ioi (0 : ℝ), t ^ (m : ℝ) * Real.exp (-r * t ^ (1 : ℝ)) = t ^ m * Real.exp (-(r * t)) := by
    intro t _
    rw [Real.rpow_natCast, Real.rpow_one, neg_mul]
  have hi' : IntegrableOn (fun t : ℝ => t ^ m * Real.exp (-(r * t))) (Ioi 0) := hi.congr_fun e1 measurableSet_Ioi
  rw [← ofReal_integral_eq_lintegral_ofReal hi']
  · congr 1
    have e2 : ∫ t in Ioi (0 : ℝ), t ^ m * Real.exp (-(r * t)) = ∫ t in Ioi (0 : ℝ), t ^ ((m : ℝ) + 1 - 1) * Real.exp (-(r * t)) := by
      refine setIntegral_congr_fun measurableSet_Ioi fun t _ => ?_
      simp only [add_sub_cancel_right, Real.rpow_natCast]
    rw [e2, hv, Real.Gamma_nat_eq_factorial, show (m : ℝ) + 1 = ((m + 1 : ℕ) : ℝ) by push_cast; ring, Real.rpow_natCast,
      div_pow, one_pow]
    ring
  · refine (ae_restrict_iff' measurableSet_Ioi).mpr (ae_of_all _ fun t ht => ?_)
    have : 0 < t := ht
    simp only [Pi.zero_apply]
    positivity

section Shell

variable {N : ℕ}

/-- The shell of unit energy. -/
def shell (N : ℕ) : Set (Fin N → V) := Mt ⁻¹' Ioc 1 (Real.exp 1)

theorem shell_measurable : MeasurableSet (shell N) := Mt_continuous.measurable measurableSet_Ioc

theorem finrank_W : Module.finrank ℝ (Fin N → V) = 3 * N := by
  rw [Module.finrank_pi_fintype]
  simp
  ring

theorem shell_lintegral (hN : 0 < N) {h : (Fin N → V) → ℝ≥0∞} (hh : Measurable h) :
    ∫⁻ w, h w = ∫⁻ w in shell N, ∫⁻ t in Ioi (0 : ℝ), ENNReal.ofReal (t ^ (3 * N - 1)) * h (t • w) := by
  have : Nonempty (Fin N) := ⟨⟨0, hN⟩⟩
  have h1 := ray_lintegral (volume : Measure (Fin N → V)) Mt_continuous.measurable (fun t ht w => Mt_smul ht w)
    (by filter_upwards [ae_ne_zero (ι := Fin N)] with w hw using Mt_pos hw) hh
  rw [finrank_W] at h1
  exact h1

theorem ray_inner (hN : 0 < N) (b : V) {w : Fin N → V} (hM : 0 < Mt w) {F : (Fin N → V) → ℝ≥0∞}
    (hom : ∀ t : ℝ, 0 < t → ∀ k, F (t • k) = F k) :
    (∫⁻ t in Ioi (0 : ℝ), ENNReal.ofReal (t ^ (3 * N - 1)) * (ENNReal.ofReal (∏ i, ‖(t • w) i‖⁻¹)
        * (ENNReal.ofReal (Mt (t • w) ^ 3 / (gam b * ‖∑ i, (t • w) i‖))
          * (ENNReal.ofReal (Real.exp (-(gam b * Mt (t • w)))) * F (t • w)))))
      = ENNReal.ofReal ((2 * N + 1).factorial / gam b ^ (2 * N + 3))
        * (ENNReal.ofReal ((∏ i, ‖w i‖⁻¹) * ‖∑ i, w i‖⁻¹ / Mt w ^ (2 * N - 1)) * F w) := by
  have hgb := gam_pos b
  have hrw : ∀ t ∈ Ioi (0 : ℝ), ENNReal.ofReal (t ^ (3 * N - 1)) * (ENNReal.ofReal (∏ i, ‖(t • w) i‖⁻¹)
        * (ENNReal.ofReal (Mt (t • w) ^ 3 / (gam b * ‖∑ i, (t • w) i‖))
          * (ENNReal.ofReal (Real.exp (-(gam b * Mt (t • w)))) * F (t • w))))
      = ENNReal.ofReal (t ^ (2 * N + 1) * Real.exp (-(gam b * Mt w * t)))
        * (ENNReal.ofReal ((∏ i, ‖w i‖⁻¹) * (Mt w ^ 3 / (gam b * ‖∑ i, w i‖))) * F w) := by
    intro t ht
    have ht0 : 0 < t := ht
    have hP : 0 ≤ ∏ i, ‖w i‖⁻¹ := Finset.prod_nonneg fun i _ => by positivity
    have e1 : ∏ i, ‖(t • w) i‖⁻¹ = (t ^ N)⁻¹ * ∏ i, ‖w i‖⁻¹ := by
      simp only [Pi.smul_apply, norm_smul, Real.norm_eq_abs, abs_of_pos ht0, mul_inv]
      rw [Finset.prod_mul_distrib, Finset.prod_const, Finset.card_univ, Fintype.card_fin, inv_pow]
    have e2 : ‖∑ i, (t • w) i‖ = t * ‖∑ i, w i‖ := by
      simp only [Pi.smul_apply, ← Finset.smul_sum, norm_smul, Real.norm_eq_abs, abs_of_pos ht0]
    have e3 : (t * Mt w) ^ 3 / (gam b * (t * ‖∑ i, w i‖)) = t ^ 2 * (Mt w ^ 3 / (gam b * ‖∑ i, w i‖)) := by
      rw [show (t * Mt w) ^ 3 = t * (t ^ 2 * Mt w ^ 3) by ring,
        show gam b * (t * ‖∑ i, w i‖) = t * (gam b * ‖∑ i, w i‖) by ring, mul_div_mul_left _ _ ht0.ne', mul_div_assoc]
    have e4 : t ^ (3 * N - 1) * (t ^ N)⁻¹ * t ^ 2 = t ^ (2 * N + 1) := by
      have : t ^ (3 * N - 1) * t ^ 2 = t ^ (2 * N + 1) * t ^ N := by
        rw [← pow_add, ← pow_add]
        congr 1
        omega
      have hne : t ^ N ≠ 0 := by positivity
      field_simp
      linarith
    have e5 : gam b * (t * Mt w) = gam b * Mt w * t := by ring
    rw [e1, e2, Mt_smul ht0, e3, hom t ht0, e5]
    have hy : 0 ≤ Mt w ^ 3 / (gam b * ‖∑ i, w i‖) :=
      div_nonneg (pow_nonneg hM.le 3) (mul_nonneg hgb.le (norm_nonneg _))
    generalize Mt w ^ 3 / (gam b * ‖∑ i, w i‖) = Y at hy ⊢
    generalize (∏ i, ‖w i‖⁻¹) = P at hP ⊢
    have hZ := (Real.exp_pos (-(gam b * Mt w * t))).le
    generalize Real.exp (-(gam b * Mt w * t)) = Z at hZ ⊢
    have htn : 0 ≤ (t ^ N)⁻¹ := by positivity
    refine pack _ (pow_nonneg ht0.le _) (mul_nonneg htn hP) (mul_nonneg (sq_nonneg t) hy) ?_ ?_
    · exact mul_nonneg (pow_nonneg ht0.le _) hZ
    · rw [← e4]
      ring
  rw [setLIntegral_congr_fun measurableSet_Ioi hrw]
  have hP : 0 ≤ ∏ i, ‖w i‖⁻¹ := Finset.prod_nonneg fun i _ => by positivity
  have hr : 0 < gam b * Mt w := mul_pos hgb hM
  have hmt : Measurable fun t : ℝ => ENNReal.ofReal (t ^ (2 * N + 1) * Real.exp (-(gam b * Mt w * t))) := by fun_prop
  have h0 : 0 ≤ ((2 * N + 1).factorial : ℝ) / (gam b * Mt w) ^ (2 * N + 1 + 1) := by positivity
  have h0' : 0 ≤ ((2 * N + 1).factorial : ℝ) / gam b ^ (2 * N + 3) := by positivity
  rw [lintegral_mul_const _ hmt, gamma_lintegral _ hr, ← mul_assoc, ← mul_assoc,
    ← ENNReal.ofReal_mul h0, ← ENNReal.ofReal_mul h0']
  congr 2
  generalize (∏ i, ‖w i‖⁻¹) = P at *
  have hpow : Mt w ^ (2 * N + 1 + 1) = Mt w ^ 3 * Mt w ^ (2 * N - 1) := by
    rw [← pow_add]; congr 1; omega
  rw [mul_pow, hpow]
  by_cases hs : ‖∑ i, w i‖ = 0
  · rw [hs]; simp
  field_simp
  ring

/-- Massless momenta with the energies of the code, as an integral over directions. -/
theorem uniform_lintegral (hN : 0 < N) {F : (Fin N → V) → ℝ≥0∞} (hF : Measurable F)
    (hom : ∀ t : ℝ, 0 < t → ∀ k, F (t • k) = F k) :
    (∫⁻ q' : Fin N → V, ∫⁻ q : V, ENNReal.ofReal (∏ i, ‖q' i‖⁻¹) * (ENNReal.ofReal ‖q‖⁻¹
      * (ENNReal.ofReal (Real.exp (-(∑ i, ‖q' i‖ + ‖q‖)))
        * F (fun i => bst (bv (∑ i, ‖q' i‖) (∑ i, q' i) q) (q' i)))))
      = (∫⁻ b : V, ENNReal.ofReal ((2 * N + 1).factorial / gam b ^ (2 * N + 3)))
        * ∫⁻ w in shell N, ENNReal.ofReal ((∏ i, ‖w i‖⁻¹) * ‖∑ i, w i‖⁻¹ / Mt w ^ (2 * N - 1)) * F w := by
  have : Nonempty (Fin N) := ⟨⟨0, hN⟩⟩
  have hΦ : Measurable (Function.uncurry fun (e : ℝ) (k : Fin N → V) => ENNReal.ofReal (Real.exp (-e)) * F k) := by
    have : Measurable fun x : ℝ × (Fin N → V) => ENNReal.ofReal (Real.exp (-x.1)) * F x.2 :=
      (by fun_prop : Measurable fun x : ℝ × (Fin N → V) => ENNReal.ofReal (Real.exp (-x.1))).mul (hF.comp measurable_snd)
    exact this
  rw [massless_lintegral hΦ]
  have hw : Measurable fun w : Fin N → V => ENNReal.ofReal ((∏ i, ‖w i‖⁻¹) * ‖∑ i, w i‖⁻¹ / Mt w ^ (2 * N - 1)) * F w := by
    refine Measurable.mul ?_ hF
    have h1 : Measurable fun w : Fin N → V => (∏ i, ‖w i‖⁻¹) * ‖∑ i, w i‖⁻¹ := by fun_prop
    exact (h1.div (Mt_continuous.measurable.pow_const _)).ennreal_ofReal
  have hg : Measurable fun b : V => ENNReal.ofReal ((2 * N + 1).factorial / gam b ^ (2 * N + 3)) :=
    (measurable_const.div (gam_continuous.measurable.pow_const _)).ennreal_ofReal
  rw [← lintegral_mul_const _ hg]
  refine lintegral_congr fun b => ?_
  have hgb := gam_pos b
  have hmeas : Measurable fun k : Fin N → V => ENNReal.ofReal (∏ i, ‖k i‖⁻¹)
        * (ENNReal.ofReal (Mt k ^ 3 / (gam b * ‖∑ i, k i‖)) * (ENNReal.ofReal (Real.exp (-(gam b * Mt k))) * F k)) := by
    have hM : Measurable (Mt (ι := Fin N)) := Mt_continuous.measurable
    refine Measurable.mul (by fun_prop) (Measurable.mul ?_ (Measurable.mul ?_ hF))
    · have : Measurable fun k : Fin N → V => gam b * ‖∑ i, k i‖ := by fun_prop
      exact ((hM.pow_const 3).div this).ennreal_ofReal
    · exact (Real.measurable_exp.comp (hM.const_mul (gam b)).neg).ennreal_ofReal
  rw [shell_lintegral hN hmeas, ← lintegral_const_mul _ hw]
  refine setLIntegral_congr_fun shell_measurable fun w hw => ?_
  have hM : 0 < Mt w := lt_trans one_pos hw.1
  exact ray_inner hN b hM hom

end Shell

end Hazma.RamboMeasure
