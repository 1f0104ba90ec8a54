import Mathlib.MeasureTheory.Measure.Haar.InnerProductSpace
import Mathlib.Analysis.InnerProductSpace.Calculus
import Mathlib.Tactic
import Mathlib.MeasureTheory.Function.Jacobian
import Mathlib.MeasureTheory.Measure.Lebesgue.EqHaar
import Mathlib.MeasureTheory.Integral.IntervalIntegral.FundThmCalculus
import Mathlib.Analysis.SpecialFunctions.Integrals.Basic
import Mathlib.LinearAlgebra.Transvection.Basic

/-! # Integrals over momenta: rays, boosts, centre of mass -/

namespace Hazma.RamboMeasure

open MeasureTheory Set
open scoped ENNReal

/-! ## Integration along rays -/

section Ray

variable {W : Type*} [NormedAddCommGroup W] [NormedSpace ℝ W] [FiniteDimensional ℝ W] [MeasurableSpace W] [BorelSpace W]
  (μ : Measure W) [μ.IsAddHaarMeasure]

theorem smul_lintegral {t : ℝ} (ht : 0 < t) {g : W → ℝ≥0∞} (hg : Measurable g) :
    ∫⁻ w, g (t • w) ∂μ = ENNReal.ofReal ((t ^ Module.finrank ℝ W)⁻¹) * ∫⁻ w, g w ∂μ := by
  have h := Measure.map_addHaar_smul μ ht.ne'
  rw [abs_of_pos (by positivity)] at h
  have h2 : ∫⁻ w, g w ∂(Measure.map (t • ·) μ) = ∫⁻ w, g (t • w) ∂μ :=
    lintegral_map hg (measurable_const_smul t)
  rw [← h2, h, lintegral_smul_measure, smul_eq_mul]

theorem log_shell {E : ℝ} (hE : 0 < E) :
    ∫⁻ t in Ioi (0 : ℝ), (Ico (E / Real.exp 1) E).indicator (fun t => ENNReal.ofReal t⁻¹) t = 1 := by
  have he : 1 < Real.exp 1 := by simp
  have hlt : E / Real.exp 1 < E := div_lt_self hE he
  have hpos : 0 < E / Real.exp 1 := by positivity
  have hsub : Ico (E / Real.exp 1) E ∩ Ioi 0 = Ico (E / Real.exp 1) E :=
    inter_eq_left.mpr fun t ht => lt_of_lt_of_le hpos ht.1
  rw [setLIntegral_indicator measurableSet_Ico, hsub, setLIntegral_congr Ico_ae_eq_Ioc]
  have hi : IntervalIntegrable (fun t : ℝ => t⁻¹) volume (E / Real.exp 1) E := by
    refine intervalIntegral.intervalIntegrable_inv (fun t ht => ?_) continuousOn_id
    rw [uIcc_of_le hlt.le] at ht
    exact (lt_of_lt_of_le hpos ht.1).ne'
  rw [← ofReal_integral_eq_lintegral_ofReal, ← intervalIntegral.integral_of_le hlt.le, integral_inv_of_pos hpos hE]
  · rw [show E / (E / Real.exp 1) = Real.exp 1 by field_simp, Real.log_exp, ENNReal.ofReal_one]
  · exact (intervalIntegrable_iff_integrableOn_Ioc_of_le hlt.le).mp hi
  · refine (ae_restrict_iff' measurableSet_Ioc).mpr (ae_of_all _ fun t ht => ?_)
    have : 0 < t := hpos.trans ht.1
    simp only [Pi.zero_apply]
    positivity

/-- Integral over a vector space as an integral along the rays through the shell `1 < E ≤ e`, for any positive homogeneous
function `E`. -/
theorem ray_lintegral [Nontrivial W] {E : W → ℝ} (hE : Measurable E) (hhom : ∀ t : ℝ, 0 < t → ∀ w, E (t • w) = t * E w)
    (hpos : ∀ᵐ w ∂μ, 0 < E w) {h : W → ℝ≥0∞} (hh : Measurable h) :
    ∫⁻ w, h w ∂μ = ∫⁻ w in E ⁻¹' Ioc 1 (Real.exp 1), (∫⁻ t in Ioi (0 : ℝ),
      ENNReal.ofReal (t ^ (Module.finrank ℝ W - 1)) * h (t • w)) ∂μ := by
  have hd : 0 < Module.finrank ℝ W := Module.finrank_pos
  have hA : MeasurableSet (E ⁻¹' Ioc 1 (Real.exp 1)) := hE measurableSet_Ioc
  have hf : Measurable fun x : W × ℝ => ENNReal.ofReal (x.2 ^ (Module.finrank ℝ W - 1)) * h (x.2 • x.1) :=
    (ENNReal.measurable_ofReal.comp (by fun_prop)).mul (hh.comp (measurable_snd.smul measurable_fst))
  rw [lintegral_lintegral_swap hf.aemeasurable]
  have h1 : ∀ t ∈ Ioi (0 : ℝ), (∫⁻ w in E ⁻¹' Ioc 1 (Real.exp 1), ENNReal.ofReal (t ^ (Module.finrank ℝ W - 1)) * h (t • w) ∂μ)
      = ∫⁻ w, (Ico (E w / Real.exp 1) (E w)).indicator (fun t => ENNReal.ofReal t⁻¹) t * h w ∂μ := by
    intro t ht
    have ht0 : 0 < t := ht
    have hset : MeasurableSet {w | t ∈ Ico (E w / Real.exp 1) (E w)} :=
      (measurableSet_le (hE.div_const _) measurable_const).inter (measurableSet_lt measurable_const hE)
    rw [lintegral_const_mul' _ _ ENNReal.ofReal_ne_top, ← lintegral_indicator hA]
    have h2 : ∀ w, (E ⁻¹' Ioc 1 (Real.exp 1)).indicator (fun w => h (t • w)) w
        = {w | t ∈ Ico (E w / Real.exp 1) (E w)}.indicator h (t • w) := by
      intro w
      have hiff : w ∈ E ⁻¹' Ioc 1 (Real.exp 1) ↔ t • w ∈ {w | t ∈ Ico (E w / Real.exp 1) (E w)} := by
        simp only [mem_preimage, mem_Ioc, mem_ofPred_eq, mem_Ico, hhom t ht0]
        rw [div_le_iff₀ (Real.exp_pos 1), mul_le_mul_iff_right₀ ht0, lt_mul_iff_one_lt_right ht0]
        exact and_comm
      by_cases hw : w ∈ E ⁻¹' Ioc 1 (Real.exp 1)
      · rw [indicator_of_mem hw, indicator_of_mem (hiff.mp hw)]
      · rw [indicator_of_notMem hw, indicator_of_notMem (fun hc => hw (hiff.mpr hc))]
    simp only [h2]
    rw [smul_lintegral μ ht0 (hh.indicator hset), ← mul_assoc, ← ENNReal.ofReal_mul (by positivity),
      ← lintegral_const_mul' _ _ ENNReal.ofReal_ne_top]
    refine lintegral_congr fun w => ?_
    have hpow : t ^ (Module.finrank ℝ W - 1) * (t ^ Module.finrank ℝ W)⁻¹ = t⁻¹ := by
      obtain ⟨k, hk⟩ := Nat.exists_eq_succ_of_ne_zero hd.ne'
      rw [hk, Nat.succ_sub_one, pow_succ]
      field_simp
    rw [hpow]
    by_cases hw : t ∈ Ico (E w / Real.exp 1) (E w)
    · rw [indicator_of_mem hw, indicator_of_mem (by exact hw)]
    · rw [indicator_of_notMem hw, indicator_of_notMem (by exact hw)]; simp
  rw [setLIntegral_congr_fun measurableSet_Ioi h1, lintegral_lintegral_swap]
  · refine lintegral_congr_ae ?_
    filter_upwards [hpos] with w hw
    rw [lintegral_mul_const _ ((by fun_prop : Measurable fun t : ℝ => ENNReal.ofReal t⁻¹).indicator measurableSet_Ico),
      log_shell hw, one_mul]
  · have hset : MeasurableSet {x : ℝ × W | x.1 ∈ Ico (E x.2 / Real.exp 1) (E x.2)} :=
      (measurableSet_le ((hE.comp measurable_snd).div_const _) measurable_fst).inter
        (measurableSet_lt measurable_fst (hE.comp measurable_snd))
    have hm : Measurable fun x : ℝ × W => {x : ℝ × W | x.1 ∈ Ico (E x.2 / Real.exp 1) (E x.2)}.indicator
        (fun x => ENNReal.ofReal x.1⁻¹) x * h x.2 :=
      ((by fun_prop : Measurable fun x : ℝ × W => ENNReal.ofReal x.1⁻¹).indicator hset).mul (hh.comp measurable_snd)
    exact hm.aemeasurable

end Ray

/-! ## Boosts of massless momenta -/

abbrev V := EuclideanSpace ℝ (Fin 3)

/-- Lorentz factor of the velocity with spatial part `b`. -/
noncomputable def gam (b : V) : ℝ := Real.sqrt (1 + ‖b‖ ^ 2)

/-- The momentum of a massless particle seen from a frame of velocity `b`. -/
noncomputable def bst (b q : V) : V := q + (inner ℝ b q / (1 + gam b) - ‖q‖) • b

theorem gam_sq (b : V) : gam b ^ 2 = 1 + ‖b‖ ^ 2 := Real.sq_sqrt (by positivity)

theorem gam_pos (b : V) : 0 < gam b := Real.sqrt_pos.mpr (by positivity)

theorem gam_neg (b : V) : gam (-b) = gam b := by unfold gam; rw [norm_neg]

theorem gam_gt (b : V) : ‖b‖ < gam b := Real.lt_sqrt_of_sq_lt (by linarith)

theorem norm_bst (b q : V) : ‖bst b q‖ = gam b * ‖q‖ - inner ℝ b q := by
  have hg := gam_pos b
  have hg2 := gam_sq b
  have h1 : 0 ≤ gam b * ‖q‖ - inner ℝ b q := by
    have := real_inner_le_norm b q
    nlinarith [gam_gt b, norm_nonneg q]
  have h2 : ‖bst b q‖ ^ 2 = (gam b * ‖q‖ - inner ℝ b q) ^ 2 := by
    unfold bst
    rw [norm_add_sq_real, inner_smul_right, real_inner_comm, norm_smul, mul_pow, Real.norm_eq_abs, sq_abs]
    generalize inner ℝ b q = i at *
    have hb : ‖b‖ ^ 2 = gam b ^ 2 - 1 := by linarith
    rw [hb]
    have : 1 + gam b ≠ 0 := by positivity
    field_simp
    ring
  rw [← Real.sqrt_sq (norm_nonneg (bst b q)), h2, Real.sqrt_sq h1]

theorem bst_neg (b q : V) : bst (-b) (bst b q) = q := by
  have hg := gam_pos b
  have hg2 := gam_sq b
  have hn := norm_bst b q
  have h1 : inner ℝ b (bst b q) = inner ℝ b q + (inner ℝ b q / (1 + gam b) - ‖q‖) * ‖b‖ ^ 2 := by
    unfold bst
    rw [inner_add_right, inner_smul_right, real_inner_self_eq_norm_sq]
  have hc : (inner ℝ b q / (1 + gam b) - ‖q‖)
      - (-(inner ℝ b q + (inner ℝ b q / (1 + gam b) - ‖q‖) * ‖b‖ ^ 2) / (1 + gam b) - ‖bst b q‖) = 0 := by
    rw [hn]
    have hb : ‖b‖ ^ 2 = gam b ^ 2 - 1 := by linarith
    rw [hb]
    have : 1 + gam b ≠ 0 := by positivity
    field_simp
    ring
  change bst b q + (inner ℝ (-b) (bst b q) / (1 + gam (-b)) - ‖bst b q‖) • -b = q
  rw [gam_neg, inner_neg_left, h1, smul_neg, ← sub_eq_add_neg]
  conv_lhs => enter [1]; unfold bst
  rw [add_sub_assoc, ← sub_smul, hc, zero_smul, add_zero]

theorem bst_neg' (b q : V) : bst b (bst (-b) q) = q := by
  have := bst_neg (-b) q
  rwa [neg_neg] at this

theorem bst_ne_zero {b q : V} (h : q ≠ 0) : bst b q ≠ 0 := by
  intro h0
  apply h
  rw [← bst_neg b q, h0]
  simp [bst]

/-- The derivative of a boost. -/
noncomputable def dbst (b q : V) : V →L[ℝ] V :=
  ContinuousLinearMap.id ℝ V + ((1 / (1 + gam b)) • innerSL ℝ b - (1 / ‖q‖) • innerSL ℝ q).smulRight b

theorem norm_deriv {q : V} (h : q ≠ 0) : HasFDerivAt (fun q : V => ‖q‖) ((1 / ‖q‖) • innerSL ℝ q) q := by
  have hn : ‖q‖ ≠ 0 := norm_ne_zero_iff.mpr h
  have h1 := ((hasFDerivAt_id q).norm_sq).sqrt (by simpa using h)
  simp only [id] at h1
  have h2 : (fun y : V => Real.sqrt (‖y‖ ^ 2)) = fun y => ‖y‖ := by
    funext y; exact Real.sqrt_sq (norm_nonneg y)
  rw [h2] at h1
  refine h1.congr_fderiv ?_
  rw [Real.sqrt_sq (norm_nonneg q)]
  ext v
  simp
  field_simp

theorem bst_deriv (b : V) {q : V} (h : q ≠ 0) : HasFDerivAt (bst b) (dbst b q) q := by
  have h1 : HasFDerivAt (fun q : V => inner ℝ b q / (1 + gam b)) ((1 / (1 + gam b)) • innerSL ℝ b) q := by
    have := ((innerSL ℝ b).hasFDerivAt (x := q)).const_mul (1 / (1 + gam b))
    refine (this.congr_of_eventuallyEq ?_)
    refine Filter.Eventually.of_forall fun y => ?_
    simp only [innerSL_apply_apply]
    ring
  exact (hasFDerivAt_id q).add ((h1.sub (norm_deriv h)).smul_const b)

theorem dbst_det (b : V) {q : V} (h : q ≠ 0) : (dbst b q).det = ‖bst b q‖ / ‖q‖ := by
  have hg := gam_pos b
  have hg2 := gam_sq b
  have hn : ‖q‖ ≠ 0 := norm_ne_zero_iff.mpr h
  have h1 : ((dbst b q : V →L[ℝ] V) : V →ₗ[ℝ] V)
      = LinearMap.transvection (((1 / (1 + gam b)) • innerSL ℝ b - (1 / ‖q‖) • innerSL ℝ q : V →L[ℝ] ℝ) : V →ₗ[ℝ] ℝ) b := by
    ext v
    simp [dbst, LinearMap.transvection.apply]
  unfold ContinuousLinearMap.det
  rw [h1, LinearMap.transvection.det, norm_bst]
  simp only [ContinuousLinearMap.coe_coe, _root_.sub_apply, _root_.smul_apply, innerSL_apply_apply,
    real_inner_self_eq_norm_sq, smul_eq_mul, real_inner_comm b q]
  have hb : ‖b‖ ^ 2 = gam b ^ 2 - 1 := by linarith
  rw [hb]
  have : 1 + gam b ≠ 0 := by positivity
  field_simp
  ring

section Pi

variable {ι : Type*} [Fintype ι]

theorem ae_ne_zero : ∀ᵐ q : ι → V, ∀ i, q i ≠ 0 := by
  rw [ae_all_iff]
  intro i
  have h : ∀ᵐ v : V, v ≠ 0 := by
    rw [ae_iff]
    simp
  exact (Measure.quasiMeasurePreserving_eval (μ := fun _ : ι => (volume : Measure V)) i).ae h

/-- The measure `d³q / |q|` of any number of massless particles does not change under boosts. -/
theorem boost_lintegral (b : V) (R : (ι → V) → ℝ≥0∞) :
    ∫⁻ q : ι → V, ENNReal.ofReal (∏ i, ‖q i‖⁻¹) * R (fun i => bst b (q i))
      = ∫⁻ k : ι → V, ENNReal.ofReal (∏ i, ‖k i‖⁻¹) * R k := by
  let s : Set (ι → V) := {q | ∀ i, q i ≠ 0}
  have hs : MeasurableSet s := by
    have : s = ⋂ i, {q | q i ≠ 0} := by ext q; simp [s]
    rw [this]
    refine MeasurableSet.iInter fun i => ?_
    have h0 : MeasurableSet ({0}ᶜ : Set V) := (measurableSet_singleton 0).compl
    exact (measurable_pi_apply (X := fun _ : ι => V) i) h0
  have hae : s =ᵐ[volume] (univ : Set (ι → V)) := by
    rw [Filter.eventuallyEq_univ]
    exact ae_ne_zero
  let f : (ι → V) → (ι → V) := fun q i => bst b (q i)
  let f' : (ι → V) → (ι → V) →L[ℝ] (ι → V) := fun q =>
    ContinuousLinearMap.pi fun i => (dbst b (q i)).comp (ContinuousLinearMap.proj i)
  have hf' : ∀ q ∈ s, HasFDerivWithinAt f (f' q) s q := by
    intro q hq
    refine HasFDerivAt.hasFDerivWithinAt ?_
    rw [hasFDerivAt_pi']
    intro i
    exact HasFDerivAt.comp (g := bst b) q (bst_deriv b (hq i)) (hasFDerivAt_apply i q)
  have hinj : InjOn f s := by
    intro q _ q' _ h
    funext i
    have := congrFun h i
    rw [← bst_neg b (q i), ← bst_neg b (q' i)]
    exact congrArg _ this
  have himg : f '' s = s := by
    ext k
    constructor
    · rintro ⟨q, hq, rfl⟩ i
      exact bst_ne_zero (hq i)
    · intro hk
      exact ⟨fun i => bst (-b) (k i), fun i => bst_ne_zero (hk i), funext fun i => bst_neg' b (k i)⟩
  have h := lintegral_image_eq_lintegral_abs_det_fderiv_mul volume hs hf' hinj
    (fun k => ENNReal.ofReal (∏ i, ‖k i‖⁻¹) * R k)
  rw [himg, setLIntegral_congr hae, setLIntegral_univ] at h
  rw [h, ← setLIntegral_univ, ← setLIntegral_congr hae]
  refine setLIntegral_congr_fun hs fun q hq => ?_
  have hdet : (f' q).det = ∏ i, ‖bst b (q i)‖ / ‖q i‖ := by
    rw [ContinuousLinearMap.det_pi]
    exact Finset.prod_congr rfl fun i _ => dbst_det b (hq i)
  rw [hdet, abs_of_nonneg (Finset.prod_nonneg fun i _ => by positivity), ← mul_assoc,
    ← ENNReal.ofReal_mul (Finset.prod_nonneg fun i _ => by positivity), ← Finset.prod_mul_distrib]
  congr 2
  refine Finset.prod_congr rfl fun i _ => ?_
  have h1 : ‖bst b (q i)‖ ≠ 0 := norm_ne_zero_iff.mpr (bst_ne_zero (hq i))
  simp only [f]
  field_simp

end Pi

end Hazma.RamboMeasure
