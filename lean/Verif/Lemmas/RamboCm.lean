import Verif.Lemmas.RamboMeasure

/-! # From the last momentum to the velocity of the centre of mass -/

namespace Hazma.RamboMeasure

open MeasureTheory Set
open scoped ENNReal

/-- Energy of `(A, a)` in the frame of velocity `b`. -/
noncomputable def cmU (A : ℝ) (a b : V) : ℝ := gam b * A - inner ℝ a b

/-- Momentum of `(A, a)` in the frame of velocity `b`. -/
noncomputable def cmK (A : ℝ) (a b : V) : V := a + (inner ℝ b a / (1 + gam b) - A) • b

/-- Invariant mass of `(A, a)` together with the massless momentum that balances it. -/
noncomputable def cmM (A : ℝ) (a b : V) : ℝ := cmU A a b + ‖cmK A a b‖

/-- The massless momentum that balances `(A, a)` in the frame of velocity `b`. -/
noncomputable def cmQ (A : ℝ) (a b : V) : V := cmM A a b • b - a

theorem cmK_sq (A : ℝ) (a b : V) : ‖cmK A a b‖ ^ 2 = cmU A a b ^ 2 - (A ^ 2 - ‖a‖ ^ 2) := by
  have hg := gam_pos b
  have hg2 := gam_sq b
  unfold cmK cmU
  rw [norm_add_sq_real, inner_smul_right, real_inner_comm b a, norm_smul, mul_pow, Real.norm_eq_abs, sq_abs]
  generalize inner ℝ a b = i at *
  have hb : ‖b‖ ^ 2 = gam b ^ 2 - 1 := by linarith
  rw [hb]
  have : 1 + gam b ≠ 0 := by positivity
  field_simp
  ring

theorem cmU_pos {A : ℝ} {a : V} (b : V) (hA : 0 < A) (h : ‖a‖ ≤ A) : 0 < cmU A a b := by
  unfold cmU
  have h1 := real_inner_le_norm a b
  have h2 := gam_gt b
  have h3 := norm_nonneg b
  nlinarith [norm_nonneg a]

theorem cmM_pos {A : ℝ} {a : V} (b : V) (hA : 0 < A) (h : ‖a‖ ≤ A) : 0 < cmM A a b :=
  add_pos_of_pos_of_nonneg (cmU_pos b hA h) (norm_nonneg _)

theorem cmQ_sq (A : ℝ) (a b : V) : ‖cmQ A a b‖ ^ 2 = (cmM A a b * gam b - A) ^ 2 := by
  have hg2 := gam_sq b
  have hk := cmK_sq A a b
  unfold cmQ
  rw [norm_sub_sq_real, inner_smul_left, norm_smul, mul_pow, Real.norm_eq_abs, sq_abs,
    real_inner_comm a b]
  have hM : ‖cmK A a b‖ = cmM A a b - cmU A a b := by unfold cmM; ring
  rw [hM] at hk
  have hu : inner ℝ a b = gam b * A - cmU A a b := by unfold cmU; ring
  simp only [conj_trivial]
  rw [hu]
  have hb : ‖b‖ ^ 2 = gam b ^ 2 - 1 := by linarith
  rw [hb]
  nlinarith

theorem cmQ_norm {A : ℝ} {a : V} (b : V) (hA : 0 < A) (h : ‖a‖ ≤ A) :
    ‖cmQ A a b‖ = cmM A a b * gam b - A := by
  have h1 : 0 ≤ cmM A a b * gam b - A := by
    have hg := gam_pos b
    have hg2 := gam_sq b
    have hu := cmU_pos b hA h
    have hk := norm_nonneg (cmK A a b)
    have h2 := real_inner_le_norm a b
    have h3 := gam_gt b
    have h5 := norm_nonneg b
    -- the boosted momentum bounds the velocity times the rest
    have h4 : inner ℝ b (cmK A a b) = gam b * inner ℝ a b - A * ‖b‖ ^ 2 := by
      unfold cmK
      rw [inner_add_right, inner_smul_right, real_inner_self_eq_norm_sq, real_inner_comm a b]
      have hb : ‖b‖ ^ 2 = gam b ^ 2 - 1 := by linarith
      rw [hb]
      have : 1 + gam b ≠ 0 := by positivity
      field_simp
      ring
    have h6 : -(‖b‖ * ‖cmK A a b‖) ≤ inner ℝ b (cmK A a b) := by
      have := abs_real_inner_le_norm b (cmK A a b)
      have := neg_abs_le (inner ℝ b (cmK A a b))
      linarith
    have h7 : cmM A a b * gam b - A = gam b * ‖cmK A a b‖ - inner ℝ b (cmK A a b) + 2 * (‖b‖ ^ 2 * A * 0)
        + (gam b * cmU A a b - A + inner ℝ b (cmK A a b)) := by
      unfold cmM; ring
    have h8 : gam b * cmU A a b - A + inner ℝ b (cmK A a b) = 0 := by
      rw [h4]; unfold cmU
      have hb : ‖b‖ ^ 2 = gam b ^ 2 - 1 := by linarith
      rw [hb]; ring
    have h9 := real_inner_le_norm b (cmK A a b)
    rw [h7, h8]
    nlinarith
  rw [← Real.sqrt_sq (norm_nonneg (cmQ A a b)), cmQ_sq, Real.sqrt_sq h1]

theorem gam_deriv (b : V) : HasFDerivAt gam ((1 / gam b) • innerSL ℝ b) b := by
  have h0 : HasFDerivAt (fun b : V => 1 + ‖b‖ ^ 2) (2 • innerSL ℝ b) b :=
    (hasStrictFDerivAt_norm_sq b).hasFDerivAt.const_add 1
  have h1 := h0.sqrt (by positivity)
  refine h1.congr_fderiv ?_
  have hg := gam_pos b
  ext v
  change (1 / (2 * gam b)) • (2 • inner ℝ b v) = (1 / gam b) • inner ℝ b v
  simp only [smul_eq_mul, nsmul_eq_mul]
  push_cast
  field_simp

theorem cmU_deriv (A : ℝ) (a b : V) :
    HasFDerivAt (cmU A a) ((A / gam b) • innerSL ℝ b - innerSL ℝ a) b := by
  have h := ((gam_deriv b).mul_const A).sub ((innerSL ℝ a).hasFDerivAt (x := b))
  refine h.congr_fderiv ?_
  ext v
  simp
  ring

theorem cmM_deriv {A : ℝ} {a b : V} (hk : cmK A a b ≠ 0) :
    HasFDerivAt (cmM A a) ((cmM A a b / ‖cmK A a b‖) • ((A / gam b) • innerSL ℝ b - innerSL ℝ a)) b := by
  have hn : ‖cmK A a b‖ ≠ 0 := norm_ne_zero_iff.mpr hk
  have hfun : cmM A a = fun b => cmU A a b + Real.sqrt (cmU A a b ^ 2 - (A ^ 2 - ‖a‖ ^ 2)) := by
    funext b
    rw [← cmK_sq, Real.sqrt_sq (norm_nonneg _)]
    rfl
  have hu := cmU_deriv A a b
  have h1 : HasFDerivAt (fun b => cmU A a b ^ 2 - (A ^ 2 - ‖a‖ ^ 2))
      ((2 * cmU A a b) • ((A / gam b) • innerSL ℝ b - innerSL ℝ a)) b := by
    have := (hu.pow 2).sub_const (A ^ 2 - ‖a‖ ^ 2)
    refine this.congr_fderiv ?_
    simp
  have h2 := h1.sqrt (by rw [← cmK_sq]; positivity)
  have h3 := hu.add h2
  rw [hfun]
  refine h3.congr_fderiv ?_
  have e : Real.sqrt (cmU A a b ^ 2 - (A ^ 2 - ‖a‖ ^ 2)) = ‖cmK A a b‖ := by
    rw [← cmK_sq, Real.sqrt_sq (norm_nonneg _)]
  simp only [e]
  generalize (A / gam b) • innerSL ℝ b - innerSL ℝ a = L
  rw [smul_smul, ← one_smul ℝ L, smul_smul, smul_smul, ← add_smul]
  congr 1
  field_simp
  ring

/-- The derivative of the balancing momentum with respect to the velocity. -/
noncomputable def dcmQ (A : ℝ) (a b : V) : V →L[ℝ] V :=
  cmM A a b • ContinuousLinearMap.id ℝ V
    + ((cmM A a b / ‖cmK A a b‖) • ((A / gam b) • innerSL ℝ b - innerSL ℝ a)).smulRight b

theorem cmQ_deriv {A : ℝ} {a b : V} (hk : cmK A a b ≠ 0) : HasFDerivAt (cmQ A a) (dcmQ A a b) b :=
  ((cmM_deriv hk).smul (hasFDerivAt_id b)).sub_const a

theorem dcmQ_det {A : ℝ} {a b : V} (hA : 0 < A) (h : ‖a‖ ≤ A) (hk : cmK A a b ≠ 0) :
    (dcmQ A a b).det = cmM A a b ^ 3 * ‖cmQ A a b‖ / (gam b * ‖cmK A a b‖) := by
  have hg := gam_pos b
  have hg2 := gam_sq b
  have hn : ‖cmK A a b‖ ≠ 0 := norm_ne_zero_iff.mpr hk
  have hM := cmM_pos b hA h
  have h1 : ((dcmQ A a b : V →L[ℝ] V) : V →ₗ[ℝ] V)
      = cmM A a b • LinearMap.transvection
        ((‖cmK A a b‖⁻¹ • ((A / gam b) • innerSL ℝ b - innerSL ℝ a) : V →L[ℝ] ℝ) : V →ₗ[ℝ] ℝ) b := by
    ext v
    simp [dcmQ, LinearMap.transvection.apply]
    field_simp
  unfold ContinuousLinearMap.det
  rw [h1, LinearMap.det_smul, LinearMap.transvection.det, cmQ_norm b hA h]
  simp only [ContinuousLinearMap.coe_coe, _root_.sub_apply, _root_.smul_apply, innerSL_apply_apply,
    real_inner_self_eq_norm_sq, smul_eq_mul, finrank_euclideanSpace, Fintype.card_fin]
  have hb : ‖b‖ ^ 2 = gam b ^ 2 - 1 := by linarith
  have hMe : cmM A a b = gam b * A - inner ℝ a b + ‖cmK A a b‖ := rfl
  rw [hb]
  have hi : inner ℝ a b = gam b * A + ‖cmK A a b‖ - cmM A a b := by linarith
  rw [hi]
  generalize ‖cmK A a b‖ = κ at *
  generalize cmM A a b = M at *
  field_simp
  ring

theorem cmQ_injOn {A : ℝ} {a : V} (hA : 0 < A) (h : ‖a‖ ≤ A) : Function.Injective (cmQ A a) := by
  intro b c hbc
  have key : ∀ b, cmM A a b ^ 2 = (A + ‖cmQ A a b‖) ^ 2 - ‖a + cmQ A a b‖ ^ 2 := by
    intro b
    have h1 : a + cmQ A a b = cmM A a b • b := by unfold cmQ; abel
    rw [h1, cmQ_norm b hA h, norm_smul, mul_pow, Real.norm_eq_abs, sq_abs]
    have := gam_sq b
    nlinarith
  have hM : cmM A a b = cmM A a c := by
    have := key b
    rw [hbc, ← key c] at this
    exact (sq_eq_sq₀ (cmM_pos b hA h).le (cmM_pos c hA h).le).mp this
  have h2 : cmM A a b • b = cmM A a b • c := by
    have := hbc
    unfold cmQ at this
    rw [sub_left_inj, ← hM] at this
    exact this
  exact smul_right_injective V (cmM_pos b hA h).ne' h2

/-- Which momenta are reached. -/
theorem cmQ_surj {A : ℝ} {a q : V} (hA : 0 < A) (h : ‖a‖ ≤ A) (hq : A * ‖q‖ ≠ inner ℝ a q) :
    ∃ b, cmK A a b ≠ 0 ∧ cmQ A a b = q := by
  have hle := real_inner_le_norm a q
  have hlt : inner ℝ a q < A * ‖q‖ := by
    refine lt_of_le_of_ne (hle.trans ?_) hq.symm
    exact mul_le_mul_of_nonneg_right h (norm_nonneg _)
  obtain ⟨D, hD⟩ : ∃ D, D = (A ^ 2 - ‖a‖ ^ 2) + 2 * (A * ‖q‖ - inner ℝ a q) := ⟨_, rfl⟩
  have hs : 0 ≤ A ^ 2 - ‖a‖ ^ 2 := by nlinarith [norm_nonneg a]
  have hDpos : 0 < D := by rw [hD]; linarith
  obtain ⟨M, hM⟩ : ∃ M, M = Real.sqrt D := ⟨_, rfl⟩
  have hMpos : 0 < M := by rw [hM]; exact Real.sqrt_pos.mpr hDpos
  have hM2 : M ^ 2 = D := by rw [hM]; exact Real.sq_sqrt hDpos.le
  refine ⟨M⁻¹ • (a + q), ?_⟩
  have hnorm : ‖a + q‖ ^ 2 = ‖a‖ ^ 2 + 2 * inner ℝ a q + ‖q‖ ^ 2 := norm_add_sq_real a q
  have hgam : gam (M⁻¹ • (a + q)) = (A + ‖q‖) / M := by
    unfold gam
    rw [norm_smul, mul_pow, hnorm, Real.norm_eq_abs, sq_abs]
    have : 1 + M⁻¹ ^ 2 * (‖a‖ ^ 2 + 2 * inner ℝ a q + ‖q‖ ^ 2) = ((A + ‖q‖) / M) ^ 2 := by
      field_simp
      rw [hM2, hD]
      ring
    rw [this, Real.sqrt_sq (by positivity)]
  have hU : cmU A a (M⁻¹ • (a + q)) = (M ^ 2 + (A ^ 2 - ‖a‖ ^ 2)) / (2 * M) := by
    unfold cmU
    rw [hgam, inner_smul_right, inner_add_right, real_inner_self_eq_norm_sq]
    field_simp
    rw [hM2, hD]
    ring
  have hKsq : ‖cmK A a (M⁻¹ • (a + q))‖ ^ 2 = ((A * ‖q‖ - inner ℝ a q) / M) ^ 2 := by
    rw [cmK_sq, hU]
    field_simp
    rw [hM2, hD]
    ring
  have hK : ‖cmK A a (M⁻¹ • (a + q))‖ = (A * ‖q‖ - inner ℝ a q) / M := by
    rw [← Real.sqrt_sq (norm_nonneg (cmK A a (M⁻¹ • (a + q)))), hKsq, Real.sqrt_sq]
    exact div_nonneg (by linarith) hMpos.le
  have hMM : cmM A a (M⁻¹ • (a + q)) = M := by
    unfold cmM
    rw [hU, hK]
    field_simp
    rw [hM2, hD]
    ring
  constructor
  · intro h0
    rw [h0, norm_zero] at hK
    have : 0 < (A * ‖q‖ - inner ℝ a q) / M := div_pos (by linarith) hMpos
    linarith
  · unfold cmQ
    rw [hMM, smul_smul, mul_inv_cancel₀ hMpos.ne', one_smul]
    abel

theorem line_null (a : V) : volume ((Submodule.span ℝ {a} : Submodule ℝ V) : Set V) = 0 := by
  refine Measure.addHaar_submodule _ _ ?_
  intro htop
  have h1 := finrank_span_le_card (R := ℝ) ({a} : Set V)
  rw [htop, finrank_top, finrank_euclideanSpace] at h1
  simp at h1

theorem collinear_null {A : ℝ} {a : V} (hA : 0 < A) (h : ‖a‖ ≤ A) :
    volume {q : V | A * ‖q‖ = inner ℝ a q} = 0 := by
  refine measure_mono_null ?_ (line_null a)
  intro q hq
  have hq' : A * ‖q‖ = inner ℝ a q := hq
  rw [SetLike.mem_coe, Submodule.mem_span_singleton]
  by_cases hq0 : q = 0
  · exact ⟨0, by rw [hq0, zero_smul]⟩
  have hn : 0 < ‖q‖ := norm_pos_iff.mpr hq0
  have hle := real_inner_le_norm a q
  have ha : ‖a‖ = A := by
    refine le_antisymm h ?_
    have : A * ‖q‖ ≤ ‖a‖ * ‖q‖ := by rw [hq']; exact hle
    exact le_of_mul_le_mul_right this hn
  rw [← ha] at hq'
  have := inner_eq_norm_mul_iff_real.mp hq'.symm
  refine ⟨‖q‖ / ‖a‖, ?_⟩
  have hane : ‖a‖ ≠ 0 := by rw [ha]; exact hA.ne'
  rw [div_eq_inv_mul, ← smul_smul, this, smul_smul, inv_mul_cancel₀ hane, one_smul]

theorem rest_null {A : ℝ} {a : V} (hA : 0 < A) : volume {b : V | cmK A a b = 0} = 0 := by
  refine measure_mono_null ?_ (line_null a)
  intro b hb
  have hb' : a + (inner ℝ b a / (1 + gam b) - A) • b = 0 := hb
  rw [SetLike.mem_coe, Submodule.mem_span_singleton]
  by_cases hc : inner ℝ b a / (1 + gam b) - A = 0
  · rw [hc, zero_smul, add_zero] at hb'
    rw [hb', inner_zero_right, zero_div, zero_sub, neg_eq_zero] at hc
    exact absurd hc hA.ne'
  · refine ⟨-(inner ℝ b a / (1 + gam b) - A)⁻¹, ?_⟩
    generalize inner ℝ b a / (1 + gam b) - A = c at *
    have h1 : a = -(c • b) := eq_neg_of_add_eq_zero_left hb'
    rw [h1, smul_neg, neg_smul, neg_neg, smul_smul, inv_mul_cancel₀ hc, one_smul]

theorem gam_continuous : Continuous gam := by
  unfold gam
  fun_prop

theorem cmK_measurable (A : ℝ) (a : V) : Measurable (cmK A a) := by
  have h : Continuous (cmK A a) := by
    unfold cmK
    have hg := gam_continuous
    have hne : ∀ b, 1 + gam b ≠ 0 := fun b => by have := gam_pos b; positivity
    have h1 : Continuous fun b : V => inner ℝ b a / (1 + gam b) :=
      (by fun_prop : Continuous fun b : V => inner ℝ b a).div (continuous_const.add hg) hne
    fun_prop
  exact h.measurable

/-- Integrating over the last massless momentum or over the velocity of the centre of mass. -/
theorem cm_lintegral {A : ℝ} {a : V} (hA : 0 < A) (h : ‖a‖ ≤ A) (F : V → ℝ≥0∞) :
    ∫⁻ q, ENNReal.ofReal ‖q‖⁻¹ * F q
      = ∫⁻ b, ENNReal.ofReal (cmM A a b ^ 3 / (gam b * ‖cmK A a b‖)) * F (cmQ A a b) := by
  let s : Set V := {b | cmK A a b ≠ 0}
  have hs : MeasurableSet s := (cmK_measurable A a) (measurableSet_singleton 0).compl
  have hae : s =ᵐ[volume] (univ : Set V) := by
    rw [Filter.eventuallyEq_univ, mem_ae_iff]
    have : sᶜ = {b : V | cmK A a b = 0} := by ext b; simp [s]
    rw [this]
    exact rest_null hA
  have himg : cmQ A a '' s =ᵐ[volume] (univ : Set V) := by
    rw [Filter.eventuallyEq_univ, mem_ae_iff]
    refine measure_mono_null ?_ (collinear_null hA h)
    intro q hq
    by_contra hne
    obtain ⟨b, hb, hbq⟩ := cmQ_surj hA h (show A * ‖q‖ ≠ inner ℝ a q from hne)
    exact hq ⟨b, hb, hbq⟩
  have hJ := lintegral_image_eq_lintegral_abs_det_fderiv_mul volume hs
    (fun b hb => (cmQ_deriv (show cmK A a b ≠ 0 from hb)).hasFDerivWithinAt) (cmQ_injOn hA h).injOn
    (fun q => ENNReal.ofReal ‖q‖⁻¹ * F q)
  rw [setLIntegral_congr himg, setLIntegral_univ] at hJ
  rw [hJ, ← setLIntegral_univ (f := fun b => ENNReal.ofReal (cmM A a b ^ 3 / (gam b * ‖cmK A a b‖)) * F (cmQ A a b)),
    ← setLIntegral_congr hae]
  -- the balancing momentum vanishes nowhere on the set
  refine setLIntegral_congr_fun hs fun b hb => ?_
  have hb' : cmK A a b ≠ 0 := hb
  have hk : 0 < ‖cmK A a b‖ := norm_pos_iff.mpr hb'
  have hM := cmM_pos b hA h
  have hg := gam_pos b
  rw [dcmQ_det hA h hb', abs_of_nonneg (by positivity), ← mul_assoc, ← ENNReal.ofReal_mul (by positivity)]
  have hq : ‖cmQ A a b‖ ≠ 0 := by
    intro h0
    have hq0 := norm_eq_zero.mp h0
    -- then the total is `(A, a) = M (γ, b)` and the boosted momentum vanishes
    have e1 : a = cmM A a b • b := by
      have := hq0; unfold cmQ at this; exact (sub_eq_zero.mp this).symm
    have e2 := cmQ_norm b hA h
    rw [h0] at e2
    apply hb'
    have hg2 := gam_sq b
    have e3 : cmK A a b = (cmM A a b + (inner ℝ b (cmM A a b • b) / (1 + gam b) - A)) • b := by
      rw [add_smul, ← e1]; rfl
    rw [e3, inner_smul_right, real_inner_self_eq_norm_sq]
    have hb2 : ‖b‖ ^ 2 = (gam b - 1) * (1 + gam b) := by nlinarith
    have hne : 1 + gam b ≠ 0 := by positivity
    have : cmM A a b + (cmM A a b * ‖b‖ ^ 2 / (1 + gam b) - A) = 0 := by
      rw [hb2]
      field_simp
      nlinarith
    rw [this, zero_smul]
  congr 2
  field_simp

theorem bst_cmQ (A : ℝ) {a : V} (b : V) (hA : 0 < A) (h : ‖a‖ ≤ A) : bst b (cmQ A a b) = -cmK A a b := by
  have hg := gam_pos b
  have hg2 := gam_sq b
  have hc : inner ℝ b (cmQ A a b) / (1 + gam b) - ‖cmQ A a b‖
      = -(cmM A a b + (inner ℝ b a / (1 + gam b) - A)) := by
    rw [cmQ_norm b hA h]
    unfold cmQ
    rw [inner_sub_right, inner_smul_right, real_inner_self_eq_norm_sq]
    have hb : ‖b‖ ^ 2 = gam b ^ 2 - 1 := by linarith
    rw [hb]
    have : 1 + gam b ≠ 0 := by positivity
    field_simp
    ring
  unfold bst
  rw [hc, neg_smul, add_smul]
  unfold cmK cmQ
  abel

section Pi

variable {ι : Type*} [Fintype ι]

theorem sum_bst (b : V) (q : ι → V) :
    ∑ i, bst b (q i) = cmK (∑ i, ‖q i‖) (∑ i, q i) b := by
  unfold bst cmK
  rw [Finset.sum_add_distrib, ← Finset.sum_smul, Finset.sum_sub_distrib, ← Finset.sum_div, ← inner_sum]

theorem sum_norm_bst (b : V) (q : ι → V) :
    ∑ i, ‖bst b (q i)‖ = cmU (∑ i, ‖q i‖) (∑ i, q i) b := by
  unfold cmU
  rw [Finset.sum_congr rfl fun i _ => norm_bst b (q i), Finset.sum_sub_distrib, ← Finset.mul_sum,
    real_inner_comm, ← inner_sum]

end Pi

end Hazma.RamboMeasure
