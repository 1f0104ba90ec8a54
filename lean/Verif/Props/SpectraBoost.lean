import Verif.Props.Boost
import Mathlib.MeasureTheory.Integral.Prod
import Mathlib.MeasureTheory.Integral.IntervalIntegral.Basic
import Mathlib.Tactic

/-!
# The boost of a spectrum (specification) and conservation of particle number (C79)
-/

namespace Hazma.Spectra

open MeasureTheory Hazma.Boost

/-- The spectrum of a daughter of mass `m`, emitted isotropically with spectrum `f` by a parent that
moves with velocity `beta` (specification): every lab energy collects the rest-frame energies whose
emission cone reaches it. -/
noncomputable def boosted (f : ℝ → ℝ) (m beta e : ℝ) : ℝ :=
  ∫ e' in (lorentz beta * (e - beta * momentum e m))..(lorentz beta * (e + beta * momentum e m)),
    f e' / (2 * lorentz beta * beta * momentum e' m)

theorem integral_clip {f : ℝ → ℝ} {a b lo hi : ℝ} (hab : a ≤ b)
    (hf : ∀ x, (x < lo ∨ hi < x) → f x = 0) :
    ∫ x in a..b, f x = if max a lo ≤ min b hi then ∫ x in (max a lo)..(min b hi), f x else 0 := by
  rw [intervalIntegral.integral_of_le hab, ← integral_Icc_eq_integral_Ioc]
  split_ifs with h
  · rw [intervalIntegral.integral_of_le h, ← integral_Icc_eq_integral_Ioc]
    refine setIntegral_eq_of_subset_of_forall_sdiff_eq_zero measurableSet_Icc
      (Set.Icc_subset_Icc (le_max_left _ _) (min_le_left _ _)) ?_
    rintro x ⟨⟨hx1, hx2⟩, hx⟩
    apply hf
    by_contra hc
    push Not at hc
    exact hx ⟨max_le hx1 hc.1, le_min hx2 hc.2⟩
  · refine setIntegral_eq_zero_of_forall_eq_zero ?_
    rintro x ⟨hx1, hx2⟩
    apply hf
    by_contra hc
    push Not at hc
    exact h ((max_le hx1 hc.1).trans (le_min hx2 hc.2))

theorem integral_congr_Ioo {f g : ℝ → ℝ} {a b : ℝ} (hab : a ≤ b)
    (h : ∀ x, a < x → x < b → f x = g x) : ∫ x in a..b, f x = ∫ x in a..b, g x := by
  rw [intervalIntegral.integral_of_le hab, intervalIntegral.integral_of_le hab,
    integral_Ioc_eq_integral_Ioo, integral_Ioc_eq_integral_Ioo]
  exact setIntegral_congr_fun measurableSet_Ioo fun x hx => h x hx.1 hx.2

/-- Lab energies of a line, as a set. -/
def window (m beta e' : ℝ) : Set ℝ := Set.Ioo (labEnergy e' m beta (-1)) (labEnergy e' m beta 1)

/-- The kernel of the boost on the plane. -/
noncomputable def kernel (f : ℝ → ℝ) (m beta : ℝ) (p : ℝ × ℝ) : ℝ :=
  Set.indicator {p : ℝ × ℝ | labEnergy p.2 m beta (-1) < p.1 ∧ p.1 < labEnergy p.2 m beta 1}
    (fun p => f p.2 / (2 * lorentz beta * beta * momentum p.2 m)) p

theorem kernel_of_mem {f : ℝ → ℝ} {m beta e e' : ℝ}
    (h : labEnergy e' m beta (-1) < e ∧ e < labEnergy e' m beta 1) :
    kernel f m beta (e, e') = f e' / (2 * lorentz beta * beta * momentum e' m) :=
  if_pos h

theorem kernel_of_not_mem {f : ℝ → ℝ} {m beta e e' : ℝ}
    (h : ¬ (labEnergy e' m beta (-1) < e ∧ e < labEnergy e' m beta 1)) :
    kernel f m beta (e, e') = 0 :=
  if_neg h

theorem measurable_labEnergy (m beta c : ℝ) : Measurable fun e => labEnergy e m beta c := by
  unfold labEnergy momentum
  fun_prop

theorem window_width {m beta e' : ℝ} :
    labEnergy e' m beta 1 - labEnergy e' m beta (-1) = 2 * lorentz beta * beta * momentum e' m := by
  unfold labEnergy; ring

theorem kernel_integral_lab {f : ℝ → ℝ} {m beta e' : ℝ} (h0 : 0 < beta) (h1 : beta < 1)
    (hm : 0 ≤ m) (he' : m < e') : ∫ e in Set.Ioi m, kernel f m beta (e, e') = f e' := by
  have hg := lorentz_pos h0 h1
  have hp := momentum_pos hm he'
  have hw : 0 < 2 * lorentz beta * beta * momentum e' m := by positivity
  have hlo := mass_le_labEnergy h0 h1 hm he'.le
  have : ∫ e in Set.Ioi m, kernel f m beta (e, e')
      = ∫ e in window m beta e', f e' / (2 * lorentz beta * beta * momentum e' m) := by
    rw [setIntegral_eq_of_subset_of_forall_sdiff_eq_zero (s := window m beta e') (t := Set.Ioi m) measurableSet_Ioi]
    · refine setIntegral_congr_fun measurableSet_Ioo ?_
      intro e he
      exact kernel_of_mem he
    · intro e he
      exact lt_of_le_of_lt hlo he.1
    · rintro e ⟨-, he⟩
      exact kernel_of_not_mem he
  rw [this, setIntegral_const, window, Real.volume_real_Ioo_of_le (by linarith [window_width (m := m) (beta := beta) (e' := e')]), window_width, smul_eq_mul]
  field_simp

theorem kernel_norm {f : ℝ → ℝ} {m beta : ℝ} (h0 : 0 < beta) (h1 : beta < 1) (p : ℝ × ℝ) :
    ‖kernel f m beta p‖ = kernel (fun e => |f e|) m beta p := by
  have hg := lorentz_pos h0 h1
  unfold kernel
  rw [norm_indicator_eq_indicator_norm]
  congr 1
  funext q
  rw [Real.norm_eq_abs, abs_div, abs_of_nonneg (a := 2 * lorentz beta * beta * momentum q.2 m)]
  have : 0 ≤ momentum q.2 m := Real.sqrt_nonneg _
  positivity

theorem kernel_integrable {f : ℝ → ℝ} {m beta : ℝ} (h0 : 0 < beta) (h1 : beta < 1)
    (hm : 0 ≤ m) (hf : IntegrableOn f (Set.Ioi m)) :
    Integrable (kernel f m beta)
      ((volume.restrict (Set.Ioi m)).prod (volume.restrict (Set.Ioi m))) := by
  have hmeas : AEStronglyMeasurable (kernel f m beta)
      ((volume.restrict (Set.Ioi m)).prod (volume.restrict (Set.Ioi m))) := by
    unfold kernel
    refine AEStronglyMeasurable.indicator ?_ ?_
    · have hq : AEStronglyMeasurable (fun e' => f e' / (2 * lorentz beta * beta * momentum e' m))
          (volume.restrict (Set.Ioi m)) := by
        simp_rw [div_eq_mul_inv]
        refine hf.aestronglyMeasurable.mul (Measurable.aestronglyMeasurable ?_)
        unfold momentum
        fun_prop
      exact hq.comp_snd
    · exact (measurableSet_lt ((measurable_labEnergy m beta (-1)).comp measurable_snd)
        measurable_fst).inter (measurableSet_lt measurable_fst
          ((measurable_labEnergy m beta 1).comp measurable_snd))
  rw [integrable_prod_iff' hmeas]
  constructor
  · filter_upwards [ae_restrict_mem measurableSet_Ioi] with e' he'
    have : (fun e => kernel f m beta (e, e')) = (window m beta e').indicator
        fun _ => f e' / (2 * lorentz beta * beta * momentum e' m) := by
      funext e; rfl
    rw [this]
    refine (integrable_indicator_iff measurableSet_Ioo).mpr (Integrable.mono_measure ?_ (Measure.restrict_mono_measure Measure.restrict_le_self _))
    exact integrableOn_const (by simp)
  · refine hf.abs.congr ?_
    filter_upwards [ae_restrict_mem measurableSet_Ioi] with e' he'
    simp_rw [kernel_norm h0 h1]
    exact (kernel_integral_lab (f := fun e => |f e|) h0 h1 hm he').symm

theorem kernel_integral_rest {f : ℝ → ℝ} {m beta e : ℝ} (h0 : 0 < beta) (h1 : beta < 1)
    (hm : 0 ≤ m) (he : m < e) :
    ∫ e' in Set.Ioi m, kernel f m beta (e, e') = boosted f m beta e := by
  have hg := lorentz_pos h0 h1
  have hp := momentum_pos hm he
  have hlo : m ≤ lorentz beta * (e - beta * momentum e m) := by
    have := mass_le_labEnergy h0 h1 hm he.le
    unfold labEnergy at this
    have e1 : e + beta * (-1) * momentum e m = e - beta * momentum e m := by ring
    rwa [e1] at this
  have hle : lorentz beta * (e - beta * momentum e m) ≤ lorentz beta * (e + beta * momentum e m) :=
    mul_le_mul_of_nonneg_left (by nlinarith [mul_pos h0 hp]) hg.le
  unfold boosted
  rw [intervalIntegral.integral_of_le hle, integral_Ioc_eq_integral_Ioo]
  rw [setIntegral_eq_of_subset_of_forall_sdiff_eq_zero (s := Set.Ioo (lorentz beta * (e - beta * momentum e m)) (lorentz beta * (e + beta * momentum e m))) (t := Set.Ioi m) measurableSet_Ioi]
  · refine setIntegral_congr_fun measurableSet_Ioo ?_
    intro e' he'
    have hme' : m ≤ e' := hlo.trans he'.1.le
    exact kernel_of_mem ((window_symm h0 h1 hm he.le hme').mp he')
  · intro e' he'
    exact lt_of_le_of_lt hlo he'.1
  · rintro e' ⟨hme', he'⟩
    exact kernel_of_not_mem
      (fun h => he' ((window_symm h0 h1 hm he.le (le_of_lt hme')).mpr h))

/-- C79: boosting conserves the number of particles, for every integrable spectrum. -/
theorem boost_conserves_number (f : ℝ → ℝ) (m beta : ℝ) (h0 : 0 < beta) (h1 : beta < 1)
    (hm : 0 ≤ m) (hf : IntegrableOn f (Set.Ioi m)) :
    ∫ e in Set.Ioi m, boosted f m beta e = ∫ e in Set.Ioi m, f e := by
  have hk := kernel_integrable h0 h1 hm hf
  have h2 : ∫ e in Set.Ioi m, ∫ e' in Set.Ioi m, kernel f m beta (e, e')
      = ∫ e' in Set.Ioi m, ∫ e in Set.Ioi m, kernel f m beta (e, e') :=
    integral_integral_swap (f := fun e e' => kernel f m beta (e, e')) hk
  have h3 : ∫ e in Set.Ioi m, boosted f m beta e
      = ∫ e in Set.Ioi m, ∫ e' in Set.Ioi m, kernel f m beta (e, e') :=
    setIntegral_congr_fun measurableSet_Ioi fun e he => (kernel_integral_rest h0 h1 hm he).symm
  rw [h3, h2]
  exact setIntegral_congr_fun measurableSet_Ioi fun e' he' => kernel_integral_lab h0 h1 hm he'

/-- The boost of a non-negative spectrum is non-negative. -/
theorem boost_nonneg (f : ℝ → ℝ) (m beta e : ℝ) (h0 : 0 < beta) (h1 : beta < 1)
    (hf : ∀ x, 0 ≤ f x) : 0 ≤ boosted f m beta e := by
  have hg := lorentz_pos h0 h1
  have hp : 0 ≤ momentum e m := Real.sqrt_nonneg _
  refine intervalIntegral.integral_nonneg ?_ ?_
  · exact mul_le_mul_of_nonneg_left (by nlinarith [mul_nonneg h0.le hp]) hg.le
  · intro u _
    have : 0 ≤ momentum u m := Real.sqrt_nonneg _
    exact div_nonneg (hf u) (by positivity)

/-- Boosting preserves integrability. -/
theorem boosted_integrable {f : ℝ → ℝ} {m beta : ℝ} (h0 : 0 < beta) (h1 : beta < 1)
    (hm : 0 ≤ m) (hf : IntegrableOn f (Set.Ioi m)) : IntegrableOn (boosted f m beta) (Set.Ioi m) := by
  refine (kernel_integrable h0 h1 hm hf).integral_prod_left.congr ?_
  filter_upwards [ae_restrict_mem measurableSet_Ioi] with e he
  exact kernel_integral_rest h0 h1 hm he

theorem kernelE_integral_lab {f : ℝ → ℝ} {m beta e' : ℝ} (h0 : 0 < beta) (h1 : beta < 1)
    (hm : 0 ≤ m) (he' : m < e') :
    ∫ e in Set.Ioi m, e * kernel f m beta (e, e') = lorentz beta * (e' * f e') := by
  have hg := lorentz_pos h0 h1
  have hp := momentum_pos hm he'
  have hw : 0 < 2 * lorentz beta * beta * momentum e' m := by positivity
  have hlo := mass_le_labEnergy h0 h1 hm he'.le
  have hle : labEnergy e' m beta (-1) ≤ labEnergy e' m beta 1 := by
    linarith [window_width (m := m) (beta := beta) (e' := e')]
  have : ∫ e in Set.Ioi m, e * kernel f m beta (e, e')
      = ∫ e in window m beta e', e * (f e' / (2 * lorentz beta * beta * momentum e' m)) := by
    rw [setIntegral_eq_of_subset_of_forall_sdiff_eq_zero (s := window m beta e') (t := Set.Ioi m)
      measurableSet_Ioi]
    · refine setIntegral_congr_fun measurableSet_Ioo ?_
      intro e he
      simp only
      rw [kernel_of_mem he]
    · intro e he
      exact lt_of_le_of_lt hlo he.1
    · rintro e ⟨-, he⟩
      rw [kernel_of_not_mem he, mul_zero]
  rw [this, window, ← integral_Ioc_eq_integral_Ioo, ← intervalIntegral.integral_of_le hle,
    intervalIntegral.integral_mul_const, integral_id]
  have : labEnergy e' m beta 1 ^ 2 - labEnergy e' m beta (-1) ^ 2
      = (2 * lorentz beta * beta * momentum e' m) * (2 * lorentz beta * e') := by
    unfold labEnergy; ring
  rw [this]
  field_simp

theorem kernelE_integrable {f : ℝ → ℝ} {m beta : ℝ} (h0 : 0 < beta) (h1 : beta < 1)
    (hm : 0 ≤ m) (hf : IntegrableOn f (Set.Ioi m)) (hef : IntegrableOn (fun e => e * f e) (Set.Ioi m)) :
    Integrable (fun p : ℝ × ℝ => p.1 * kernel f m beta p)
      ((volume.restrict (Set.Ioi m)).prod (volume.restrict (Set.Ioi m))) := by
  have hk := kernel_integrable h0 h1 hm hf
  have hmeas : AEStronglyMeasurable (fun p : ℝ × ℝ => p.1 * kernel f m beta p)
      ((volume.restrict (Set.Ioi m)).prod (volume.restrict (Set.Ioi m))) :=
    (measurable_fst.aestronglyMeasurable
    (μ := (volume.restrict (Set.Ioi m)).prod (volume.restrict (Set.Ioi m)))).mul
    hk.aestronglyMeasurable
  rw [integrable_prod_iff' hmeas]
  constructor
  · filter_upwards [ae_restrict_mem measurableSet_Ioi] with e' he'
    have hfun : (fun e => e * kernel f m beta (e, e')) = (window m beta e').indicator
        fun e => e * (f e' / (2 * lorentz beta * beta * momentum e' m)) := by
      funext e
      by_cases h : labEnergy e' m beta (-1) < e ∧ e < labEnergy e' m beta 1
      · rw [kernel_of_mem h]; exact (Set.indicator_of_mem (s := window m beta e') h
          (fun e => e * (f e' / (2 * lorentz beta * beta * momentum e' m)))).symm
      · rw [kernel_of_not_mem h, mul_zero]
        exact (Set.indicator_of_notMem (s := window m beta e') h
          (fun e => e * (f e' / (2 * lorentz beta * beta * momentum e' m)))).symm
    change Integrable (fun e => e * kernel f m beta (e, e')) (volume.restrict (Set.Ioi m))
    rw [hfun]
    refine (integrable_indicator_iff measurableSet_Ioo).mpr
      (Integrable.mono_measure ?_ (Measure.restrict_mono_measure Measure.restrict_le_self _))
    have hc : Continuous fun e => e * (f e' / (2 * lorentz beta * beta * momentum e' m)) := by
      fun_prop
    exact (hc.integrableOn_Icc (a := labEnergy e' m beta (-1)) (b := labEnergy e' m beta 1)).mono_set
      Set.Ioo_subset_Icc_self
  · refine (hef.abs.const_mul (lorentz beta)).congr ?_
    filter_upwards [ae_restrict_mem measurableSet_Ioi] with e' he'
    have h2 : ∫ e in Set.Ioi m, ‖e * kernel f m beta (e, e')‖
        = ∫ e in Set.Ioi m, e * kernel (fun e => |f e|) m beta (e, e') := by
      refine setIntegral_congr_fun measurableSet_Ioi fun e he => ?_
      rw [norm_mul, kernel_norm h0 h1, Real.norm_eq_abs, abs_of_nonneg (hm.trans (le_of_lt he))]
    have h3 := kernelE_integral_lab (f := fun e => |f e|) h0 h1 hm he'
    have h4 : lorentz beta * |e' * f e'| = lorentz beta * (e' * |f e'|) := by
      rw [abs_mul, abs_of_nonneg (hm.trans (le_of_lt he'))]
    exact h4.trans (h3.symm.trans h2.symm)

theorem boosted_energy_integrable {f : ℝ → ℝ} {m beta : ℝ} (h0 : 0 < beta) (h1 : beta < 1)
    (hm : 0 ≤ m) (hf : IntegrableOn f (Set.Ioi m)) (hef : IntegrableOn (fun e => e * f e) (Set.Ioi m)) :
    IntegrableOn (fun e => e * boosted f m beta e) (Set.Ioi m) := by
  refine (kernelE_integrable h0 h1 hm hf hef).integral_prod_left.congr ?_
  filter_upwards [ae_restrict_mem measurableSet_Ioi] with e he
  rw [integral_const_mul, kernel_integral_rest h0 h1 hm he]

/-- C79: boosting multiplies the total energy carried away by the Lorentz factor. -/
theorem boost_scales_energy (f : ℝ → ℝ) (m beta : ℝ) (h0 : 0 < beta) (h1 : beta < 1)
    (hm : 0 ≤ m) (hf : IntegrableOn f (Set.Ioi m)) (hef : IntegrableOn (fun e => e * f e) (Set.Ioi m)) :
    ∫ e in Set.Ioi m, e * boosted f m beta e = lorentz beta * ∫ e in Set.Ioi m, e * f e := by
  have hint := kernelE_integrable h0 h1 hm hf hef
  have h2 : ∫ e in Set.Ioi m, ∫ e' in Set.Ioi m, e * kernel f m beta (e, e')
      = ∫ e' in Set.Ioi m, ∫ e in Set.Ioi m, e * kernel f m beta (e, e') :=
    integral_integral_swap (f := fun e e' => e * kernel f m beta (e, e')) hint
  have h3 : ∫ e in Set.Ioi m, e * boosted f m beta e
      = ∫ e in Set.Ioi m, ∫ e' in Set.Ioi m, e * kernel f m beta (e, e') :=
    setIntegral_congr_fun measurableSet_Ioi fun e he => by
      rw [integral_const_mul, kernel_integral_rest h0 h1 hm he]
  rw [h3, h2, ← integral_const_mul]
  exact setIntegral_congr_fun measurableSet_Ioi fun e' he' => kernelE_integral_lab h0 h1 hm he'

/-- Nothing is emitted above the forward-boosted endpoint. -/
theorem boosted_support {f : ℝ → ℝ} {m beta e hi : ℝ} (h0 : 0 < beta) (h1 : beta < 1)
    (hm : 0 ≤ m) (hhi : m ≤ hi) (hf : ∀ x, hi < x → f x = 0) (he : labEnergy hi m beta 1 ≤ e) :
    boosted f m beta e = 0 := by
  have hg := lorentz_pos h0 h1
  have hgs := lorentz_sq h0 h1
  have hg1 : 1 ≤ lorentz beta := by nlinarith [sq_nonneg (lorentz beta - 1), sq_nonneg (lorentz beta * beta)]
  have hk0 : 0 ≤ momentum hi m := Real.sqrt_nonneg _
  have hke : 0 ≤ momentum e m := Real.sqrt_nonneg _
  have hhe : hi ≤ e := by
    refine le_trans ?_ he
    unfold labEnergy
    have : hi ≤ hi + beta * 1 * momentum hi m := by nlinarith [mul_nonneg h0.le hk0]
    nlinarith [hm.trans hhi]
  have hme : m ≤ e := hhi.trans hhe
  have hlow : hi ≤ lorentz beta * (e - beta * momentum e m) := by
    by_contra hc
    push Not at hc
    by_cases hu : hi < lorentz beta * (e + beta * momentum e m)
    · have := (window_symm h0 h1 hm hme hhi).mp ⟨hc, hu⟩
      linarith [this.2]
    · push Not at hu
      have h2 : e ≤ lorentz beta * (e + beta * momentum e m) := by
        nlinarith [mul_nonneg h0.le hke, hm.trans hme, mul_nonneg hg.le (mul_nonneg h0.le hke)]
      have h3 : hi = e := le_antisymm hhe (h2.trans hu)
      have h4 : e + beta * momentum e m ≤ e := by
        nlinarith [mul_nonneg h0.le hke, hm.trans hme, mul_nonneg hg.le (mul_nonneg h0.le hke)]
      have h5 : momentum e m = 0 := by nlinarith
      rw [h5] at hc hu
      nlinarith
  have hle : lorentz beta * (e - beta * momentum e m) ≤ lorentz beta * (e + beta * momentum e m) :=
    mul_le_mul_of_nonneg_left (by nlinarith [mul_nonneg h0.le hke]) hg.le
  unfold boosted
  rw [intervalIntegral.integral_of_le hle]
  refine setIntegral_eq_zero_of_forall_eq_zero fun x hx => ?_
  rw [hf x (lt_of_le_of_lt hlow hx.1), zero_div]

/-- A box of height one on `(1, 2)` boosted with velocity 3/5 still holds one particle. -/
example : ∫ e in Set.Ioi 0, boosted ((Set.Ioo 1 2).indicator fun _ => 1) 0 (3 / 5) e = 1 := by
  rw [boost_conserves_number _ _ _ (by norm_num) (by norm_num) le_rfl]
  · have hsub : Set.Ioi (0 : ℝ) ∩ Set.Ioo 1 2 = Set.Ioo 1 2 := by
      ext x; constructor
      · exact fun h => h.2
      · exact fun h => ⟨lt_trans one_pos h.1, h⟩
    rw [setIntegral_indicator measurableSet_Ioo, hsub, setIntegral_const,
      Real.volume_real_Ioo_of_le (by norm_num)]
    norm_num
  · exact ((integrable_indicator_iff measurableSet_Ioo).mpr (integrableOn_const (by simp))).integrableOn

end Hazma.Spectra
