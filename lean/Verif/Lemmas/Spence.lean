import Mathlib.Analysis.Calculus.DSlope
import Mathlib.Analysis.Calculus.MeanValue
import Mathlib.Analysis.SpecialFunctions.Integrability.Basic
import Mathlib.Analysis.SpecialFunctions.Integrals.Basic
import Mathlib.Analysis.SpecialFunctions.Log.Deriv
import Mathlib.NumberTheory.ZetaValues
import Mathlib.MeasureTheory.Integral.DominatedConvergence
import Mathlib.Tactic

/-! # The dilogarithm: series, reflection and inversion -/

namespace Hazma.Special

open MeasureTheory Set Filter Topology

/-- Specification: Spence's integral, `-∫_1^x ln t/(t - 1) dt = Li₂(1 - x)`. -/
noncomputable def dilog (x : ℝ) : ℝ := -∫ t in (1 : ℝ)..x, Real.log t / (t - 1)

/-- The integrand, continued at 1. -/
noncomputable def kern (t : ℝ) : ℝ := dslope Real.log 1 t

theorem kern_of_ne {t : ℝ} (h : t ≠ 1) : kern t = Real.log t / (t - 1) := by
  unfold kern
  rw [dslope_of_ne _ h, slope_def_field]
  simp

theorem kern_one : kern 1 = 1 := by
  unfold kern
  rw [dslope_same]
  simp

theorem kern_continuousOn : ContinuousOn kern (Ioi 0) := by
  unfold kern
  rw [continuousOn_dslope (Ioi_mem_nhds one_pos)]
  exact ⟨Real.continuousOn_log.mono fun x hx => ne_of_gt hx,
    Real.differentiableAt_log one_ne_zero⟩

theorem integral_kern (a b : ℝ) :
    ∫ t in a..b, Real.log t / (t - 1) = ∫ t in a..b, kern t := by
  apply intervalIntegral.integral_congr_ae
  have : ∀ᵐ t : ℝ, t ≠ 1 := by simp [ae_iff]
  filter_upwards [this] with t ht _
  exact (kern_of_ne ht).symm

theorem kern_integrable_pos {a b : ℝ} (ha : 0 < a) (hb : 0 < b) :
    IntervalIntegrable kern volume a b := by
  apply ContinuousOn.intervalIntegrable
  exact kern_continuousOn.mono fun x hx => (lt_min ha hb).trans_le hx.1

theorem dilog_hasDerivAt {x : ℝ} (hx : 0 < x) : HasDerivAt dilog (-kern x) x := by
  have h : dilog = fun x => -∫ t in (1 : ℝ)..x, kern t := by
    funext x; unfold dilog; rw [integral_kern]
  rw [h]
  have hc : ContinuousAt kern x := kern_continuousOn.continuousAt (Ioi_mem_nhds hx)
  exact (intervalIntegral.integral_hasDerivAt_right (kern_integrable_pos one_pos hx)
    (kern_continuousOn.stronglyMeasurableAtFilter isOpen_Ioi x hx) hc).neg

theorem kern_integrable_unit : IntervalIntegrable kern volume 0 1 := by
  have h1 : IntervalIntegrable kern volume (1 / 2) 1 :=
    kern_integrable_pos (by norm_num) one_pos
  have h0 : IntervalIntegrable (fun t => Real.log t / (t - 1)) volume 0 (1 / 2) := by
    have hc : ContinuousOn (fun t : ℝ => (t - 1)⁻¹) (uIcc 0 (1 / 2)) := by
      apply ContinuousOn.inv₀ (by fun_prop)
      intro t ht
      rw [uIcc_of_le (by norm_num)] at ht
      have := ht.2
      intro h
      linarith
    have := (intervalIntegral.intervalIntegrable_log' (a := 0) (b := 1 / 2)).mul_continuousOn hc
    exact this
  have h0' : IntervalIntegrable kern volume 0 (1 / 2) := by
    apply h0.congr_ae
    have : ∀ᵐ t : ℝ, t ≠ 1 := by simp [ae_iff]
    filter_upwards [ae_restrict_of_ae this] with t ht
    exact (kern_of_ne ht).symm
  exact h0'.trans h1

theorem dilog_continuousOn_unit : ContinuousOn dilog (Icc 0 1) := by
  have h : dilog = fun x => -∫ t in (1 : ℝ)..x, kern t := by
    funext x; unfold dilog; rw [integral_kern]
  rw [h]
  have := intervalIntegral.continuousOn_primitive_interval' kern_integrable_unit
    (a := 1) (by rw [uIcc_of_le zero_le_one]; exact ⟨zero_le_one, le_rfl⟩)
  rw [uIcc_of_le zero_le_one] at this
  exact this.neg

theorem dilog_one : dilog 1 = 0 := by simp [dilog]

/-- The alternating partial sum `∑_{n<N} (-w)^n/(n+1)²`. -/
noncomputable def partialSum (N : ℕ) (w : ℝ) : ℝ :=
  ∑ n ∈ Finset.range N, (-w) ^ n / ((n : ℝ) + 1) ^ 2

theorem kern_series_bound {s : ℝ} (hs : |s| < 1) (N : ℕ) :
    |kern (1 + s) - ∑ n ∈ Finset.range N, (-s) ^ n / ((n : ℝ) + 1)| ≤
      if s = 0 then (if N = 0 then 1 else 0) else |s| ^ N / (1 - |s|) := by
  by_cases h0 : s = 0
  · subst h0
    rw [if_pos rfl, add_zero, kern_one]
    rcases N with _ | N
    · simp
    · rw [Finset.sum_range_succ', if_neg (Nat.succ_ne_zero N)]
      simp
  · rw [if_neg h0]
    have h := Real.abs_log_sub_add_sum_range_le (x := -s) (by rwa [abs_neg]) N
    rw [abs_neg, sub_neg_eq_add] at h
    have hk : kern (1 + s) = Real.log (1 + s) / s := by
      rw [kern_of_ne (by intro h; apply h0; linarith), show 1 + s - 1 = s by ring]
    have hsum : ∑ n ∈ Finset.range N, (-s) ^ (n + 1) / ((n : ℝ) + 1)
        = -s * ∑ n ∈ Finset.range N, (-s) ^ n / ((n : ℝ) + 1) := by
      rw [Finset.mul_sum]
      apply Finset.sum_congr rfl
      intro n _
      rw [pow_succ]; ring
    rw [hsum] at h
    have hfac : Real.log (1 + s) / s - ∑ n ∈ Finset.range N, (-s) ^ n / ((n : ℝ) + 1)
        = (-s * (∑ n ∈ Finset.range N, (-s) ^ n / ((n : ℝ) + 1)) + Real.log (1 + s)) / s := by
      field_simp
      ring
    rw [hk, hfac, abs_div, div_le_iff₀ (abs_pos.mpr h0)]
    refine h.trans (le_of_eq ?_)
    rw [pow_succ]; ring

theorem dilog_series_bound {w : ℝ} (hw : |w| < 1) (N : ℕ) (hN : N ≠ 0) :
    |dilog (1 + w) + w * partialSum N w| ≤ |w| ^ N / (1 - |w|) * |w| := by
  have hpos : 0 < 1 + w := by have := (abs_lt.mp hw).1; linarith
  have hsub : ∫ t in (1 : ℝ)..(1 + w), kern t = ∫ s in (0 : ℝ)..w, kern (1 + s) := by
    rw [intervalIntegral.integral_comp_add_left (fun t => kern t)]
    simp
  have hint : IntervalIntegrable (fun s => kern (1 + s)) volume 0 w := by
    apply ContinuousOn.intervalIntegrable
    apply kern_continuousOn.comp (by fun_prop)
    intro s hs
    have h1 : min 0 w ≤ s := hs.1
    have h2 : -1 < min 0 w := lt_min (by norm_num) (abs_lt.mp hw).1
    show 0 < 1 + s
    linarith
  have hpoly : ∫ s in (0 : ℝ)..w, ∑ n ∈ Finset.range N, (-s) ^ n / ((n : ℝ) + 1)
      = w * partialSum N w := by
    rw [intervalIntegral.integral_finsetSum]
    · unfold partialSum
      rw [Finset.mul_sum]
      apply Finset.sum_congr rfl
      intro n _
      rw [intervalIntegral.integral_div]
      have : (fun s : ℝ => (-s) ^ n) = fun s => (-1) ^ n * s ^ n := by
        funext s; rw [← mul_pow]; ring_nf
      rw [this, neg_pow w, intervalIntegral.integral_const_mul, integral_pow]
      have hn : ((n : ℝ) + 1) ≠ 0 := by positivity
      field_simp
      rw [zero_pow (Nat.succ_ne_zero n)]
      ring
    · intro n _
      apply Continuous.intervalIntegrable
      fun_prop
  have hpi : IntervalIntegrable (fun s : ℝ => ∑ n ∈ Finset.range N, (-s) ^ n / ((n : ℝ) + 1))
      volume 0 w := by
    apply Continuous.intervalIntegrable
    fun_prop
  have heq : dilog (1 + w) + w * partialSum N w
      = -∫ s in (0 : ℝ)..w, (kern (1 + s) - ∑ n ∈ Finset.range N, (-s) ^ n / ((n : ℝ) + 1)) := by
    rw [intervalIntegral.integral_sub hint hpi, hpoly]
    unfold dilog
    rw [integral_kern, hsub]
    ring
  rw [heq, abs_neg, ← Real.norm_eq_abs]
  have hb := intervalIntegral.norm_integral_le_of_norm_le_const (a := 0) (b := w)
    (f := fun s => kern (1 + s) - ∑ n ∈ Finset.range N, (-s) ^ n / ((n : ℝ) + 1))
    (C := |w| ^ N / (1 - |w|)) ?_
  · rwa [sub_zero] at hb
  · intro s hs
    have hsw : |s| ≤ |w| := by
      rcases le_total 0 w with h | h
      · rw [uIoc_of_le h] at hs
        rw [abs_of_nonneg h, abs_of_pos hs.1]; exact hs.2
      · rw [uIoc_of_ge h] at hs
        rw [abs_of_nonpos h, abs_of_nonpos hs.2]; linarith [hs.1]
    have h1 := kern_series_bound (hsw.trans_lt hw) N
    rw [Real.norm_eq_abs]
    refine h1.trans ?_
    split_ifs
    · have : 0 < 1 - |w| := by linarith
      positivity
    · have : 0 < 1 - |w| := by linarith
      gcongr

/-- `dilog (1 - u) = ∑ uⁿ/n²` for `0 ≤ u < 1`. -/
theorem dilog_hasSum {u : ℝ} (h0 : 0 ≤ u) (h1 : u < 1) :
    Tendsto (fun N => u * ∑ n ∈ Finset.range N, u ^ n / ((n : ℝ) + 1) ^ 2) atTop
      (𝓝 (dilog (1 - u))) := by
  have habs : |(-u)| = u := by rw [abs_neg, abs_of_nonneg h0]
  rw [← tendsto_sub_nhds_zero_iff]
  have hz : Tendsto (fun N : ℕ => u ^ N / (1 - u) * u) atTop (𝓝 0) := by
    have := (tendsto_pow_atTop_nhds_zero_of_lt_one h0 h1).mul_const (1 / (1 - u) * u)
    rw [zero_mul] at this
    refine this.congr fun N => ?_
    ring
  refine squeeze_zero_norm' ?_ hz
  filter_upwards [eventually_ge_atTop 1] with N hN
  have := dilog_series_bound (w := -u) (by rw [habs]; exact h1) N (by omega)
  rw [habs] at this
  refine le_trans (le_of_eq ?_) this
  rw [Real.norm_eq_abs, abs_sub_comm]
  unfold partialSum
  congr 1
  rw [neg_neg, ← sub_eq_add_neg]
  ring

theorem dilog_zero : dilog 0 = Real.pi ^ 2 / 6 := by
  -- both sides of the series are continuous on the closed interval
  let f : ℕ → ℝ → ℝ := fun n u => u ^ (n + 1) / ((n : ℝ) + 1) ^ 2
  have hz : HasSum (fun n : ℕ => 1 / ((n : ℝ) + 1) ^ 2) (Real.pi ^ 2 / 6) := by
    have := (hasSum_nat_add_iff' 1).mpr hasSum_zeta_two
    simpa using this
  have hcont : ContinuousOn (fun u => ∑' n, f n u) (Icc 0 1) := by
    apply continuousOn_tsum (u := fun n : ℕ => 1 / ((n : ℝ) + 1) ^ 2)
    · intro n; apply Continuous.continuousOn; fun_prop
    · exact hz.summable
    · intro n u hu
      rw [Real.norm_eq_abs, abs_of_nonneg (div_nonneg (pow_nonneg hu.1 _) (by positivity))]
      gcongr
      exact pow_le_one₀ hu.1 hu.2
  have hsum : ∀ u ∈ Icc (0 : ℝ) 1, Summable fun n => f n u := by
    intro u hu
    apply Summable.of_nonneg_of_le (fun n => div_nonneg (pow_nonneg hu.1 _) (by positivity)) _
      hz.summable
    intro n
    show u ^ (n + 1) / _ ≤ _
    gcongr
    exact pow_le_one₀ hu.1 hu.2
  have heq : ∀ u ∈ Ico (0 : ℝ) 1, ∑' n, f n u = dilog (1 - u) := by
    intro u hu
    have h1 := (hsum u ⟨hu.1, hu.2.le⟩).hasSum.tendsto_sum_nat
    have h2 := dilog_hasSum hu.1 hu.2
    refine tendsto_nhds_unique h1 (h2.congr fun N => ?_)
    rw [Finset.mul_sum]
    apply Finset.sum_congr rfl
    intro n _
    simp only [f]
    rw [pow_succ]; ring
  have hd : ContinuousOn (fun u : ℝ => dilog (1 - u)) (Icc 0 1) := by
    apply dilog_continuousOn_unit.comp (by fun_prop)
    intro u hu
    exact ⟨by linarith [hu.2], by linarith [hu.1]⟩
  have hone : (1 : ℝ) ∈ Icc (0 : ℝ) 1 := ⟨zero_le_one, le_rfl⟩
  have hclos : (𝓝[Ico (0 : ℝ) 1] 1).NeBot := by
    rw [← mem_closure_iff_nhdsWithin_neBot, closure_Ico (by norm_num)]
    exact hone
  have t1 : Tendsto (fun u => ∑' n, f n u) (𝓝[Ico (0 : ℝ) 1] 1) (𝓝 (∑' n, f n 1)) :=
    (hcont 1 hone).mono_left (nhdsWithin_mono _ Ico_subset_Icc_self)
  have t2 : Tendsto (fun u : ℝ => dilog (1 - u)) (𝓝[Ico (0 : ℝ) 1] 1) (𝓝 (dilog (1 - 1))) :=
    (hd 1 hone).mono_left (nhdsWithin_mono _ Ico_subset_Icc_self)
  have t3 : Tendsto (fun u => ∑' n, f n u) (𝓝[Ico (0 : ℝ) 1] 1) (𝓝 (dilog (1 - 1))) := by
    refine t2.congr' ?_
    filter_upwards [self_mem_nhdsWithin] with u hu
    exact (heq u hu).symm
  have := tendsto_nhds_unique t3 t1
  rw [sub_self] at this
  rw [this]
  have h1 : (fun n => f n 1) = fun n : ℕ => 1 / ((n : ℝ) + 1) ^ 2 := by
    funext n; simp [f]
  rw [h1]
  exact hz.tsum_eq

/-- Inversion. -/
theorem dilog_inv {x : ℝ} (hx : 0 < x) :
    dilog x = -(1 / 2) * Real.log x ^ 2 - dilog (1 / x) := by
  let F : ℝ → ℝ := fun x => dilog x + dilog x⁻¹ + 1 / 2 * Real.log x ^ 2
  have hder : ∀ y ∈ Ioi (0 : ℝ), HasDerivAt F 0 y := by
    intro y hy
    have hy : 0 < y := hy
    have h1 := dilog_hasDerivAt hy
    have h2 := (dilog_hasDerivAt (inv_pos.mpr hy)).comp y (hasDerivAt_inv hy.ne')
    have h3 := ((Real.hasDerivAt_log hy.ne').pow 2).const_mul (1 / 2)
    refine ((h1.add h2).add h3).congr_deriv ?_
    by_cases h : y = 1
    · subst h
      simp [kern_one]
    · have hy1 : y - 1 ≠ 0 := sub_ne_zero.mpr h
      have hinv : y⁻¹ ≠ 1 := by
        intro hc; apply h; rw [← inv_inv y, hc]; simp
      rw [kern_of_ne h, kern_of_ne hinv, Real.log_inv]
      have e1 : y⁻¹ - 1 = -((y - 1) / y) := by field_simp; ring
      rw [e1]
      push_cast
      field_simp
      ring
  have hconst : F x = F 1 := by
    have hd : DifferentiableOn ℝ F (Ioi 0) := fun y hy => (hder y hy).differentiableAt.differentiableWithinAt
    have hf : ∀ y ∈ Ioi (0 : ℝ), derivWithin F (Ioi 0) y = 0 := fun y hy => by
      rw [(hder y hy).hasDerivWithinAt.derivWithin (isOpen_Ioi.uniqueDiffWithinAt hy)]
    exact (convex_Ioi 0).is_const_of_fderivWithin_eq_zero hd (fun y hy => by
      ext
      have := hf y hy
      rw [derivWithin] at this
      simpa using this) hx (by norm_num)
  have h1 : F 1 = 0 := by simp [F, dilog_one]
  rw [h1] at hconst
  simp only [F] at hconst
  rw [one_div x]
  linarith

/-- Reflection. -/
theorem dilog_reflect {x : ℝ} (hx : 0 < x) (hx1 : x < 1) :
    dilog x = Real.pi ^ 2 / 6 - Real.log x * Real.log (1 - x) - dilog (1 - x) := by
  let G : ℝ → ℝ := fun x => dilog x + dilog (1 - x) + Real.log x * Real.log (1 - x)
  have hder : ∀ y ∈ Ioo (0 : ℝ) 1, HasDerivAt G 0 y := by
    intro y hy
    have hy0 := hy.1
    have hy1 : 0 < 1 - y := by linarith [hy.2]
    have hs : HasDerivAt (fun y : ℝ => 1 - y) (-1) y := by
      simpa using (hasDerivAt_id y).const_sub 1
    have h1 := dilog_hasDerivAt hy0
    have h2 := (dilog_hasDerivAt hy1).comp y hs
    have h3 := (Real.hasDerivAt_log hy0.ne').mul ((Real.hasDerivAt_log hy1.ne').comp y hs)
    refine ((h1.add h2).add h3).congr_deriv ?_
    rw [kern_of_ne (by linarith [hy.2]), kern_of_ne (by linarith)]
    simp only [Function.comp]
    have e1 : 1 - y - 1 = -y := by ring
    have e2 : y - 1 = -(1 - y) := by ring
    rw [e1, e2]
    have := hy1.ne'
    field_simp
    ring
  have hconst : ∀ y ∈ Ioo (0 : ℝ) 1, G y = G x := by
    intro y hy
    have hd : DifferentiableOn ℝ G (Ioo 0 1) :=
      fun z hz => (hder z hz).differentiableAt.differentiableWithinAt
    exact (convex_Ioo 0 1).is_const_of_fderivWithin_eq_zero hd (fun z hz => by
      ext
      have := (hder z hz).hasDerivWithinAt.derivWithin (isOpen_Ioo.uniqueDiffWithinAt hz)
      rw [derivWithin] at this
      simpa using this) hy ⟨hx, hx1⟩
  -- the limit at 0
  have hne : (𝓝[Ioo (0 : ℝ) 1] 0).NeBot := by
    rw [← mem_closure_iff_nhdsWithin_neBot, closure_Ioo (by norm_num)]
    exact ⟨le_rfl, zero_le_one⟩
  have t1 : Tendsto dilog (𝓝[Ioo (0 : ℝ) 1] 0) (𝓝 (dilog 0)) :=
    (dilog_continuousOn_unit 0 ⟨le_rfl, zero_le_one⟩).mono_left
      (nhdsWithin_mono _ Ioo_subset_Icc_self)
  have t2 : Tendsto (fun y : ℝ => dilog (1 - y)) (𝓝[Ioo (0 : ℝ) 1] 0) (𝓝 0) := by
    have hc : ContinuousAt (fun y : ℝ => dilog (1 - y)) 0 := by
      apply ContinuousAt.comp (g := dilog)
      · rw [sub_zero]; exact (dilog_hasDerivAt one_pos).continuousAt
      · fun_prop
    have := hc.tendsto
    rw [sub_zero, dilog_one] at this
    exact this.mono_left nhdsWithin_le_nhds
  have t3 : Tendsto (fun y : ℝ => Real.log y * Real.log (1 - y)) (𝓝[Ioo (0 : ℝ) 1] 0) (𝓝 0) := by
    have hb : Tendsto (fun y : ℝ => 2 * |y * Real.log y|) (𝓝[Ioo (0 : ℝ) 1] 0) (𝓝 0) := by
      have : ContinuousAt (fun y : ℝ => 2 * |y * Real.log y|) 0 := by
        exact (continuous_const.mul Real.continuous_mul_log.abs).continuousAt
      have := this.tendsto
      simp only [zero_mul, abs_zero, mul_zero] at this
      exact this.mono_left nhdsWithin_le_nhds
    have hhalf : ∀ᶠ y in 𝓝[Ioo (0 : ℝ) 1] 0, y < 1 / 2 :=
      (Iio_mem_nhds (by norm_num : (0 : ℝ) < 1 / 2)) |> mem_nhdsWithin_of_mem_nhds
    refine squeeze_zero_norm' ?_ hb
    filter_upwards [self_mem_nhdsWithin, hhalf] with y hy hy2
    rw [norm_mul, Real.norm_eq_abs, Real.norm_eq_abs, abs_mul, abs_of_pos hy.1]
    have hl : |Real.log (1 - y)| ≤ 2 * y := by
      have h1 : Real.log (1 - y) ≤ 0 := Real.log_nonpos (by linarith [hy.2]) (by linarith [hy.1])
      rw [abs_of_nonpos h1]
      have h2 := Real.one_sub_inv_le_log_of_pos (show 0 < 1 - y by linarith [hy.2])
      have h3 : (1 - y)⁻¹ ≤ 1 + 2 * y := by
        rw [inv_le_iff_one_le_mul₀ (by linarith [hy.2])]
        nlinarith [hy.1]
      linarith
    have := abs_nonneg (Real.log y)
    nlinarith
  have t4 : Tendsto G (𝓝[Ioo (0 : ℝ) 1] 0) (𝓝 (dilog 0 + 0 + 0)) := (t1.add t2).add t3
  have t5 : Tendsto G (𝓝[Ioo (0 : ℝ) 1] 0) (𝓝 (G x)) := by
    refine tendsto_const_nhds.congr' ?_
    filter_upwards [self_mem_nhdsWithin] with y hy
    exact (hconst y hy).symm
  have := tendsto_nhds_unique t5 t4
  rw [dilog_zero] at this
  simp only [G] at this
  linarith

end Hazma.Special
