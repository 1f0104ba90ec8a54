import Verif.Model.ElasticXs
import Verif.Props.Elastic
import Verif.Model.Kinematics
import Mathlib.Analysis.Complex.ExponentialBounds
import Mathlib.Tactic

/-!
# Elastic scattering off pions, photons and mediators (C211–C214)
-/

namespace Hazma.Xs

open Hazma Filter Topology

/-! ### Crossed amplitudes -/

/-- The spin-summed squared amplitude of a scalar target at momentum transfer `t`, up to couplings:
the vertex `β - c t`, the dark-matter trace and the propagator. -/
noncomputable def crossed (β c mx ms w t : ℝ) : ℝ :=
  (β - c * t) ^ 2 * (4 * mx ^ 2 - t) / ((t - ms ^ 2) ^ 2 + ms ^ 2 * w ^ 2)

theorem crossed_continuous {β c mx ms w : ℝ} (hms : 0 < ms) (hw : 0 < w) :
    Continuous (crossed β c mx ms w) := by
  unfold crossed
  exact Continuous.div (by fun_prop) (by fun_prop) fun t => (tAmplitude_den hms hw t).ne'

/-- Closed form of the integral over momentum transfers. -/
theorem crossed_integral {β c mx ms w : ℝ} (hms : 0 < ms) (hw : 0 < w) (T : ℝ) :
    ∫ t in (0 : ℝ)..T, crossed β c mx ms w t
      = -c ^ 2 * T ^ 2 / 2 + (4 * mx ^ 2 * c ^ 2 + 2 * β * c - 2 * ms ^ 2 * c ^ 2) * T
        + (-β ^ 2 - 8 * mx ^ 2 * β * c + c ^ 2 * (ms ^ 4 + ms ^ 2 * w ^ 2)
            + 2 * ms ^ 2 * (4 * mx ^ 2 * c ^ 2 + 2 * β * c - 2 * ms ^ 2 * c ^ 2)) / 2
          * (Real.log ((T - ms ^ 2) ^ 2 + ms ^ 2 * w ^ 2) - Real.log (ms ^ 4 + ms ^ 2 * w ^ 2))
        + (4 * mx ^ 2 * β ^ 2
            - (4 * mx ^ 2 * c ^ 2 + 2 * β * c - 2 * ms ^ 2 * c ^ 2) * (ms ^ 4 + ms ^ 2 * w ^ 2)
            + (-β ^ 2 - 8 * mx ^ 2 * β * c + c ^ 2 * (ms ^ 4 + ms ^ 2 * w ^ 2)
              + 2 * ms ^ 2 * (4 * mx ^ 2 * c ^ 2 + 2 * β * c - 2 * ms ^ 2 * c ^ 2)) * ms ^ 2)
            / (ms * w)
          * (Real.arctan ((T - ms ^ 2) / (ms * w)) + Real.arctan (ms / w)) := by
  obtain ⟨q, hq⟩ : ∃ q, q = 4 * mx ^ 2 * c ^ 2 + 2 * β * c - 2 * ms ^ 2 * c ^ 2 := ⟨_, rfl⟩
  obtain ⟨r, hr⟩ : ∃ r, r = -β ^ 2 - 8 * mx ^ 2 * β * c + c ^ 2 * (ms ^ 4 + ms ^ 2 * w ^ 2)
    + 2 * ms ^ 2 * q := ⟨_, rfl⟩
  rw [← hq, ← hr]
  let F : ℝ → ℝ := fun t => -c ^ 2 * t ^ 2 / 2 + q * t
      + r / 2 * Real.log ((t - ms ^ 2) ^ 2 + ms ^ 2 * w ^ 2)
    + (4 * mx ^ 2 * β ^ 2 - q * (ms ^ 4 + ms ^ 2 * w ^ 2) + r * ms ^ 2) / (ms * w)
      * Real.arctan ((t - ms ^ 2) / (ms * w))
  have hF : ∀ t, HasDerivAt F (crossed β c mx ms w t) t := by
    intro t
    have hden := tAmplitude_den hms hw t
    have e1 : HasDerivAt (fun t : ℝ => t - ms ^ 2) 1 t := (hasDerivAt_id t).sub_const _
    have e2 : HasDerivAt (fun t : ℝ => (t - ms ^ 2) ^ 2 + ms ^ 2 * w ^ 2) (2 * (t - ms ^ 2)) t := by
      have := (e1.pow 2).add_const (ms ^ 2 * w ^ 2)
      exact this.congr_deriv (by norm_num)
    have e3 := (e1.div_const (ms * w)).arctan
    have e4 : HasDerivAt (fun t : ℝ => -c ^ 2 * t ^ 2 / 2 + q * t) (-c ^ 2 * t + q) t := by
      have := (((hasDerivAt_pow 2 t).const_mul (-c ^ 2)).div_const 2).add
        ((hasDerivAt_id t).const_mul q)
      refine this.congr_deriv ?_
      norm_num
      ring
    have d := (e4.add ((e2.log hden.ne').const_mul (r / 2))).add
      (e3.const_mul ((4 * mx ^ 2 * β ^ 2 - q * (ms ^ 4 + ms ^ 2 * w ^ 2) + r * ms ^ 2) / (ms * w)))
    refine d.congr_deriv ?_
    unfold crossed
    have h1 : 1 + ((t - ms ^ 2) / (ms * w)) ^ 2
        = ((t - ms ^ 2) ^ 2 + ms ^ 2 * w ^ 2) / (ms * w) ^ 2 := by
      field_simp; ring
    rw [h1]
    obtain ⟨Q, hQ⟩ : ∃ Q, Q = (t - ms ^ 2) ^ 2 + ms ^ 2 * w ^ 2 := ⟨_, rfl⟩
    rw [← hQ] at hden ⊢
    field_simp
    rw [hQ, hr, hq]
    ring
  rw [intervalIntegral.integral_eq_sub_of_hasDerivAt (fun t _ => hF t)
    ((crossed_continuous hms hw).intervalIntegrable _ _)]
  simp only [F]
  have h0 : (0 - ms ^ 2) / (ms * w) = -(ms / w) := by field_simp; ring
  rw [h0, Real.arctan_neg, show ((0 : ℝ) - ms ^ 2) ^ 2 = ms ^ 4 by ring]
  ring

/-- The mean over the momentum transfers between `0` and `T`. -/
noncomputable def mean (f : ℝ → ℝ) (T : ℝ) : ℝ := (∫ t in (0 : ℝ)..T, f t) / T

/-- It tends to the value at zero. -/
theorem mean_tendsto {f : ℝ → ℝ} (hf : Continuous f) : Tendsto (mean f) (𝓝[≠] 0) (𝓝 (f 0)) := by
  have hd : HasDerivAt (fun T => ∫ t in (0 : ℝ)..T, f t) (f 0) 0 :=
    intervalIntegral.integral_hasDerivAt_right (hf.intervalIntegrable _ _)
      (hf.stronglyMeasurableAtFilter _ _) hf.continuousAt
  rw [hasDerivAt_iff_tendsto_slope_zero] at hd
  refine hd.congr fun T => ?_
  simp only [zero_add, intervalIntegral.integral_same, sub_zero, smul_eq_mul]
  unfold mean
  rw [inv_mul_eq_div]

/-- A mean of a function that is non-negative below `4 mx²` is non-negative. -/
theorem mean_nonneg {f : ℝ → ℝ} {T M : ℝ} (hT : T ≤ M) (hM : 0 ≤ M) (h : ∀ t ≤ M, 0 ≤ f t) :
    0 ≤ mean f T := by
  unfold mean
  rcases le_total 0 T with h0 | h0
  · refine div_nonneg (intervalIntegral.integral_nonneg h0 fun t ht => h t (ht.2.trans hT)) h0
  · rw [intervalIntegral.integral_symm, neg_div, ← div_neg]
    exact div_nonneg (intervalIntegral.integral_nonneg h0 fun t ht => h t (ht.2.trans hM))
      (by linarith)

theorem crossed_nonneg {β c mx ms w t : ℝ} (hms : 0 < ms) (hw : 0 < w) (ht : t ≤ 4 * mx ^ 2) :
    0 ≤ crossed β c mx ms w t :=
  div_nonneg (mul_nonneg (sq_nonneg _) (by linarith)) (tAmplitude_den hms hw t).le

/-- A mean of a crossed amplitude that does not vanish identically is positive. -/
theorem mean_crossed_pos {β c mx ms w T : ℝ} (hms : 0 < ms) (hw : 0 < w) (hT0 : T ≠ 0)
    (hmx : 0 < mx) (hT : T < 4 * mx ^ 2) (hne : β ≠ 0 ∨ c ≠ 0) :
    0 < mean (crossed β c mx ms w) T := by
  have key : ∀ a b : ℝ, a < b → b ≤ 4 * mx ^ 2 → 0 < ∫ t in a..b, crossed β c mx ms w t := by
    intro a b hab hb
    have hcont := crossed_continuous (β := β) (c := c) (mx := mx) hms hw
    rw [intervalIntegral.integral_pos_iff_support_of_nonneg_ae']
    · refine ⟨hab, ?_⟩
      have hsub : Set.Ioo a b \ {β / c} ⊆
          Function.support (crossed β c mx ms w) ∩ Set.Ioc a b := by
        rintro t ⟨ht, htne⟩
        refine ⟨?_, ht.1, ht.2.le⟩
        rw [Function.mem_support]
        unfold crossed
        refine (div_pos (mul_pos (sq_pos_of_ne_zero ?_) (by linarith [ht.2])) (tAmplitude_den hms hw t)).ne'
        intro h0
        rcases eq_or_ne c 0 with hc | hc
        · rw [hc, zero_mul, sub_zero] at h0
          exact hne.elim (fun h => h h0) (fun h => h hc)
        · apply htne
          rw [Set.mem_singleton_iff, eq_div_iff hc]
          linarith
      refine lt_of_lt_of_le ?_ (MeasureTheory.measure_mono hsub)
      rw [MeasureTheory.measure_sdiff_null (Set.finite_singleton _ |>.measure_zero _)]
      simpa using hab
    · refine MeasureTheory.ae_restrict_of_forall_mem (by measurability) fun t ht => ?_
      rw [Set.uIoc_of_le hab.le] at ht
      exact crossed_nonneg hms hw (ht.2.trans hb)
    · exact hcont.intervalIntegrable _ _
  unfold mean
  rcases lt_or_gt_of_ne hT0 with h | h
  · rw [intervalIntegral.integral_symm, neg_div, ← div_neg]
    exact div_pos (key T 0 h (by positivity)) (by linarith)
  · exact div_pos (key 0 T h hT.le) h

/-! ### Pions -/

/-- The amplitude of two pions of mass `m` at squared momentum `q2`, up to normalisation, as it
appears in the annihilation cross sections (`scalar_xs.rs:245-256`). -/
noncomputable def pionAmplitude (k : ScalarModel.Consts) (m : ℝ) (s : ScalarModel.Base) (q2 : ℝ) : ℝ :=
  162 * s.gsGG * s.lam ^ 3 * (2 * m ^ 2 - q2) * k.vh ^ 2
    + k.b0 * (k.mdq + k.muq) * (9 * s.lam + 4 * s.gsGG * s.vs)
      * (2 * s.gsGG * k.vh * s.vs + (-3 * s.lam * k.vh + 3 * s.gsff * s.lam * s.vs))
      * (2 * s.gsGG * k.vh * (9 * s.lam - 4 * s.gsGG * s.vs)
        + 9 * s.gsff * s.lam * (3 * s.lam + 4 * s.gsGG * s.vs))

/-- The squared amplitude of dark matter and pions through the mediator at squared momentum `q2`
of the mediator, up to normalisation and sign: dark-matter trace, vertex, propagator. -/
noncomputable def pionMsq (k : ScalarModel.Consts) (m : ℝ) (s : ScalarModel.Base) (q2 : ℝ) : ℝ :=
  s.gsxx ^ 2 * pionAmplitude k m s q2 ^ 2 * (4 * s.mx ^ 2 - q2)
    / ((q2 - s.ms ^ 2) ^ 2 + s.ms ^ 2 * s.width ^ 2)

theorem pionMsq_eq (k : ScalarModel.Consts) (m : ℝ) (s : ScalarModel.Base) (t : ℝ) :
    pionMsq k m s t = s.gsxx ^ 2 * crossed (pionAmplitude k m s 0)
      (162 * s.gsGG * s.lam ^ 3 * k.vh ^ 2) s.mx s.ms s.width t := by
  unfold pionMsq crossed
  have : pionAmplitude k m s t
      = pionAmplitude k m s 0 - 162 * s.gsGG * s.lam ^ 3 * k.vh ^ 2 * t := by
    unfold pionAmplitude; ring
  rw [this]
  ring

/-- The normalisation of the kernels. -/
noncomputable def pionNorm (k : ScalarModel.Consts) (s : ScalarModel.Base) (e : ℝ) : ℝ :=
  209952 * s.lam ^ 6 * Real.pi * e ^ 2 * k.vh ^ 4 * (9 * s.lam + 4 * s.gsGG * s.vs) ^ 2

theorem xpi_num_den (k : ScalarModel.Consts) (m : ℝ) (s : ScalarModel.Base) (e : ℝ)
    (hms : 0 < s.ms) (hw : 0 < s.width) (hT : 4 * s.mx ^ 2 - e ^ 2 ≠ 0) :
    xpiNum k m s e / xpiDen k s e
      = mean (pionMsq k m s) (4 * s.mx ^ 2 - e ^ 2) / pionNorm k s e := by
  have hI : ∫ t in (0 : ℝ)..(4 * s.mx ^ 2 - e ^ 2), pionMsq k m s t
      = s.gsxx ^ 2 * ∫ t in (0 : ℝ)..(4 * s.mx ^ 2 - e ^ 2), crossed (pionAmplitude k m s 0)
        (162 * s.gsGG * s.lam ^ 3 * k.vh ^ 2) s.mx s.ms s.width t := by
    rw [← intervalIntegral.integral_const_mul]
    exact intervalIntegral.integral_congr fun t _ => pionMsq_eq k m s t
  unfold mean
  rw [hI, crossed_integral hms hw]
  have a1 : (4 * s.mx ^ 2 - e ^ 2 - s.ms ^ 2) / (s.ms * s.width)
      = -((-4 * s.mx ^ 2 + s.ms ^ 2 + e ^ 2) / (s.ms * s.width)) := by ring
  have a2 : s.ms ^ 2 * (-8 * s.mx ^ 2 + 2 * e ^ 2 + s.width ^ 2)
        + (s.ms ^ 4 + (-4 * s.mx ^ 2 + e ^ 2) ^ 2)
      = (4 * s.mx ^ 2 - e ^ 2 - s.ms ^ 2) ^ 2 + s.ms ^ 2 * s.width ^ 2 := by ring
  have a3 : s.ms ^ 2 * (s.ms ^ 2 + s.width ^ 2) = s.ms ^ 4 + s.ms ^ 2 * s.width ^ 2 := by ring
  have hamp : pionAmplitude k m s 0 = 324 * s.gsGG * s.lam ^ 3 * m ^ 2 * k.vh ^ 2
      + k.b0 * (k.mdq + k.muq) * (9 * s.lam + 4 * s.gsGG * s.vs) * atanPrefactor k s := by
    unfold pionAmplitude atanPrefactor; ring
  unfold xpiNum xpiDen pionNorm couplingSq couplingLin
  rw [a1, a2, a3, Real.arctan_neg, hamp]
  generalize Real.arctan ((-4 * s.mx ^ 2 + s.ms ^ 2 + e ^ 2) / (s.ms * s.width)) = B
  generalize Real.arctan (s.ms / s.width) = A
  generalize Real.log (s.ms ^ 4 + s.ms ^ 2 * s.width ^ 2) = L1
  generalize Real.log ((4 * s.mx ^ 2 - e ^ 2 - s.ms ^ 2) ^ 2 + s.ms ^ 2 * s.width ^ 2) = L2
  obtain ⟨P, hP⟩ : ∃ P, P = k.b0 * (k.mdq + k.muq) * (9 * s.lam + 4 * s.gsGG * s.vs)
    * atanPrefactor k s := ⟨_, rfl⟩
  obtain ⟨c, hc⟩ : ∃ c, c = 162 * s.gsGG * s.lam ^ 3 * k.vh ^ 2 := ⟨_, rfl⟩
  obtain ⟨T, hTd⟩ : ∃ T, T = 4 * s.mx ^ 2 - e ^ 2 := ⟨_, rfl⟩
  obtain ⟨N, hN⟩ : ∃ N, N = s.lam ^ 6 * Real.pi * e ^ 2 * k.vh ^ 4
    * (9 * s.lam + 4 * s.gsGG * s.vs) ^ 2 := ⟨_, rfl⟩
  have hden : 419904 * s.lam ^ 6 * s.ms * Real.pi * e ^ 2 * (-4 * s.mx ^ 2 + e ^ 2) * k.vh ^ 4
      * (9 * s.lam + 4 * s.gsGG * s.vs) ^ 2 * s.width = -(2 * s.ms * s.width * T) * (209952 * N) := by
    rw [hTd, hN]; ring
  have hden2 : 209952 * s.lam ^ 6 * Real.pi * e ^ 2 * k.vh ^ 4
      * (9 * s.lam + 4 * s.gsGG * s.vs) ^ 2 = 209952 * N := by rw [hN]; ring
  rw [hden, hden2]
  rw [← div_div]
  congr 1
  rw [← hTd] at hT ⊢
  rw [div_eq_div_iff (by simp [hms.ne', hw.ne', hT]) hT]
  have he : e ^ 2 = 4 * s.mx ^ 2 - T := by rw [hTd]; ring
  have e1 : 26244 * s.gsGG ^ 2 * s.lam ^ 6 * k.vh ^ 4 = c ^ 2 := by rw [hc]; ring
  have e2 : ∀ x y, 648 * k.b0 * s.gsGG * s.lam ^ 3 * (k.mdq + k.muq) * x
        * k.vh ^ 2 * (9 * s.lam + 4 * s.gsGG * s.vs) * atanPrefactor k s + y
      = 4 * c * x * P + y := by intro x y; rw [hc, hP]; ring
  have e3 : k.b0 ^ 2 * (k.mdq + k.muq) ^ 2 * (9 * s.lam + 4 * s.gsGG * s.vs) ^ 2
        * atanPrefactor k s ^ 2 = P ^ 2 := by rw [hP]; ring
  have e4 : k.b0 ^ 2 * (k.mdq + k.muq) ^ 2 * (-4 * s.mx ^ 2 + s.ms ^ 2)
        * (9 * s.lam + 4 * s.gsGG * s.vs) ^ 2 * atanPrefactor k s ^ 2
      = P ^ 2 * (-4 * s.mx ^ 2 + s.ms ^ 2) := by rw [hP]; ring
  have e5 : ∀ x, 324 * k.b0 * s.gsGG * s.lam ^ 3 * (k.mdq + k.muq) * k.vh ^ 2
        * (9 * s.lam + 4 * s.gsGG * s.vs) * atanPrefactor k s * x = 2 * c * P * x := by
    intro x; rw [hc, hP]; ring
  have e6 : ∀ x y, -324 * s.gsGG * s.lam ^ 3 * y * k.vh ^ 2
        * (81 * s.gsGG * s.lam ^ 3 * x * k.vh ^ 2
          + 2 * k.b0 * (k.mdq + k.muq) * (9 * s.lam + 4 * s.gsGG * s.vs) * atanPrefactor k s)
      = -2 * c * y * (c / 2 * x + 2 * P) := by intro x y; rw [hc, hP]; ring
  have e7 : 324 * s.gsGG * s.lam ^ 3 * m ^ 2 * k.vh ^ 2 = 2 * c * m ^ 2 := by rw [hc]; ring
  rw [e1, e2, e3, e4, e5, e6, e7, ← hP, ← hc, he]
  have hms' := hms.ne'
  have hw' := hw.ne'
  field_simp
  ring

theorem xpiDen_eq (k : ScalarModel.Consts) (s : ScalarModel.Base) (e : ℝ) :
    xpiDen k s e = -(2 * s.ms * s.width * (4 * s.mx ^ 2 - e ^ 2)) * pionNorm k s e := by
  unfold xpiDen pionNorm; ring

/-- The quotient of both pion kernels. -/
theorem xpi_quotient (k : ScalarModel.Consts) (m : ℝ) (s : ScalarModel.Base) (e : ℝ)
    (hms : 0 < s.ms) (hw : 0 < s.width) (hT : 4 * s.mx ^ 2 - e ^ 2 ≠ 0) (hn : pionNorm k s e ≠ 0) :
    checkedDiv (xpiNum k m s e) (xpiDen k s e)
      = some (mean (pionMsq k m s) (4 * s.mx ^ 2 - e ^ 2) / pionNorm k s e) := by
  unfold checkedDiv
  rw [if_neg, xpi_num_den k m s e hms hw hT]
  rw [xpiDen_eq]
  simp [hms.ne', hw.ne', hT, hn]

theorem pionMsq_nonneg (k : ScalarModel.Consts) (m : ℝ) (s : ScalarModel.Base) (hms : 0 < s.ms)
    (hw : 0 < s.width) {t : ℝ} (ht : t ≤ 4 * s.mx ^ 2) : 0 ≤ pionMsq k m s t := by
  rw [pionMsq_eq]
  exact mul_nonneg (sq_nonneg _) (crossed_nonneg hms hw ht)

theorem pionMsq_continuous (k : ScalarModel.Consts) (m : ℝ) (s : ScalarModel.Base) (hms : 0 < s.ms)
    (hw : 0 < s.width) : Continuous (pionMsq k m s) := by
  rw [show pionMsq k m s = fun t => _ from funext fun t => pionMsq_eq k m s t]
  exact (crossed_continuous hms hw).const_mul _

theorem pionNorm_nonneg (k : ScalarModel.Consts) (s : ScalarModel.Base) (e : ℝ) :
    0 ≤ pionNorm k s e := by
  have := Real.pi_pos
  have : 0 ≤ s.lam ^ 6 := by positivity
  have : 0 ≤ k.vh ^ 4 := by positivity
  unfold pionNorm
  positivity

theorem quotient_nonneg (k : ScalarModel.Consts) (m : ℝ) (s : ScalarModel.Base) (e v : ℝ)
    (hms : 0 < s.ms) (hw : 0 < s.width)
    (h : checkedDiv (xpiNum k m s e) (xpiDen k s e) = some v) : 0 ≤ v := by
  by_cases h0 : xpiDen k s e = 0
  · unfold checkedDiv at h
    rw [if_pos h0] at h
    cases h
  · have hT : 4 * s.mx ^ 2 - e ^ 2 ≠ 0 := fun hh => h0 (by rw [xpiDen_eq, hh]; ring)
    have hn : pionNorm k s e ≠ 0 := fun hh => h0 (by rw [xpiDen_eq, hh]; ring)
    rw [xpi_quotient k m s e hms hw hT hn] at h
    injection h with h
    rw [← h]
    refine div_nonneg (mean_nonneg (M := 4 * s.mx ^ 2) (by nlinarith [sq_nonneg e]) (by positivity)
      fun t ht => pionMsq_nonneg k m s hms hw ht) (pionNorm_nonneg k s e)

/-! ### Photons -/

/-- The photon kernel is the mean of the crossed two-photon amplitude. -/
theorem xg_eq_mean (k : ScalarModel.Consts) (s : ScalarModel.Base) (e : ℝ) (hms : 0 < s.ms)
    (hw : 0 < s.width) (hmx : 0 < s.mx) (hlam : s.lam ≠ 0) (he : s.mx ≤ e) (hne : e ≠ 2 * s.mx) :
    scalarXG k s e = some (k.alpha ^ 2 * s.gsFF ^ 2 * s.gsxx ^ 2
      / (64 * s.lam ^ 2 * Real.pi ^ 3 * e ^ 2)
        * mean (crossed 0 1 s.mx s.ms s.width) (4 * s.mx ^ 2 - e ^ 2)) := by
  have hpi := Real.pi_pos
  have he0 : 0 < e := lt_of_lt_of_le hmx he
  have hT : 4 * s.mx ^ 2 - e ^ 2 ≠ 0 := by
    intro h
    have : (2 * s.mx - e) * (2 * s.mx + e) = 0 := by linarith
    rcases mul_eq_zero.mp this with h | h
    · exact hne (by linarith)
    · linarith
  unfold scalarXG checkedDiv
  rw [if_neg (by push Not; exact ⟨he, hne⟩), if_neg (by
    have : 4 * s.mx ^ 2 + -e ^ 2 ≠ 0 := hT
    simp [hlam, hpi.ne', this, he0.ne', hw.ne'])]
  unfold mean
  rw [crossed_integral hms hw]
  have a1 : (4 * s.mx ^ 2 - e ^ 2 - s.ms ^ 2) / (s.ms * s.width)
      = -((-4 * s.mx ^ 2 + s.ms ^ 2 + e ^ 2) / (s.ms * s.width)) := by ring
  have a2 : s.ms ^ 2 * (-8 * s.mx ^ 2 + 2 * e ^ 2 + s.width ^ 2)
        + (s.ms ^ 4 + (-4 * s.mx ^ 2 + e ^ 2) ^ 2)
      = (4 * s.mx ^ 2 - e ^ 2 - s.ms ^ 2) ^ 2 + s.ms ^ 2 * s.width ^ 2 := by ring
  have a3 : s.ms ^ 2 * (s.ms ^ 2 + s.width ^ 2) = s.ms ^ 4 + s.ms ^ 2 * s.width ^ 2 := by ring
  rw [a1, a2, a3, Real.arctan_neg]
  generalize Real.arctan ((-4 * s.mx ^ 2 + s.ms ^ 2 + e ^ 2) / (s.ms * s.width)) = B
  generalize Real.arctan (s.ms / s.width) = A
  generalize Real.log (s.ms ^ 4 + s.ms ^ 2 * s.width ^ 2) = L1
  generalize Real.log ((4 * s.mx ^ 2 - e ^ 2 - s.ms ^ 2) ^ 2 + s.ms ^ 2 * s.width ^ 2) = L2
  have hT' : 4 * s.mx ^ 2 + -e ^ 2 = 4 * s.mx ^ 2 - e ^ 2 := by ring
  rw [hT']
  congr 1
  field_simp
  ring

/-- **C212.** Elastic scattering off pions and photons: whenever the kernel returns a number it is
non-negative; below threshold it is zero. -/
theorem elastic_nonneg (k : ScalarModel.Consts) (s : ScalarModel.Base) (e v : ℝ) (hms : 0 < s.ms)
    (hw : 0 < s.width) (hmx : 0 < s.mx) :
    (scalarXPi k s e = some v → 0 ≤ v) ∧ (scalarXPi0 k s e = some v → 0 ≤ v) ∧
    (scalarXG k s e = some v → 0 ≤ v) ∧
    (e < s.mx + k.mpi → scalarXPi k s e = some 0) ∧
    (e < s.mx + k.mpi0 → scalarXPi0 k s e = some 0) ∧ (e < s.mx → scalarXG k s e = some 0) := by
  refine ⟨fun h => ?_, fun h => ?_, fun h => ?_, fun h => if_pos h, fun h => if_pos h,
    fun h => if_pos (Or.inl h)⟩
  · unfold scalarXPi at h
    split_ifs at h with h1
    · injection h with h; exact h.le
    · obtain ⟨x, hx, rfl⟩ := Option.map_eq_some_iff.mp h
      have := quotient_nonneg k k.mpi s e x hms hw hx
      linarith
  · unfold scalarXPi0 at h
    split_ifs at h with h1
    · injection h with h; exact h.le
    · exact quotient_nonneg k k.mpi0 s e v hms hw h
  · by_cases h1 : e < s.mx ∨ e = 2 * s.mx
    · rw [show scalarXG k s e = some 0 from if_pos h1] at h
      injection h with h; exact h.le
    · push Not at h1
      have hlam : s.lam ≠ 0 := by
        intro hl
        unfold scalarXG checkedDiv at h
        rw [if_neg (by push Not; exact h1), if_pos (by rw [hl]; ring)] at h
        cases h
      rw [xg_eq_mean k s e hms hw hmx hlam h1.1 h1.2] at h
      injection h with h
      rw [← h]
      have := Real.pi_pos
      refine mul_nonneg (by positivity) (mean_nonneg (M := 4 * s.mx ^ 2) (by nlinarith [sq_nonneg e])
        (by positivity) fun t ht => crossed_nonneg hms hw ht)

/-- **C212.** The kernels are the means of the crossed annihilation amplitude over momentum
transfers between `0` and `4 mx² - e²`, twice as large for charged pions as for a neutral pion of
the same mass. -/
theorem elastic_pion_mean (k : ScalarModel.Consts) (s : ScalarModel.Base) (e : ℝ) (hms : 0 < s.ms)
    (hw : 0 < s.width) (hmx : 0 < s.mx) (hlam : s.lam ≠ 0) (hvh : k.vh ≠ 0)
    (h9 : 9 * s.lam + 4 * s.gsGG * s.vs ≠ 0) (he : 0 < e) (hne : e ≠ 2 * s.mx) :
    (s.mx + k.mpi0 ≤ e → scalarXPi0 k s e
      = some (mean (pionMsq k k.mpi0 s) (4 * s.mx ^ 2 - e ^ 2) / pionNorm k s e)) ∧
    (s.mx + k.mpi ≤ e → scalarXPi k s e
      = some (2 * (mean (pionMsq k k.mpi s) (4 * s.mx ^ 2 - e ^ 2) / pionNorm k s e))) := by
  have hT : 4 * s.mx ^ 2 - e ^ 2 ≠ 0 := by
    intro h
    have : (2 * s.mx - e) * (2 * s.mx + e) = 0 := by linarith
    rcases mul_eq_zero.mp this with h | h
    · exact hne (by linarith)
    · linarith
  have hn : pionNorm k s e ≠ 0 := by
    unfold pionNorm
    have := Real.pi_pos.ne'
    simp [hlam, hvh, h9, he.ne', this]
  constructor
  · intro h
    unfold scalarXPi0
    rw [if_neg (not_lt.mpr h), xpi_quotient k _ s e hms hw hT hn]
  · intro h
    unfold scalarXPi
    rw [if_neg (not_lt.mpr h), xpi_quotient k _ s e hms hw hT hn]
    rfl

/-- The mass of the target of a channel (specification). -/
noncomputable def targetMass (c k : ScalarModel.Consts) (s : ScalarModel.Base) : String → ℝ
  | "pi" => k.mpi
  | "pi0" => k.mpi0
  | "e" => c.me
  | "mu" => c.mmu
  | "s" => s.ms
  | _ => 0

/-- **C212.** The dictionary of elastic cross sections has six channels, each of which is closed
below the sum of the masses of dark matter and its own target. -/
theorem elastic_channels (c k : ScalarModel.Consts) (s : ScalarModel.Base) (e : ℝ) :
    (elasticCrossSections c k s e).map Prod.fst = ["pi", "pi0", "e", "mu", "g", "s"] ∧
    ∀ p ∈ elasticCrossSections c k s e, e < s.mx + targetMass c k s p.1 → p.2 = some 0 := by
  refine ⟨rfl, ?_⟩
  intro p hp h
  simp only [elasticCrossSections, List.mem_cons, List.not_mem_nil, or_false] at hp
  rcases hp with rfl | rfl | rfl | rfl | rfl | rfl
  · exact if_pos h
  · exact if_pos h
  · exact if_pos h
  · exact if_pos h
  · exact if_pos (Or.inl (by
      have h' : e < s.mx + 0 := h
      linarith))
  · exact if_pos h

/-! ### The point `e = 2 mx` -/

/-- The momentum transfer tends to zero. -/
theorem transfer_tendsto {mx : ℝ} (hmx : 0 < mx) :
    Tendsto (fun e : ℝ => 4 * mx ^ 2 - e ^ 2) (𝓝[≠] (2 * mx)) (𝓝[≠] 0) := by
  refine tendsto_nhdsWithin_iff.mpr ⟨?_, ?_⟩
  · have : Continuous fun e : ℝ => 4 * mx ^ 2 - e ^ 2 := by fun_prop
    have h := this.tendsto (2 * mx)
    rw [show 4 * mx ^ 2 - (2 * mx) ^ 2 = 0 by ring] at h
    exact h.mono_left nhdsWithin_le_nhds
  · have hpos : ∀ᶠ e : ℝ in 𝓝[≠] (2 * mx), 0 < e :=
      (lt_mem_nhds (by positivity : (0 : ℝ) < 2 * mx)).filter_mono nhdsWithin_le_nhds
    filter_upwards [hpos, self_mem_nhdsWithin] with e he hne h
    have : (2 * mx - e) * (2 * mx + e) = 0 := by
      have : 4 * mx ^ 2 - e ^ 2 = 0 := h
      linarith
    rcases mul_eq_zero.mp this with h | h
    · exact hne (by simp; linarith)
    · linarith

/-- **C211.** The photon kernel is continuous at `e = 2 mx`: the zero returned there is the limit,
since the two-photon coupling is proportional to the momentum transfer. -/
theorem xg_continuous (k : ScalarModel.Consts) (s : ScalarModel.Base) (hms : 0 < s.ms)
    (hw : 0 < s.width) (hmx : 0 < s.mx) (hlam : s.lam ≠ 0) :
    ∃ f : ℝ → ℝ, (∀ᶠ e in 𝓝 (2 * s.mx), scalarXG k s e = some (f e)) ∧
      f (2 * s.mx) = 0 ∧ ContinuousAt f (2 * s.mx) := by
  refine ⟨fun e => k.alpha ^ 2 * s.gsFF ^ 2 * s.gsxx ^ 2 / (64 * s.lam ^ 2 * Real.pi ^ 3 * e ^ 2)
    * mean (crossed 0 1 s.mx s.ms s.width) (4 * s.mx ^ 2 - e ^ 2), ?_, ?_, ?_⟩
  · filter_upwards [lt_mem_nhds (by linarith : s.mx < 2 * s.mx)] with e he
    by_cases h : e = 2 * s.mx
    · rw [show scalarXG k s e = some 0 from if_pos (Or.inr h), h]
      simp only [mean, show 4 * s.mx ^ 2 - (2 * s.mx) ^ 2 = 0 by ring, div_zero, mul_zero]
    · exact xg_eq_mean k s e hms hw hmx hlam he.le h
  · simp only [mean, show 4 * s.mx ^ 2 - (2 * s.mx) ^ 2 = 0 by ring, div_zero, mul_zero]
  · rw [continuousAt_iff_punctured_nhds]
    have h1 := (mean_tendsto (crossed_continuous (β := 0) (c := 1) (mx := s.mx) hms hw)).comp
      (transfer_tendsto hmx)
    have h2 : Tendsto (fun e : ℝ => k.alpha ^ 2 * s.gsFF ^ 2 * s.gsxx ^ 2
        / (64 * s.lam ^ 2 * Real.pi ^ 3 * e ^ 2)) (𝓝[≠] (2 * s.mx))
        (𝓝 (k.alpha ^ 2 * s.gsFF ^ 2 * s.gsxx ^ 2
          / (64 * s.lam ^ 2 * Real.pi ^ 3 * (2 * s.mx) ^ 2))) := by
      have hpi := Real.pi_pos.ne'
      have : ContinuousAt (fun e : ℝ => k.alpha ^ 2 * s.gsFF ^ 2 * s.gsxx ^ 2
          / (64 * s.lam ^ 2 * Real.pi ^ 3 * e ^ 2)) (2 * s.mx) := by
        refine ContinuousAt.div (by fun_prop) (by fun_prop) ?_
        simp [hlam, hpi, hmx.ne']
      exact this.tendsto.mono_left nhdsWithin_le_nhds
    have h3 := h2.mul h1
    have h0 : crossed 0 1 s.mx s.ms s.width 0 = 0 := by unfold crossed; simp
    rw [h0, mul_zero] at h3
    simp only [mean, show 4 * s.mx ^ 2 - (2 * s.mx) ^ 2 = 0 by ring, div_zero, mul_zero]
    exact h3

/-- **C211.** The pion kernels divide zero by zero at `e = 2 mx` although their limit there is
finite, and positive unless the amplitude vanishes at zero momentum transfer. -/
theorem xpi_gap (k : ScalarModel.Consts) (s : ScalarModel.Base) (hms : 0 < s.ms) (hw : 0 < s.width)
    (hmx : 0 < s.mx) (hlam : s.lam ≠ 0) (hvh : k.vh ≠ 0) (h9 : 9 * s.lam + 4 * s.gsGG * s.vs ≠ 0)
    (hg : s.gsxx ≠ 0) (hlight : k.mpi0 < s.mx) (hamp : pionAmplitude k k.mpi0 s 0 ≠ 0) :
    scalarXPi0 k s (2 * s.mx) = none ∧ xpiNum k k.mpi0 s (2 * s.mx) = 0 ∧
      ∃ L, 0 < L ∧ Tendsto (fun e => (scalarXPi0 k s e).getD 0) (𝓝[≠] (2 * s.mx)) (𝓝 L) := by
  refine ⟨?_, ?_, pionMsq k k.mpi0 s 0 / pionNorm k s (2 * s.mx), ?_, ?_⟩
  · unfold scalarXPi0 checkedDiv
    rw [if_neg (by linarith), if_pos (by rw [xpiDen_eq]; ring)]
  · unfold xpiNum
    rw [show s.ms ^ 2 * (-8 * s.mx ^ 2 + 2 * (2 * s.mx) ^ 2 + s.width ^ 2)
        + (s.ms ^ 4 + (-4 * s.mx ^ 2 + (2 * s.mx) ^ 2) ^ 2)
      = s.ms ^ 2 * (s.ms ^ 2 + s.width ^ 2) by ring,
      show (-4 * s.mx ^ 2 + s.ms ^ 2 + (2 * s.mx) ^ 2) / (s.ms * s.width) = s.ms / s.width by
        rw [show -4 * s.mx ^ 2 + s.ms ^ 2 + (2 * s.mx) ^ 2 = s.ms * s.ms by ring]
        exact mul_div_mul_left _ _ hms.ne']
    ring
  · have hpi := Real.pi_pos
    have h1 : 0 < pionNorm k s (2 * s.mx) := by
      refine lt_of_le_of_ne (pionNorm_nonneg _ _ _) (Ne.symm ?_)
      unfold pionNorm
      simp [hlam, hvh, h9, hmx.ne', hpi.ne']
    refine div_pos ?_ h1
    unfold pionMsq
    have := tAmplitude_den hms hw 0
    have h2 : 0 < s.gsxx ^ 2 := by positivity
    have h3 : 0 < pionAmplitude k k.mpi0 s 0 ^ 2 := by positivity
    have h4 : 0 < 4 * s.mx ^ 2 - 0 := by rw [sub_zero]; positivity
    positivity
  · have h1 := (mean_tendsto (pionMsq_continuous k k.mpi0 s hms hw)).comp (transfer_tendsto hmx)
    have h2 : Tendsto (pionNorm k s) (𝓝[≠] (2 * s.mx)) (𝓝 (pionNorm k s (2 * s.mx))) := by
      have : Continuous (pionNorm k s) := by unfold pionNorm; fun_prop
      exact (this.tendsto _).mono_left nhdsWithin_le_nhds
    have hn : pionNorm k s (2 * s.mx) ≠ 0 := by
      have hpi := Real.pi_pos
      unfold pionNorm
      simp [hlam, hvh, h9, hmx.ne', hpi.ne']
    refine (h1.div h2 hn).congr' ?_
    have hth : ∀ᶠ e : ℝ in 𝓝[≠] (2 * s.mx), s.mx + k.mpi0 < e ∧ 0 < e :=
      ((lt_mem_nhds (by linarith)).and (lt_mem_nhds (by positivity))).filter_mono nhdsWithin_le_nhds
    filter_upwards [hth, self_mem_nhdsWithin] with e he hne
    rw [(elastic_pion_mean k s e hms hw hmx hlam hvh h9 he.2 hne).1 he.1.le]
    rfl

/-- **C211.** The same for leptons. -/
theorem xl_gap (mx ms gsxx gsff w ml : ℝ) (hms : 0 < ms) (hw : 0 < w) (hml : 0 < ml)
    (hlight : ml < mx) (hg : gsxx ≠ 0) (hf : gsff ≠ 0) :
    scalarXLChecked (2 * mx) mx ms gsxx gsff w ml = none ∧
      ∃ L, 0 < L ∧ Tendsto (fun e => (scalarXLChecked e mx ms gsxx gsff w ml).getD 0)
        (𝓝[≠] (2 * mx)) (𝓝 L) := by
  have hmx : 0 < mx := hml.trans hlight
  have hpi := Real.pi_pos
  refine ⟨?_, (gsff * ml * gsxx) ^ 2 / (16 * Real.pi * (2 * mx) ^ 2) * tAmplitude ml mx ms w 0, ?_, ?_⟩
  · unfold scalarXLChecked
    rw [if_neg (by linarith), if_pos (by ring)]
  · unfold tAmplitude
    have := tAmplitude_den hms hw 0
    have h4 : 0 < 4 * mx ^ 2 - 0 := by rw [sub_zero]; positivity
    have h5 : 0 < 4 * ml ^ 2 - 0 := by rw [sub_zero]; positivity
    positivity
  · have h1 := (mean_tendsto (tAmplitude_continuous (ml := ml) (mx := mx) hms hw)).comp
      (transfer_tendsto hmx)
    have h2 : Tendsto (fun e : ℝ => (gsff * ml * gsxx) ^ 2 / (16 * Real.pi * e ^ 2))
        (𝓝[≠] (2 * mx)) (𝓝 ((gsff * ml * gsxx) ^ 2 / (16 * Real.pi * (2 * mx) ^ 2))) := by
      have : ContinuousAt (fun e : ℝ => (gsff * ml * gsxx) ^ 2 / (16 * Real.pi * e ^ 2)) (2 * mx) := by
        refine ContinuousAt.div (by fun_prop) (by fun_prop) ?_
        simp [hpi.ne', hmx.ne']
      exact this.tendsto.mono_left nhdsWithin_le_nhds
    refine (h2.mul h1).congr' ?_
    have hth : ∀ᶠ e : ℝ in 𝓝[≠] (2 * mx), mx + ml < e ∧ 0 < e :=
      ((lt_mem_nhds (by linarith)).and (lt_mem_nhds (by positivity))).filter_mono nhdsWithin_le_nhds
    filter_upwards [hth, self_mem_nhdsWithin] with e he hne
    have hT : 4 * mx ^ 2 - e ^ 2 ≠ 0 := by
      intro h
      have : (2 * mx - e) * (2 * mx + e) = 0 := by linarith
      rcases mul_eq_zero.mp this with h | h
      · exact hne (by simp; linarith)
      · linarith [he.2]
    unfold scalarXLChecked
    rw [if_neg (not_lt.mpr he.1.le), if_neg (by simp [hms.ne', hpi.ne', he.2.ne', hT, hw.ne']),
      scalarXL_eq_mean e mx ms gsxx gsff w ml hms hw he.2 he.1.le (sub_ne_zero.mp hT)]
    rfl

/-- The function behind the mediator kernel, with the difference of the two pole terms combined and
the logarithm divided by the momentum transfer replaced by `ℓ`. -/
noncomputable def xsForm (mx ms g s ℓ : ℝ) : ℝ :=
  g ^ 4 * (10 * s ^ 2 + 50 * mx ^ 2 * s - 8 * ms ^ 2 * s + 4 * mx ^ 4 + 4 * ms ^ 4
      - 24 * ms ^ 2 * mx ^ 2
      + 4 * (ms ^ 2 - 4 * mx ^ 2) ^ 2 * (mx ^ 2 - s) ^ 2
        / ((2 * ms ^ 2 - 3 * mx ^ 2) * (2 * ms ^ 2 + mx ^ 2 - s))
      + 4 * (mx ^ 2 - s) * (18 * mx ^ 2 * s + 15 * mx ^ 4 - 2 * ms ^ 4 - 16 * ms ^ 2 * mx ^ 2 - s ^ 2)
        * ℓ)
    / (64 * Real.pi * s * (mx ^ 2 - s) ^ 2)

/-- **C211.** The mediator kernel is continuous at `e = 2 mx`: the closed form returned there is the
limit of the general expression. -/
theorem xs_continuous (mx ms g : ℝ) (hms : 0 < ms) (hlight : ms < mx) :
    ∃ f : ℝ → ℝ, (∀ᶠ e in 𝓝 (2 * mx), scalarXS e mx ms g = some (f e)) ∧
      ContinuousAt f (2 * mx) := by
  have hmx : 0 < mx := hms.trans hlight
  have hpi := Real.pi_pos
  have ha : 2 * ms ^ 2 - 3 * mx ^ 2 < 0 := by nlinarith
  obtain ⟨a, had⟩ : ∃ a, a = 2 * ms ^ 2 - 3 * mx ^ 2 := ⟨_, rfl⟩
  rw [← had] at ha
  -- the logarithm over the momentum transfer, continued to zero
  let ell : ℝ → ℝ := fun T => if T = 0 then -1 / a else Real.log |a / (a + T)| / T
  have hell : ContinuousAt ell 0 := by
    rw [continuousAt_iff_punctured_nhds]
    have hd : HasDerivAt (fun T : ℝ => -Real.log (a + T)) (-(1 / (a + 0))) 0 := by
      have h1 : HasDerivAt (fun T : ℝ => a + T) 1 0 := (hasDerivAt_id (0 : ℝ)).const_add a
      exact (h1.log (by rw [add_zero]; exact ha.ne)).neg
    rw [hasDerivAt_iff_tendsto_slope_zero] at hd
    have he0 : ell 0 = -(1 / (a + 0)) := by
      show (if (0 : ℝ) = 0 then -1 / a else _) = _
      rw [if_pos rfl, add_zero]
      ring
    rw [he0]
    refine hd.congr' ?_
    have hnear : ∀ᶠ T : ℝ in 𝓝[≠] 0, T < -a :=
      (gt_mem_nhds (by linarith : (0 : ℝ) < -a)).filter_mono nhdsWithin_le_nhds
    filter_upwards [hnear, self_mem_nhdsWithin] with T hT hne
    show T⁻¹ • (-Real.log (a + (0 + T)) - -Real.log (a + 0)) = if T = 0 then -1 / a else _
    rw [if_neg (show ¬ T = 0 from hne), Real.log_abs, Real.log_div ha.ne (by linarith), zero_add, add_zero, smul_eq_mul]
    ring
  refine ⟨fun e => xsForm mx ms g (e ^ 2) (ell (4 * mx ^ 2 - e ^ 2)), ?_, ?_⟩
  · have hb : ∀ᶠ e : ℝ in 𝓝 (2 * mx), 2 * ms ^ 2 + mx ^ 2 - e ^ 2 < 0 := by
      have hc : Continuous fun e : ℝ => 2 * ms ^ 2 + mx ^ 2 - e ^ 2 := by fun_prop
      refine hc.continuousAt.eventually (gt_mem_nhds ?_)
      nlinarith
    filter_upwards [lt_mem_nhds (by linarith : mx + ms < 2 * mx), hb] with e he hbe
    have he0 : 0 < e := by linarith
    have hs : mx ^ 2 - e ^ 2 < 0 := by nlinarith
    have a1 : 2 * ms ^ 2 + -(3 * mx ^ 2) = a := by rw [had]; ring
    have hb' : a + (4 * mx ^ 2 - e ^ 2) = 2 * ms ^ 2 + mx ^ 2 - e ^ 2 := by rw [had]; ring
    unfold scalarXS
    rw [if_neg (not_lt.mpr he.le)]
    by_cases h : e = 2 * mx
    · rw [if_pos h, a1]
      unfold checkedDiv
      rw [if_neg (by simp [hmx.ne', ha.ne, hpi.ne', he0.ne'])]
      congr 1
      have hl : ell (4 * mx ^ 2 - e ^ 2) = -1 / a := if_pos (by rw [h]; ring)
      rw [hl]
      have hb2 : 2 * ms ^ 2 + mx ^ 2 - (2 * mx) ^ 2 = a := by rw [had]; ring
      unfold xsForm
      rw [← had, h, hb2]
      have hms2 : ms ^ 2 = (a + 3 * mx ^ 2) / 2 := by rw [had]; ring
      have hms4 : ms ^ 4 = ((a + 3 * mx ^ 2) / 2) ^ 2 := by rw [← hms2]; ring
      have hq : mx ^ 2 - (2 * mx) ^ 2 = -(3 * mx ^ 2) := by ring
      rw [hms2, hms4, hq]
      have := ha.ne
      field_simp
      ring
    · have hT : 4 * mx ^ 2 - e ^ 2 ≠ 0 := by
        intro h'
        have : (2 * mx - e) * (2 * mx + e) = 0 := by linarith
        rcases mul_eq_zero.mp this with h' | h'
        · exact h (by linarith)
        · linarith
      rw [if_neg h]
      simp only
      rw [a1, ← sub_eq_add_neg (4 * mx ^ 2) (e ^ 2)]
      rw [if_neg (by
        simp only [not_or]
        exact ⟨ha.ne, hbe.ne, hT, by simp [hpi.ne', he0.ne', hs.ne]⟩)]
      congr 1
      have hl : ell (4 * mx ^ 2 - e ^ 2)
          = Real.log |a / (2 * ms ^ 2 + mx ^ 2 - e ^ 2)| / (4 * mx ^ 2 - e ^ 2) := by
        rw [← hb']
        exact if_neg hT
      rw [hl]
      unfold xsForm
      rw [← had]
      congr 1
      congr 1
      have hd : 4 * (ms ^ 2 - 4 * mx ^ 2) ^ 2 * (mx ^ 2 - e ^ 2) ^ 2
            / (a * (2 * ms ^ 2 + mx ^ 2 - e ^ 2))
          = 4 * (-4 * mx ^ 2 + ms ^ 2) ^ 2 * (mx ^ 2 - e ^ 2) ^ 2 / (a * (4 * mx ^ 2 - e ^ 2))
            - 4 * (-4 * mx ^ 2 + ms ^ 2) ^ 2 * (mx ^ 2 - e ^ 2) ^ 2
              / ((2 * ms ^ 2 + mx ^ 2 - e ^ 2) * (4 * mx ^ 2 - e ^ 2)) := by
        rw [← hb'] at hbe ⊢
        have h1 := ha.ne
        have h2 := hbe.ne
        obtain ⟨T, hTd⟩ : ∃ T, T = 4 * mx ^ 2 - e ^ 2 := ⟨_, rfl⟩
        rw [← hTd] at hT h2 ⊢
        field_simp
        ring
      rw [hd]
      ring
  · have hcomp : ContinuousAt (fun e : ℝ => ell (4 * mx ^ 2 - e ^ 2)) (2 * mx) := by
      refine ContinuousAt.comp (g := ell) ?_ (by fun_prop)
      rw [show 4 * mx ^ 2 - (2 * mx) ^ 2 = 0 by ring]
      exact hell
    have hb : 2 * ms ^ 2 + mx ^ 2 - (2 * mx) ^ 2 ≠ 0 := by nlinarith
    have hs : mx ^ 2 - (2 * mx) ^ 2 ≠ 0 := by nlinarith
    unfold xsForm
    refine ContinuousAt.div ?_ (by fun_prop) (by
      rw [show mx ^ 2 - (2 * mx) ^ 2 = -(3 * mx ^ 2) by ring]
      simp [hpi.ne', hmx.ne'])
    refine ContinuousAt.mul (by fun_prop) (ContinuousAt.add (ContinuousAt.add (by fun_prop) ?_) ?_)
    · exact ContinuousAt.div (by fun_prop) (by fun_prop) (mul_ne_zero (had ▸ ha.ne) hb)
    · exact ContinuousAt.mul (by fun_prop) hcomp

/-- **C213** is false: a particle of 1 MeV and a mediator of 3 MeV at 4.5 MeV (the range of momentum
transfers contains the pole of the crossed channel). -/
theorem xs_negative : ∃ v, scalarXS 4.5 1 3 1 = some v ∧ v < 0 := by
  have hpi := Real.pi_pos
  unfold scalarXS
  rw [if_neg (by norm_num), if_neg (by norm_num)]
  simp only
  rw [if_neg (by
    simp only [not_or]
    refine ⟨by norm_num, by norm_num, by norm_num, ?_⟩
    have : (64 : ℝ) * Real.pi * 4.5 ^ 2 * (1 ^ 2 - 4.5 ^ 2) ^ 2 > 0 := by
      have : ((1 : ℝ) ^ 2 - 4.5 ^ 2) ^ 2 > 0 := by norm_num
      positivity
    exact this.ne')]
  refine ⟨_, rfl, div_neg_of_neg_of_pos ?_ (by
    have : ((1 : ℝ) ^ 2 - 4.5 ^ 2) ^ 2 > 0 := by norm_num
    positivity)⟩
  have hlog : (2 : ℝ) < Real.log |(2 * 3 ^ 2 + -(3 * 1 ^ 2)) / (2 * 3 ^ 2 + 1 ^ 2 - 4.5 ^ 2)| := by
    rw [show |((2 : ℝ) * 3 ^ 2 + -(3 * 1 ^ 2)) / (2 * 3 ^ 2 + 1 ^ 2 - 4.5 ^ 2)| = 12 by norm_num [abs_of_neg, abs_div],
      Real.lt_log_iff_exp_lt (by norm_num)]
    have h1 := Real.exp_one_lt_d9
    have h2 : Real.exp 2 = Real.exp 1 ^ 2 := by rw [← Real.exp_nat_mul]; norm_num
    rw [h2]
    nlinarith [Real.exp_pos 1]
  obtain ⟨l, hl⟩ : ∃ l, l = Real.log |((2 : ℝ) * 3 ^ 2 + -(3 * 1 ^ 2)) / (2 * 3 ^ 2 + 1 ^ 2 - 4.5 ^ 2)| := ⟨_, rfl⟩
  rw [← hl] at hlog ⊢
  norm_num
  linarith

/-- **C213**, the part that holds: zero below threshold, and not negative at `e = 2 mx`. -/
theorem xs_nonneg_partial (e mx ms g : ℝ) :
    (e < mx + ms → scalarXS e mx ms g = some 0) ∧
    (∀ v, scalarXS (2 * mx) mx ms g = some v → 0 ≤ v) := by
  refine ⟨fun h => if_pos h, fun v h => ?_⟩
  unfold scalarXS at h
  by_cases h1 : 2 * mx < mx + ms
  · rw [if_pos h1] at h
    injection h with h; exact h.le
  · rw [if_neg h1, if_pos rfl] at h
    unfold checkedDiv at h
    split_ifs at h with h2
    injection h with h
    rw [← h]
    have := Real.pi_pos
    have h4 : (0 : ℝ) ≤ mx ^ 4 := by positivity
    have h5 : (0 : ℝ) ≤ g ^ 4 := by positivity
    positivity

/-! ### Crossing and the range of momentum transfers -/

/-- Elastic cross section (specification) of a target of mass `m` whose spin-averaged squared
amplitude at momentum transfer `t` is `msq t`: the integral over the momentum transfers
`-λ/s ≤ t ≤ 0` that two-body kinematics allows, over `16 π λ`. -/
noncomputable def physicalElastic (m mx e : ℝ) (msq : ℝ → ℝ) : ℝ :=
  (∫ t in (-(Hazma.Kinematics.kallenLambda (e ^ 2) (mx ^ 2) (m ^ 2) / e ^ 2))..0, msq t)
    / (16 * Real.pi * Hazma.Kinematics.kallenLambda (e ^ 2) (mx ^ 2) (m ^ 2))

/-- Spin-averaged squared amplitude (specification) of annihilation into two pions, as a function of
the squared momentum of the mediator. -/
noncomputable def pionBar (k : ScalarModel.Consts) (m : ℝ) (s : ScalarModel.Base) (q2 : ℝ) : ℝ :=
  -(16 / 209952) * pionMsq k m s q2
    / (s.lam ^ 6 * k.vh ^ 4 * (9 * s.lam + 4 * s.gsGG * s.vs) ^ 2)

/-- **C214.** It is the amplitude in the annihilation cross section of charged pions. -/
theorem pionBar_annihilation (k : ScalarModel.Consts) (s : ScalarModel.Base) (e : ℝ)
    (hmx : 0 < s.mx) (hm : 2 * k.mpi ≤ e) (hx : 2 * s.mx < e) :
    scalarPiPi k s e = 1 / (16 * Real.pi * e ^ 2)
      * Real.sqrt ((e ^ 2 - 4 * k.mpi ^ 2) / (e ^ 2 - 4 * s.mx ^ 2)) * pionBar k k.mpi s (e ^ 2) := by
  have he : 0 < e := by linarith
  have hb : 0 < e ^ 2 - 4 * s.mx ^ 2 := by nlinarith
  unfold scalarPiPi scalarPi pionBar pionMsq
  rw [if_neg (by push Not; exact ⟨hm, hx.le⟩)]
  have hsq : Real.sqrt ((-4 * k.mpi ^ 2 + e ^ 2) * (-4 * s.mx ^ 2 + e ^ 2))
      = Real.sqrt ((e ^ 2 - 4 * k.mpi ^ 2) / (e ^ 2 - 4 * s.mx ^ 2)) * (e ^ 2 - 4 * s.mx ^ 2) := by
    rw [show (-4 * k.mpi ^ 2 + e ^ 2) * (-4 * s.mx ^ 2 + e ^ 2)
      = (e ^ 2 - 4 * k.mpi ^ 2) / (e ^ 2 - 4 * s.mx ^ 2) * (e ^ 2 - 4 * s.mx ^ 2) ^ 2 by
        field_simp; ring, Real.sqrt_mul' _ (sq_nonneg _), Real.sqrt_sq hb.le]
  rw [hsq]
  have hprop : propagator s.ms e s.width
      = (e ^ 2 - s.ms ^ 2) ^ 2 + s.ms ^ 2 * s.width ^ 2 := by unfold propagator; ring
  rw [hprop]
  unfold pionAmplitude
  generalize Real.sqrt ((e ^ 2 - 4 * k.mpi ^ 2) / (e ^ 2 - 4 * s.mx ^ 2)) = R
  simp only [div_eq_mul_inv, mul_inv]
  ring

/-- **C214**, the part that holds: for pions as heavy as the dark matter the kernels integrate over
the physical range; the result is half the crossed cross section (crossing gives the elastic average
`-2 pionBar`), for the neutral pion and for the sum of both charges. -/
theorem elastic_pion_partial (k : ScalarModel.Consts) (s : ScalarModel.Base) (e : ℝ) (hms : 0 < s.ms)
    (hw : 0 < s.width) (hmx : 0 < s.mx) (hlam : s.lam ≠ 0) (hvh : k.vh ≠ 0)
    (h9 : 9 * s.lam + 4 * s.gsGG * s.vs ≠ 0) (he : 2 * s.mx < e) :
    (k.mpi0 = s.mx → scalarXPi0 k s e
      = some (1 / 2 * physicalElastic k.mpi0 s.mx e fun t => -2 * pionBar k k.mpi0 s t)) ∧
    (k.mpi = s.mx → scalarXPi k s e
      = some (1 / 2 * (2 * physicalElastic k.mpi s.mx e fun t => -2 * pionBar k k.mpi s t))) := by
  have he0 : 0 < e := by linarith
  have hpi := Real.pi_pos
  have hT : 4 * s.mx ^ 2 - e ^ 2 ≠ 0 := by nlinarith
  have key : ∀ m, m = s.mx → physicalElastic m s.mx e (fun t => -2 * pionBar k m s t)
      = 2 * (mean (pionMsq k m s) (4 * s.mx ^ 2 - e ^ 2) / pionNorm k s e) := by
    intro m hm
    have hlam' : Hazma.Kinematics.kallenLambda (e ^ 2) (s.mx ^ 2) (m ^ 2)
        = e ^ 2 * (e ^ 2 - 4 * s.mx ^ 2) := by
      rw [hm]; unfold Hazma.Kinematics.kallenLambda; ring
    unfold physicalElastic mean
    rw [hlam', mul_div_cancel_left₀ _ (by positivity : e ^ 2 ≠ 0), neg_sub]
    have hint : ∫ t in (4 * s.mx ^ 2 - e ^ 2)..0, -2 * pionBar k m s t
        = -(32 / 209952 / (s.lam ^ 6 * k.vh ^ 4 * (9 * s.lam + 4 * s.gsGG * s.vs) ^ 2)
          * ∫ t in (0 : ℝ)..(4 * s.mx ^ 2 - e ^ 2), pionMsq k m s t) := by
      rw [intervalIntegral.integral_symm, ← intervalIntegral.integral_const_mul]
      congr 1
      refine intervalIntegral.integral_congr fun t _ => ?_
      unfold pionBar
      ring
    rw [hint]
    obtain ⟨I, hI⟩ : ∃ I, I = ∫ t in (0 : ℝ)..(4 * s.mx ^ 2 - e ^ 2), pionMsq k m s t := ⟨_, rfl⟩
    rw [← hI]
    unfold pionNorm
    obtain ⟨T, hTd⟩ : ∃ T, T = 4 * s.mx ^ 2 - e ^ 2 := ⟨_, rfl⟩
    rw [show e ^ 2 - 4 * s.mx ^ 2 = -T by rw [hTd]; ring, ← hTd]
    rw [← hTd] at hT
    field_simp
    ring
  have hmean := elastic_pion_mean k s e hms hw hmx hlam hvh h9 he0 he.ne'
  constructor
  · intro hm
    rw [key _ hm, hmean.1 (by linarith)]
    congr 1; ring
  · intro hm
    rw [key _ hm, hmean.2 (by linarith)]
    congr 1; ring

/-- **C214.** For any other mass of the target the range of momentum transfers is not the physical
one. -/
theorem range_physical_iff (m mx e : ℝ) (hm : 0 ≤ m) (hmx : 0 < mx) (he : mx + m < e) :
    -(Hazma.Kinematics.kallenLambda (e ^ 2) (mx ^ 2) (m ^ 2) / e ^ 2) = 4 * mx ^ 2 - e ^ 2 ↔ m = mx := by
  have he0 : 0 < e := by linarith
  have hs : m ^ 2 < e ^ 2 := by nlinarith
  unfold Hazma.Kinematics.kallenLambda
  constructor
  · intro h
    have h1 := congrArg (fun x => x * e ^ 2) h
    beta_reduce at h1
    rw [neg_mul, div_mul_cancel₀ _ (by positivity : e ^ 2 ≠ 0)] at h1
    have h2 : (mx ^ 2 - m ^ 2) * (2 * e ^ 2 + (mx ^ 2 - m ^ 2)) = 0 := by linarith
    rcases mul_eq_zero.mp h2 with h3 | h3
    · have : (mx - m) * (mx + m) = 0 := by linarith
      rcases mul_eq_zero.mp this with h4 | h4
      · linarith
      · linarith
    · nlinarith
  · intro h
    rw [h]
    field_simp
    ring

/-- **C214.** Hence photons at threshold: the kernel is positive at `e = mx`, where no energy is
left and the cross section of the crossed amplitude tends to zero. -/
theorem xg_threshold (k : ScalarModel.Consts) (s : ScalarModel.Base) (hms : 0 < s.ms)
    (hw : 0 < s.width) (hmx : 0 < s.mx) (hlam : s.lam ≠ 0) (hal : k.alpha ≠ 0) (hF : s.gsFF ≠ 0)
    (hg : s.gsxx ≠ 0) :
    (∃ v, scalarXG k s s.mx = some v ∧ 0 < v) ∧
    Tendsto (fun e => physicalElastic 0 s.mx e (crossed 0 1 s.mx s.ms s.width)) (𝓝[>] s.mx) (𝓝 0) := by
  have hpi := Real.pi_pos
  constructor
  · refine ⟨_, xg_eq_mean k s s.mx hms hw hmx hlam le_rfl (by linarith), mul_pos (by positivity) ?_⟩
    refine mean_crossed_pos hms hw ?_ hmx ?_ (Or.inr one_ne_zero)
    · have : 0 < s.mx ^ 2 := by positivity
      linarith
    · have : 0 < s.mx ^ 2 := by positivity
      linarith
  · have hlim : Tendsto (fun e : ℝ => -((e ^ 2 - s.mx ^ 2) ^ 2 / e ^ 2)) (𝓝[>] s.mx) (𝓝[≠] 0) := by
      refine tendsto_nhdsWithin_iff.mpr ⟨?_, ?_⟩
      · have hc : ContinuousAt (fun e : ℝ => -((e ^ 2 - s.mx ^ 2) ^ 2 / e ^ 2)) s.mx :=
          (ContinuousAt.div (by fun_prop) (by fun_prop) (by positivity)).neg
        have h := hc.tendsto
        simp only [sub_self, ne_eq, OfNat.ofNat_ne_zero, not_false_eq_true, zero_pow, zero_div,
          neg_zero] at h
        exact h.mono_left nhdsWithin_le_nhds
      · filter_upwards [self_mem_nhdsWithin] with e he
        have he' : s.mx < e := he
        have : 0 < e ^ 2 - s.mx ^ 2 := by nlinarith
        have h0 : 0 < e := hmx.trans he'
        have : 0 < (e ^ 2 - s.mx ^ 2) ^ 2 / e ^ 2 := by positivity
        intro h
        have h' : -((e ^ 2 - s.mx ^ 2) ^ 2 / e ^ 2) = 0 := h
        linarith
    have h1 := (mean_tendsto (crossed_continuous (β := 0) (c := 1) (mx := s.mx) hms hw)).comp hlim
    have h0 : crossed 0 1 s.mx s.ms s.width 0 = 0 := by unfold crossed; simp
    rw [h0] at h1
    have h2 : Tendsto (fun e : ℝ => 1 / (16 * Real.pi * e ^ 2)) (𝓝[>] s.mx)
        (𝓝 (1 / (16 * Real.pi * s.mx ^ 2))) := by
      have hc : ContinuousAt (fun e : ℝ => 1 / (16 * Real.pi * e ^ 2)) s.mx :=
        ContinuousAt.div (by fun_prop) (by fun_prop) (by positivity)
      exact hc.tendsto.mono_left nhdsWithin_le_nhds
    have h3 := h2.mul h1
    rw [mul_zero] at h3
    refine h3.congr' ?_
    filter_upwards [self_mem_nhdsWithin] with e he
    have he' : s.mx < e := he
    have h0 : 0 < e := hmx.trans he'
    have hl : Hazma.Kinematics.kallenLambda (e ^ 2) (s.mx ^ 2) (0 ^ 2) = (e ^ 2 - s.mx ^ 2) ^ 2 := by
      unfold Hazma.Kinematics.kallenLambda; ring
    have hp : e ^ 2 - s.mx ^ 2 ≠ 0 := by nlinarith
    show 1 / (16 * Real.pi * e ^ 2) * mean (crossed 0 1 s.mx s.ms s.width)
      (-((e ^ 2 - s.mx ^ 2) ^ 2 / e ^ 2)) = _
    unfold physicalElastic mean
    rw [hl, intervalIntegral.integral_symm]
    generalize (∫ t in (-((e ^ 2 - s.mx ^ 2) ^ 2 / e ^ 2))..0, crossed 0 1 s.mx s.ms s.width t) = I
    field_simp

/-! ### Concrete cases -/

/-- A model with all constants of order one. -/
noncomputable def toyBase : ScalarModel.Base where
  mx := 3
  ms := 2
  gsxx := 1
  gsff := 1
  gsGG := 1
  gsFF := 1
  lam := 10
  vs := 0
  width := 1

/-- Photons: continuous at 6, positive at 3. -/
example : ∃ v, scalarXG kernelConsts toyBase 3 = some v ∧ 0 < v :=
  (xg_threshold kernelConsts toyBase two_pos one_pos (by norm_num [toyBase]) (by norm_num [toyBase])
    (by norm_num [kernelConsts]) one_ne_zero one_ne_zero).1

/-- A mediator lighter than the dark matter. -/
example : ∃ f : ℝ → ℝ, (∀ᶠ e in 𝓝 ((2 : ℝ) * 3), scalarXS e 3 2 1 = some (f e)) ∧
    ContinuousAt f (2 * 3) := xs_continuous 3 2 1 two_pos (by norm_num)

/-- Muons on 300 MeV dark matter. -/
example : scalarXLChecked (2 * 300) 300 200 1 1 1 105.658 = none :=
  (xl_gap 300 200 1 1 1 105.658 (by norm_num) one_pos (by norm_num) (by norm_num) one_ne_zero
    one_ne_zero).1

end Hazma.Xs
