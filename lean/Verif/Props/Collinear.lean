import Verif.Props.Fsr
import Verif.Props.AltarelliParisi

/-! # C296: the Altarelli-Parisi spectra are the collinear limit of the exact ones

`dnde_photon_ap_fermion` and `dnde_photon_ap_scalar` (`altarelli_parisi.py:87-124`), once for each particle of the pair, against
the exact spectra of the scalar and vector mediator (`_scalar_mediator_fsr.py`, `_vector_mediator_fsr.py`) as the mass of the
radiating particles goes to zero. -/

namespace Hazma.Collinear

open Hazma.Fsr Hazma.AltarelliParisi Filter Topology
open Hazma.ScalarModel (Err)

/-- As the mass goes to zero the exact spectrum is evaluated without an exception, its ratio to the approximate one tends to
one, and its difference to the approximate one tends to `c`. -/
def Agrees (exact : ℝ → Except Err ℝ) (ap : ℝ → ℝ) (c : ℝ) : Prop :=
  ∃ f : ℝ → ℝ, (∀ᶠ m in 𝓝[>] 0, exact m = .ok (f m))
    ∧ Tendsto (fun m => f m / ap m) (𝓝[>] 0) (𝓝 1)
    ∧ Tendsto (fun m => f m - ap m) (𝓝[>] 0) (𝓝 c)

/-- The large logarithm. -/
noncomputable def big (x mu : ℝ) : ℝ := Real.log ((1 - x) / mu ^ 2)

/-- Phase-space factor. -/
noncomputable def root (mu : ℝ) : ℝ := Real.sqrt (1 - 4 * mu ^ 2)

variable {x : ℝ}

theorem sq_tendsto : Tendsto (fun mu : ℝ => mu ^ 2) (𝓝[>] 0) (𝓝 0) := by
  have : Tendsto (fun mu : ℝ => mu ^ 2) (𝓝 0) (𝓝 (0 ^ 2)) := (continuous_pow 2).tendsto 0
  rw [zero_pow (by norm_num)] at this
  exact this.mono_left nhdsWithin_le_nhds

theorem big_eq (hx : x < 1) {mu : ℝ} (hmu : 0 < mu) : big x mu = Real.log (1 - x) - 2 * Real.log mu := by
  unfold big
  rw [Real.log_div (by linarith) (by positivity), Real.log_pow]
  norm_num

theorem big_atTop (hx : x < 1) : Tendsto (big x) (𝓝[>] 0) atTop := by
  have h : Tendsto (fun mu => Real.log (1 - x) + -2 * Real.log mu) (𝓝[>] 0) atTop :=
    tendsto_atTop_add_const_left _ _ (Real.tendsto_log_nhdsGT_zero.const_mul_atBot_of_neg (by norm_num))
  refine h.congr' ?_
  filter_upwards [self_mem_nhdsWithin] with mu hmu
  rw [big_eq hx hmu]; ring

theorem sq_big (hx : x < 1) : Tendsto (fun mu => mu ^ 2 * big x mu) (𝓝[>] 0) (𝓝 0) := by
  have h1 : Tendsto (fun mu : ℝ => mu ^ 2 * Real.log (1 - x)) (𝓝[>] 0) (𝓝 0) := by
    simpa using sq_tendsto.mul_const (Real.log (1 - x))
  have h2 : Tendsto (fun mu : ℝ => Real.log mu * mu ^ 2) (𝓝[>] 0) (𝓝 0) := by
    have := tendsto_log_mul_rpow_nhdsGT_zero (r := 2) (by norm_num)
    refine this.congr fun mu => ?_
    norm_num
  have h := h1.sub (h2.const_mul 2)
  rw [mul_zero, sub_zero] at h
  refine h.congr' ?_
  filter_upwards [self_mem_nhdsWithin] with mu hmu
  rw [big_eq hx hmu]; ring

theorem root_tendsto : Tendsto root (𝓝[>] 0) (𝓝 1) := by
  have h : Tendsto root (𝓝 0) (𝓝 (root 0)) := by
    have : Continuous root := by unfold root; fun_prop
    exact this.tendsto 0
  have h0 : root 0 = 1 := by simp [root]
  rw [h0] at h
  exact h.mono_left nhdsWithin_le_nhds

theorem small_mu {c : ℝ} (hc : 0 < c) : ∀ᶠ mu : ℝ in 𝓝[>] 0, 4 * mu ^ 2 < c := by
  have h : Tendsto (fun mu : ℝ => 4 * mu ^ 2) (𝓝[>] 0) (𝓝 0) := by simpa using sq_tendsto.const_mul 4
  exact h.eventually (gt_mem_nhds hc)

theorem root_big (hx : x < 1) : Tendsto (fun mu => (1 - root mu) * big x mu) (𝓝[>] 0) (𝓝 0) := by
  have h1 : Tendsto (fun mu => 4 / (1 + root mu)) (𝓝[>] 0) (𝓝 (4 / (1 + 1))) :=
    tendsto_const_nhds.div (tendsto_const_nhds.add root_tendsto) (by norm_num)
  have h := h1.mul (sq_big hx)
  rw [mul_zero] at h
  refine h.congr' ?_
  filter_upwards [small_mu one_pos] with mu hmu
  have hr : root mu ^ 2 = 1 - 4 * mu ^ 2 := Real.sq_sqrt (by linarith)
  have hr0 : 0 ≤ root mu := Real.sqrt_nonneg _
  have h1 : 1 + root mu ≠ 0 := by linarith
  have : 4 / (1 + root mu) * mu ^ 2 = 1 - root mu := by
    rw [div_mul_eq_mul_div, div_eq_iff h1]
    linarith
  rw [← mul_assoc, this]

theorem vel_tendsto (hx : x < 1) : Tendsto (fun mu => vel mu x) (𝓝[>] 0) (𝓝 1) := by
  have hc : Continuous fun mu => vel mu x := by unfold vel; fun_prop
  have h := hc.tendsto 0
  have h0 : vel 0 x = 1 := by simp [vel]
  rw [h0] at h
  exact h.mono_left nhdsWithin_le_nhds

theorem lr_tendsto (hx : x < 1) : Tendsto (fun mu => lr (vel mu x) - big x mu) (𝓝[>] 0) (𝓝 0) := by
  have h1 : Tendsto (fun mu => 2 * Real.log ((1 + vel mu x) / 2)) (𝓝[>] 0) (𝓝 (2 * Real.log ((1 + 1) / 2))) :=
    (((tendsto_const_nhds.add (vel_tendsto hx)).div_const 2).log (by norm_num)).const_mul 2
  norm_num at h1
  refine h1.congr' ?_
  filter_upwards [self_mem_nhdsWithin, small_mu (show 0 < 1 - x by linarith)] with mu hmu hsm
  have hmu' : 0 < mu := hmu
  obtain ⟨h0, h1, h2, -⟩ := vel_facts hmu' (show x ≤ 1 - 4 * mu ^ 2 by linarith)
  generalize vel mu x = v at h0 h1 h2
  have hv : (1 + v) / (1 - v) = ((1 + v) / 2) ^ 2 * ((1 - x) / mu ^ 2) := by
    have : 1 - v ≠ 0 := by linarith
    have hm : mu ≠ 0 := hmu'.ne'
    field_simp
    have h4 : 4 * mu ^ 2 = (1 - v ^ 2) * (1 - x) := by nlinarith
    linear_combination h4
  unfold lr big
  rw [hv, Real.log_mul (by positivity) (div_ne_zero (by linarith) (by positivity)), Real.log_pow]
  push_cast
  ring

/-- All small quantities together. -/
theorem all_tendsto (hx : x < 1) :
    Tendsto (fun mu => (vel mu x, root mu, mu ^ 2, lr (vel mu x) - big x mu, mu ^ 2 * big x mu, (1 - root mu) * big x mu))
      (𝓝[>] 0) (𝓝 (1, 1, 0, 0, 0, 0)) :=
  (vel_tendsto hx).prodMk_nhds (root_tendsto.prodMk_nhds (sq_tendsto.prodMk_nhds ((lr_tendsto hx).prodMk_nhds
    ((sq_big hx).prodMk_nhds (root_big hx)))))

/-- A polynomial in them. -/
theorem poly_tendsto (hx : x < 1) (P : ℝ × ℝ × ℝ × ℝ × ℝ × ℝ → ℝ) (hP : Continuous P) :
    Tendsto (fun mu => P (vel mu x, root mu, mu ^ 2, lr (vel mu x) - big x mu, mu ^ 2 * big x mu,
      (1 - root mu) * big x mu)) (𝓝[>] 0) (𝓝 (P (1, 1, 0, 0, 0, 0))) :=
  (hP.tendsto _).comp (all_tendsto hx)

theorem numVF_tendsto (hx : x < 1) :
    Tendsto (fun mu => numVF mu x / (root mu * (1 + 2 * mu ^ 2)) - (1 + (1 - x) ^ 2) * (big x mu - 1)) (𝓝[>] 0) (𝓝 0) := by
  let P : ℝ × ℝ × ℝ × ℝ × ℝ × ℝ → ℝ := fun y => match y with
    | (v, w, u, g, l, r) => -(v * (2 - 2 * x + x ^ 2 - 4 * (-1 + x) * u)) + (2 + (-2 + x) * x - 4 * x * u - 8 * u ^ 2) * g
      + (-4 * x - 8 * u) * l + (1 + (1 - x) ^ 2) * (r - 2 * w * l) + (1 + (1 - x) ^ 2) * (w * (1 + 2 * u))
  have hP : Continuous P := by simp only [P]; fun_prop
  have hD : Tendsto (fun mu => root mu * (1 + 2 * mu ^ 2)) (𝓝[>] 0) (𝓝 1) := by
    have := root_tendsto.mul ((sq_tendsto.const_mul 2).const_add 1)
    simpa using this
  have h := (poly_tendsto hx P hP).div hD one_ne_zero
  have h0 : P (1, 1, 0, 0, 0, 0) / 1 = 0 := by simp only [P]; ring
  rw [h0] at h
  refine h.congr' ?_
  filter_upwards [hD.eventually_ne one_ne_zero] with mu hne
  simp only [Pi.div_apply, P, numVF]
  rw [eq_sub_iff_add_eq, div_add' _ _ _ hne, div_left_inj' hne]
  ring

theorem numSF_tendsto (hx : x < 1) :
    Tendsto (fun mu => numSF mu x / root mu ^ 3 - (1 + (1 - x) ^ 2) * (big x mu - 1)) (𝓝[>] 0) (𝓝 (x ^ 2)) := by
  let P : ℝ × ℝ × ℝ × ℝ × ℝ × ℝ → ℝ := fun y => match y with
    | (v, w, u, g, l, r) => -2 * (-1 + x) * (-1 + 4 * u) * v + ((x + 4 * u) ^ 2 - 2 * (-1 + x + 6 * u)) * g
      + (8 * x + 16 * u - 12) * l + (1 + (1 - x) ^ 2) * ((1 + w + w ^ 2) * r) + (1 + (1 - x) ^ 2) * w ^ 3
  have hP : Continuous P := by simp only [P]; fun_prop
  have hD : Tendsto (fun mu => root mu ^ 3) (𝓝[>] 0) (𝓝 1) := by
    have := root_tendsto.pow 3
    simpa using this
  have h := (poly_tendsto hx P hP).div hD one_ne_zero
  have h0 : P (1, 1, 0, 0, 0, 0) / 1 = x ^ 2 := by simp only [P]; ring
  rw [h0] at h
  refine h.congr' ?_
  filter_upwards [hD.eventually_ne one_ne_zero] with mu hne
  simp only [Pi.div_apply, P, numSF]
  rw [eq_sub_iff_add_eq, div_add' _ _ _ hne, div_left_inj' hne]
  ring

theorem numSP_tendsto (hx : x < 1) :
    Tendsto (fun mu => numSP mu x / root mu - (1 - x) * (big x mu - 1)) (𝓝[>] 0) (𝓝 0) := by
  let P : ℝ × ℝ × ℝ × ℝ × ℝ × ℝ → ℝ := fun y => match y with
    | (v, w, u, g, l, r) => (-1 + x) * v - (-1 + x + 2 * u) * g - 2 * l + (1 - x) * r + (1 - x) * w
  have hP : Continuous P := by simp only [P]; fun_prop
  have hD : Tendsto (fun mu => root mu) (𝓝[>] 0) (𝓝 1) := root_tendsto
  have h := (poly_tendsto hx P hP).div hD one_ne_zero
  have h0 : P (1, 1, 0, 0, 0, 0) / 1 = 0 := by simp only [P]; ring
  rw [h0] at h
  refine h.congr' ?_
  filter_upwards [hD.eventually_ne one_ne_zero] with mu hne
  simp only [Pi.div_apply, P, numSP]
  rw [eq_sub_iff_add_eq, div_add' _ _ _ hne, div_left_inj' hne]
  ring

theorem numVP_tendsto (hx : x < 1) :
    Tendsto (fun mu => numVP mu x / root mu ^ 3 - (1 - x) * (big x mu - 1)) (𝓝[>] 0) (𝓝 (x ^ 2)) := by
  let P : ℝ × ℝ × ℝ × ℝ × ℝ × ℝ → ℝ := fun y => match y with
    | (v, w, u, g, l, r) => v * (-1 + x + x ^ 2 - 4 * (-1 + x) * u) + (-1 + x + 2 * u) * (-1 + 4 * u) * g
      + (4 * x - 6 + 8 * u) * l + (1 - x) * ((1 + w + w ^ 2) * r) + (1 - x) * w ^ 3
  have hP : Continuous P := by simp only [P]; fun_prop
  have hD : Tendsto (fun mu => root mu ^ 3) (𝓝[>] 0) (𝓝 1) := by
    have := root_tendsto.pow 3
    simpa using this
  have h := (poly_tendsto hx P hP).div hD one_ne_zero
  have h0 : P (1, 1, 0, 0, 0, 0) / 1 = x ^ 2 := by simp only [P]; ring
  rw [h0] at h
  refine h.congr' ?_
  filter_upwards [hD.eventually_ne one_ne_zero] with mu hne
  simp only [Pi.div_apply, P, numVP]
  rw [eq_sub_iff_add_eq, div_add' _ _ _ hne, div_left_inj' hne]
  ring

/-! ## The spectra -/

variable {alpha mx e Q : ℝ}

theorem scale_tendsto (hQ : 0 < Q) : Tendsto (fun m : ℝ => m / Q) (𝓝[>] 0) (𝓝[>] 0) := by
  refine tendsto_nhdsWithin_iff.mpr ⟨?_, ?_⟩
  · have : Tendsto (fun m : ℝ => m / Q) (𝓝 0) (𝓝 (0 / Q)) := (continuous_id.div_const Q).tendsto 0
    rw [zero_div] at this
    exact this.mono_left nhdsWithin_le_nhds
  · filter_upwards [self_mem_nhdsWithin] with m hm
    exact div_pos hm hQ

theorem range_eventually (hQ : 0 < Q) (he2 : 2 * e < Q) : ∀ᶠ m : ℝ in 𝓝[>] 0, 2 * Q * e < Q ^ 2 - 4 * m ^ 2 := by
  filter_upwards [small_mu (show 0 < Q ^ 2 - 2 * Q * e by nlinarith)] with m hm
  linarith

theorem ap_eventually (split : ℝ → ℝ) (hQ : 0 < Q) (he : 0 < e) (he2 : 2 * e < Q) :
    ∀ᶠ m in 𝓝[>] 0, 2 * dndePhotonFsr alpha e (Q ^ 2) m split 1
      = 2 * alpha / (Real.pi * Q) * split (2 * e / Q) * (big (2 * e / Q) (m / Q) - 1) := by
  have hx : 2 * e / Q < 1 := by rw [div_lt_one hQ]; exact he2
  filter_upwards [((big_atTop hx).comp (scale_tendsto hQ)).eventually_ge_atTop 1, self_mem_nhdsWithin] with m h1 hm
  have hm' : 0 < m := hm
  have hb : (Q ^ 2 - 2 * e * Q) / m ^ 2 = (1 - 2 * e / Q) / (m / Q) ^ 2 := by field_simp
  rw [ap_formula alpha e Q m 1 split hQ hm' he2, hb]
  simp only [Function.comp_apply] at h1
  unfold big at h1 ⊢
  rw [max_eq_left (by linarith)]
  ring

/-- From the numerators to the spectra. -/
theorem agrees_of (exact : ℝ → Except Err ℝ) (split : ℝ → ℝ) (C c B : ℝ) (F : ℝ → ℝ) (hQ : 0 < Q) (he : 0 < e)
    (he2 : 2 * e < Q) (hC : 0 < C) (hB : 0 < B)
    (hcB : 2 * alpha / (Real.pi * Q) * split (2 * e / Q) = C * B)
    (hex : ∀ᶠ m in 𝓝[>] 0, exact m = .ok (C * F (m / Q)))
    (hF : Tendsto (fun mu => F mu - B * (big (2 * e / Q) mu - 1)) (𝓝[>] 0) (𝓝 c)) :
    Agrees exact (fun m => 2 * dndePhotonFsr alpha e (Q ^ 2) m split 1) (C * c) := by
  have hx : 2 * e / Q < 1 := by rw [div_lt_one hQ]; exact he2
  have hap := ap_eventually (alpha := alpha) split hQ he he2
  have hdiff : Tendsto (fun m => C * F (m / Q) - 2 * dndePhotonFsr alpha e (Q ^ 2) m split 1) (𝓝[>] 0) (𝓝 (C * c)) := by
    refine ((hF.comp (scale_tendsto hQ)).const_mul C).congr' ?_
    filter_upwards [hap] with m hm
    rw [hm, hcB]
    simp only [Function.comp_apply]
    ring
  have hbig : Tendsto (fun m => 2 * dndePhotonFsr alpha e (Q ^ 2) m split 1) (𝓝[>] 0) atTop := by
    have h1 : Tendsto (fun m => C * B * (big (2 * e / Q) (m / Q) - 1)) (𝓝[>] 0) atTop :=
      (tendsto_atTop_add_const_right _ (-1) ((big_atTop hx).comp (scale_tendsto hQ))).const_mul_atTop (mul_pos hC hB)
    refine h1.congr' ?_
    filter_upwards [hap] with m hm
    rw [hm, hcB]
  refine ⟨fun m => C * F (m / Q), hex, ?_, hdiff⟩
  have h := (hdiff.div_atTop hbig).const_add 1
  rw [add_zero] at h
  refine h.congr' ?_
  filter_upwards [hbig.eventually_gt_atTop 0] with m hm
  rw [eq_div_iff hm.ne', add_mul, one_mul, div_mul_cancel₀ _ hm.ne']
  ring

/-- **C296.** For a vector mediator decaying to fermions and a scalar mediator decaying to charged pions, the exact radiation
spectrum and the Altarelli-Parisi spectrum of the pair become equal as the mass of the radiating particles goes to zero; for a
scalar mediator decaying to fermions and a vector mediator decaying to charged pions their ratio tends to one, and what is
left of the difference is `2 α x / (π Q)` and `4 α x / (π Q)`. -/
theorem collinear (ha : 0 < alpha) (hQ : 0 < Q) (he : 0 < e) (he2 : 2 * e < Q) (hmx : 2 * mx < Q) :
    Agrees (fun m => Fsr.vectorFF alpha mx e Q m) (fun m => 2 * apFermion alpha e (Q ^ 2) m 1) 0
    ∧ Agrees (fun m => Fsr.scalarPiPi alpha m mx e Q) (fun m => 2 * apScalar alpha e (Q ^ 2) m 1) 0
    ∧ Agrees (fun m => Fsr.scalarFF alpha mx e Q m) (fun m => 2 * apFermion alpha e (Q ^ 2) m 1)
        (2 * alpha * (2 * e / Q) / (Real.pi * Q))
    ∧ Agrees (fun m => Fsr.vectorPiPi alpha m mx e Q) (fun m => 2 * apScalar alpha e (Q ^ 2) m 1)
        (4 * alpha * (2 * e / Q) / (Real.pi * Q)) := by
  have hx : 2 * e / Q < 1 := by rw [div_lt_one hQ]; exact he2
  obtain ⟨x, hxd⟩ : ∃ x, x = 2 * e / Q := ⟨_, rfl⟩
  have hx0 : 0 < x := by rw [hxd]; positivity
  have hx1 : x < 1 := hxd ▸ hx
  have hpi := Real.pi_pos
  have hr := range_eventually hQ he2
  have hrpow : ∀ m : ℝ, 2 * Q * e < Q ^ 2 - 4 * m ^ 2 → (1 - 4 * (m / Q) ^ 2) ^ (3 / 2 : ℝ) = root (m / Q) ^ 3 := by
    intro m h
    have h1 : 0 ≤ 1 - 4 * (m / Q) ^ 2 := by
      rw [show 1 - 4 * (m / Q) ^ 2 = (Q ^ 2 - 4 * m ^ 2) / Q ^ 2 by field_simp]
      exact div_nonneg (by nlinarith) (by positivity)
    unfold root
    generalize 1 - 4 * (m / Q) ^ 2 = y at h1
    rw [Real.sqrt_eq_rpow, ← Real.rpow_natCast, ← Real.rpow_mul h1]
    norm_num
  refine ⟨?_, ?_, ?_, ?_⟩
  · have := agrees_of (alpha := alpha) (e := e) (fun m => Fsr.vectorFF alpha mx e Q m) fermionSplitting (2 * alpha / (Real.pi * Q * x)) 0
      (1 + (1 - x) ^ 2) (fun mu => numVF mu x / (root mu * (1 + 2 * mu ^ 2))) hQ he he2 (by positivity) (by positivity)
      (by unfold fermionSplitting; rw [← hxd]; field_simp) ?_ (by rw [← hxd]; exact numVF_tendsto hx1)
    · rw [mul_zero] at this; exact this
    · filter_upwards [hr, self_mem_nhdsWithin] with m h hm
      rw [vectorFF_val ha hQ hm he h.le hmx, ← hxd]
      unfold root
      congr 1
      rw [div_mul_div_comm]
      congr 1
      ring
  · have := agrees_of (alpha := alpha) (e := e) (fun m => Fsr.scalarPiPi alpha m mx e Q) scalarSplitting (4 * alpha / (Real.pi * Q * x)) 0
      (1 - x) (fun mu => numSP mu x / root mu) hQ he he2 (by positivity) (by linarith)
      (by unfold scalarSplitting; rw [← hxd]; field_simp; ring) ?_ (by rw [← hxd]; exact numSP_tendsto hx1)
    · rw [mul_zero] at this; exact this
    · filter_upwards [hr, self_mem_nhdsWithin] with m h hm
      rw [scalarPiPi_val ha hQ hm he h.le hmx.le, ← hxd]
      unfold root
      congr 1
      rw [div_mul_div_comm]
  · have := agrees_of (alpha := alpha) (e := e) (fun m => Fsr.scalarFF alpha mx e Q m) fermionSplitting (2 * alpha / (Real.pi * Q * x)) (x ^ 2)
      (1 + (1 - x) ^ 2) (fun mu => numSF mu x / root mu ^ 3) hQ he he2 (by positivity) (by positivity)
      (by unfold fermionSplitting; rw [← hxd]; field_simp) ?_ (by rw [← hxd]; exact numSF_tendsto hx1)
    · rw [← hxd, show 2 * alpha * x / (Real.pi * Q) = 2 * alpha / (Real.pi * Q * x) * x ^ 2 by field_simp]; exact this
    · filter_upwards [hr, self_mem_nhdsWithin] with m h hm
      rw [scalarFF_val ha hQ hm he h hmx, ← hxd, hrpow m h]
      congr 1
      rw [div_mul_div_comm]
  · have := agrees_of (alpha := alpha) (e := e) (fun m => Fsr.vectorPiPi alpha m mx e Q) scalarSplitting (4 * alpha / (Real.pi * Q * x)) (x ^ 2)
      (1 - x) (fun mu => numVP mu x / root mu ^ 3) hQ he he2 (by positivity) (by linarith)
      (by unfold scalarSplitting; rw [← hxd]; field_simp; ring) ?_ (by rw [← hxd]; exact numVP_tendsto hx1)
    · rw [← hxd, show 4 * alpha * x / (Real.pi * Q) = 4 * alpha / (Real.pi * Q * x) * x ^ 2 by field_simp]; exact this
    · filter_upwards [hr, self_mem_nhdsWithin] with m h hm
      rw [vectorPiPi_val ha hQ hm he h.le hmx.le, ← hxd, hrpow m h]
      congr 1
      rw [div_mul_div_comm]

/-- The limit is unique, so a spectrum with another charge or splitting function does not agree: the scalar splitting function
in place of the fermion's is refuted. -/
theorem not_scalar_splitting (ha : 0 < alpha) (hQ : 0 < Q) (he : 0 < e) (he2 : 2 * e < Q) (hmx : 2 * mx < Q) (c : ℝ) :
    ¬ Agrees (fun m => Fsr.vectorFF alpha mx e Q m) (fun m => 2 * apScalar alpha e (Q ^ 2) m 1) c := by
  rintro ⟨f, hf, hr, -⟩
  obtain ⟨g, hg, hr', -⟩ := (collinear ha hQ he he2 hmx).1
  have hx : 2 * e / Q < 1 := by rw [div_lt_one hQ]; exact he2
  have hx0 : 0 < 2 * e / Q := by positivity
  have hpi := Real.pi_pos
  have hlim : Tendsto (fun m => 2 * apScalar alpha e (Q ^ 2) m 1 / (2 * apFermion alpha e (Q ^ 2) m 1)) (𝓝[>] 0) (𝓝 1) := by
    have := hr'.div hr one_ne_zero
    rw [div_one] at this
    refine this.congr' ?_
    filter_upwards [hf, hg, hr.eventually_ne one_ne_zero] with m h1 h2 h3
    have hfg : f m = g m := by
      rw [h1] at h2
      exact Except.ok.inj h2
    simp only [Pi.div_apply]
    rw [hfg] at h3 ⊢
    have hg0 : g m ≠ 0 := fun h => h3 (by rw [h, zero_div])
    rw [div_div_div_eq, mul_comm (2 * apFermion alpha e (Q ^ 2) m 1), mul_div_mul_left _ _ hg0]
  have hconst : Tendsto (fun m => 2 * apScalar alpha e (Q ^ 2) m 1 / (2 * apFermion alpha e (Q ^ 2) m 1)) (𝓝[>] 0)
      (𝓝 (scalarSplitting (2 * e / Q) / fermionSplitting (2 * e / Q))) := by
    refine tendsto_const_nhds.congr' ?_
    filter_upwards [ap_eventually (alpha := alpha) scalarSplitting hQ he he2, ap_eventually (alpha := alpha) fermionSplitting hQ he he2,
      ((big_atTop hx).comp (scale_tendsto hQ)).eventually_gt_atTop 1] with m h1 h2 h3
    unfold apScalar apFermion
    rw [h1, h2]
    simp only [Function.comp_apply] at h3
    have hb : big (2 * e / Q) (m / Q) - 1 ≠ 0 := by linarith
    rw [mul_div_mul_right _ _ hb, mul_div_mul_left _ _ (by positivity)]
  have := tendsto_nhds_unique hlim hconst
  unfold scalarSplitting fermionSplitting at this
  generalize 2 * e / Q = x at this hx hx0
  rw [div_div_div_cancel_right₀ hx0.ne', eq_div_iff (by positivity)] at this
  nlinarith

example : Agrees (fun m => Fsr.vectorFF (1 / 137) 100 50 300 m) (fun m => 2 * apFermion (1 / 137) 50 (300 ^ 2) m 1) 0 :=
  (collinear (by norm_num) (by norm_num) (by norm_num) (by norm_num) (by norm_num)).1

end Hazma.Collinear
