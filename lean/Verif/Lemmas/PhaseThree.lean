import Verif.Lemmas.RamboDraw
import Mathlib.Analysis.InnerProductSpace.Projection.Reflection
import Mathlib.Tactic

/-! # Phase space of two and three particles in terms of energies -/

namespace Hazma.RamboMeasure

open MeasureTheory Set
open scoped ENNReal

/-- Spherical coordinates about the direction of a vector. -/
theorem axis_lintegral (k0 : V) {F : ℝ → ℝ → ℝ≥0∞} (hF : Measurable (Function.uncurry F)) :
    ∫⁻ k : V, F ‖k‖ (inner ℝ k0 k)
      = ENNReal.ofReal (2 * Real.pi) * ∫⁻ e in Ioi (0 : ℝ), ∫⁻ c in Ioo (-1 : ℝ) 1, ENNReal.ofReal (e ^ 2) * F e (‖k0‖ * e * c) := by
  have hpi := Real.pi_pos
  have hn : ‖vec 0 0 ‖k0‖‖ = ‖k0‖ := by
    rw [vec_norm]; simp
  obtain ⟨R, hR⟩ : ∃ R : V ≃ₗᵢ[ℝ] V, R (vec 0 0 ‖k0‖) = k0 :=
    ⟨Submodule.reflection (Submodule.span ℝ {vec 0 0 ‖k0‖ - k0})ᗮ, Submodule.reflection_sub hn⟩
  have hG : Measurable fun k : V => F ‖k‖ (inner ℝ k0 k) := by
    have : Measurable fun k : V => (‖k‖, inner ℝ k0 k) := by fun_prop
    exact hF.comp this
  have hG2 : Measurable fun k : V => F ‖k‖ (inner ℝ (vec 0 0 ‖k0‖) k) := by
    have : Measurable fun k : V => (‖k‖, inner ℝ (vec 0 0 ‖k0‖) k) := by fun_prop
    exact hF.comp this
  rw [← R.measurePreserving.lintegral_comp hG]
  have h1 : ∀ k : V, F ‖R k‖ (inner ℝ k0 (R k)) = F ‖k‖ (inner ℝ (vec 0 0 ‖k0‖) k) := by
    intro k
    rw [R.norm_map]
    congr 1
    conv_lhs => rw [← hR]
    exact R.inner_map_map _ _
  simp only [h1]
  rw [spherical hG2]
  have h2 : ∀ φ : ℝ, (∫⁻ e in Ioi (0 : ℝ), ∫⁻ c in Ioo (-1 : ℝ) 1,
      ENNReal.ofReal (e ^ 2) * F ‖sph e c φ‖ (inner ℝ (vec 0 0 ‖k0‖) (sph e c φ)))
      = ∫⁻ e in Ioi (0 : ℝ), ∫⁻ c in Ioo (-1 : ℝ) 1, ENNReal.ofReal (e ^ 2) * F e (‖k0‖ * e * c) := by
    intro φ
    refine setLIntegral_congr_fun measurableSet_Ioi fun e he => ?_
    refine setLIntegral_congr_fun measurableSet_Ioo fun c hc => ?_
    rw [sph_norm φ (le_of_lt he) ⟨hc.1.le, hc.2.le⟩]
    congr 2
    unfold sph vec
    rw [PiLp.inner_apply, Fin.sum_univ_three]
    simp
    ring
  simp only [h2]
  rw [lintegral_const, Measure.restrict_apply_univ, Real.volume_Ioo, mul_comm]
  congr 2
  ring

theorem norm_lintegral {G : ℝ → ℝ≥0∞} (hG : Measurable G) :
    ∫⁻ k : V, G ‖k‖ = ENNReal.ofReal (4 * Real.pi) * ∫⁻ e in Ioi (0 : ℝ), ENNReal.ofReal (e ^ 2) * G e := by
  have hpi := Real.pi_pos
  have h := axis_lintegral 0 (F := fun r _ => G r) (hG.comp measurable_fst)
  rw [h]
  have h2 : ∀ e : ℝ, (∫⁻ _ in Ioo (-1 : ℝ) 1, ENNReal.ofReal (e ^ 2) * G e) = ENNReal.ofReal 2 * (ENNReal.ofReal (e ^ 2) * G e) := by
    intro e
    rw [lintegral_const, Measure.restrict_apply_univ, Real.volume_Ioo, mul_comm]
    norm_num
  simp only [h2]
  rw [lintegral_const_mul' _ _ ENNReal.ofReal_ne_top, ← mul_assoc, ← ENNReal.ofReal_mul (by positivity)]
  congr 2
  ring

/-- Two vectors, as far as their lengths and the length of their sum are concerned. -/
theorem pair_lintegral {F : ℝ → ℝ → ℝ → ℝ≥0∞} (hF : Measurable fun x : ℝ × ℝ × ℝ => F x.1 x.2.1 x.2.2) :
    ∫⁻ k : Fin 2 → V, F ‖k 0‖ ‖k 1‖ ‖k 0 + k 1‖
      = ENNReal.ofReal (8 * Real.pi ^ 2) * ∫⁻ p in Ioi (0 : ℝ), ∫⁻ q in Ioi (0 : ℝ), ∫⁻ c in Ioo (-1 : ℝ) 1,
          ENNReal.ofReal (p ^ 2) * (ENNReal.ofReal (q ^ 2) * F p q (Real.sqrt (p ^ 2 + q ^ 2 + 2 * (p * q * c)))) := by
  have hpi := Real.pi_pos
  have hm : Measurable fun k : Fin 2 → V => F ‖k 0‖ ‖k 1‖ ‖k 0 + k 1‖ := by
    have : Measurable fun k : Fin 2 → V => (‖k 0‖, ‖k 1‖, ‖k 0 + k 1‖) := by fun_prop
    exact hF.comp this
  rw [← (volume_preserving_finTwoArrow V).symm.lintegral_comp hm, Measure.volume_eq_prod]
  have hm2 : Measurable fun x : V × V => F ‖x.1‖ ‖x.2‖ ‖x.1 + x.2‖ := by
    have : Measurable fun x : V × V => (‖x.1‖, ‖x.2‖, ‖x.1 + x.2‖) := by fun_prop
    exact hF.comp this
  have hshape : ∀ x : V × V, F ‖(MeasurableEquiv.finTwoArrow (α := V)).symm x 0‖ ‖(MeasurableEquiv.finTwoArrow (α := V)).symm x 1‖
      ‖(MeasurableEquiv.finTwoArrow (α := V)).symm x 0 + (MeasurableEquiv.finTwoArrow (α := V)).symm x 1‖ = F ‖x.1‖ ‖x.2‖ ‖x.1 + x.2‖ := fun x => rfl
  simp only [hshape]
  rw [lintegral_prod _ hm2.aemeasurable]
  have hnorm : ∀ k0 k : V, ‖k0 + k‖ = Real.sqrt (‖k0‖ ^ 2 + ‖k‖ ^ 2 + 2 * inner ℝ k0 k) := by
    intro k0 k
    rw [← Real.sqrt_sq (norm_nonneg (k0 + k)), norm_add_sq_real]
    congr 1
    ring
  have hin : ∀ k0 : V, ∫⁻ k : V, F ‖k0‖ ‖k‖ ‖k0 + k‖ = ENNReal.ofReal (2 * Real.pi) * ∫⁻ q in Ioi (0 : ℝ), ∫⁻ c in Ioo (-1 : ℝ) 1,
      ENNReal.ofReal (q ^ 2) * F ‖k0‖ q (Real.sqrt (‖k0‖ ^ 2 + q ^ 2 + 2 * (‖k0‖ * q * c))) := by
    intro k0
    have hF2 : Measurable (Function.uncurry fun r i : ℝ => F ‖k0‖ r (Real.sqrt (‖k0‖ ^ 2 + r ^ 2 + 2 * i))) := by
      have : Measurable fun x : ℝ × ℝ => ((‖k0‖, x.1, Real.sqrt (‖k0‖ ^ 2 + x.1 ^ 2 + 2 * x.2)) : ℝ × ℝ × ℝ) := by fun_prop
      exact hF.comp this
    have := axis_lintegral k0 hF2
    rw [← this]
    refine lintegral_congr fun k => ?_
    rw [hnorm]
  simp only [hin]
  have hG : Measurable fun p : ℝ => ∫⁻ q in Ioi (0 : ℝ), ∫⁻ c in Ioo (-1 : ℝ) 1,
      ENNReal.ofReal (q ^ 2) * F p q (Real.sqrt (p ^ 2 + q ^ 2 + 2 * (p * q * c))) := by
    refine Measurable.lintegral_prod_right' (f := fun x : ℝ × ℝ => ∫⁻ c in Ioo (-1 : ℝ) 1,
      ENNReal.ofReal (x.2 ^ 2) * F x.1 x.2 (Real.sqrt (x.1 ^ 2 + x.2 ^ 2 + 2 * (x.1 * x.2 * c)))) ?_
    refine Measurable.lintegral_prod_right' (f := fun x : (ℝ × ℝ) × ℝ =>
      ENNReal.ofReal (x.1.2 ^ 2) * F x.1.1 x.1.2 (Real.sqrt (x.1.1 ^ 2 + x.1.2 ^ 2 + 2 * (x.1.1 * x.1.2 * x.2)))) ?_
    have : Measurable fun x : (ℝ × ℝ) × ℝ => ((x.1.1, x.1.2, Real.sqrt (x.1.1 ^ 2 + x.1.2 ^ 2 + 2 * (x.1.1 * x.1.2 * x.2))) : ℝ × ℝ × ℝ) := by
      fun_prop
    exact Measurable.mul (by fun_prop) (hF.comp this)
  rw [lintegral_const_mul' _ _ ENNReal.ofReal_ne_top, norm_lintegral hG, ← mul_assoc, ← ENNReal.ofReal_mul (by positivity)]
  congr 1
  · congr 1
    ring
  · refine lintegral_congr fun p => ?_
    rw [← lintegral_const_mul' _ _ ENNReal.ofReal_ne_top]
    refine lintegral_congr fun q => ?_
    rw [← lintegral_const_mul' _ _ ENNReal.ofReal_ne_top]

/-- Energy of momentum `p`. -/
noncomputable def enr (m p : ℝ) : ℝ := Real.sqrt (p ^ 2 + m ^ 2)

/-- From momentum to energy. -/
theorem enr_lintegral (F : ℝ → ℝ≥0∞) {m : ℝ} (hm : 0 ≤ m) :
    ∫⁻ p in Ioi (0 : ℝ), ENNReal.ofReal (p / enr m p) * F (enr m p) = ∫⁻ E in Ici m, F E := by
  have himg : enr m '' Ioi 0 = Ioi m := by
    ext E
    simp only [mem_image, mem_Ioi, enr]
    constructor
    · rintro ⟨p, hp, rfl⟩
      exact Real.lt_sqrt_of_sq_lt (by nlinarith)
    · intro hE
      refine ⟨Real.sqrt (E ^ 2 - m ^ 2), Real.sqrt_pos.mpr (by nlinarith), ?_⟩
      rw [Real.sq_sqrt (by nlinarith), sub_add_cancel, Real.sqrt_sq (by linarith)]
  have hd : ∀ p ∈ Ioi (0 : ℝ), HasDerivWithinAt (enr m) (p / enr m p) (Ioi 0) p := by
    intro p hp
    have hp0 : 0 < p := hp
    have h := ((hasDerivAt_pow 2 p).add_const (m ^ 2)).sqrt (by positivity)
    refine HasDerivAt.hasDerivWithinAt ?_
    refine h.congr_deriv ?_
    unfold enr
    norm_num
    rw [mul_div_mul_left _ _ (by norm_num)]
  have hinj : InjOn (enr m) (Ioi 0) := by
    intro x hx y hy h
    have hx' : 0 < x := hx
    have hy' : 0 < y := hy
    have h1 : x ^ 2 + m ^ 2 = y ^ 2 + m ^ 2 := by
      have := congrArg (· ^ 2) h
      simp only [enr] at this
      rwa [Real.sq_sqrt (by positivity), Real.sq_sqrt (by positivity)] at this
    nlinarith
  rw [← restrict_Ioi_eq_restrict_Ici, ← himg,
    lintegral_image_eq_lintegral_abs_deriv_mul measurableSet_Ioi hd hinj]
  refine setLIntegral_congr_fun measurableSet_Ioi (fun p hp => ?_)
  have : 0 < p := hp
  rw [abs_of_pos (div_pos this (show 0 < enr m p from Real.sqrt_pos.mpr (by positivity)))]

/-- From the angle between two momenta to the energy of the third particle. -/
theorem angle_energy_lintegral (H : ℝ → ℝ≥0∞) {m p q : ℝ} (hp : 0 < p) (hq : 0 < q) :
    ∫⁻ c in Ioo (-1 : ℝ) 1, ENNReal.ofReal (p * q / enr m (Real.sqrt (p ^ 2 + q ^ 2 + 2 * (p * q * c))))
        * H (enr m (Real.sqrt (p ^ 2 + q ^ 2 + 2 * (p * q * c))))
      = ∫⁻ E in Icc (Real.sqrt ((p - q) ^ 2 + m ^ 2)) (Real.sqrt ((p + q) ^ 2 + m ^ 2)), H E := by
  have hpq := mul_pos hp hq
  have hw : ∀ c ∈ Ioo (-1 : ℝ) 1, 0 < p ^ 2 + q ^ 2 + 2 * (p * q * c) := by
    intro c hc
    have h1 : 0 < p * q * (c + 1) := mul_pos hpq (by linarith [hc.1])
    nlinarith [sq_nonneg (p - q)]
  have hE : ∀ c ∈ Ioo (-1 : ℝ) 1, enr m (Real.sqrt (p ^ 2 + q ^ 2 + 2 * (p * q * c))) = Real.sqrt (p ^ 2 + q ^ 2 + 2 * (p * q * c) + m ^ 2) := by
    intro c hc
    unfold enr
    rw [Real.sq_sqrt (hw c hc).le]
  have himg : (fun c => Real.sqrt (p ^ 2 + q ^ 2 + 2 * (p * q * c) + m ^ 2)) '' Ioo (-1 : ℝ) 1
      = Ioo (Real.sqrt ((p - q) ^ 2 + m ^ 2)) (Real.sqrt ((p + q) ^ 2 + m ^ 2)) := by
    ext E
    simp only [mem_image, mem_Ioo]
    constructor
    · rintro ⟨c, ⟨hc1, hc2⟩, rfl⟩
      have h1 : 0 < p * q * (c + 1) := mul_pos hpq (by linarith)
      have h2 : 0 < p * q * (1 - c) := mul_pos hpq (by linarith)
      exact ⟨Real.sqrt_lt_sqrt (by positivity) (by nlinarith), Real.sqrt_lt_sqrt (by nlinarith [hw c ⟨hc1, hc2⟩, sq_nonneg m]) (by nlinarith)⟩
    · rintro ⟨h1, h2⟩
      have hE0 : 0 ≤ E := (Real.sqrt_nonneg _).trans h1.le
      have h1' : (p - q) ^ 2 + m ^ 2 < E ^ 2 := (Real.sqrt_lt' (lt_of_le_of_lt (Real.sqrt_nonneg _) h1)).mp h1
      have h2' : E ^ 2 < (p + q) ^ 2 + m ^ 2 := (Real.lt_sqrt hE0).mp h2
      refine ⟨(E ^ 2 - m ^ 2 - p ^ 2 - q ^ 2) / (2 * (p * q)), ⟨?_, ?_⟩, ?_⟩
      · rw [lt_div_iff₀ (by positivity)]; nlinarith
      · rw [div_lt_iff₀ (by positivity)]; nlinarith
      · rw [show p ^ 2 + q ^ 2 + 2 * (p * q * ((E ^ 2 - m ^ 2 - p ^ 2 - q ^ 2) / (2 * (p * q)))) + m ^ 2 = E ^ 2 by field_simp; ring,
          Real.sqrt_sq hE0]
  have hd : ∀ c ∈ Ioo (-1 : ℝ) 1, HasDerivWithinAt (fun c => Real.sqrt (p ^ 2 + q ^ 2 + 2 * (p * q * c) + m ^ 2))
      (p * q / Real.sqrt (p ^ 2 + q ^ 2 + 2 * (p * q * c) + m ^ 2)) (Ioo (-1) 1) c := by
    intro c hc
    have h0 : HasDerivAt (fun c => p ^ 2 + q ^ 2 + 2 * (p * q * c) + m ^ 2) (2 * (p * q * 1)) c :=
      ((((hasDerivAt_id c).const_mul (p * q)).const_mul 2).const_add _).add_const _
    have h := h0.sqrt (by nlinarith [hw c hc, sq_nonneg m])
    refine (h.congr_deriv ?_).hasDerivWithinAt
    rw [mul_one, mul_div_mul_left _ _ (by norm_num)]
  have hinj : InjOn (fun c => Real.sqrt (p ^ 2 + q ^ 2 + 2 * (p * q * c) + m ^ 2)) (Ioo (-1 : ℝ) 1) := by
    intro x hx y hy h
    have h1 := congrArg (· ^ 2) h
    simp only at h1
    rw [Real.sq_sqrt (by nlinarith [hw x hx, sq_nonneg m]), Real.sq_sqrt (by nlinarith [hw y hy, sq_nonneg m])] at h1
    have : p * q * x = p * q * y := by linarith
    exact mul_left_cancel₀ hpq.ne' this
  rw [← restrict_Ioo_eq_restrict_Icc, ← himg, lintegral_image_eq_lintegral_abs_deriv_mul measurableSet_Ioo hd hinj]
  refine setLIntegral_congr_fun measurableSet_Ioo fun c hc => ?_
  rw [hE c hc, abs_of_pos]
  exact div_pos hpq (Real.sqrt_pos.mpr (by nlinarith [hw c hc, sq_nonneg m]))

/-- Energies of the third particle reached by two particles of given energies. -/
def third (m1 m2 m3 E1 E2 : ℝ) : Set ℝ :=
  Icc (Real.sqrt ((Real.sqrt (E1 ^ 2 - m1 ^ 2) - Real.sqrt (E2 ^ 2 - m2 ^ 2)) ^ 2 + m3 ^ 2))
    (Real.sqrt ((Real.sqrt (E1 ^ 2 - m1 ^ 2) + Real.sqrt (E2 ^ 2 - m2 ^ 2)) ^ 2 + m3 ^ 2))

theorem pack4 {a b c d : ℝ} {X : ℝ≥0∞} (ha : 0 ≤ a) (hb : 0 ≤ b) (hc : 0 ≤ c) :
    ENNReal.ofReal a * (ENNReal.ofReal b * (ENNReal.ofReal c * (ENNReal.ofReal d * X))) = ENNReal.ofReal (a * b * c * d) * X := by
  rw [ENNReal.ofReal_mul (by positivity), ENNReal.ofReal_mul (by positivity), ENNReal.ofReal_mul ha]
  ring

/-- Three particles whose momenta add up to zero, in terms of their energies. -/
theorem three_energies {m1 m2 m3 : ℝ} (h1 : 0 ≤ m1) (h2 : 0 ≤ m2) {Φ : ℝ → ℝ → ℝ → ℝ≥0∞}
    (hΦ : Measurable fun x : ℝ × ℝ × ℝ => Φ x.1 x.2.1 x.2.2) :
    ∫⁻ k : Fin 2 → V, ENNReal.ofReal (1 / (8 * (enr m1 ‖k 0‖ * enr m2 ‖k 1‖ * enr m3 ‖k 0 + k 1‖)))
        * Φ (enr m1 ‖k 0‖) (enr m2 ‖k 1‖) (enr m3 ‖k 0 + k 1‖)
      = ENNReal.ofReal (Real.pi ^ 2) * ∫⁻ E1 in Ici m1, ∫⁻ E2 in Ici m2, ∫⁻ E3 in third m1 m2 m3 E1 E2, Φ E1 E2 E3 := by
  have hpi := Real.pi_pos
  have hen : ∀ m : ℝ, Measurable (enr m) := fun m => by unfold enr; fun_prop
  have hm1 := hen m1
  have hm2 := hen m2
  have hm3 := hen m3
  have hF : Measurable fun x : ℝ × ℝ × ℝ => ENNReal.ofReal (1 / (8 * (enr m1 x.1 * enr m2 x.2.1 * enr m3 x.2.2)))
      * Φ (enr m1 x.1) (enr m2 x.2.1) (enr m3 x.2.2) := by
    have : Measurable fun x : ℝ × ℝ × ℝ => (enr m1 x.1, enr m2 x.2.1, enr m3 x.2.2) := by fun_prop
    exact Measurable.mul (by fun_prop) (hΦ.comp this)
  rw [pair_lintegral (F := fun p q r => ENNReal.ofReal (1 / (8 * (enr m1 p * enr m2 q * enr m3 r))) * Φ (enr m1 p) (enr m2 q) (enr m3 r)) hF]
  rw [← enr_lintegral _ h1, ← lintegral_const_mul' _ _ ENNReal.ofReal_ne_top, ← lintegral_const_mul' _ _ ENNReal.ofReal_ne_top]
  refine setLIntegral_congr_fun measurableSet_Ioi fun p hp => ?_
  have hp0 : 0 < p := hp
  have hE1 : 0 < enr m1 p := Real.sqrt_pos.mpr (by positivity)
  rw [← enr_lintegral _ h2, ← lintegral_const_mul' _ _ ENNReal.ofReal_ne_top, ← lintegral_const_mul' _ _ ENNReal.ofReal_ne_top,
    ← lintegral_const_mul' _ _ ENNReal.ofReal_ne_top]
  refine setLIntegral_congr_fun measurableSet_Ioi fun q hq => ?_
  have hq0 : 0 < q := hq
  have hE2 : 0 < enr m2 q := Real.sqrt_pos.mpr (by positivity)
  have hs1 : Real.sqrt (enr m1 p ^ 2 - m1 ^ 2) = p := by
    unfold enr; rw [Real.sq_sqrt (by positivity), add_sub_cancel_right, Real.sqrt_sq hp0.le]
  have hs2 : Real.sqrt (enr m2 q ^ 2 - m2 ^ 2) = q := by
    unfold enr; rw [Real.sq_sqrt (by positivity), add_sub_cancel_right, Real.sqrt_sq hq0.le]
  unfold third
  rw [hs1, hs2, ← angle_energy_lintegral _ hp0 hq0, ← lintegral_const_mul' _ _ ENNReal.ofReal_ne_top, ← lintegral_const_mul' _ _ ENNReal.ofReal_ne_top,
    ← lintegral_const_mul' _ _ ENNReal.ofReal_ne_top, ← lintegral_const_mul' _ _ ENNReal.ofReal_ne_top]
  refine setLIntegral_congr_fun measurableSet_Ioo fun c hc => ?_
  have hw : 0 < p ^ 2 + q ^ 2 + 2 * (p * q * c) := by
    have h1 : 0 < p * q * (c + 1) := mul_pos (mul_pos hp0 hq0) (by linarith [hc.1])
    nlinarith [sq_nonneg (p - q)]
  obtain ⟨E3, hE3⟩ : ∃ E3, E3 = enr m3 (Real.sqrt (p ^ 2 + q ^ 2 + 2 * (p * q * c))) := ⟨_, rfl⟩
  have hE30 : 0 < E3 := by
    rw [hE3]; exact Real.sqrt_pos.mpr (by rw [Real.sq_sqrt hw.le]; positivity)
  rw [← hE3]
  generalize enr m1 p = E1 at hE1 ⊢
  generalize enr m2 q = E2 at hE2 ⊢
  generalize Φ E1 E2 E3 = X
  rw [pack4 (by positivity) (by positivity) (by positivity), pack4 (by positivity) (by positivity) (by positivity)]
  congr 2
  field_simp

end Hazma.RamboMeasure
