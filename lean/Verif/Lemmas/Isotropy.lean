import Verif.Props.BoostLorentz
import Mathlib.Tactic

/-! # Rotations of decay directions and successive Lorentz transformations -/

namespace Hazma.BoostLorentz

open MeasureTheory Set Hazma.Boost Hazma.BoostFn Hazma.RamboMeasure
open scoped ENNReal Pointwise

abbrev S2 := Metric.sphere (0 : V) 1

/-- The Lorentz transformation of energy and momentum from the rest frame of a particle to the frame where it moves with velocity `w`. -/
noncomputable def lorentzBoost (w : V) (p : ℝ × V) : ℝ × V :=
  (lorentz ‖w‖ * (p.1 + inner ℝ w p.2),
    p.2 + ((lorentz ‖w‖ - 1) / ‖w‖ ^ 2 * inner ℝ w p.2 + lorentz ‖w‖ * p.1) • w)

/-- Energy and momentum of a particle of mass `m` and energy `e` flying in the direction `x`. -/
noncomputable def emitted (m e : ℝ) (x : S2) : ℝ × V := (e, Real.sqrt (e ^ 2 - m ^ 2) • (x : V))

theorem boostedEnergy_eq (v : V) (m e : ℝ) (x : S2) : boostedEnergy v m e x = (lorentzBoost v (emitted m e x)).1 := rfl

theorem lorentz_gamma {b : ℝ} (hb : 0 ≤ b) (h1 : b < 1) : lorentz b ^ 2 * (1 - b ^ 2) = 1 := by
  unfold lorentz
  have : 0 < 1 - b ^ 2 := by nlinarith
  rw [div_pow, Real.sq_sqrt this.le]
  field_simp

/-- The mass does not change. -/
theorem lorentzBoost_mass {w : V} (h1 : ‖w‖ < 1) (p : ℝ × V) :
    (lorentzBoost w p).1 ^ 2 - ‖(lorentzBoost w p).2‖ ^ 2 = p.1 ^ 2 - ‖p.2‖ ^ 2 := by
  rcases eq_or_ne w 0 with rfl | hw
  · simp [lorentzBoost, lorentz]
  have hb : 0 < ‖w‖ := norm_pos_iff.mpr hw
  have hg := lorentz_gamma hb.le h1
  unfold lorentzBoost
  simp only
  have hns : ∀ c : ℝ, ‖c • w‖ ^ 2 = c ^ 2 * ‖w‖ ^ 2 := fun c => by rw [norm_smul, mul_pow, Real.norm_eq_abs, sq_abs]
  rw [norm_add_sq_real, inner_smul_right, hns, real_inner_comm p.2 w]
  clear hns
  generalize (inner ℝ p.2 w : ℝ) = t
  generalize ‖w‖ = b at hb hg ⊢
  generalize lorentz b = g at hg ⊢
  have h2 : g ^ 2 * b ^ 2 = g ^ 2 - 1 := by linarith
  have h3 : (g - 1) / b ^ 2 * b ^ 2 = g - 1 := by field_simp
  have h4 : (g - 1) / b ^ 2 * (g + 1) = g ^ 2 := by rw [div_mul_eq_mul_div, div_eq_iff (by positivity)]; linarith
  generalize (g - 1) / b ^ 2 = u at h3 h4 ⊢
  linear_combination (-p.1 ^ 2) * h2 - (u * t ^ 2 + 2 * g * p.1 * t) * h3 - t ^ 2 * h4

theorem lorentzBoost_rotate (R : V ≃ₗᵢ[ℝ] V) (w : V) (e : ℝ) (k : V) :
    lorentzBoost (R w) (e, R k) = ((lorentzBoost w (e, k)).1, R (lorentzBoost w (e, k)).2) := by
  unfold lorentzBoost
  simp only [R.norm_map, R.inner_map_map, map_add, map_smul]

theorem surface_univ : surface (univ : Set S2) = ENNReal.ofReal (4 * Real.pi) := by
  have hn : ‖vec 0 0 1‖ = 1 := by rw [vec_norm]; simp
  have h := archimedes hn (g := fun _ => 1) measurable_const
  rw [lintegral_one, lintegral_one, Measure.restrict_apply_univ, Real.volume_Ioo,
    ← ENNReal.ofReal_mul (by positivity)] at h
  rw [h]
  congr 1
  ring

theorem isotropic_const (c : ℝ≥0∞) : isotropic (fun _ => c) = c := by
  have hpi := Real.pi_pos
  unfold isotropic
  rw [lintegral_const, surface_univ, mul_comm c, ← mul_assoc, ← ENNReal.ofReal_mul (by positivity)]
  rw [show 1 / (4 * Real.pi) * (4 * Real.pi) = 1 by field_simp]
  simp

/-- A rotation of directions. -/
noncomputable def rot (R : V ≃ₗᵢ[ℝ] V) (x : S2) : S2 := ⟨R x, by simp [R.norm_map]⟩

theorem rot_measurable (R : V ≃ₗᵢ[ℝ] V) : Measurable (rot R) :=
  (R.continuous.measurable.comp measurable_subtype_coe).subtype_mk

theorem surface_rot (R : V ≃ₗᵢ[ℝ] V) : surface.map (rot R) = surface := by
  ext s hs
  rw [Measure.map_apply (rot_measurable R) hs, Measure.toSphere_apply' _ (rot_measurable R hs), Measure.toSphere_apply' _ hs]
  congr 1
  have hset : Ioo (0 : ℝ) 1 • ((↑) '' (rot R ⁻¹' s) : Set V) = R ⁻¹' (Ioo (0 : ℝ) 1 • ((↑) '' s : Set V)) := by
    ext k
    constructor
    · rintro ⟨r, hr, y, ⟨x, hx, rfl⟩, rfl⟩
      refine ⟨r, hr, R x, ⟨rot R x, hx, rfl⟩, ?_⟩
      show r • R x = R (r • (x : V))
      rw [map_smul]
    · rintro ⟨r, hr, y, ⟨x, hx, rfl⟩, hk⟩
      refine ⟨r, hr, R.symm x, ⟨rot R.symm x, ?_, rfl⟩, ?_⟩
      · show rot R (rot R.symm x) ∈ s
        have : rot R (rot R.symm x) = x := Subtype.ext (R.apply_symm_apply x)
        rw [this]; exact hx
      · show r • R.symm (x : V) = k
        rw [← map_smul]
        have hk' : r • (x : V) = R k := hk
        rw [hk', R.symm_apply_apply]
  rw [hset]
  exact R.measurePreserving.measure_preimage_equiv (f := R.toHomeomorph.toMeasurableEquiv) _

theorem isotropic_rot (R : V ≃ₗᵢ[ℝ] V) {F : S2 → ℝ≥0∞} (hF : Measurable F) : isotropic (fun x => F (rot R x)) = isotropic F := by
  unfold isotropic
  congr 1
  conv_rhs => rw [← surface_rot R]
  rw [lintegral_map hF (rot_measurable R)]

theorem isotropic_inner (k : V) {g : ℝ → ℝ≥0∞} (hg : Measurable g) :
    isotropic (fun n => g (inner ℝ k (n : V))) = ENNReal.ofReal (1 / 2) * ∫⁻ c in Ioo (-1 : ℝ) 1, g (‖k‖ * c) := by
  have hpi := Real.pi_pos
  rcases eq_or_ne k 0 with rfl | hk
  · simp only [inner_zero_left, norm_zero, zero_mul]
    rw [isotropic_const, lintegral_const, Measure.restrict_apply_univ, Real.volume_Ioo, mul_comm (g 0), ← mul_assoc,
      ← ENNReal.ofReal_mul (by norm_num)]
    norm_num
  · have h0 : 0 < ‖k‖ := norm_pos_iff.mpr hk
    have hn : ‖‖k‖⁻¹ • k‖ = 1 := by rw [norm_smul, norm_inv, norm_norm, inv_mul_cancel₀ h0.ne']
    have h := archimedes hn (g := fun c => g (‖k‖ * c)) (hg.comp (by fun_prop))
    have e1 : ∀ x : S2, ‖k‖ * inner ℝ (‖k‖⁻¹ • k) (x : V) = inner ℝ k (x : V) := by
      intro x
      rw [real_inner_smul_left, ← mul_assoc, mul_inv_cancel₀ h0.ne', one_mul]
    simp only [e1] at h
    unfold isotropic
    rw [h, ← mul_assoc, ← ENNReal.ofReal_mul (by positivity)]
    congr 2
    field_simp
    norm_num

theorem isotropic_swap {F : S2 → S2 → ℝ≥0∞} (hF : Measurable (Function.uncurry F)) :
    isotropic (fun n => isotropic fun x => F n x) = isotropic fun x => isotropic fun n => F n x := by
  unfold isotropic
  congr 1
  have h1 : ∀ n, Measurable fun x => F n x := fun n => hF.comp (measurable_const.prodMk measurable_id)
  rw [lintegral_const_mul' _ _ ENNReal.ofReal_ne_top, lintegral_const_mul' _ _ ENNReal.ofReal_ne_top,
    lintegral_lintegral_swap hF.aemeasurable]

end Hazma.BoostLorentz
