import Verif.Lemmas.RamboMeasure
import Mathlib.Analysis.SpecialFunctions.PolarCoord
import Mathlib.MeasureTheory.Function.JacobianOneDim

/-! # The momenta of uniform random numbers -/

namespace Hazma.RamboMeasure

open MeasureTheory Set
open scoped ENNReal

/-- Cartesian coordinates. -/
noncomputable def vec (x y z : ℝ) : V := !₂[x, y, z]

theorem vec_measurable {α : Type*} [MeasurableSpace α] {f g h : α → ℝ} (hf : Measurable f) (hg : Measurable g)
    (hh : Measurable h) : Measurable fun a => vec (f a) (g a) (h a) := by
  unfold vec
  refine (PiLp.volume_preserving_toLp (Fin 3)).measurable.comp ?_
  refine measurable_pi_lambda _ fun i => ?_
  fin_cases i <;> simpa

theorem vec_norm (x y z : ℝ) : ‖vec x y z‖ = Real.sqrt (x ^ 2 + y ^ 2 + z ^ 2) := by
  rw [EuclideanSpace.norm_eq]
  simp [vec, Fin.sum_univ_three]

theorem cartesian {h : V → ℝ≥0∞} (hh : Measurable h) :
    ∫⁻ v, h v = ∫⁻ z : ℝ, ∫⁻ p : ℝ × ℝ, h (vec p.1 p.2 z) := by
  rw [← (PiLp.volume_preserving_toLp (Fin 3)).lintegral_comp hh]
  have h1 : Measurable fun x : Fin 3 → ℝ => h (WithLp.toLp 2 x) :=
    hh.comp (PiLp.volume_preserving_toLp (Fin 3)).measurable
  have e1 := (volume_preserving_piFinSuccAbove (fun _ : Fin 3 => ℝ) 2).symm
  rw [← e1.lintegral_comp h1]
  have e2 : MeasurePreserving (Prod.map id (MeasurableEquiv.finTwoArrow (α := ℝ)).symm)
      ((volume : Measure ℝ).prod (volume : Measure (ℝ × ℝ))) ((volume : Measure ℝ).prod (volume : Measure (Fin 2 → ℝ))) :=
    (MeasurePreserving.id _).prod (volume_preserving_finTwoArrow ℝ).symm
  have h2 := e2.lintegral_comp (h1.comp e1.measurable)
  rw [Measure.volume_eq_prod]
  refine Eq.trans h2.symm ?_
  refine Eq.trans (lintegral_prod _ ((h1.comp e1.measurable).comp e2.measurable).aemeasurable) ?_
  refine lintegral_congr fun z => lintegral_congr fun p => ?_
  simp only [Function.comp_apply]
  congr 1
  unfold vec
  congr 1
  ext i
  fin_cases i <;> simp [MeasurableEquiv.piFinSuccAbove, Fin.insertNthEquiv, Fin.insertNth, Fin.succAboveCases] <;> rfl

/-- Substituting the cosine for the angle. -/
theorem cos_lintegral (g : ℝ → ℝ → ℝ≥0∞) :
    ∫⁻ c in Ioo (-1 : ℝ) 1, g (Real.sqrt (1 - c ^ 2)) c
      = ∫⁻ θ in Ioo 0 Real.pi, ENNReal.ofReal (Real.sin θ) * g (Real.sin θ) (Real.cos θ) := by
  have himg : Real.cos '' Ioo 0 Real.pi = Ioo (-1) 1 := by
    ext c
    constructor
    · rintro ⟨θ, hθ, rfl⟩
      constructor
      · rw [← Real.cos_pi]
        exact Real.strictAntiOn_cos (Ioo_subset_Icc_self hθ) (right_mem_Icc.mpr Real.pi_pos.le) hθ.2
      · rw [← Real.cos_zero]
        exact Real.strictAntiOn_cos (left_mem_Icc.mpr Real.pi_pos.le) (Ioo_subset_Icc_self hθ) hθ.1
    · intro hc
      refine ⟨Real.arccos c, ⟨Real.arccos_pos.mpr hc.2, ?_⟩, Real.cos_arccos hc.1.le hc.2.le⟩
      refine lt_of_le_of_ne (Real.arccos_le_pi c) fun h => ?_
      rw [Real.arccos_eq_pi] at h
      linarith [hc.1]
  rw [← himg, lintegral_image_eq_lintegral_abs_deriv_mul measurableSet_Ioo
    (fun θ _ => (Real.hasDerivAt_cos θ).hasDerivWithinAt) (Real.injOn_cos.mono Ioo_subset_Icc_self)]
  refine setLIntegral_congr_fun measurableSet_Ioo fun θ hθ => ?_
  have hs : 0 < Real.sin θ := Real.sin_pos_of_mem_Ioo hθ
  have e : Real.sqrt (1 - Real.cos θ ^ 2) = Real.sin θ := by
    rw [← Real.sin_sq θ, Real.sqrt_sq hs.le]
  simp only [e, abs_neg, abs_of_pos hs]

theorem polar {f : ℝ × ℝ → ℝ≥0∞} (hf : Measurable f) :
    ∫⁻ p, f p = ∫⁻ ρ in Ioi (0 : ℝ), ∫⁻ φ in Ioo (-Real.pi) Real.pi, ENNReal.ofReal ρ * f (ρ * Real.cos φ, ρ * Real.sin φ) := by
  rw [← lintegral_comp_polarCoord_symm]
  have ht : polarCoord.target = Ioi (0 : ℝ) ×ˢ Ioo (-Real.pi) Real.pi := rfl
  rw [ht, Measure.volume_eq_prod, ← Measure.prod_restrict, lintegral_prod]
  · rfl
  · have : Measurable fun p : ℝ × ℝ => ENNReal.ofReal p.1 * f (p.1 * Real.cos p.2, p.1 * Real.sin p.2) := by
      refine Measurable.mul (by fun_prop) (hf.comp (by fun_prop))
    exact this.aemeasurable

/-- The half plane in polar coordinates, with the cosine for the angle. -/
theorem half_plane {G : ℝ → ℝ → ℝ≥0∞} (hG : Measurable (Function.uncurry G)) :
    ∫⁻ z : ℝ, ∫⁻ ρ in Ioi (0 : ℝ), ENNReal.ofReal ρ * G ρ z
      = ∫⁻ e in Ioi (0 : ℝ), ∫⁻ c in Ioo (-1 : ℝ) 1, ENNReal.ofReal (e ^ 2) * G (e * Real.sqrt (1 - c ^ 2)) (e * c) := by
  let f : ℝ × ℝ → ℝ≥0∞ := fun p => (Ioi (0 : ℝ)).indicator (fun ρ => ENNReal.ofReal ρ * G ρ p.1) p.2
  have hset : MeasurableSet {p : ℝ × ℝ | p.2 ∈ Ioi (0 : ℝ)} := measurable_snd measurableSet_Ioi
  have hG' : Measurable fun p : ℝ × ℝ => G p.2 p.1 := hG.comp (measurable_snd.prodMk measurable_fst)
  have hf : Measurable f := by
    have : Measurable ({p : ℝ × ℝ | p.2 ∈ Ioi (0 : ℝ)}.indicator fun p => ENNReal.ofReal p.2 * G p.2 p.1) :=
      ((by fun_prop : Measurable fun p : ℝ × ℝ => ENNReal.ofReal p.2).mul hG').indicator hset
    exact this
  have h1 : ∫⁻ z : ℝ, ∫⁻ ρ in Ioi (0 : ℝ), ENNReal.ofReal ρ * G ρ z = ∫⁻ p, f p := by
    rw [Measure.volume_eq_prod, lintegral_prod _ hf.aemeasurable]
    refine lintegral_congr fun z => ?_
    rw [← lintegral_indicator measurableSet_Ioi]
  rw [h1, polar hf]
  refine setLIntegral_congr_fun measurableSet_Ioi fun e he => ?_
  have he0 : 0 < e := he
  have h2 := cos_lintegral fun s c => ENNReal.ofReal (e ^ 2) * G (e * s) (e * c)
  rw [h2]
  have hsplit : ∀ θ ∈ Ioo (-Real.pi) Real.pi, ENNReal.ofReal e * f (e * Real.cos θ, e * Real.sin θ)
      = (Ioo 0 Real.pi).indicator (fun θ => ENNReal.ofReal (Real.sin θ) * (ENNReal.ofReal (e ^ 2)
        * G (e * Real.sin θ) (e * Real.cos θ))) θ := by
    intro θ hθ
    by_cases h0 : 0 < θ
    · have hmem : θ ∈ Ioo 0 Real.pi := ⟨h0, hθ.2⟩
      have hs : 0 < Real.sin θ := Real.sin_pos_of_mem_Ioo hmem
      rw [indicator_of_mem hmem]
      have hmem2 : e * Real.sin θ ∈ Ioi (0 : ℝ) := mul_pos he0 hs
      simp only [f]
      rw [indicator_of_mem hmem2, ← mul_assoc, ← mul_assoc, ← ENNReal.ofReal_mul he0.le, ← ENNReal.ofReal_mul hs.le]
      congr 2
      ring
    · have hs : Real.sin θ ≤ 0 := Real.sin_nonpos_of_nonpos_of_neg_pi_le (not_lt.mp h0) hθ.1.le
      have hmem2 : e * Real.sin θ ∉ Ioi (0 : ℝ) := by
        simp only [mem_Ioi, not_lt]
        exact mul_nonpos_of_nonneg_of_nonpos he0.le hs
      rw [indicator_of_notMem (fun h => h0 h.1)]
      simp only [f]
      rw [indicator_of_notMem hmem2, mul_zero]
  rw [setLIntegral_congr_fun measurableSet_Ioo hsplit, setLIntegral_indicator measurableSet_Ioo]
  congr 2
  ext θ
  simp only [mem_inter_iff, mem_Ioo]
  constructor
  · exact fun h => h.1
  · exact fun h => ⟨h, by linarith [Real.pi_pos, h.1], h.2⟩

/-- A momentum of given energy, cosine and azimuth. -/
noncomputable def sph (e c φ : ℝ) : V :=
  vec (e * Real.sqrt (1 - c ^ 2) * Real.cos φ) (e * Real.sqrt (1 - c ^ 2) * Real.sin φ) (e * c)

theorem sph_norm {e c : ℝ} (φ : ℝ) (he : 0 ≤ e) (hc : c ∈ Icc (-1 : ℝ) 1) : ‖sph e c φ‖ = e := by
  unfold sph
  rw [vec_norm]
  have h1 : 0 ≤ 1 - c ^ 2 := by nlinarith [hc.1, hc.2]
  have h2 := Real.sq_sqrt h1
  have h3 := Real.sin_sq_add_cos_sq φ
  have : (e * Real.sqrt (1 - c ^ 2) * Real.cos φ) ^ 2 + (e * Real.sqrt (1 - c ^ 2) * Real.sin φ) ^ 2 + (e * c) ^ 2 = e ^ 2 := by
    have : (e * Real.sqrt (1 - c ^ 2) * Real.cos φ) ^ 2 + (e * Real.sqrt (1 - c ^ 2) * Real.sin φ) ^ 2 + (e * c) ^ 2
        = e ^ 2 * (Real.sqrt (1 - c ^ 2) ^ 2 * (Real.sin φ ^ 2 + Real.cos φ ^ 2) + c ^ 2) := by ring
    rw [this, h2, h3]
    ring
  rw [this, Real.sqrt_sq he]

theorem sph_measurable {α : Type*} [MeasurableSpace α] {f g h : α → ℝ} (hf : Measurable f) (hg : Measurable g)
    (hh : Measurable h) : Measurable fun a => sph (f a) (g a) (h a) := by
  unfold sph
  exact vec_measurable (by fun_prop) (by fun_prop) (by fun_prop)

/-- Spherical coordinates. -/
theorem spherical {h : V → ℝ≥0∞} (hh : Measurable h) :
    ∫⁻ v, h v = ∫⁻ φ in Ioo (-Real.pi) Real.pi, ∫⁻ e in Ioi (0 : ℝ), ∫⁻ c in Ioo (-1 : ℝ) 1,
      ENNReal.ofReal (e ^ 2) * h (sph e c φ) := by
  rw [cartesian hh]
  have hv : Measurable fun x : ℝ × ℝ × ℝ => h (vec (x.2.1 * Real.cos x.2.2) (x.2.1 * Real.sin x.2.2) x.1) :=
    hh.comp (vec_measurable (by fun_prop) (by fun_prop) (by fun_prop))
  have h1 : ∀ z : ℝ, ∫⁻ p : ℝ × ℝ, h (vec p.1 p.2 z) = ∫⁻ φ in Ioo (-Real.pi) Real.pi, ∫⁻ ρ in Ioi (0 : ℝ),
      ENNReal.ofReal ρ * h (vec (ρ * Real.cos φ) (ρ * Real.sin φ) z) := by
    intro z
    rw [polar (f := fun p => h (vec p.1 p.2 z)) (hh.comp (vec_measurable (by fun_prop) (by fun_prop) (by fun_prop))),
      lintegral_lintegral_swap]
    have : Measurable fun x : ℝ × ℝ => ENNReal.ofReal x.1 * h (vec (x.1 * Real.cos x.2) (x.1 * Real.sin x.2) z) :=
      (by fun_prop : Measurable fun x : ℝ × ℝ => ENNReal.ofReal x.1).mul
        (hh.comp (vec_measurable (by fun_prop) (by fun_prop) (by fun_prop)))
    exact this.aemeasurable
  simp only [h1]
  rw [lintegral_lintegral_swap]
  · refine lintegral_congr fun φ => ?_
    refine half_plane (G := fun ρ z => h (vec (ρ * Real.cos φ) (ρ * Real.sin φ) z)) ?_
    have : Measurable fun x : ℝ × ℝ => h (vec (x.1 * Real.cos φ) (x.1 * Real.sin φ) x.2) :=
      hh.comp (vec_measurable (by fun_prop) (by fun_prop) (by fun_prop))
    exact this
  · have : Measurable fun x : (ℝ × ℝ) × ℝ => ENNReal.ofReal x.2 * h (vec (x.2 * Real.cos x.1.2) (x.2 * Real.sin x.1.2) x.1.1) :=
      (by fun_prop : Measurable fun x : (ℝ × ℝ) × ℝ => ENNReal.ofReal x.2).mul
        (hh.comp (vec_measurable (by fun_prop) (by fun_prop) (by fun_prop)))
    exact (Measurable.lintegral_prod_right' this).aemeasurable

/-! ## Uniform random numbers -/

/-- The law of `rng.random()`. -/
noncomputable def unif : Measure ℝ := volume.restrict (Ico 0 1)

instance : IsFiniteMeasure unif := by unfold unif; infer_instance

theorem unif_affine {a : ℝ} (ha : 0 < a) (b : ℝ) (g : ℝ → ℝ≥0∞) :
    ∫⁻ r, g (a * r + b) ∂unif = ENNReal.ofReal a⁻¹ * ∫⁻ x in Ioo b (a + b), g x := by
  have himg : (fun r : ℝ => a * r + b) '' Ioo 0 1 = Ioo b (a + b) := by
    ext x
    constructor
    · rintro ⟨r, hr, rfl⟩
      simp only [mem_Ioo]
      constructor
      · have := mul_pos ha hr.1; linarith
      · have := mul_lt_mul_of_pos_left hr.2 ha; linarith
    · intro hx
      refine ⟨(x - b) / a, ⟨div_pos (by linarith [hx.1]) ha, (div_lt_one ha).mpr (by linarith [hx.2])⟩, ?_⟩
      simp only
      field_simp
      ring
  have hd : ∀ r ∈ Ioo (0 : ℝ) 1, HasDerivWithinAt (fun r : ℝ => a * r + b) a (Ioo 0 1) r := fun r _ => by
    have := ((hasDerivAt_id r).const_mul a).add_const b
    rw [mul_one] at this
    exact this.hasDerivWithinAt
  have hinj : InjOn (fun r : ℝ => a * r + b) (Ioo 0 1) := fun x _ y _ h => by
    have h' : a * x + b = a * y + b := h
    exact mul_left_cancel₀ ha.ne' (by linarith)
  unfold unif
  rw [setLIntegral_congr Ioo_ae_eq_Ico.symm, ← himg,
    lintegral_image_eq_lintegral_abs_deriv_mul measurableSet_Ioo hd hinj, abs_of_pos ha,
    lintegral_const_mul' _ _ ENNReal.ofReal_ne_top, ← mul_assoc, ← ENNReal.ofReal_mul (by positivity),
    inv_mul_cancel₀ ha.ne', ENNReal.ofReal_one, one_mul]

/-- The energy of two uniform numbers. -/
theorem unif_log {F : ℝ → ℝ≥0∞} (hF : Measurable F) :
    ∫⁻ x, ∫⁻ y, F (-Real.log (x * y)) ∂unif ∂unif
      = ∫⁻ e in Ioi (0 : ℝ), ENNReal.ofReal (e * Real.exp (-e)) * F e := by
  have h1 : ∀ x ∈ Ioo (0 : ℝ) 1, ∫⁻ y, F (-Real.log (x * y)) ∂unif
      = ∫⁻ e in Ioi (0 : ℝ), (Ioi (Real.exp (-e))).indicator (fun x => ENNReal.ofReal x⁻¹) x * (ENNReal.ofReal (Real.exp (-e)) * F e) := by
    intro x hx
    have hx0 : 0 < x := hx.1
    have himg : (fun e : ℝ => Real.exp (-e) / x) '' Ioi (-Real.log x) = Ioo 0 1 := by
      ext y
      constructor
      · rintro ⟨e, he, rfl⟩
        have he' : -Real.log x < e := he
        refine ⟨by positivity, ?_⟩
        simp only
        rw [div_lt_one hx0, ← Real.lt_log_iff_exp_lt hx0]
        linarith
      · intro hy
        refine ⟨-Real.log (x * y), ?_, ?_⟩
        · rw [mem_Ioi, Real.log_mul hx0.ne' hy.1.ne']
          have := Real.log_neg hy.1 hy.2
          linarith
        · simp only [neg_neg]
          rw [Real.exp_log (mul_pos hx0 hy.1)]
          field_simp
    have hd : ∀ e ∈ Ioi (-Real.log x), HasDerivWithinAt (fun e : ℝ => Real.exp (-e) / x) (-(Real.exp (-e) / x)) (Ioi (-Real.log x)) e :=
      fun e _ => by
        have := ((hasDerivAt_id e).neg.exp).div_const x
        refine (this.congr_deriv ?_).hasDerivWithinAt
        simp
        ring
    have hinj : InjOn (fun e : ℝ => Real.exp (-e) / x) (Ioi (-Real.log x)) := fun e _ e' _ h => by
      have h' : Real.exp (-e) / x = Real.exp (-e') / x := h
      have := Real.exp_injective ((div_left_inj' hx0.ne').mp h')
      linarith
    unfold unif
    rw [setLIntegral_congr Ioo_ae_eq_Ico.symm, ← himg,
      lintegral_image_eq_lintegral_abs_deriv_mul measurableSet_Ioi hd hinj]
    have hsub : Ioi (-Real.log x) ∩ Ioi 0 = Ioi (-Real.log x) := by
      refine inter_eq_left.mpr fun e he => ?_
      have he' : -Real.log x < e := he
      have := Real.log_neg hx.1 hx.2
      exact lt_trans (by linarith) he'
    have hind : ∀ e : ℝ, (Ioi (Real.exp (-e))).indicator (fun x => ENNReal.ofReal x⁻¹) x * (ENNReal.ofReal (Real.exp (-e)) * F e)
        = (Ioi (-Real.log x)).indicator (fun e => ENNReal.ofReal x⁻¹ * (ENNReal.ofReal (Real.exp (-e)) * F e)) e := by
      intro e
      have hiff : x ∈ Ioi (Real.exp (-e)) ↔ e ∈ Ioi (-Real.log x) := by
        rw [mem_Ioi, mem_Ioi, ← Real.lt_log_iff_exp_lt hx0]
        constructor <;> intro h <;> linarith
      by_cases h : x ∈ Ioi (Real.exp (-e))
      · rw [indicator_of_mem h, indicator_of_mem (hiff.mp h)]
      · rw [indicator_of_notMem h, indicator_of_notMem (fun h' => h (hiff.mpr h')), zero_mul]
    simp only [hind]
    rw [setLIntegral_indicator measurableSet_Ioi, hsub]
    refine setLIntegral_congr_fun measurableSet_Ioi fun e _ => ?_
    have e1 : x * (Real.exp (-e) / x) = Real.exp (-e) := by field_simp
    rw [abs_neg, abs_of_pos (by positivity), e1, Real.log_exp, neg_neg, ← mul_assoc, ← ENNReal.ofReal_mul (by positivity)]
    congr 2
    ring
  have h0 : ∫⁻ x, ∫⁻ y, F (-Real.log (x * y)) ∂unif ∂unif = ∫⁻ x in Ioo (0 : ℝ) 1, ∫⁻ y, F (-Real.log (x * y)) ∂unif := by
    conv_lhs => rw [unif]
    rw [setLIntegral_congr Ioo_ae_eq_Ico.symm]
    rfl
  rw [h0, setLIntegral_congr_fun measurableSet_Ioo h1, lintegral_lintegral_swap]
  · refine setLIntegral_congr_fun measurableSet_Ioi fun e he => ?_
    have he0 : 0 < e := he
    have hlt : Real.exp (-e) < 1 := by rw [Real.exp_lt_one_iff]; linarith
    have hm : Measurable ((Ioi (Real.exp (-e))).indicator fun x : ℝ => ENNReal.ofReal x⁻¹) :=
      (by fun_prop : Measurable fun x : ℝ => ENNReal.ofReal x⁻¹).indicator measurableSet_Ioi
    rw [lintegral_mul_const _ hm, ← mul_assoc, ENNReal.ofReal_mul he0.le]
    congr 2
    have hpos := Real.exp_pos (-e)
    have hinter : Ioi (Real.exp (-e)) ∩ Ioo 0 1 = Ioo (Real.exp (-e)) 1 := by
      ext x
      simp only [mem_inter_iff, mem_Ioi, mem_Ioo]
      exact ⟨fun h => ⟨h.1, h.2.2⟩, fun h => ⟨h.1, hpos.trans h.1, h.2⟩⟩
    rw [setLIntegral_indicator measurableSet_Ioi, hinter, setLIntegral_congr Ioo_ae_eq_Ioc]
    have hi : IntervalIntegrable (fun t : ℝ => t⁻¹) volume (Real.exp (-e)) 1 := by
      refine intervalIntegral.intervalIntegrable_inv (fun t ht => ?_) continuousOn_id
      rw [uIcc_of_le hlt.le] at ht
      exact (lt_of_lt_of_le hpos ht.1).ne'
    rw [← ofReal_integral_eq_lintegral_ofReal, ← intervalIntegral.integral_of_le hlt.le, integral_inv_of_pos hpos one_pos]
    · rw [one_div, Real.log_inv, Real.log_exp, neg_neg]
    · exact (intervalIntegrable_iff_integrableOn_Ioc_of_le hlt.le).mp hi
    · refine (ae_restrict_iff' measurableSet_Ioc).mpr (ae_of_all _ fun t ht => ?_)
      have : 0 < t := hpos.trans ht.1
      simp only [Pi.zero_apply]
      positivity
  · have hset : MeasurableSet {p : ℝ × ℝ | Real.exp (-p.2) < p.1} :=
      measurableSet_lt (by fun_prop) measurable_fst
    have hm : Measurable fun p : ℝ × ℝ => {p : ℝ × ℝ | Real.exp (-p.2) < p.1}.indicator (fun p => ENNReal.ofReal p.1⁻¹) p
        * (ENNReal.ofReal (Real.exp (-p.2)) * F p.2) :=
      ((by fun_prop : Measurable fun p : ℝ × ℝ => ENNReal.ofReal p.1⁻¹).indicator hset).mul
        ((by fun_prop : Measurable fun p : ℝ × ℝ => ENNReal.ofReal (Real.exp (-p.2))).mul (hF.comp measurable_snd))
    exact hm.aemeasurable

/-- A full turn may start anywhere. -/
theorem turn {g : ℝ → ℝ≥0∞} (hg : ∀ φ, g (φ + 2 * Real.pi) = g φ) :
    ∫⁻ φ in Ioo 0 (2 * Real.pi), g φ = ∫⁻ φ in Ioo (-Real.pi) Real.pi, g φ := by
  have hpi := Real.pi_pos
  rw [setLIntegral_congr Ioo_ae_eq_Ioc, setLIntegral_congr (Ioo_ae_eq_Ioc (a := -Real.pi))]
  have s1 : Ioc 0 (2 * Real.pi) = Ioc 0 Real.pi ∪ Ioc Real.pi (2 * Real.pi) :=
    (Ioc_union_Ioc_eq_Ioc hpi.le (by linarith)).symm
  have s2 : Ioc (-Real.pi) Real.pi = Ioc (-Real.pi) 0 ∪ Ioc 0 Real.pi :=
    (Ioc_union_Ioc_eq_Ioc (by linarith) hpi.le).symm
  have d1 : Disjoint (Ioc 0 Real.pi) (Ioc Real.pi (2 * Real.pi)) := by
    rw [disjoint_left]; intro x h h'; linarith [h.2, h'.1]
  have d2 : Disjoint (Ioc (-Real.pi) 0) (Ioc 0 Real.pi) := by
    rw [disjoint_left]; intro x h h'; linarith [h.2, h'.1]
  rw [s1, s2, lintegral_union measurableSet_Ioc d1, lintegral_union measurableSet_Ioc d2, add_comm]
  congr 1
  have hp := measurePreserving_add_right (volume : Measure ℝ) (2 * Real.pi)
  rw [← hp.setLIntegral_comp_preimage_emb (measurableEmbedding_addRight _)]
  have : (fun x : ℝ => x + 2 * Real.pi) ⁻¹' Ioc Real.pi (2 * Real.pi) = Ioc (-Real.pi) 0 := by
    ext x
    simp only [mem_preimage, mem_Ioc]
    constructor <;> intro h <;> constructor <;> linarith [h.1, h.2]
  rw [this]
  simp only [hg]

/-- The law of the four random numbers of one particle. -/
noncomputable def drawLaw : Measure (ℝ × ℝ × ℝ × ℝ) := unif.prod (unif.prod (unif.prod unif))

instance : IsFiniteMeasure drawLaw := by unfold drawLaw; infer_instance

/-- The momentum of the four random numbers of one particle. -/
noncomputable def drawMom (d : ℝ × ℝ × ℝ × ℝ) : V :=
  sph (-Real.log (d.2.2.1 * d.2.2.2)) (2 * d.1 - 1) (2 * Real.pi * d.2.1)

theorem drawMom_measurable : Measurable drawMom := by
  unfold drawMom
  exact sph_measurable (by fun_prop) (by fun_prop) (by fun_prop)

/-- Momenta of uniform random numbers have density `exp(-|q|) / (4 π |q|)`. -/
theorem draw_lintegral {F : V → ℝ≥0∞} (hF : Measurable F) :
    ∫⁻ d, F (drawMom d) ∂drawLaw = ∫⁻ q : V, ENNReal.ofReal (Real.exp (-‖q‖) / (4 * Real.pi) * ‖q‖⁻¹) * F q := by
  have hpi := Real.pi_pos
  have hm : Measurable fun q : V => ENNReal.ofReal (Real.exp (-‖q‖) / (4 * Real.pi) * ‖q‖⁻¹) * F q :=
    (by fun_prop : Measurable fun q : V => ENNReal.ofReal (Real.exp (-‖q‖) / (4 * Real.pi) * ‖q‖⁻¹)).mul hF
  rw [spherical hm]
  have hR : ∀ φ : ℝ, (∫⁻ e in Ioi (0 : ℝ), ∫⁻ c in Ioo (-1 : ℝ) 1, ENNReal.ofReal (e ^ 2)
      * (ENNReal.ofReal (Real.exp (-‖sph e c φ‖) / (4 * Real.pi) * ‖sph e c φ‖⁻¹) * F (sph e c φ)))
      = ENNReal.ofReal (4 * Real.pi)⁻¹ * ∫⁻ c in Ioo (-1 : ℝ) 1, ∫⁻ e in Ioi (0 : ℝ), ENNReal.ofReal (e * Real.exp (-e)) * F (sph e c φ) := by
    intro φ
    rw [lintegral_lintegral_swap]
    · rw [← lintegral_const_mul' _ _ ENNReal.ofReal_ne_top]
      refine setLIntegral_congr_fun measurableSet_Ioo fun c hc => ?_
      rw [← lintegral_const_mul' _ _ ENNReal.ofReal_ne_top]
      refine setLIntegral_congr_fun measurableSet_Ioi fun e he => ?_
      have he0 : 0 < e := he
      rw [sph_norm φ he0.le (Ioo_subset_Icc_self hc), ← mul_assoc, ← mul_assoc, ← ENNReal.ofReal_mul (by positivity),
        ← ENNReal.ofReal_mul (by positivity)]
      congr 2
      field_simp
    · have hs : Measurable fun x : ℝ × ℝ => sph x.1 x.2 φ := sph_measurable measurable_fst measurable_snd measurable_const
      have : Measurable fun x : ℝ × ℝ => ENNReal.ofReal (x.1 ^ 2)
          * (ENNReal.ofReal (Real.exp (-‖sph x.1 x.2 φ‖) / (4 * Real.pi) * ‖sph x.1 x.2 φ‖⁻¹) * F (sph x.1 x.2 φ)) :=
        (by fun_prop : Measurable fun x : ℝ × ℝ => ENNReal.ofReal (x.1 ^ 2)).mul (hm.comp hs)
      exact this.aemeasurable
  simp only [hR]
  rw [lintegral_const_mul' _ _ ENNReal.ofReal_ne_top]
  have hper : ∀ φ, (∫⁻ c in Ioo (-1 : ℝ) 1, ∫⁻ e in Ioi (0 : ℝ), ENNReal.ofReal (e * Real.exp (-e)) * F (sph e c (φ + 2 * Real.pi)))
      = ∫⁻ c in Ioo (-1 : ℝ) 1, ∫⁻ e in Ioi (0 : ℝ), ENNReal.ofReal (e * Real.exp (-e)) * F (sph e c φ) := by
    intro φ
    have : ∀ e c, sph e c (φ + 2 * Real.pi) = sph e c φ := fun e c => by
      unfold sph; rw [Real.cos_add_two_pi, Real.sin_add_two_pi]
    simp only [this]
  rw [← turn hper]
  -- the left side, one random number after the other
  have hFd : Measurable fun d : ℝ × ℝ × ℝ × ℝ => F (drawMom d) := hF.comp drawMom_measurable
  have hL : ∫⁻ d, F (drawMom d) ∂drawLaw = ∫⁻ r1, ∫⁻ r2, ∫⁻ r3, ∫⁻ r4, F (sph (-Real.log (r3 * r4)) (2 * r1 - 1) (2 * Real.pi * r2))
      ∂unif ∂unif ∂unif ∂unif := by
    unfold drawLaw
    rw [lintegral_prod _ hFd.aemeasurable]
    refine lintegral_congr fun r1 => ?_
    have m1 : Measurable fun y : ℝ × ℝ × ℝ => F (drawMom (r1, y)) := hFd.comp (measurable_const.prodMk measurable_id)
    rw [lintegral_prod _ m1.aemeasurable]
    refine lintegral_congr fun r2 => ?_
    have m2 : Measurable fun y : ℝ × ℝ => F (drawMom (r1, r2, y)) := m1.comp (measurable_const.prodMk measurable_id)
    rw [lintegral_prod _ m2.aemeasurable]
    rfl
  rw [hL]
  have hE : ∀ r1 r2, ∫⁻ r3, ∫⁻ r4, F (sph (-Real.log (r3 * r4)) (2 * r1 - 1) (2 * Real.pi * r2)) ∂unif ∂unif
      = ∫⁻ e in Ioi (0 : ℝ), ENNReal.ofReal (e * Real.exp (-e)) * F (sph e (2 * r1 - 1) (2 * Real.pi * r2)) := by
    intro r1 r2
    exact unif_log (F := fun e => F (sph e (2 * r1 - 1) (2 * Real.pi * r2)))
      (hF.comp (sph_measurable measurable_id measurable_const measurable_const))
  simp only [hE]
  have hp2 : ∀ r1 : ℝ, ∫⁻ r2, (∫⁻ e in Ioi (0 : ℝ), ENNReal.ofReal (e * Real.exp (-e)) * F (sph e (2 * r1 - 1) (2 * Real.pi * r2))) ∂unif
      = ENNReal.ofReal (2 * Real.pi)⁻¹ * ∫⁻ φ in Ioo 0 (2 * Real.pi), ∫⁻ e in Ioi (0 : ℝ), ENNReal.ofReal (e * Real.exp (-e)) * F (sph e (2 * r1 - 1) φ) := by
    intro r1
    have := unif_affine (a := 2 * Real.pi) (by positivity) 0
      (fun φ => ∫⁻ e in Ioi (0 : ℝ), ENNReal.ofReal (e * Real.exp (-e)) * F (sph e (2 * r1 - 1) φ))
    simpa only [add_zero] using this
  simp only [hp2]
  rw [lintegral_const_mul' _ _ ENNReal.ofReal_ne_top]
  have hp1 := unif_affine (a := 2) two_pos (-1)
    (fun c => ∫⁻ φ in Ioo 0 (2 * Real.pi), ∫⁻ e in Ioi (0 : ℝ), ENNReal.ofReal (e * Real.exp (-e)) * F (sph e c φ))
  simp only [← sub_eq_add_neg] at hp1
  rw [hp1, ← mul_assoc, ← ENNReal.ofReal_mul (by positivity), lintegral_lintegral_swap]
  · congr 2
    · field_simp
      norm_num
    · norm_num
  · have hm3 : Measurable fun x : (ℝ × ℝ) × ℝ => ENNReal.ofReal (x.2 * Real.exp (-x.2)) * F (sph x.2 x.1.1 x.1.2) :=
      (by fun_prop : Measurable fun x : (ℝ × ℝ) × ℝ => ENNReal.ofReal (x.2 * Real.exp (-x.2))).mul
        (hF.comp (sph_measurable measurable_snd (measurable_fst.comp measurable_fst) (measurable_snd.comp measurable_fst)))
    exact (Measurable.lintegral_prod_right' hm3).aemeasurable

/-! ## Several particles -/

theorem snoc_measurable {X : Type*} [MeasurableSpace X] (n : ℕ) :
    Measurable fun x : X × (Fin n → X) => (Fin.snoc x.2 x.1 : Fin (n + 1) → X) := by
  refine measurable_pi_lambda _ fun i => ?_
  refine Fin.lastCases ?_ (fun j => ?_) i
  · simp only [Fin.snoc_last]; exact measurable_fst
  · simp only [Fin.snoc_castSucc]; exact (measurable_pi_apply j).comp measurable_snd

theorem snoc_lintegral {X : Type*} [MeasurableSpace X] (ν : Measure X) [SigmaFinite ν] (n : ℕ) {h : (Fin (n + 1) → X) → ℝ≥0∞}
    (hh : Measurable h) :
    ∫⁻ x, h x ∂Measure.pi (fun _ : Fin (n + 1) => ν)
      = ∫⁻ a, ∫⁻ x', h (Fin.snoc x' a : Fin (n + 1) → X) ∂Measure.pi (fun _ : Fin n => ν) ∂ν := by
  have e := (measurePreserving_piFinSuccAbove (fun _ : Fin (n + 1) => ν) (Fin.last n)).symm
  rw [← e.lintegral_comp hh]
  have hm : Measurable fun x : X × (Fin n → X) => h (Fin.snoc x.2 x.1 : Fin (n + 1) → X) := hh.comp (snoc_measurable n)
  rw [← lintegral_prod (fun x : X × (Fin n → X) => h (Fin.snoc x.2 x.1 : Fin (n + 1) → X)) hm.aemeasurable]
  refine lintegral_congr fun x => ?_
  congr 1
  exact Fin.insertNth_last' x.1 x.2

/-- The density of a momentum. -/
noncomputable def rho (q : V) : ℝ := Real.exp (-‖q‖) / (4 * Real.pi) * ‖q‖⁻¹

theorem rho_nonneg (q : V) : 0 ≤ rho q := by
  unfold rho
  have := Real.pi_pos
  positivity

theorem rho_measurable : Measurable rho := by unfold rho; fun_prop

theorem pi_draw (n : ℕ) {Φ : (Fin n → V) → ℝ≥0∞} (hΦ : Measurable Φ) :
    ∫⁻ d, Φ (fun i => drawMom (d i)) ∂Measure.pi (fun _ : Fin n => drawLaw)
      = ∫⁻ q : Fin n → V, ENNReal.ofReal (∏ i, rho (q i)) * Φ q := by
  induction n with
  | zero =>
    have h1 : ∀ d : Fin 0 → ℝ × ℝ × ℝ × ℝ, (fun i => drawMom (d i)) = (default : Fin 0 → V) := fun d => Subsingleton.elim _ _
    simp only [h1]
    rw [volume_pi, Measure.pi_of_empty, Measure.pi_of_empty, lintegral_dirac, lintegral_dirac]
    simp only [Finset.univ_eq_empty, Finset.prod_empty, ENNReal.ofReal_one, one_mul]
    congr 1
    exact Subsingleton.elim _ _
  | succ n ih =>
    have hd : Measurable fun d : Fin (n + 1) → ℝ × ℝ × ℝ × ℝ => fun i => drawMom (d i) :=
      measurable_pi_lambda _ fun i => drawMom_measurable.comp (measurable_pi_apply i)
    have hm : Measurable fun q : Fin (n + 1) → V => ENNReal.ofReal (∏ i, rho (q i)) * Φ q := by
      refine Measurable.mul ?_ hΦ
      exact (Finset.measurable_prod _ fun i _ => rho_measurable.comp (measurable_pi_apply i)).ennreal_ofReal
    have hs : Measurable fun x : V × (Fin n → V) => Φ (Fin.snoc x.2 x.1 : Fin (n + 1) → V) := hΦ.comp (snoc_measurable n)
    have hp : Measurable fun q : Fin n → V => ENNReal.ofReal (∏ i, rho (q i)) :=
      (Finset.measurable_prod _ fun i _ => rho_measurable.comp (measurable_pi_apply i)).ennreal_ofReal
    rw [snoc_lintegral drawLaw n (h := fun d => Φ (fun i => drawMom (d i))) (hΦ.comp hd), volume_pi,
      snoc_lintegral (volume : Measure V) n hm]
    have h1 : ∀ a, ∫⁻ x', Φ (fun i => drawMom ((Fin.snoc x' a : Fin (n + 1) → ℝ × ℝ × ℝ × ℝ) i)) ∂Measure.pi (fun _ : Fin n => drawLaw)
        = ∫⁻ q : Fin n → V, ENNReal.ofReal (∏ i, rho (q i)) * Φ (Fin.snoc q (drawMom a) : Fin (n + 1) → V) := by
      intro a
      have h2 : ∀ x' : Fin n → ℝ × ℝ × ℝ × ℝ, (fun i => drawMom ((Fin.snoc x' a : Fin (n + 1) → ℝ × ℝ × ℝ × ℝ) i))
          = (Fin.snoc (fun i => drawMom (x' i)) (drawMom a) : Fin (n + 1) → V) := by
        intro x'
        funext i
        refine Fin.lastCases ?_ (fun j => ?_) i
        · simp only [Fin.snoc_last]
        · simp only [Fin.snoc_castSucc]
      simp only [h2]
      exact ih (Φ := fun q => Φ (Fin.snoc q (drawMom a) : Fin (n + 1) → V)) (hs.comp (measurable_const.prodMk measurable_id))
    simp only [h1]
    rw [draw_lintegral (F := fun v => ∫⁻ q : Fin n → V, ENNReal.ofReal (∏ i, rho (q i)) * Φ (Fin.snoc q v : Fin (n + 1) → V))]
    · refine lintegral_congr fun v => ?_
      rw [← lintegral_const_mul' _ _ ENNReal.ofReal_ne_top, ← volume_pi]
      refine lintegral_congr fun q => ?_
      rw [← mul_assoc]
      congr 1
      change ENNReal.ofReal (rho v) * _ = _
      rw [← ENNReal.ofReal_mul (rho_nonneg v), Fin.prod_univ_castSucc]
      simp only [Fin.snoc_last, Fin.snoc_castSucc]
      rw [mul_comm]
    · refine Measurable.lintegral_prod_right' (f := fun x : V × (Fin n → V) => ENNReal.ofReal (∏ i, rho (x.2 i)) * Φ (Fin.snoc x.2 x.1 : Fin (n + 1) → V)) ?_
      exact (hp.comp measurable_snd).mul hs

end Hazma.RamboMeasure
