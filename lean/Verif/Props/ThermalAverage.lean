import Verif.Lemmas.Bessel
import Verif.Props.RelicDensity

/-! # C295: the thermal average of the relic density is an average over collisions

`thermal_cross_section` (`_thermal_functions.py:438-485`, `scalar_xs.rs:895-961`, `vector_xs.rs:413-483`) against the mean of
cross section times relative velocity over pairs of particles from two Maxwell-Boltzmann gases. -/

namespace Hazma.ThermalAverage

open Hazma.Relic MeasureTheory Set Filter Topology
open scoped ENNReal

/-! ## The average -/

/-- Energy of a particle of momentum `p`. -/
noncomputable def energy (m p : ℝ) : ℝ := Real.sqrt (p ^ 2 + m ^ 2)

/-- Squared centre-of-mass energy of a collision, `c` being the cosine of the angle between the momenta. -/
noncomputable def mandelstam (m p q c : ℝ) : ℝ := 2 * m ^ 2 + 2 * (energy m p * energy m q - p * q * c)

/-- Møller velocity. -/
noncomputable def velocity (m p q c : ℝ) : ℝ :=
  Real.sqrt ((energy m p * energy m q - p * q * c) ^ 2 - m ^ 4) / (energy m p * energy m q)

/-- `∫ σ v e^{-(E₁+E₂)/T} d³p₁ d³p₂ / (∫ e^{-E/T} d³p)²`, the directions integrated except for the angle between the
momenta. -/
noncomputable def average (sigma : ℝ → ℝ) (m T : ℝ) : ℝ≥0∞ :=
  (∫⁻ p in Ioi (0 : ℝ), ∫⁻ q in Ioi (0 : ℝ), ∫⁻ c in Icc (-1 : ℝ) 1,
      ENNReal.ofReal (4 * Real.pi * p ^ 2 * (2 * Real.pi * q ^ 2) * Real.exp (-((energy m p + energy m q) / T))
        * (sigma (Real.sqrt (mandelstam m p q c)) * velocity m p q c)))
    / ENNReal.ofReal ((∫ p in Ioi (0 : ℝ), 4 * Real.pi * p ^ 2 * Real.exp (-(energy m p / T))) ^ 2)

/-! ## One more Bessel integral -/

theorem mom_parts_one {z : ℝ} (hz : 0 < z) : z * (mom 2 z - mom 0 z) = mom 1 z := by
  let F : ℝ → ℝ := fun t => -(Real.exp (-(z * Real.cosh t)) * Real.sinh t)
  let F' : ℝ → ℝ := fun t => z * (Real.exp (-(z * Real.cosh t)) * Real.cosh t ^ 2
      - Real.exp (-(z * Real.cosh t)) * Real.cosh t ^ 0)
    - Real.exp (-(z * Real.cosh t)) * Real.cosh t ^ 1
  have hF : ∀ t, HasDerivAt F (F' t) t := by
    intro t
    have d1 := (((Real.hasDerivAt_cosh t).const_mul z).neg.exp).mul (Real.hasDerivAt_sinh t)
    refine d1.neg.congr_deriv ?_
    have h2 : Real.sinh t ^ 2 = Real.cosh t ^ 2 - 1 := by linarith [Real.cosh_sq t]
    simp only [F', Pi.neg_apply]
    linear_combination (Real.exp (-(z * Real.cosh t)) * z) * h2
  have hint : IntegrableOn F' (Ioi 0) :=
    (((mom_integrable 2 hz).sub (mom_integrable 0 hz)).const_mul z).sub (mom_integrable 1 hz)
  have hlim : Tendsto F atTop (𝓝 0) := by
    have hb : Tendsto (fun t : ℝ => ((1 + 1).factorial / z ^ (1 + 1) * 2) * Real.exp (-t)) atTop (𝓝 0) := by
      have := (Real.tendsto_exp_neg_atTop_nhds_zero).const_mul (((1 + 1).factorial : ℝ) / z ^ (1 + 1) * 2)
      simpa using this
    refine squeeze_zero_norm (fun t => ?_) hb
    refine le_trans ?_ (mom_bound 1 hz t)
    have hc := Real.cosh_pos t
    have hs : |Real.sinh t| ≤ Real.cosh t := by
      rw [abs_le]; constructor
      · have := Real.sinh_lt_cosh (-t)
        rw [Real.sinh_neg, Real.cosh_neg] at this
        linarith
      · exact (Real.sinh_lt_cosh t).le
    simp only [F, norm_neg, norm_mul, Real.norm_eq_abs, Real.abs_exp, pow_one]
    gcongr
  have h := integral_Ioi_of_hasDerivAt_of_tendsto (hF 0).continuousAt.continuousWithinAt
    (fun t _ => hF t) hint hlim
  have hF0 : F 0 = 0 := by simp [F]
  rw [hF0, sub_zero] at h
  have h3 : ∫ t in Ioi (0 : ℝ), F' t = z * (mom 2 z - mom 0 z) - mom 1 z := by
    simp only [F', mom]
    rw [integral_sub, integral_const_mul, integral_sub (mom_integrable 2 hz) (mom_integrable 0 hz)]
    · exact ((mom_integrable 2 hz).sub (mom_integrable 0 hz)).const_mul z
    · exact mom_integrable 1 hz
  linarith

/-- `∫ e^{-S/T} √(S² - a²) dS = a T K₁(a / T)`. -/
theorem energy_integral {a T : ℝ} (ha : 0 < a) (hT : 0 < T) :
    IntegrableOn (fun S : ℝ => Real.exp (-(S / T)) * Real.sqrt (S ^ 2 - a ^ 2)) (Ioi a)
    ∧ ∫ S in Ioi a, Real.exp (-(S / T)) * Real.sqrt (S ^ 2 - a ^ 2) = a * T * besselK 1 (a / T) := by
  have himg : (fun t => a * Real.cosh t) '' Ioi 0 = Ioi a := by
    ext S
    simp only [mem_image, mem_Ioi]
    constructor
    · rintro ⟨t, ht, rfl⟩
      have := Real.one_lt_cosh.mpr ht.ne'
      nlinarith
    · intro hS
      refine ⟨Real.arsinh (Real.sqrt ((S / a) ^ 2 - 1)), ?_, ?_⟩
      · rw [← Real.sinh_pos_iff, Real.sinh_arsinh]
        apply Real.sqrt_pos.mpr
        have : 1 < S / a := by rwa [one_lt_div ha]
        nlinarith
      · have h1 : 1 < S / a := by rwa [one_lt_div ha]
        rw [Real.cosh_arsinh, Real.sq_sqrt (by nlinarith), show 1 + ((S / a) ^ 2 - 1) = (S / a) ^ 2 by ring,
          Real.sqrt_sq (by linarith)]
        field_simp
  have hd : ∀ t ∈ Ioi (0 : ℝ), HasDerivWithinAt (fun t => a * Real.cosh t) (a * Real.sinh t) (Ioi 0) t :=
    fun t _ => ((Real.hasDerivAt_cosh t).const_mul a).hasDerivWithinAt
  have hinj : InjOn (fun t => a * Real.cosh t) (Ioi 0) := by
    intro x hx y hy h
    have h1 := mul_left_cancel₀ ha.ne' h
    exact Real.cosh_strictMonoOn.injOn (mem_Ici.mpr (mem_Ioi.mp hx).le) (mem_Ici.mpr (mem_Ioi.mp hy).le) h1
  have hpt : ∀ t ∈ Ioi (0 : ℝ), |a * Real.sinh t| • (Real.exp (-(a * Real.cosh t / T))
        * Real.sqrt ((a * Real.cosh t) ^ 2 - a ^ 2))
      = a ^ 2 * (Real.exp (-(a / T * Real.cosh t)) * Real.cosh t ^ 2
        - Real.exp (-(a / T * Real.cosh t)) * Real.cosh t ^ 0) := by
    intro t ht
    have hs := Real.sinh_pos_iff.mpr ht
    have : (a * Real.cosh t) ^ 2 - a ^ 2 = (a * Real.sinh t) ^ 2 := by
      have := Real.cosh_sq t
      rw [mul_pow, mul_pow, this]; ring
    rw [this, Real.sqrt_sq (by positivity), abs_of_pos (by positivity), smul_eq_mul,
      show a * Real.cosh t / T = a / T * Real.cosh t by ring]
    have h2 : Real.sinh t ^ 2 = Real.cosh t ^ 2 - 1 := by linarith [Real.cosh_sq t]
    linear_combination (a ^ 2 * Real.exp (-(a / T * Real.cosh t))) * h2
  have haT : 0 < a / T := by positivity
  constructor
  · rw [← himg, integrableOn_image_iff_integrableOn_abs_deriv_smul measurableSet_Ioi hd hinj,
      integrableOn_congr_fun hpt measurableSet_Ioi]
    exact ((mom_integrable 2 haT).sub (mom_integrable 0 haT)).const_mul _
  · rw [← himg, integral_image_eq_integral_abs_deriv_smul measurableSet_Ioi hd hinj,
      setIntegral_congr_fun measurableSet_Ioi hpt, integral_const_mul,
      integral_sub (mom_integrable 2 haT) (mom_integrable 0 haT)]
    have h := mom_parts_one haT
    rw [besselK_one, ← h]
    unfold mom
    field_simp

/-! ## From momenta to invariants -/

/-- Cross section times `v E₁ E₂`. -/
noncomputable def flux (sigma : ℝ → ℝ) (m s : ℝ) : ℝ≥0∞ :=
  ENNReal.ofReal (sigma (Real.sqrt s) * (1 / 2 * Real.sqrt (s * (s - 4 * m ^ 2))))

theorem flux_measurable {sigma : ℝ → ℝ} (hs : Measurable sigma) (m : ℝ) : Measurable (flux sigma m) := by
  unfold flux
  exact ENNReal.measurable_ofReal.comp ((hs.comp (by fun_prop)).mul (by fun_prop))

/-- Values of the invariant reached by two particles of given energies. -/
def reach (m E1 E2 : ℝ) : Set ℝ :=
  Icc (2 * m ^ 2 + 2 * (E1 * E2) - 2 * (Real.sqrt (E1 ^ 2 - m ^ 2) * Real.sqrt (E2 ^ 2 - m ^ 2)))
    (2 * m ^ 2 + 2 * (E1 * E2) + 2 * (Real.sqrt (E1 ^ 2 - m ^ 2) * Real.sqrt (E2 ^ 2 - m ^ 2)))

/-- A linear substitution. -/
theorem affine_lintegral (G : ℝ → ℝ≥0∞) {A B : ℝ} (hB : 0 < B) :
    ∫⁻ c in Icc (-1 : ℝ) 1, G (A - B * c)
      = ENNReal.ofReal (1 / B) * ∫⁻ s in Icc (A - B) (A + B), G s := by
  have himg : (fun c => A - B * c) '' Icc (-1 : ℝ) 1 = Icc (A - B) (A + B) := by
    ext s
    simp only [mem_image, mem_Icc]
    constructor
    · rintro ⟨c, ⟨h1, h2⟩, rfl⟩
      constructor <;> nlinarith
    · rintro ⟨h1, h2⟩
      refine ⟨(A - s) / B, ⟨?_, ?_⟩, ?_⟩
      · rw [le_div_iff₀ hB]; linarith
      · rw [div_le_iff₀ hB]; linarith
      · field_simp; ring
  have hd : ∀ c ∈ Icc (-1 : ℝ) 1, HasDerivWithinAt (fun c => A - B * c) (-B) (Icc (-1 : ℝ) 1) c := by
    intro c _
    exact ((((hasDerivAt_id c).const_mul B).const_sub A).congr_deriv (by simp)).hasDerivWithinAt
  have hinj : InjOn (fun c => A - B * c) (Icc (-1 : ℝ) 1) := by
    intro x _ y _ h
    have : B * x = B * y := by simpa using h
    exact mul_left_cancel₀ hB.ne' this
  rw [← himg, lintegral_image_eq_lintegral_abs_deriv_mul measurableSet_Icc hd hinj, abs_neg, abs_of_pos hB,
    lintegral_const_mul' _ _ ENNReal.ofReal_ne_top, ← mul_assoc, ← ENNReal.ofReal_mul (by positivity)]
  rw [show 1 / B * B = 1 by field_simp, ENNReal.ofReal_one, one_mul]

/-- From momentum to energy. -/
theorem energy_lintegral (F : ℝ → ℝ≥0∞) {m : ℝ} (hm : 0 < m) :
    ∫⁻ p in Ioi (0 : ℝ), ENNReal.ofReal (p / energy m p) * F (energy m p) = ∫⁻ E in Ici m, F E := by
  have himg : energy m '' Ioi 0 = Ioi m := by
    ext E
    simp only [mem_image, mem_Ioi, energy]
    constructor
    · rintro ⟨p, hp, rfl⟩
      exact Real.lt_sqrt_of_sq_lt (by nlinarith)
    · intro hE
      refine ⟨Real.sqrt (E ^ 2 - m ^ 2), Real.sqrt_pos.mpr (by nlinarith), ?_⟩
      rw [Real.sq_sqrt (by nlinarith), sub_add_cancel, Real.sqrt_sq (by linarith)]
  have hd : ∀ p ∈ Ioi (0 : ℝ), HasDerivWithinAt (energy m) (p / energy m p) (Ioi 0) p := by
    intro p hp
    have h := ((hasDerivAt_pow 2 p).add_const (m ^ 2)).sqrt (by positivity)
    refine HasDerivAt.hasDerivWithinAt ?_
    refine h.congr_deriv ?_
    unfold energy
    norm_num
    rw [mul_div_mul_left _ _ (by norm_num)]
  have hinj : InjOn (energy m) (Ioi 0) := by
    intro x hx y hy h
    have hx' : 0 < x := hx
    have hy' : 0 < y := hy
    have h1 : x ^ 2 + m ^ 2 = y ^ 2 + m ^ 2 := by
      have := congrArg (· ^ 2) h
      simp only [energy] at this
      rwa [Real.sq_sqrt (by positivity), Real.sq_sqrt (by positivity)] at this
    nlinarith
  rw [← restrict_Ioi_eq_restrict_Ici, ← himg,
    lintegral_image_eq_lintegral_abs_deriv_mul measurableSet_Ioi hd hinj]
  refine setLIntegral_congr_fun measurableSet_Ioi (fun p hp => ?_)
  have : 0 < p := hp
  rw [abs_of_pos (div_pos this (show 0 < energy m p from Real.sqrt_pos.mpr (by positivity)))]

/-- The collisions of two given momenta, over all angles. -/
theorem angle_lintegral (sigma : ℝ → ℝ) {m T p q : ℝ} (hm : 0 < m)
    (hp : 0 < p) (hq : 0 < q) :
    ∫⁻ c in Icc (-1 : ℝ) 1,
      ENNReal.ofReal (4 * Real.pi * p ^ 2 * (2 * Real.pi * q ^ 2) * Real.exp (-((energy m p + energy m q) / T))
        * (sigma (Real.sqrt (mandelstam m p q c)) * velocity m p q c))
      = ENNReal.ofReal (q / energy m q) * (ENNReal.ofReal (p / energy m p)
        * (ENNReal.ofReal (4 * Real.pi ^ 2) * (ENNReal.ofReal (Real.exp (-((energy m p + energy m q) / T)))
          * ∫⁻ s in reach m (energy m p) (energy m q), flux sigma m s))) := by
  have hE1 : 0 < energy m p := Real.sqrt_pos.mpr (by positivity)
  have hE2 : 0 < energy m q := Real.sqrt_pos.mpr (by positivity)
  have hs1 : Real.sqrt (energy m p ^ 2 - m ^ 2) = p := by
    unfold energy
    rw [Real.sq_sqrt (by positivity), add_sub_cancel_right, Real.sqrt_sq hp.le]
  have hs2 : Real.sqrt (energy m q ^ 2 - m ^ 2) = q := by
    unfold energy
    rw [Real.sq_sqrt (by positivity), add_sub_cancel_right, Real.sqrt_sq hq.le]
  obtain ⟨e, he⟩ : ∃ e, e = Real.exp (-((energy m p + energy m q) / T)) := ⟨_, rfl⟩
  have hepos : 0 < e := he ▸ Real.exp_pos _
  have hpt : ∀ c, ENNReal.ofReal (4 * Real.pi * p ^ 2 * (2 * Real.pi * q ^ 2) * e
        * (sigma (Real.sqrt (mandelstam m p q c)) * velocity m p q c))
      = ENNReal.ofReal (8 * Real.pi ^ 2 * p ^ 2 * q ^ 2 * e / (energy m p * energy m q))
        * flux sigma m (2 * m ^ 2 + 2 * (energy m p * energy m q) - 2 * (p * q) * c) := by
    intro c
    have hM : mandelstam m p q c = 2 * m ^ 2 + 2 * (energy m p * energy m q) - 2 * (p * q) * c := by
      unfold mandelstam; ring
    unfold flux velocity
    rw [← ENNReal.ofReal_mul (by positivity), hM]
    congr 1
    have h4 : (energy m p * energy m q - p * q * c) ^ 2 - m ^ 4
        = (1 / 2) ^ 2 * ((2 * m ^ 2 + 2 * (energy m p * energy m q) - 2 * (p * q) * c)
          * (2 * m ^ 2 + 2 * (energy m p * energy m q) - 2 * (p * q) * c - 4 * m ^ 2)) := by ring
    rw [h4, Real.sqrt_mul (by positivity), Real.sqrt_sq (by norm_num)]
    generalize Real.sqrt ((2 * m ^ 2 + 2 * (energy m p * energy m q) - 2 * (p * q) * c)
          * (2 * m ^ 2 + 2 * (energy m p * energy m q) - 2 * (p * q) * c - 4 * m ^ 2)) = r
    generalize sigma _ = g
    field_simp
    ring
  rw [← he]
  simp only [hpt]
  rw [lintegral_const_mul' _ _ ENNReal.ofReal_ne_top, affine_lintegral _ (by positivity : 0 < 2 * (p * q)),
    ← mul_assoc, ← ENNReal.ofReal_mul (by positivity)]
  simp only [← mul_assoc]
  rw [← ENNReal.ofReal_mul (by positivity), ← ENNReal.ofReal_mul (by positivity),
    ← ENNReal.ofReal_mul (by positivity)]
  unfold reach
  rw [hs1, hs2]
  congr 1
  · congr 1
    field_simp
    ring
  · simp only [mul_assoc]

/-- The integrand over energies and invariant. -/
noncomputable def density (sigma : ℝ → ℝ) (m T : ℝ) (E1 E2 s : ℝ) : ℝ≥0∞ :=
  open Classical in
  if m ≤ E1 ∧ m ≤ E2 ∧ s ∈ reach m E1 E2 then ENNReal.ofReal (Real.exp (-((E1 + E2) / T))) * flux sigma m s else 0

theorem density_measurable {sigma : ℝ → ℝ} (hs : Measurable sigma) (m T : ℝ) :
    Measurable fun x : ℝ × ℝ × ℝ => density sigma m T x.1 (x.2.1 - x.1) x.2.2 := by
  unfold density
  refine Measurable.ite ?_ ?_ measurable_const
  · have h1 : MeasurableSet {x : ℝ × ℝ × ℝ | m ≤ x.1} := measurableSet_le measurable_const measurable_fst
    have h2 : MeasurableSet {x : ℝ × ℝ × ℝ | m ≤ x.2.1 - x.1} := measurableSet_le measurable_const (by fun_prop)
    have h3 : MeasurableSet {x : ℝ × ℝ × ℝ | 2 * m ^ 2 + 2 * (x.1 * (x.2.1 - x.1))
        - 2 * (Real.sqrt (x.1 ^ 2 - m ^ 2) * Real.sqrt ((x.2.1 - x.1) ^ 2 - m ^ 2)) ≤ x.2.2} :=
      measurableSet_le (by fun_prop) (by fun_prop)
    have h4 : MeasurableSet {x : ℝ × ℝ × ℝ | x.2.2 ≤ 2 * m ^ 2 + 2 * (x.1 * (x.2.1 - x.1))
        + 2 * (Real.sqrt (x.1 ^ 2 - m ^ 2) * Real.sqrt ((x.2.1 - x.1) ^ 2 - m ^ 2))} :=
      measurableSet_le (by fun_prop) (by fun_prop)
    exact h1.inter (h2.inter (h3.inter h4))
  · exact (ENNReal.measurable_ofReal.comp (by fun_prop)).mul ((flux_measurable hs m).comp (by fun_prop))

/-- The average's numerator over the two energies and the invariant. -/
theorem numerator_energies (sigma : ℝ → ℝ) {m T : ℝ} (hm : 0 < m) :
    (∫⁻ p in Ioi (0 : ℝ), ∫⁻ q in Ioi (0 : ℝ), ∫⁻ c in Icc (-1 : ℝ) 1,
      ENNReal.ofReal (4 * Real.pi * p ^ 2 * (2 * Real.pi * q ^ 2) * Real.exp (-((energy m p + energy m q) / T))
        * (sigma (Real.sqrt (mandelstam m p q c)) * velocity m p q c)))
    = ENNReal.ofReal (4 * Real.pi ^ 2) * ∫⁻ E1, ∫⁻ E2, ∫⁻ s, density sigma m T E1 E2 s := by
  have h1 : ∀ p ∈ Ioi (0 : ℝ), (∫⁻ q in Ioi (0 : ℝ), ∫⁻ c in Icc (-1 : ℝ) 1,
      ENNReal.ofReal (4 * Real.pi * p ^ 2 * (2 * Real.pi * q ^ 2) * Real.exp (-((energy m p + energy m q) / T))
        * (sigma (Real.sqrt (mandelstam m p q c)) * velocity m p q c)))
      = ENNReal.ofReal (p / energy m p) * (ENNReal.ofReal (4 * Real.pi ^ 2) * ∫⁻ E2 in Ici m,
        ENNReal.ofReal (Real.exp (-((energy m p + E2) / T))) * ∫⁻ s in reach m (energy m p) E2, flux sigma m s) := by
    intro p hp
    rw [setLIntegral_congr_fun measurableSet_Ioi (fun q hq => angle_lintegral sigma (T := T) hm hp hq)]
    rw [energy_lintegral (fun E2 => ENNReal.ofReal (p / energy m p)
        * (ENNReal.ofReal (4 * Real.pi ^ 2) * (ENNReal.ofReal (Real.exp (-((energy m p + E2) / T)))
          * ∫⁻ s in reach m (energy m p) E2, flux sigma m s))) hm,
      lintegral_const_mul' _ _ ENNReal.ofReal_ne_top, lintegral_const_mul' _ _ ENNReal.ofReal_ne_top]
  rw [setLIntegral_congr_fun measurableSet_Ioi h1,
    energy_lintegral (fun E1 => ENNReal.ofReal (4 * Real.pi ^ 2) * ∫⁻ E2 in Ici m,
        ENNReal.ofReal (Real.exp (-((E1 + E2) / T))) * ∫⁻ s in reach m E1 E2, flux sigma m s) hm,
    lintegral_const_mul' _ _ ENNReal.ofReal_ne_top]
  congr 1
  rw [← lintegral_indicator measurableSet_Ici]
  refine lintegral_congr fun E1 => ?_
  by_cases hE1 : m ≤ E1
  · rw [indicator_of_mem (mem_Ici.mpr hE1), ← lintegral_indicator measurableSet_Ici]
    refine lintegral_congr fun E2 => ?_
    by_cases hE2 : m ≤ E2
    · rw [indicator_of_mem (mem_Ici.mpr hE2), ← lintegral_const_mul' _ _ ENNReal.ofReal_ne_top,
        ← lintegral_indicator (show MeasurableSet (reach m E1 E2) from measurableSet_Icc)]
      refine lintegral_congr fun s => ?_
      by_cases h : s ∈ reach m E1 E2
      · rw [indicator_of_mem h]; simp [density, hE1, hE2, h]
      · rw [indicator_of_notMem h]; simp [density, h]
    · rw [indicator_of_notMem (by simpa using hE2)]
      simp [density, hE2]
  · rw [indicator_of_notMem (by simpa using hE1)]
    simp [density, hE1]

/-- The same, with the total energy in place of the second one and the order of integration reversed. -/
theorem numerator_swapped {sigma : ℝ → ℝ} (hs : Measurable sigma) (m T : ℝ) :
    ∫⁻ E1, ∫⁻ E2, ∫⁻ s, density sigma m T E1 E2 s
      = ∫⁻ s, ∫⁻ S, ∫⁻ E1, density sigma m T E1 (S - E1) s := by
  have hmeas := density_measurable hs m T
  have h1 : ∀ E1, (∫⁻ E2, ∫⁻ s, density sigma m T E1 E2 s) = ∫⁻ s, ∫⁻ S, density sigma m T E1 (S - E1) s := by
    intro E1
    rw [← lintegral_sub_right_eq_self (fun E2 => ∫⁻ s, density sigma m T E1 E2 s) E1]
    exact lintegral_lintegral_swap (hmeas.comp (measurable_const.prodMk measurable_id)).aemeasurable
  simp only [h1]
  have h2 : Measurable fun x : ℝ × ℝ => ∫⁻ S, density sigma m T x.1 (S - x.1) x.2 :=
    Measurable.lintegral_prod_right' (f := fun y : (ℝ × ℝ) × ℝ => density sigma m T y.1.1 (y.2 - y.1.1) y.1.2)
      (hmeas.comp (g := fun x : ℝ × ℝ × ℝ => density sigma m T x.1 (x.2.1 - x.1) x.2.2)
        (f := fun y : (ℝ × ℝ) × ℝ => (y.1.1, y.2, y.1.2)) (by fun_prop))
  rw [lintegral_lintegral_swap h2.aemeasurable]
  refine lintegral_congr fun s => ?_
  exact lintegral_lintegral_swap ((hmeas.comp (g := fun x : ℝ × ℝ × ℝ => density sigma m T x.1 (x.2.1 - x.1) x.2.2)
        (f := fun y : ℝ × ℝ => (y.1, y.2, s)) (by fun_prop))).aemeasurable

/-- Two energies of given sum reach the invariant `s` exactly when their difference is small enough. -/
theorem reach_iff {m s E1 E2 : ℝ} (hm : 0 < m) (hs : 4 * m ^ 2 < s) :
    (m ≤ E1 ∧ m ≤ E2 ∧ s ∈ reach m E1 E2)
      ↔ Real.sqrt s ≤ E1 + E2 ∧ s * (E1 - E2) ^ 2 ≤ (s - 4 * m ^ 2) * ((E1 + E2) ^ 2 - s) := by
  have hs0 : 0 < s := by nlinarith
  have hsq : ∀ E1 E2 : ℝ, m ≤ E1 → m ≤ E2 → (s ∈ reach m E1 E2
      ↔ s * (E1 - E2) ^ 2 ≤ (s - 4 * m ^ 2) * ((E1 + E2) ^ 2 - s)) := by
    intro E1 E2 h1 h2
    have hp : 0 ≤ Real.sqrt (E1 ^ 2 - m ^ 2) * Real.sqrt (E2 ^ 2 - m ^ 2) := by positivity
    have hpp : (Real.sqrt (E1 ^ 2 - m ^ 2) * Real.sqrt (E2 ^ 2 - m ^ 2)) ^ 2 = (E1 ^ 2 - m ^ 2) * (E2 ^ 2 - m ^ 2) := by
      rw [mul_pow, Real.sq_sqrt (by nlinarith), Real.sq_sqrt (by nlinarith)]
    unfold reach
    rw [mem_Icc]
    generalize Real.sqrt (E1 ^ 2 - m ^ 2) * Real.sqrt (E2 ^ 2 - m ^ 2) = P at hp hpp
    constructor
    · rintro ⟨ha, hb⟩
      have : (s - 2 * m ^ 2 - 2 * (E1 * E2)) ^ 2 ≤ (2 * P) ^ 2 := sq_le_sq' (by linarith) (by linarith)
      nlinarith
    · intro h
      have : (s - 2 * m ^ 2 - 2 * (E1 * E2)) ^ 2 ≤ (2 * P) ^ 2 := by nlinarith
      have := abs_le_of_sq_le_sq' this (by linarith)
      exact ⟨by linarith [this.1], by linarith [this.2]⟩
  constructor
  · rintro ⟨h1, h2, h3⟩
    have h4 := (hsq E1 E2 h1 h2).mp h3
    refine ⟨Real.sqrt_le_iff.mpr ⟨by linarith, ?_⟩, h4⟩
    by_contra hcon
    push Not at hcon
    have : (s - 4 * m ^ 2) * ((E1 + E2) ^ 2 - s) < 0 := mul_neg_of_pos_of_neg (by linarith) (by linarith)
    nlinarith [mul_nonneg hs0.le (sq_nonneg (E1 - E2))]
  · rintro ⟨h1, h2⟩
    have hS : 2 * m < E1 + E2 := by
      refine lt_of_lt_of_le (Real.lt_sqrt_of_sq_lt (by nlinarith)) h1
    have hD : (E1 - E2) ^ 2 ≤ (E1 + E2 - 2 * m) ^ 2 := by
      have : s * (E1 - E2) ^ 2 ≤ s * (E1 + E2 - 2 * m) ^ 2 := by
        nlinarith [sq_nonneg (s - 2 * m * (E1 + E2))]
      exact le_of_mul_le_mul_left this hs0
    have hD' := abs_le_of_sq_le_sq' hD (by linarith)
    have hE1 : m ≤ E1 := by linarith [hD'.1]
    have hE2 : m ≤ E2 := by linarith [hD'.2]
    exact ⟨hE1, hE2, (hsq E1 E2 hE1 hE2).mpr h2⟩

/-- Below threshold nothing is reached. -/
theorem reach_threshold {m s E1 E2 : ℝ} (hm : 0 < m) (h1 : m ≤ E1) (h2 : m ≤ E2) (h3 : s ∈ reach m E1 E2) :
    4 * m ^ 2 ≤ s := by
  unfold reach at h3
  rw [mem_Icc] at h3
  have hp : 0 ≤ Real.sqrt (E1 ^ 2 - m ^ 2) * Real.sqrt (E2 ^ 2 - m ^ 2) := by positivity
  have hpp : (Real.sqrt (E1 ^ 2 - m ^ 2) * Real.sqrt (E2 ^ 2 - m ^ 2)) ^ 2 = (E1 ^ 2 - m ^ 2) * (E2 ^ 2 - m ^ 2) := by
    rw [mul_pow, Real.sq_sqrt (by nlinarith), Real.sq_sqrt (by nlinarith)]
  generalize Real.sqrt (E1 ^ 2 - m ^ 2) * Real.sqrt (E2 ^ 2 - m ^ 2) = P at hp hpp h3
  have h12 : m * m ≤ E1 * E2 := mul_le_mul h1 h2 hm.le (by linarith)
  have : P ^ 2 ≤ (E1 * E2 - m ^ 2) ^ 2 := by
    rw [hpp]; nlinarith [sq_nonneg (E1 - E2), mul_nonneg (sq_nonneg m) (sq_nonneg (E1 - E2))]
  have := (abs_le_of_sq_le_sq' this (by nlinarith)).2
  nlinarith [h3.1]

/-- Integral over the sharing of the total energy. -/
theorem share_lintegral (sigma : ℝ → ℝ) {m T s S : ℝ} (hm : 0 < m) :
    ∫⁻ E1, density sigma m T E1 (S - E1) s
      = (Ioi (4 * m ^ 2)).indicator (fun s => flux sigma m s * (Ioi (Real.sqrt s)).indicator (fun S =>
          ENNReal.ofReal (Real.exp (-(S / T)) * (Real.sqrt (1 - 4 * m ^ 2 / s) * Real.sqrt (S ^ 2 - Real.sqrt s ^ 2)))) S) s := by
  by_cases hs : 4 * m ^ 2 < s
  · have hs0 : 0 < s := by nlinarith
    rw [indicator_of_mem (mem_Ioi.mpr hs)]
    have hd : ∀ E1, density sigma m T E1 (S - E1) s
        = {E1 | Real.sqrt s ≤ S ∧ s * (2 * E1 - S) ^ 2 ≤ (s - 4 * m ^ 2) * (S ^ 2 - s)}.indicator
          (fun _ => ENNReal.ofReal (Real.exp (-(S / T))) * flux sigma m s) E1 := by
      intro E1
      unfold density
      have h := reach_iff (E1 := E1) (E2 := S - E1) hm hs
      rw [add_sub_cancel, show E1 - (S - E1) = 2 * E1 - S by ring] at h
      by_cases h' : m ≤ E1 ∧ m ≤ S - E1 ∧ s ∈ reach m E1 (S - E1)
      · rw [if_pos h', indicator_of_mem (by exact h.mp h'), add_sub_cancel]
      · rw [if_neg h', indicator_of_notMem (by exact fun hh => h' (h.mpr hh))]
    simp only [hd]
    by_cases hS : Real.sqrt s ≤ S
    · have hS0 : 0 ≤ S := (Real.sqrt_nonneg s).trans hS
      have hSs : s ≤ S ^ 2 := (Real.sqrt_le_left hS0).mp hS
      have h1 : 0 ≤ 1 - 4 * m ^ 2 / s := by
        rw [sub_nonneg, div_le_one hs0]; exact hs.le
      obtain ⟨R, hR⟩ : ∃ R, R = Real.sqrt (1 - 4 * m ^ 2 / s) * Real.sqrt (S ^ 2 - Real.sqrt s ^ 2) := ⟨_, rfl⟩
      have hR0 : 0 ≤ R := by rw [hR]; positivity
      have hR2 : s * R ^ 2 = (s - 4 * m ^ 2) * (S ^ 2 - s) := by
        rw [hR, mul_pow, Real.sq_sqrt h1, Real.sq_sqrt hs0.le, Real.sq_sqrt (by linarith)]
        field_simp
      have hset : {E1 | Real.sqrt s ≤ S ∧ s * (2 * E1 - S) ^ 2 ≤ (s - 4 * m ^ 2) * (S ^ 2 - s)}
          = Icc ((S - R) / 2) ((S + R) / 2) := by
        ext E1
        simp only [mem_ofPred_eq, mem_Icc, hS, true_and, ← hR2]
        rw [mul_le_mul_iff_right₀ hs0, sq_le_sq, abs_of_nonneg hR0, abs_le]
        constructor
        · rintro ⟨a, b⟩; constructor <;> linarith
        · rintro ⟨a, b⟩; constructor <;> linarith
      rw [hset, lintegral_indicator measurableSet_Icc, setLIntegral_const, Real.volume_Icc,
        show (S + R) / 2 - (S - R) / 2 = R by ring]
      by_cases hlt : Real.sqrt s < S
      · rw [indicator_of_mem (mem_Ioi.mpr hlt), ← hR, ENNReal.ofReal_mul (Real.exp_pos _).le]
        ring
      · have : Real.sqrt s = S := le_antisymm hS (not_lt.mp hlt)
        have hRz : R = 0 := by rw [hR, this, sub_self, Real.sqrt_zero, mul_zero]
        rw [indicator_of_notMem (by simpa using hlt), hRz]
        simp
    · have : {E1 : ℝ | Real.sqrt s ≤ S ∧ s * (2 * E1 - S) ^ 2 ≤ (s - 4 * m ^ 2) * (S ^ 2 - s)} = ∅ := by
        ext E1; simp [hS]
      rw [this, indicator_of_notMem (by simp only [mem_Ioi, not_lt]; linarith)]
      simp
  · rw [indicator_of_notMem (by simpa using hs)]
    have : ∀ E1, density sigma m T E1 (S - E1) s = 0 := by
      intro E1
      unfold density
      split_ifs with h
      · have := reach_threshold hm h.1 h.2.1 h.2.2
        have : s = 4 * m ^ 2 := le_antisymm (not_lt.mp hs) this
        simp [flux, this]
      · rfl
    simp [this]

/-- Integral over the total energy. -/
theorem total_lintegral {m T s : ℝ} (hT : 0 < T) (hs : 4 * m ^ 2 < s) :
    ∫⁻ S in Ioi (Real.sqrt s), ENNReal.ofReal (Real.exp (-(S / T))
        * (Real.sqrt (1 - 4 * m ^ 2 / s) * Real.sqrt (S ^ 2 - Real.sqrt s ^ 2)))
      = ENNReal.ofReal (Real.sqrt (1 - 4 * m ^ 2 / s) * (Real.sqrt s * T * besselK 1 (Real.sqrt s / T))) := by
  have hs0 : 0 < s := by nlinarith
  obtain ⟨hi, he⟩ := energy_integral (Real.sqrt_pos.mpr hs0) hT
  rw [← he, ← integral_const_mul, ofReal_integral_eq_lintegral_ofReal]
  · refine lintegral_congr fun S => ?_
    congr 1; ring
  · exact hi.const_mul _
  · exact ae_of_all _ fun S => by positivity

/-- The numerator as one integral over the invariant. -/
theorem numerator_invariant {sigma : ℝ → ℝ} (hs : Measurable sigma) {m T : ℝ} (hm : 0 < m) (hT : 0 < T) :
    ∫⁻ E1, ∫⁻ E2, ∫⁻ s, density sigma m T E1 E2 s
      = ∫⁻ s in Ioi (4 * m ^ 2), ENNReal.ofReal (T / 2 * (sigma (Real.sqrt s)
          * ((s - 4 * m ^ 2) * Real.sqrt s * besselK 1 (Real.sqrt s / T)))) := by
  rw [numerator_swapped hs]
  simp only [share_lintegral sigma hm]
  rw [← lintegral_indicator measurableSet_Ioi]
  refine lintegral_congr fun s => ?_
  by_cases h : s ∈ Ioi (4 * m ^ 2)
  · have h4 : 4 * m ^ 2 < s := h
    have hs0 : 0 < s := by nlinarith
    simp only [indicator_of_mem h]
    rw [lintegral_const_mul' _ _ (by unfold flux; exact ENNReal.ofReal_ne_top), lintegral_indicator measurableSet_Ioi,
      total_lintegral hT h4]
    have hk := besselK_one_pos (z := Real.sqrt s / T) (by positivity)
    unfold flux
    rw [mul_comm, ← ENNReal.ofReal_mul (by positivity)]
    congr 1
    have h5 : Real.sqrt (s * (s - 4 * m ^ 2)) * Real.sqrt (1 - 4 * m ^ 2 / s) = s - 4 * m ^ 2 := by
      rw [← Real.sqrt_mul (by nlinarith), show s * (s - 4 * m ^ 2) * (1 - 4 * m ^ 2 / s) = (s - 4 * m ^ 2) ^ 2 by
        field_simp, Real.sqrt_sq (by linarith)]
    linear_combination (1 / 2 * T * sigma (Real.sqrt s) * Real.sqrt s * besselK 1 (Real.sqrt s / T)) * h5
  · simp only [indicator_of_notMem h, lintegral_zero]

/-- The average is the integral of the code's integrand over the whole range. -/
theorem average_eq {sigma : ℝ → ℝ} (hs : Measurable sigma) {m T : ℝ} (hm : 0 < m) (hT : 0 < T) :
    average sigma m T = ENNReal.ofReal (m / T / (2 * besselK 2 (m / T)) ^ 2)
      * ∫⁻ z in Ioi (2 : ℝ), ENNReal.ofReal (tcsIntegrand sigma m (m / T) z) := by
  have hx : 0 < m / T := by positivity
  have hK := besselK_two_pos hx
  have hden : ∫ p in Ioi (0 : ℝ), 4 * Real.pi * p ^ 2 * Real.exp (-(energy m p / T))
      = 4 * Real.pi * (m ^ 2 * T * besselK 2 (m / T)) := by
    have h := (momentum_integral hm (b := 1 / T) (by positivity)).2
    rw [show 1 / T * m = m / T by ring] at h
    rw [show m ^ 2 * T * besselK 2 (m / T) = m ^ 2 * besselK 2 (m / T) / (1 / T) by field_simp, ← h,
      ← integral_const_mul]
    refine integral_congr_ae (ae_of_all _ fun p => ?_)
    simp only [energy]
    rw [show Real.sqrt (p ^ 2 + m ^ 2) / T = 1 / T * Real.sqrt (p ^ 2 + m ^ 2) by ring]
    ring
  have himg : (fun z => m ^ 2 * z ^ 2) '' Ioi 2 = Ioi (4 * m ^ 2) := by
    ext s
    simp only [mem_image, mem_Ioi]
    constructor
    · rintro ⟨z, hz, rfl⟩
      have : 0 < m ^ 2 := by positivity
      nlinarith [mul_pos this (show 0 < z ^ 2 - 4 by nlinarith)]
    · intro h
      have h0 : 0 ≤ s := by nlinarith [sq_nonneg m]
      refine ⟨Real.sqrt s / m, ?_, ?_⟩
      · rw [lt_div_iff₀ hm]
        exact Real.lt_sqrt_of_sq_lt (by nlinarith)
      · rw [div_pow, Real.sq_sqrt h0]; field_simp
  have hd : ∀ z ∈ Ioi (2 : ℝ), HasDerivWithinAt (fun z => m ^ 2 * z ^ 2) (2 * m ^ 2 * z) (Ioi 2) z :=
    fun z _ => (((hasDerivAt_pow 2 z).const_mul (m ^ 2)).congr_deriv (by norm_num; ring)).hasDerivWithinAt
  have hinj : InjOn (fun z => m ^ 2 * z ^ 2) (Ioi 2) := by
    intro x hx' y hy' h
    have hx2 : 2 < x := hx'
    have hy2 : 2 < y := hy'
    have h2 : x ^ 2 = y ^ 2 := mul_left_cancel₀ (by positivity) h
    nlinarith
  unfold average
  rw [numerator_energies sigma hm, numerator_invariant hs hm hT, hden, ENNReal.mul_div_right_comm,
    ← ENNReal.ofReal_div_of_pos (by positivity), ← himg,
    lintegral_image_eq_lintegral_abs_deriv_mul measurableSet_Ioi hd hinj,
    ← lintegral_const_mul' _ _ ENNReal.ofReal_ne_top, ← lintegral_const_mul' _ _ ENNReal.ofReal_ne_top]
  refine setLIntegral_congr_fun measurableSet_Ioi fun z hz => ?_
  have hz2 : 2 < z := hz
  have hsq : Real.sqrt (m ^ 2 * z ^ 2) = m * z := by
    rw [← mul_pow, Real.sqrt_sq (by positivity)]
  rw [abs_of_pos (by positivity), hsq, ← ENNReal.ofReal_mul (by positivity), ← ENNReal.ofReal_mul (by positivity),
    ← ENNReal.ofReal_mul (by positivity)]
  congr 1
  unfold tcsIntegrand
  rw [show m / T * z = m * z / T by ring]
  have hpi := Real.pi_pos.ne'
  have hK' := hK.ne'
  generalize besselK 2 (m / T) = K at hK' ⊢
  field_simp
  ring

/-! ## The code's averages -/

/-- A cross section without the collisions of energy above `E`. -/
noncomputable def below (sigma : ℝ → ℝ) (E e : ℝ) : ℝ := if e ≤ E then sigma e else 0

/-- A cross section with only the collisions of energy above `E`. -/
noncomputable def above (sigma : ℝ → ℝ) (E e : ℝ) : ℝ := if e ≤ E then 0 else sigma e

theorem below_measurable {sigma : ℝ → ℝ} (hs : Measurable sigma) (E : ℝ) : Measurable (below sigma E) :=
  Measurable.ite measurableSet_Iic hs measurable_const

theorem above_measurable {sigma : ℝ → ℝ} (hs : Measurable sigma) (E : ℝ) : Measurable (above sigma E) :=
  Measurable.ite measurableSet_Iic measurable_const hs

theorem besselK_one_measurable {x : ℝ} (hx : 0 < x) : Measurable fun z => (Ioi (2 : ℝ)).indicator (fun z => besselK 1 (x * z)) z := by
  have hc : ContinuousOn (fun z => besselK 1 (x * z)) (Ioi (2 : ℝ)) := by
    intro z hz
    have hz2 : (2 : ℝ) < z := hz
    have h : HasDerivAt (mom 1) _ (x * z) := mom_hasDerivAt 1 (by positivity)
    have h2 : ContinuousAt (fun z => mom 1 (x * z)) z :=
      ContinuousAt.comp (f := fun z => x * z) h.continuousAt (by fun_prop)
    simp only [besselK_one]
    exact h2.continuousWithinAt
  exact (hc.measurable_piecewise continuousOn_const measurableSet_Ioi)

/-- The integral the code evaluates, up to the collision energy `u m`. -/
theorem cut_average {sigma : ℝ → ℝ} (hs : Measurable sigma) (h0 : ∀ e, 0 ≤ sigma e) {m x u : ℝ} (hm : 0 < m)
    (hx : 0 < x) (hu : 2 ≤ u) :
    x / (2 * besselK 2 x) ^ 2 * ∫ z in (2 : ℝ)..u, tcsIntegrand sigma m x z
      = (average (below sigma (m * u)) m (m / x)).toReal := by
  have hK := besselK_two_pos hx
  rw [average_eq (below_measurable hs _) hm (by positivity), ENNReal.toReal_mul,
    show m / (m / x) = x by field_simp, ENNReal.toReal_ofReal (by positivity)]
  congr 1
  have hpt : ∀ z ∈ Ioi (2 : ℝ), ENNReal.ofReal (tcsIntegrand (below sigma (m * u)) m x z)
      = (Iic u).indicator (fun z => ENNReal.ofReal (tcsIntegrand sigma m x z)) z := by
    intro z _
    unfold tcsIntegrand below
    by_cases h : z ≤ u
    · rw [indicator_of_mem (mem_Iic.mpr h), if_pos (by nlinarith)]
    · rw [indicator_of_notMem (by simpa using h), if_neg (by push Not at h ⊢; nlinarith)]
      simp
  rw [setLIntegral_congr_fun measurableSet_Ioi hpt, setLIntegral_indicator measurableSet_Iic, inter_comm,
    Ioi_inter_Iic, intervalIntegral.integral_of_le hu]
  have hnn : ∀ z ∈ Ioc 2 u, 0 ≤ tcsIntegrand sigma m x z := by
    intro z hz
    unfold tcsIntegrand
    have hz2 : 2 < z := hz.1
    have hk := besselK_one_pos (z := x * z) (by positivity)
    have : 0 ≤ z ^ 2 - 4 := by nlinarith
    exact mul_nonneg (h0 _) (by positivity)
  refine integral_eq_lintegral_of_nonneg_ae ((ae_restrict_iff' measurableSet_Ioc).mpr (ae_of_all _ hnn)) ?_
  have hmeas : Measurable fun z => sigma (m * z) * (z ^ 2 * (z ^ 2 - 4) * (Ioi (2 : ℝ)).indicator (fun z => besselK 1 (x * z)) z) :=
    (hs.comp (by fun_prop)).mul ((by fun_prop : Measurable fun z : ℝ => z ^ 2 * (z ^ 2 - 4)).mul (besselK_one_measurable hx))
  refine hmeas.aestronglyMeasurable.congr ((ae_restrict_iff' measurableSet_Ioc).mpr (ae_of_all _ fun z hz => ?_))
  have h2 : z ∈ Ioi (2 : ℝ) := hz.1
  simp only [indicator_of_mem h2, tcsIntegrand]

/-- Slow and fast collisions add up. -/
theorem average_split {sigma : ℝ → ℝ} (hs : Measurable sigma) {m T : ℝ} (hm : 0 < m) (hT : 0 < T) (E : ℝ) :
    average sigma m T = average (below sigma E) m T + average (above sigma E) m T := by
  have hx : 0 < m / T := by positivity
  rw [average_eq hs hm hT, average_eq (below_measurable hs E) hm hT, average_eq (above_measurable hs E) hm hT, ← mul_add]
  congr 1
  have hmeas : Measurable fun z => ENNReal.ofReal (below sigma E (m * z)
      * (z ^ 2 * (z ^ 2 - 4) * (Ioi (2 : ℝ)).indicator (fun z => besselK 1 (m / T * z)) z)) :=
    ENNReal.measurable_ofReal.comp (((below_measurable hs E).comp (by fun_prop)).mul
      ((by fun_prop : Measurable fun z : ℝ => z ^ 2 * (z ^ 2 - 4)).mul (besselK_one_measurable hx)))
  have hb : ∫⁻ z in Ioi (2 : ℝ), ENNReal.ofReal (tcsIntegrand (below sigma E) m (m / T) z)
      = ∫⁻ z in Ioi (2 : ℝ), ENNReal.ofReal (below sigma E (m * z)
      * (z ^ 2 * (z ^ 2 - 4) * (Ioi (2 : ℝ)).indicator (fun z => besselK 1 (m / T * z)) z)) := by
    refine setLIntegral_congr_fun measurableSet_Ioi fun z hz => ?_
    simp only [indicator_of_mem hz, tcsIntegrand]
  rw [hb, ← lintegral_add_left hmeas]
  refine setLIntegral_congr_fun measurableSet_Ioi fun z hz => ?_
  simp only [indicator_of_mem hz, tcsIntegrand, below, above]
  split_ifs <;> simp

/-- Fast collisions always contribute. -/
theorem average_above_pos {sigma : ℝ → ℝ} (hs : Measurable sigma) {m T E : ℝ} (hm : 0 < m) (hT : 0 < T)
    (hpos : ∀ e, 2 * m < e → 0 < sigma e) : 0 < average (above sigma E) m T := by
  have hx : 0 < m / T := by positivity
  have hK := besselK_two_pos hx
  rw [average_eq (above_measurable hs E) hm hT]
  refine ENNReal.mul_pos (by simpa using by positivity) ?_
  have hmeas : Measurable fun z => ENNReal.ofReal (above sigma E (m * z)
      * (z ^ 2 * (z ^ 2 - 4) * (Ioi (2 : ℝ)).indicator (fun z => besselK 1 (m / T * z)) z)) :=
    ENNReal.measurable_ofReal.comp (((above_measurable hs E).comp (by fun_prop)).mul
      ((by fun_prop : Measurable fun z : ℝ => z ^ 2 * (z ^ 2 - 4)).mul (besselK_one_measurable hx)))
  have hb : ∫⁻ z in Ioi (2 : ℝ), ENNReal.ofReal (tcsIntegrand (above sigma E) m (m / T) z)
      = ∫⁻ z in Ioi (2 : ℝ), ENNReal.ofReal (above sigma E (m * z)
      * (z ^ 2 * (z ^ 2 - 4) * (Ioi (2 : ℝ)).indicator (fun z => besselK 1 (m / T * z)) z)) := by
    refine setLIntegral_congr_fun measurableSet_Ioi fun z hz => ?_
    simp only [indicator_of_mem hz, tcsIntegrand]
  rw [hb]
  intro hzero
  rw [lintegral_eq_zero_iff hmeas] at hzero
  have hall : ∀ᵐ z ∂volume, z ∈ Ioi (max 2 (E / m)) → False := by
    filter_upwards [(ae_restrict_iff' measurableSet_Ioi).mp hzero] with z hz hmem
    have h2 : 2 < z := lt_of_le_of_lt (le_max_left _ _) hmem
    have h3 : E / m < z := lt_of_le_of_lt (le_max_right _ _) hmem
    have h4 := hz h2
    rw [div_lt_iff₀ hm] at h3
    have hk := besselK_one_pos (z := m / T * z) (by positivity)
    have hq := hpos (m * z) (by nlinarith)
    have hz4 : 0 < z ^ 2 - 4 := by nlinarith
    simp only [Pi.zero_apply, ENNReal.ofReal_eq_zero, indicator_of_mem (mem_Ioi.mpr h2), above] at h4
    rw [if_neg (by rw [not_le]; linarith)] at h4
    have : 0 < sigma (m * z) * (z ^ 2 * (z ^ 2 - 4) * besselK 1 (m / T * z)) := by positivity
    linarith
  have hvol : volume (Ioi (max 2 (E / m))) = 0 := by
    rw [ae_iff] at hall
    refine measure_mono_null (fun z hz => ?_) hall
    exact fun h => h hz
  simp at hvol

/-- **C295 (scalar and vector mediators).** For every measurable nonnegative cross section, mass and `x = m / T ≤ 300`,
`thermal_cross_section(x)` is the mean of cross section times relative velocity over pairs of particles from two
Maxwell-Boltzmann gases of temperature `m / x`, the collisions above `max(100 m, 50 T)` (scalar) or `max(150 m, 50 T)` (vector)
left out. Beyond `x = 300` the scalar one is zero and the vector one is the mean at temperature `m / 300`. -/
theorem mediator_averages_partial {sigma : ℝ → ℝ} (hs : Measurable sigma) (h0 : ∀ e, 0 ≤ sigma e) {m x : ℝ}
    (hm : 0 < m) (hx : 0 < x) :
    (x ≤ 300 → scalarTcs sigma m x = (average (below sigma (max (100 * m) (50 * (m / x)))) m (m / x)).toReal)
    ∧ (300 < x → scalarTcs sigma m x = 0)
    ∧ (x ≤ 300 → vectorTcs sigma m x = (average (below sigma (max (150 * m) (50 * (m / x)))) m (m / x)).toReal)
    ∧ (300 < x → vectorTcs sigma m x = (average (below sigma (150 * m)) m (m / 300)).toReal) := by
  have hmax : ∀ c y : ℝ, 0 < y → m * (if c > 50 / y then c else 50 / y) = max (c * m) (50 * (m / y)) := by
    intro c y hy
    split_ifs with h
    · rw [max_eq_left, mul_comm]
      rw [gt_iff_lt, div_lt_iff₀ hy] at h
      rw [← mul_div_assoc, div_le_iff₀ hy]
      nlinarith
    · rw [max_eq_right]
      · ring
      · rw [gt_iff_lt, not_lt, le_div_iff₀ hy] at h
        rw [← mul_div_assoc, le_div_iff₀ hy]
        nlinarith
  have hge : ∀ c y : ℝ, 2 ≤ c → 2 ≤ if c > 50 / y then c else 50 / y := by
    intro c y hc
    split_ifs with h <;> linarith
  refine ⟨fun h => ?_, fun h => ?_, fun h => ?_, fun h => ?_⟩
  · unfold scalarTcs
    rw [if_neg (by linarith), cut_average hs h0 hm hx (hge _ _ (by norm_num)), hmax 100 x hx]
  · unfold scalarTcs
    rw [if_pos h]
  · unfold vectorTcs
    have : (if x < 300 then x else 300) = x := by split_ifs <;> linarith
    simp only [this]
    rw [cut_average hs h0 hm hx (hge _ _ (by norm_num)), hmax 150 x hx]
  · unfold vectorTcs
    have : (if x < 300 then x else 300) = 300 := by split_ifs <;> linarith
    simp only [this]
    rw [cut_average hs h0 hm (by norm_num) (hge _ _ (by norm_num)), hmax 150 300 (by norm_num), max_eq_left]
    linarith

/-- **C295 (models without their own).** Up to `x = 25` the generic function is the mean over the collisions below `50 T`; from
`x = 25` on it uses the cross section below the threshold `2 m` only. -/
theorem generic_average_partial {sigma : ℝ → ℝ} (hs : Measurable sigma) (h0 : ∀ e, 0 ≤ sigma e) {m x : ℝ}
    (hm : 0 < m) (hx : 0 < x) :
    (x ≤ 25 → genericTcs sigma m x = (average (below sigma (50 * (m / x))) m (m / x)).toReal)
    ∧ (25 ≤ x → (∀ e, e < 2 * m → sigma e = 0) → genericTcs sigma m x = 0) := by
  constructor
  · intro h
    unfold genericTcs
    rw [if_neg (by linarith), cut_average hs h0 hm hx (by rw [le_div_iff₀ hx]; linarith),
      show m * (50 / x) = 50 * (m / x) by ring]
  · intro h hz
    unfold genericTcs
    split_ifs
    · rfl
    · have hle : 50 / x ≤ 2 := by rw [div_le_iff₀ hx]; linarith
      rw [intervalIntegral.integral_symm, intervalIntegral.integral_of_le hle]
      have hzero : ∀ z ∈ Ioc (50 / x) 2, tcsIntegrand sigma m x z = 0 := by
        intro z hz'
        unfold tcsIntegrand
        rcases eq_or_lt_of_le hz'.2 with h2 | h2
        · rw [h2]; norm_num
        · rw [hz _ (by nlinarith), zero_mul]
      rw [setIntegral_congr_fun measurableSet_Ioc hzero]
      simp

/-- The cut always loses something: if the cross section is positive above threshold, every one of the three functions is
strictly below the mean, at every `x`. -/
theorem cut_loses {sigma : ℝ → ℝ} (hs : Measurable sigma) (h0 : ∀ e, 0 ≤ sigma e) {m x : ℝ} (hm : 0 < m) (hx : 0 < x)
    (hpos : ∀ e, 2 * m < e → 0 < sigma e) :
    ENNReal.ofReal (scalarTcs sigma m x) < average sigma m (m / x)
    ∧ (x ≤ 300 → ENNReal.ofReal (vectorTcs sigma m x) < average sigma m (m / x))
    ∧ (x ≤ 25 → ENNReal.ofReal (genericTcs sigma m x) < average sigma m (m / x)) := by
  have hT : 0 < m / x := by positivity
  have hcut : ∀ E, ENNReal.ofReal (average (below sigma E) m (m / x)).toReal < average sigma m (m / x) := by
    intro E
    have hp := average_above_pos (E := E) hs hm hT hpos
    rw [average_split hs hm hT E]
    by_cases ht : average (below sigma E) m (m / x) = ⊤
    · rw [ht]; simp
    · rw [ENNReal.ofReal_toReal ht]
      exact ENNReal.lt_add_right ht hp.ne'
  obtain ⟨h1, h2, h3, -⟩ := mediator_averages_partial hs h0 hm hx
  refine ⟨?_, fun h => ?_, fun h => ?_⟩
  · rcases le_or_gt x 300 with h | h
    · rw [h1 h]; exact hcut _
    · rw [h2 h, ENNReal.ofReal_zero]
      have := hcut 0
      exact lt_of_le_of_lt bot_le this
  · rw [h3 h]; exact hcut _
  · rw [(generic_average_partial hs h0 hm hx).1 h]; exact hcut _

/-- The mean is finite for bounded cross sections, so that the values above are those of convergent integrals. -/
theorem average_bounded {sigma : ℝ → ℝ} {m T M : ℝ} (hm : 0 < m) (hT : 0 < T) (hM : ∀ e, sigma e ≤ M) (h0 : 0 ≤ M) :
    average sigma m T ≤ ENNReal.ofReal (2 * M) := by
  obtain ⟨hi, hv⟩ := momentum_integral hm (b := 1 / T) (by positivity)
  have hb : ∀ p, p ^ 2 * Real.exp (-(1 / T * Real.sqrt (p ^ 2 + m ^ 2))) = p ^ 2 * Real.exp (-(energy m p / T)) := by
    intro p
    unfold energy
    rw [show 1 / T * Real.sqrt (p ^ 2 + m ^ 2) = Real.sqrt (p ^ 2 + m ^ 2) / T by ring]
  simp only [hb] at hi hv
  have hK := besselK_two_pos (z := 1 / T * m) (by positivity)
  obtain ⟨N, hN⟩ : ∃ N, N = ∫ p in Ioi (0 : ℝ), p ^ 2 * Real.exp (-(energy m p / T)) := ⟨_, rfl⟩
  have hNpos : 0 < N := by rw [hN, hv]; positivity
  have hNl : ∫⁻ p in Ioi (0 : ℝ), ENNReal.ofReal (p ^ 2 * Real.exp (-(energy m p / T))) = ENNReal.ofReal N := by
    rw [hN, ofReal_integral_eq_lintegral_ofReal hi (ae_of_all _ fun p => by positivity)]
  have hden : ∫ p in Ioi (0 : ℝ), 4 * Real.pi * p ^ 2 * Real.exp (-(energy m p / T)) = 4 * Real.pi * N := by
    rw [hN, ← integral_const_mul]
    simp only [mul_assoc]
  unfold average
  rw [hden]
  refine ENNReal.div_le_of_le_mul ?_
  have hpt : ∀ p ∈ Ioi (0 : ℝ), ∀ q ∈ Ioi (0 : ℝ), ∀ c ∈ Icc (-1 : ℝ) 1,
      ENNReal.ofReal (4 * Real.pi * p ^ 2 * (2 * Real.pi * q ^ 2) * Real.exp (-((energy m p + energy m q) / T))
        * (sigma (Real.sqrt (mandelstam m p q c)) * velocity m p q c))
      ≤ ENNReal.ofReal (8 * Real.pi ^ 2 * (2 * M)) * (ENNReal.ofReal (p ^ 2 * Real.exp (-(energy m p / T)))
        * ENNReal.ofReal (q ^ 2 * Real.exp (-(energy m q / T)))) := by
    intro p hp q hq c hc
    have hp0 : 0 < p := hp
    have hq0 : 0 < q := hq
    have hE1 : 0 < energy m p := Real.sqrt_pos.mpr (by positivity)
    have hE2 : 0 < energy m q := Real.sqrt_pos.mpr (by positivity)
    have hpE : p ≤ energy m p := Real.le_sqrt_of_sq_le (by nlinarith)
    have hqE : q ≤ energy m q := Real.le_sqrt_of_sq_le (by nlinarith)
    have hpq : p * q ≤ energy m p * energy m q := mul_le_mul hpE hqE hq0.le hE1.le
    have hvel : velocity m p q c ≤ 2 := by
      unfold velocity
      rw [div_le_iff₀ (by positivity)]
      have habs : |energy m p * energy m q - p * q * c| ≤ 2 * (energy m p * energy m q) := by
        have : 0 < p * q := by positivity
        rw [abs_le]; constructor <;> nlinarith [hc.1, hc.2]
      refine le_trans (Real.sqrt_le_sqrt (sub_le_self _ (by positivity))) ?_
      rw [Real.sqrt_sq_eq_abs]
      exact habs
    have hv0 : 0 ≤ velocity m p q c := by unfold velocity; positivity
    rw [← ENNReal.ofReal_mul (by positivity), ← ENNReal.ofReal_mul (by positivity)]
    refine ENNReal.ofReal_le_ofReal ?_
    have hexp : Real.exp (-((energy m p + energy m q) / T))
        = Real.exp (-(energy m p / T)) * Real.exp (-(energy m q / T)) := by
      rw [← Real.exp_add]; congr 1; ring
    have hsv : sigma (Real.sqrt (mandelstam m p q c)) * velocity m p q c ≤ 2 * M := by
      calc _ ≤ M * velocity m p q c := mul_le_mul_of_nonneg_right (hM _) hv0
        _ ≤ M * 2 := mul_le_mul_of_nonneg_left hvel h0
        _ = _ := by ring
    rw [hexp]
    calc _ ≤ 4 * Real.pi * p ^ 2 * (2 * Real.pi * q ^ 2)
          * (Real.exp (-(energy m p / T)) * Real.exp (-(energy m q / T))) * (2 * M) :=
          mul_le_mul_of_nonneg_left hsv (by positivity)
      _ = _ := by ring
  calc _ ≤ ∫⁻ p in Ioi (0 : ℝ), ∫⁻ q in Ioi (0 : ℝ), ∫⁻ c in Icc (-1 : ℝ) 1,
        ENNReal.ofReal (8 * Real.pi ^ 2 * (2 * M)) * (ENNReal.ofReal (p ^ 2 * Real.exp (-(energy m p / T)))
        * ENNReal.ofReal (q ^ 2 * Real.exp (-(energy m q / T)))) := by
        refine setLIntegral_mono' measurableSet_Ioi fun p hp => ?_
        refine setLIntegral_mono' measurableSet_Ioi fun q hq => ?_
        exact setLIntegral_mono' measurableSet_Icc fun c hc => hpt p hp q hq c hc
    _ = ENNReal.ofReal (2 * M) * ENNReal.ofReal ((4 * Real.pi * N) ^ 2) := by
        simp only [setLIntegral_const, Real.volume_Icc, lintegral_const_mul' _ _ ENNReal.ofReal_ne_top,
          lintegral_mul_const' _ _ ENNReal.ofReal_ne_top, hNl]
        rw [← ENNReal.ofReal_mul hNpos.le, lintegral_mul_const' _ _ ENNReal.ofReal_ne_top, hNl,
          ← ENNReal.ofReal_mul (by positivity), ← ENNReal.ofReal_mul (by positivity), ← ENNReal.ofReal_mul (by positivity)]
        congr 1
        ring

/-- A constant cross section and one growing with the energy. -/
example : scalarTcs (fun _ => 1) 1 1 = (average (below (fun _ => 1) 100) 1 1).toReal
    ∧ vectorTcs (fun e => e ^ 2) 2 (1 / 4) = (average (below (fun e => e ^ 2) 400) 2 8).toReal
    ∧ genericTcs (fun _ => 1) 100 20 = (average (below (fun _ => 1) 250) 100 5).toReal := by
  refine ⟨?_, ?_, ?_⟩
  · rw [(mediator_averages_partial measurable_const (fun _ => zero_le_one) one_pos one_pos).1 (by norm_num)]
    norm_num
  · rw [(mediator_averages_partial (x := 1 / 4) (m := 2) (by fun_prop) (fun _ => by positivity) (by norm_num) (by norm_num)).2.2.1
      (by norm_num)]
    norm_num
  · rw [(generic_average_partial (x := 20) (m := 100) measurable_const (fun _ => zero_le_one) (by norm_num) (by norm_num)).1
      (by norm_num)]
    norm_num

/-- Two particles at rest relative to each other do not collide, two moving apart at right angles do. -/
example : velocity 4 3 3 1 = 0 ∧ velocity 4 3 3 0 = Real.sqrt (25 ^ 2 - 4 ^ 4) / 25 ∧ mandelstam 4 3 3 0 = 82 := by
  have h5 : energy 4 3 = 5 := by
    unfold energy
    rw [show (3 : ℝ) ^ 2 + 4 ^ 2 = 5 ^ 2 by norm_num, Real.sqrt_sq (by norm_num)]
  refine ⟨?_, ?_, ?_⟩
  · unfold velocity; rw [h5]; norm_num
  · unfold velocity; rw [h5]; norm_num
  · unfold mandelstam; rw [h5]; norm_num

end Hazma.ThermalAverage
