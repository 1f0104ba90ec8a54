import Verif.Props.MesonThree

/-!
# Form factors do not depend on the unit of energy (C317)

The fits are in GeV, the arguments in MeV.  The specifications below are the same amplitudes written in MeV
throughout, with the masses and widths of the fits and the dimensionful constants converted; no power of ten is
left in them.
-/

namespace Hazma.MesonThree

open Hazma.MesonFF (Couplings ci0 ci1 cs mPi0 mPi mEta mK mK0 mOmega)
open Hazma.Resonance (bwFW bwPwave beta2 gammaP)

/-! ### Propagators are functions of ratios -/

theorem cdiv_scale {c : ℂ} (hc : c ≠ 0) (a b : ℂ) : cdiv (c * a) (c * b) = cdiv a b := by
  unfold cdiv
  by_cases h : b = 0
  · simp [h]
  · rw [if_neg h, if_neg (mul_ne_zero hc h), mul_div_mul_left _ _ hc]

theorem sqrt_scale {c : ℝ} (hc : 0 < c) (s : ℝ) : √(c ^ 2 * s) = c * √s := by
  rw [Real.sqrt_mul (sq_nonneg c), Real.sqrt_sq hc.le]

theorem npSqrt_scale {c : ℝ} (hc : 0 < c) (s : ℝ) : npSqrt (c ^ 2 * s) = (npSqrt s).map (c * ·) := by
  have h : c ^ 2 * s < 0 ↔ s < 0 := by
    constructor
    · intro h; by_contra hs; push Not at hs; nlinarith [mul_nonneg (sq_nonneg c) hs]
    · intro h; exact mul_neg_of_pos_of_neg (by positivity) h
  unfold npSqrt
  by_cases hs : s < 0
  · simp [hs, h.mpr hs]
  · rw [if_neg hs, if_neg (fun x => hs (h.mp x)), sqrt_scale hc]; rfl

theorem bwFW_scale {c : ℝ} (hc : 0 < c) (s m w : ℝ) : bwFW (c ^ 2 * s) (c * m) (c * w) = bwFW s m w := by
  have hc' : ((c ^ 2 : ℝ) : ℂ) ≠ 0 := by exact_mod_cast (pow_pos hc 2).ne'
  unfold bwFW
  symm
  rw [← mul_div_mul_left _ _ hc']
  congr 1
  · push_cast; ring
  · push_cast; ring

theorem beta2_scale {c : ℝ} (hc : 0 < c) (s m1 m2 : ℝ) :
    beta2 (c ^ 2 * s) (c * m1) (c * m2) = beta2 s m1 m2 := by
  have hc' : c ^ 2 ≠ 0 := by positivity
  have e1 : (c * m1 + c * m2) ^ 2 / (c ^ 2 * s) = (m1 + m2) ^ 2 / s := by
    rw [← mul_div_mul_left _ s hc']; ring_nf
  have e2 : (c * m1 - c * m2) ^ 2 / (c ^ 2 * s) = (m1 - m2) ^ 2 / s := by
    rw [← mul_div_mul_left _ s hc']; ring_nf
  unfold beta2
  rw [e1, e2]

theorem gammaP_scale {c : ℝ} (hc : 0 < c) (s m w m1 m2 : ℝ) :
    gammaP (c ^ 2 * s) (c * m) (c * w) (c * m1) (c * m2) = c * gammaP s m w m1 m2 := by
  unfold gammaP
  rw [beta2_scale hc, show (c * m) ^ 2 = c ^ 2 * m ^ 2 by ring, beta2_scale hc, sqrt_scale hc,
    mul_div_mul_left _ _ hc.ne']
  ring

theorem bwPwave_scale {c : ℝ} (hc : 0 < c) (s m w m1 m2 : ℝ) :
    bwPwave (c ^ 2 * s) (c * m) (c * w) (c * m1) (c * m2) = bwPwave s m w m1 m2 := by
  have hc' : ((c ^ 2 : ℝ) : ℂ) ≠ 0 := by exact_mod_cast (pow_pos hc 2).ne'
  unfold bwPwave
  rw [gammaP_scale hc, sqrt_scale hc]
  symm
  rw [← mul_div_mul_left _ _ hc']
  congr 1
  · push_cast; ring
  · push_cast; ring

/-! ### A pion and two kaons -/

/-- Specification, MeV: the isospin amplitude of three resonances; amplitudes of the fit are in GeV⁻¹. -/
noncomputable def isoMeV (m w a p : Fin 3 → ℝ) (q c : ℝ) : ℂ :=
  ∑ i, (c : ℂ) * ((a i / 1000 : ℝ) : ℂ) * Complex.exp (Complex.I * (p i : ℂ)) *
    bwFW (q ^ 2) (1000 * m i) (1000 * w i)

/-- Specification, MeV: propagator of the `K*(892)`. -/
noncomputable def kstarMeV (s m1 m2 : ℝ) : ℂ := bwPwave s 895.6 47 m1 m2 / ((895.6 ^ 2 : ℝ) : ℂ)

theorem iso_units (f : FitKK) (q : ℝ) (g : Couplings) :
    isoA0 f (1e-3 * q) g
        = 1000 * isoMeV f.scalarMasses f.scalarWidths f.scalarAmps f.scalarPhases q (-3 * g.s)
    ∧ isoA1 f (1e-3 * q) g
        = 1000 * isoMeV f.vectorMasses f.vectorWidths f.vectorAmps f.vectorPhases q (g.u - g.d) := by
  have key : ∀ m w : ℝ, bwFW ((1e-3 * q) ^ 2) m w = bwFW (q ^ 2) (1000 * m) (1000 * w) := by
    intro m w
    rw [← bwFW_scale (c := 1000) (by norm_num) _ m w]
    congr 1
    norm_num
    ring
  constructor
  · unfold isoA0 isoMeV
    rw [Finset.mul_sum]
    refine Finset.sum_congr rfl fun i _ => ?_
    rw [key]; push_cast; ring
  · unfold isoA1 isoMeV
    rw [Finset.mul_sum]
    refine Finset.sum_congr rfl fun i _ => ?_
    rw [key]; push_cast; ring

theorem kstar_units (s m1 m2 : ℝ) :
    kstar (1e-6 * s) (m1 * 1e-3) (m2 * 1e-3) = 1000000 * kstarMeV s m1 m2 := by
  have h : bwPwave (1e-6 * s) ksMass ksWidth (m1 * 1e-3) (m2 * 1e-3) = bwPwave s 895.6 47 m1 m2 := by
    rw [← bwPwave_scale (c := 1000) (by norm_num)]
    unfold ksMass ksWidth
    congr 1 <;> norm_num <;> ring
  unfold kstar kstarMeV
  rw [h]
  unfold ksMass
  push_cast
  norm_num
  ring

/-- **C317.** The form factors of a pion and two kaons: both kaon-pion pairs resonate in a `K*` of 895.6 MeV
and width 47 MeV, the isospin amplitudes have resonances at the masses of the fit in MeV, and the coupling of
the `K*` has no dimension. -/
theorem kk_units (mode : KKMode) (f : FitKK) (q s t : ℝ) (g : Couplings) :
    let a0 := isoMeV f.scalarMasses f.scalarWidths f.scalarAmps f.scalarPhases q (-3 * g.s)
    let a1 := isoMeV f.vectorMasses f.vectorWidths f.vectorAmps f.vectorPhases q (g.u - g.d)
    let k := 2 * (f.gKs : ℂ) / ((√6 : ℝ) : ℂ)
    piKK mode f q s t g = (match mode with
      | .neutral => k * (a0 + a1) * (kstarMeV s mK0 mPi0 + kstarMeV t mK0 mPi0)
      | .charged => k * (a0 - a1) * (kstarMeV s mK mPi0 + kstarMeV t mK mPi0)
      | .mixed => k * (a0 - a1) * kstarMeV s mK mPi + k * (a0 + a1) * kstarMeV t mK0 mPi) := by
  obtain ⟨h0, h1⟩ := iso_units f q g
  intro a0 a1 k
  cases mode <;> simp only [piKK, kkCore, kkGeV, kkMasses, h0, h1, kstar_units] <;>
    simp only [a0, a1, k] <;> norm_num <;> ring

/-! ### Two pions and an eta -/

/-- Specification: propagator of a resonance with the width of a p-wave decay into two particles of mass
`mpi`, `m²/(m² - s - i √s Γ(s))` with `Γ(s) = Γ m²/s ((s - 4 mpi²)/(m² - 4 mpi²))^{3/2}`. -/
noncomputable def rho (m w mpi s : ℝ) : Option ℂ :=
  if s = 0 ∨ m ^ 2 - 4 * mpi ^ 2 = 0 then none
  else (pow15 ((s - 4 * mpi ^ 2) / (m ^ 2 - 4 * mpi ^ 2))).bind fun r =>
    (npSqrt s).bind fun rs =>
      cdiv ((m ^ 2 : ℝ) : ℂ) (((m ^ 2 - s : ℝ) : ℂ) - Complex.I * ((rs * (w * m ^ 2 / s * r) : ℝ) : ℂ))

/-- Specification: propagator with a width proportional to `s`. -/
noncomputable def excited (m w s : ℝ) : Option ℂ :=
  if m = 0 then none
  else (npSqrt s).bind fun rs =>
    cdiv ((m ^ 2 : ℝ) : ℂ) (((m ^ 2 - s : ℝ) : ℂ) - Complex.I * ((rs * (w * s / m ^ 2) : ℝ) : ℂ))

theorem rho_scale {c : ℝ} (hc : 0 < c) (m w mpi s : ℝ) :
    rho (c * m) (c * w) (c * mpi) (c ^ 2 * s) = rho m w mpi s := by
  have hc2 : c ^ 2 ≠ 0 := by positivity
  have hc' : ((c ^ 2 : ℝ) : ℂ) ≠ 0 := by exact_mod_cast hc2
  have e : (c * m) ^ 2 - 4 * (c * mpi) ^ 2 = c ^ 2 * (m ^ 2 - 4 * mpi ^ 2) := by ring
  have e' : c ^ 2 * s - 4 * (c * mpi) ^ 2 = c ^ 2 * (s - 4 * mpi ^ 2) := by ring
  have hcond : (c ^ 2 * s = 0 ∨ (c * m) ^ 2 - 4 * (c * mpi) ^ 2 = 0)
      ↔ (s = 0 ∨ m ^ 2 - 4 * mpi ^ 2 = 0) := by
    rw [e, mul_eq_zero, mul_eq_zero]; simp [hc.ne']
  unfold rho
  by_cases h : s = 0 ∨ m ^ 2 - 4 * mpi ^ 2 = 0
  · rw [if_pos h, if_pos (hcond.mpr h)]
  · rw [if_neg h, if_neg (fun x => h (hcond.mp x)), e, e', mul_div_mul_left _ _ hc2]
    congr 1
    funext r
    rw [npSqrt_scale hc, Option.bind_map]
    congr 1
    funext rs
    show cdiv _ _ = _
    have hw : c * w * (c * m) ^ 2 / (c ^ 2 * s) = c * (w * m ^ 2 / s) := by
      rw [show c * w * (c * m) ^ 2 = c ^ 2 * (c * (w * m ^ 2)) by ring, mul_div_mul_left _ _ hc2,
        mul_div_assoc]
    rw [hw]
    symm
    rw [← cdiv_scale hc']
    congr 1
    · push_cast; ring
    · push_cast; ring

theorem excited_scale {c : ℝ} (hc : 0 < c) (m w s : ℝ) :
    excited (c * m) (c * w) (c ^ 2 * s) = excited m w s := by
  have hc2 : c ^ 2 ≠ 0 := by positivity
  have hc' : ((c ^ 2 : ℝ) : ℂ) ≠ 0 := by exact_mod_cast hc2
  unfold excited
  by_cases h : m = 0
  · simp [h]
  · rw [if_neg h, if_neg (mul_ne_zero hc.ne' h), npSqrt_scale hc, Option.bind_map]
    congr 1
    funext rs
    show cdiv _ _ = _
    have hw : c * w * (c ^ 2 * s) / (c * m) ^ 2 = c * (w * s / m ^ 2) := by
      rw [show c * w * (c ^ 2 * s) = c ^ 2 * (c * (w * s)) by ring, mul_pow, mul_div_mul_left _ _ hc2,
        mul_div_assoc]
    rw [hw]
    symm
    rw [← cdiv_scale hc']
    congr 1
    · push_cast; ring
    · push_cast; ring

/-- Specification, MeV: `F(s) G(q²)` with the rho in the pion pair, the sum of the rho and three excited
states normalised to one in the total energy, and the constant of the chiral anomaly,
`k/(4 √3 π² fπ³)` with `fπ = 92.2138` MeV. -/
noncomputable def etaMeV (k : ℝ) (f : FitEta) (q s : ℝ) (g : Couplings) : Option ℂ :=
  let pole (i : Fin 4) : Option ℂ :=
    if i = 0 then rho (1000 * f.masses 0) (1000 * f.widths 0) mPi (q ^ 2)
    else excited (1000 * f.masses i) (1000 * f.widths i) (q ^ 2)
  (rho (1000 * f.masses 0) (1000 * f.widths 0) mPi s).bind fun b =>
    (sum4 fun i => (cdiv (etaAmp f i) (∑ j, etaAmp f j)).bind fun a => (pole i).map fun z => a * z).map
      fun z => ((k / (4 * √3 * Real.pi ^ 2 * 92.2138 ^ 3) * (g.u - g.d) : ℝ) : ℂ) * b * z

theorem eta_core_units (k : ℝ) (f : FitEta) (q s : ℝ) (g : Couplings) :
    (etaCore (k / (4 * √3 * Real.pi ^ 2 * gFpi ^ 3)) f (q * 1e-3) (s * 1e-6) g).map (fun z => z * 1e-9)
      = etaMeV k f q s g := by
  have h0 : ∀ s, etaBw0 f (s * 1e-6) = rho (1000 * f.masses 0) (1000 * f.widths 0) mPi s := by
    intro s
    have : etaBw0 f (s * 1e-6) = rho (f.masses 0) (f.widths 0) gPi (s * 1e-6) := rfl
    rw [this, ← rho_scale (c := 1000) (by norm_num)]
    unfold gPi
    congr 1 <;> norm_num <;> ring
  have hq : (q * 1e-3) ^ 2 = q ^ 2 * 1e-6 := by norm_num; ring
  have hi : ∀ i, etaBw f ((q * 1e-3) ^ 2) i
      = if i = 0 then rho (1000 * f.masses 0) (1000 * f.widths 0) mPi (q ^ 2)
        else excited (1000 * f.masses i) (1000 * f.widths i) (q ^ 2) := by
    intro i
    rw [hq]
    unfold etaBw
    split_ifs with h h'
    · exact h0 _
    · simp [excited, h']
    · have : (npSqrt (q ^ 2 * 1e-6)).bind (fun rs => cdiv ((f.masses i ^ 2 : ℝ) : ℂ)
          (((f.masses i ^ 2 - q ^ 2 * 1e-6 : ℝ) : ℂ)
            - Complex.I * ((rs * (f.widths i * (q ^ 2 * 1e-6) / f.masses i ^ 2) : ℝ) : ℂ)))
          = excited (f.masses i) (f.widths i) (q ^ 2 * 1e-6) := by
        unfold excited; rw [if_neg h']
      refine this.trans ?_
      rw [← excited_scale (c := 1000) (by norm_num)]
      congr 1
      norm_num
      ring
  have hs : etaAmp f 0 + etaAmp f 1 + etaAmp f 2 + etaAmp f 3 = ∑ j, etaAmp f j := by
    rw [Fin.sum_univ_four]
  have hk : k / (4 * √3 * Real.pi ^ 2 * gFpi ^ 3) * (1e-9 : ℝ)
      = k / (4 * √3 * Real.pi ^ 2 * 92.2138 ^ 3) := by
    have h3 : √3 ≠ 0 := by positivity
    have hpi := Real.pi_ne_zero
    unfold gFpi
    field_simp
    norm_num
  unfold etaCore etaMeV
  simp only [h0, hi, hs, Option.map_bind]
  congr 1
  funext b
  simp only [Function.comp_apply, Option.map_map]
  congr 1
  funext z
  simp only [Function.comp_apply]
  rw [← hk]
  push_cast
  ring

/-- **C317.** The form factors of two pions and an eta or eta prime in MeV. -/
theorem eta_units (f : FitEta) (q s : ℝ) (g : Couplings) :
    (mEta + 2 * mPi ≤ q → piPiEta f q s g = etaMeV 1 f q s g)
    ∧ piPiEtap f q s g = etaMeV √2 f q s g := by
  constructor
  · intro h
    unfold piPiEta
    rw [if_neg (by unfold etaThreshold; linarith), ← eta_core_units]
    rfl
  · rw [← eta_core_units]
    rfl

/-! ### Three pions -/

/-- Specification: propagator `m²/(s - m² + i √s Γ(s))` with the width of a p-wave decay into particles of
masses `m1` and `m2`. -/
noncomputable def rhoPair (m w m1 m2 s : ℝ) : Option ℂ :=
  if s ≤ 0 ∨ m ^ 2 = (m1 + m2) ^ 2 ∨ (s - (m1 + m2) ^ 2) / (m ^ 2 - (m1 + m2) ^ 2) < 0 then none
  else
    let w' := w * m ^ 2 / s * ((s - (m1 + m2) ^ 2) / (m ^ 2 - (m1 + m2) ^ 2)) ^ (3 / 2 : ℝ)
    cdiv ((m ^ 2 : ℝ) : ℂ) (((s - m ^ 2 : ℝ) : ℂ) + Complex.I * ((√s * w' : ℝ) : ℂ))

/-- Specification: propagator `m²/(m² - s - i m Γ)`. -/
noncomputable def narrow (m w s : ℝ) : Option ℂ :=
  cdiv ((m ^ 2 : ℝ) : ℂ) (((m ^ 2 - s : ℝ) : ℂ) - Complex.I * ((m * w : ℝ) : ℂ))

theorem bwRho_eq (s m w m1 m2 : ℝ) : bwRho s m w m1 m2 = rhoPair m w m1 m2 s := by
  unfold bwRho gammaRho rhoPair npSqrt pow15
  by_cases h1 : m ^ 2 = (m1 + m2) ^ 2
  · by_cases hs : s < 0 <;> simp [h1, hs]
  · have h1' : m ^ 2 - (m1 + m2) ^ 2 ≠ 0 := sub_ne_zero.mpr h1
    rcases lt_trichotomy s 0 with hs | hs | hs
    · simp [hs, hs.le]
    · simp [hs, h1']
    · by_cases hr : (s - (m1 + m2) ^ 2) / (m ^ 2 - (m1 + m2) ^ 2) < 0
      · simp [hs.ne', not_lt.mpr hs.le, h1', hr]
      · simp [hs.ne', not_lt.mpr hs.le, not_le.mpr hs, h1, h1', hr]

theorem rhoPair_scale {c : ℝ} (hc : 0 < c) (m w m1 m2 s : ℝ) :
    rhoPair (c * m) (c * w) (c * m1) (c * m2) (c ^ 2 * s) = rhoPair m w m1 m2 s := by
  have hc2 : 0 < c ^ 2 := by positivity
  have hc' : ((c ^ 2 : ℝ) : ℂ) ≠ 0 := by exact_mod_cast hc2.ne'
  have e1 : (c * m1 + c * m2) ^ 2 = c ^ 2 * (m1 + m2) ^ 2 := by ring
  have e2 : (c * m) ^ 2 = c ^ 2 * m ^ 2 := by ring
  have e3 : (c ^ 2 * s - c ^ 2 * (m1 + m2) ^ 2) / (c ^ 2 * m ^ 2 - c ^ 2 * (m1 + m2) ^ 2)
      = (s - (m1 + m2) ^ 2) / (m ^ 2 - (m1 + m2) ^ 2) := by
    rw [← mul_sub, ← mul_sub, mul_div_mul_left _ _ hc2.ne']
  have e4 : c ^ 2 * s ≤ 0 ↔ s ≤ 0 := by
    constructor
    · intro h; by_contra hs; push Not at hs; nlinarith [mul_pos hc2 hs]
    · intro h; exact mul_nonpos_of_nonneg_of_nonpos hc2.le h
  have e5 : c ^ 2 * m ^ 2 = c ^ 2 * (m1 + m2) ^ 2 ↔ m ^ 2 = (m1 + m2) ^ 2 := mul_right_inj' hc2.ne'
  unfold rhoPair
  simp only [e1, e2, e3, e4, e5]
  split_ifs with h
  · rfl
  · have hw : c * w * (c ^ 2 * m ^ 2) / (c ^ 2 * s) = c * (w * m ^ 2 / s) := by
      rw [show c * w * (c ^ 2 * m ^ 2) = c ^ 2 * (c * (w * m ^ 2)) by ring, mul_div_mul_left _ _ hc2.ne',
        mul_div_assoc]
    rw [hw, sqrt_scale hc]
    symm
    rw [← cdiv_scale hc']
    congr 1
    · push_cast; ring
    · push_cast; ring

theorem narrow_scale {c : ℝ} (hc : 0 < c) (m w s : ℝ) :
    narrow (c * m) (c * w) (c ^ 2 * s) = narrow m w s := by
  have hc' : ((c ^ 2 : ℝ) : ℂ) ≠ 0 := by exact_mod_cast (pow_pos hc 2).ne'
  unfold narrow
  symm
  rw [← cdiv_scale hc']
  congr 1
  · push_cast; ring
  · push_cast; ring

/-- Specification, MeV: the sum of the propagators of a rho in each of the three pairs of pions. -/
noncomputable def pairsMeV (m w q s t : ℝ) : Option ℂ := do
  let a ← rhoPair (1000 * m) (1000 * w) mPi mPi s
  let b ← rhoPair (1000 * m) (1000 * w) mPi0 mPi t
  let c ← rhoPair (1000 * m) (1000 * w) mPi0 mPi (q ^ 2 + mPi0 ^ 2 + 2 * mPi ^ 2 - s - t)
  return a + b + c

/-- Specification, MeV: the amplitude through omega and phi; the couplings of the fit are in GeV⁻³. -/
noncomputable def isoZeroMeV (f : Fit3) (q s t c0 cstr : ℝ) : Option ℂ := do
  let b0 ← narrow (1000 * f.masses 0) (1000 * f.widths 0) (q ^ 2)
  let b1 ← narrow (1000 * f.masses 1) (1000 * f.widths 1) (q ^ 2)
  let b2 ← narrow (1000 * f.masses 2) (1000 * f.widths 2) (q ^ 2)
  let b3 ← narrow (1000 * f.masses 3) (1000 * f.widths 3) (q ^ 2)
  let h0 ← pairsMeV (f.massesRho0 0) (f.widthsRho0 0) q s t
  let h1 ← pairsMeV (f.massesRho0 1) (f.widthsRho0 1) q s t
  let h2 ← pairsMeV (f.massesRho0 2) (f.widthsRho0 2) q s t
  let k (x : ℝ) : ℂ := ((x / 1000 ^ 3 : ℝ) : ℂ)
  return (c0 : ℂ) * (k (f.couplings 0) * b0 + k (f.couplings 2) * b2 + k (f.couplings 3) * b3) * h0
    + (cstr : ℂ) * k (f.couplings 1) * b1 * h0 + (cstr : ℂ) * k (f.couplingsRho0 1) * b1 * h1
    + (c0 : ℂ) * k (f.couplingsRho0 2) * b3 * h2

/-- Specification, MeV: the amplitude through omega and rho; the coupling `f.couplingPre` is in GeV⁻¹. -/
noncomputable def isoOneMeV (f : Fit3) (q s c1 : ℝ) : Option ℂ :=
  if c1 = 0 then some 0
  else do
    let a ← rhoPair (1000 * f.massesRho1 0) (1000 * f.widthsRho1 0) mPi mPi s
    let b ← rhoPair (1000 * f.massesRho1 1) (1000 * f.widthsRho1 1) mPi mPi s
    let w ← narrow (1000 * f.massOmega) (1000 * f.widthOmega) (q ^ 2)
    let m (x : ℝ) : ℂ := ((1000 * x : ℝ) : ℂ)
    return (c1 : ℂ) * ((f.couplingPre / 1000 * f.couplingPiPi : ℝ) : ℂ) * m (f.massesRho1 0) ^ 2
      * (a / m (f.massesRho1 0) ^ 2 + (f.sigma : ℂ) * b / m (f.massesRho1 1) ^ 2) * (w / m f.massOmega ^ 2)

theorem iso_zero_units (f : Fit3) (q s t c0 cstr : ℝ) :
    (isoZero f (q ^ 2 * 1e-6) (s * 1e-6) (t * 1e-6)
        (thirdInvariant (q ^ 2 * 1e-6) (s * 1e-6) (t * 1e-6)) c0 cstr).map (fun z => z * 1e-9)
      = isoZeroMeV f q s t c0 cstr := by
  have hn : ∀ m w, bwFW? (q ^ 2 * 1e-6) m w = narrow (1000 * m) (1000 * w) (q ^ 2) := by
    intro m w
    rw [show bwFW? (q ^ 2 * 1e-6) m w = narrow m w (q ^ 2 * 1e-6) from rfl,
      ← narrow_scale (c := 1000) (by norm_num)]
    congr 1; norm_num; ring
  have hr : ∀ x m w m1 m2, bwRho (x * 1e-6) m w (m1 * 1e-3) (m2 * 1e-3)
      = rhoPair (1000 * m) (1000 * w) m1 m2 x := by
    intro x m w m1 m2
    rw [bwRho_eq, ← rhoPair_scale (c := 1000) (by norm_num)]
    congr 1 <;> norm_num <;> ring
  have hu : thirdInvariant (q ^ 2 * 1e-6) (s * 1e-6) (t * 1e-6)
      = (q ^ 2 + mPi0 ^ 2 + 2 * mPi ^ 2 - s - t) * 1e-6 := by
    unfold thirdInvariant gPi gPi0; norm_num; ring
  have hh : ∀ m w, hrho (s * 1e-6) (t * 1e-6) (thirdInvariant (q ^ 2 * 1e-6) (s * 1e-6) (t * 1e-6)) m w
      = pairsMeV m w q s t := by
    intro m w
    rw [hu]
    unfold hrho pairsMeV gPi gPi0
    rw [hr, hr, hr]
    cases rhoPair (1000 * m) (1000 * w) mPi mPi s <;> cases rhoPair (1000 * m) (1000 * w) mPi0 mPi t <;>
      cases rhoPair (1000 * m) (1000 * w) mPi0 mPi (q ^ 2 + mPi0 ^ 2 + 2 * mPi ^ 2 - s - t) <;>
      simp [oadd]
  unfold isoZero isoZeroMeV
  simp only [hn, hh, sum4]
  generalize narrow (1000 * f.masses 0) (1000 * f.widths 0) (q ^ 2) = b0
  generalize narrow (1000 * f.masses 1) (1000 * f.widths 1) (q ^ 2) = b1
  generalize narrow (1000 * f.masses 2) (1000 * f.widths 2) (q ^ 2) = b2
  generalize narrow (1000 * f.masses 3) (1000 * f.widths 3) (q ^ 2) = b3
  generalize pairsMeV (f.massesRho0 0) (f.widthsRho0 0) q s t = h0
  generalize pairsMeV (f.massesRho0 1) (f.widthsRho0 1) q s t = h1
  generalize pairsMeV (f.massesRho0 2) (f.widthsRho0 2) q s t = h2
  rcases b0 with _ | b0
  · simp [oadd]
  rcases b1 with _ | b1
  · simp [oadd]
  rcases b2 with _ | b2
  · simp [oadd]
  rcases b3 with _ | b3
  · simp [oadd]
  rcases h0 with _ | h0
  · simp [oadd]
  rcases h1 with _ | h1
  · simp [oadd]
  rcases h2 with _ | h2
  · simp [oadd]
  simp [oadd]
  ring

theorem iso_one_units (f : Fit3) (q s c1 : ℝ) (h0 : f.massesRho1 0 ≠ 0) (h1 : f.massesRho1 1 ≠ 0)
    (hw : f.massOmega ≠ 0) :
    (isoOne f (q ^ 2 * 1e-6) (s * 1e-6) c1).map (fun z => z * 1e-9) = isoOneMeV f q s c1 := by
  have hn : ∀ m w, bwFW? (q ^ 2 * 1e-6) m w = narrow (1000 * m) (1000 * w) (q ^ 2) := by
    intro m w
    rw [show bwFW? (q ^ 2 * 1e-6) m w = narrow m w (q ^ 2 * 1e-6) from rfl,
      ← narrow_scale (c := 1000) (by norm_num)]
    congr 1; norm_num; ring
  have hr : ∀ m w, bwRho (s * 1e-6) m w gPi gPi = rhoPair (1000 * m) (1000 * w) mPi mPi s := by
    intro m w
    rw [bwRho_eq, ← rhoPair_scale (c := 1000) (by norm_num)]
    unfold gPi
    congr 1 <;> norm_num <;> ring
  unfold isoOne isoOneMeV
  by_cases hc : c1 = 0
  · simp [hc]
  simp only [if_neg hc, hn, hr]
  generalize rhoPair (1000 * f.massesRho1 0) (1000 * f.widthsRho1 0) mPi mPi s = a
  generalize rhoPair (1000 * f.massesRho1 1) (1000 * f.widthsRho1 1) mPi mPi s = b
  generalize narrow (1000 * f.massOmega) (1000 * f.widthOmega) (q ^ 2) = w
  rcases a with _ | a
  · simp [oadd]
  rcases b with _ | b
  · simp [oadd]
  rcases w with _ | w
  · simp [oadd]
  have h0' : (f.massesRho1 0 : ℂ) ≠ 0 := by exact_mod_cast h0
  have h1' : (f.massesRho1 1 : ℂ) ≠ 0 := by exact_mod_cast h1
  have hw' : (f.massOmega : ℂ) ≠ 0 := by exact_mod_cast hw
  simp [oadd]
  field_simp
  norm_num
  ring

/-- **C317.** The form factor of three pions in MeV. -/
theorem three_pion_units (f : Fit3) (hf : Good f) (q s t : ℝ) (g : Couplings) :
    threePion f q s t g
      = (isoZeroMeV f q s t (3 * (g.u + g.d)) (-3 * g.s)).bind fun z =>
          (isoOneMeV f q s (g.u - g.d)).map fun z' => z + z' := by
  have h0 : 0 < gPi := by norm_num [gPi, mPi]
  have := hf.massesRho1 0
  have := hf.massesRho1 1
  rw [← iso_zero_units, ← iso_one_units f q s _ (by linarith) (by linarith) hf.massOmega.ne']
  show (oadd (isoZero f _ _ _ _ (3 * (g.u + g.d)) (-3 * g.s)) (isoOne f _ _ (g.u - g.d))).map _ = _
  generalize isoZero f _ _ _ _ (3 * (g.u + g.d)) (-3 * g.s) = z
  generalize isoOne f _ _ (g.u - g.d) = z'
  rcases z with _ | z <;> rcases z' with _ | z' <;> simp [oadd]
  ring

/-- The fit of the code is covered. -/
example (q s t : ℝ) (g : Couplings) : threePion fit3Default q s t g
      = (isoZeroMeV fit3Default q s t (3 * (g.u + g.d)) (-3 * g.s)).bind fun z =>
          (isoOneMeV fit3Default q s (g.u - g.d)).map fun z' => z + z' :=
  three_pion_units _ default_good q s t g

/-! ### Two pions and an omega -/

/-- **C317.** The form factor of two pions and an omega in MeV: its amplitudes have no dimension. -/
theorem omega_units (f : FitOmega) (q : ℝ) (g : Couplings) :
    piPiOmega f q g = 3 * ((g.u + g.d : ℝ) : ℂ) * ∑ i, (f.amps i : ℂ) * Complex.exp (Complex.I * (f.phases i : ℂ))
      * (((1000 * f.masses i) ^ 2 : ℝ) : ℂ)
        / ((((1000 * f.masses i) ^ 2 - q ^ 2 : ℝ) : ℂ) - Complex.I * ((q * (1000 * f.widths i) : ℝ) : ℂ)) := by
  unfold piPiOmega
  congr 1
  · push_cast; ring
  refine Finset.sum_congr rfl fun i _ => ?_
  unfold omegaTerm
  rw [← mul_div_mul_left _ _ (show (1000000 : ℂ) ≠ 0 by norm_num)]
  congr 1
  · push_cast; ring
  · push_cast; norm_num; ring

/-- At rest of the omega and two pions only the fit matters: at zero energy the form factor is the sum of
the amplitudes. -/
example (f : FitOmega) (hm : ∀ i, f.masses i ≠ 0) : piPiOmega f 0 ⟨1, 0, 0⟩
    = 3 * ∑ i, (f.amps i : ℂ) * Complex.exp (Complex.I * (f.phases i : ℂ)) := by
  rw [omega_units]
  congr 1
  · simp
  refine Finset.sum_congr rfl fun i _ => ?_
  have : (((1000 * f.masses i) ^ 2 : ℝ) : ℂ) ≠ 0 := by
    have := hm i
    exact_mod_cast (by positivity)
  simp only [ne_eq, OfNat.ofNat_ne_zero, not_false_eq_true, zero_pow, sub_zero, zero_mul,
    Complex.ofReal_zero, mul_zero]
  rw [mul_div_assoc, div_self this, mul_one]

end Hazma.MesonThree
