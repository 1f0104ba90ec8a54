import Verif.Props.MesonFF
import Verif.Props.FormFactorUnits

/-!
# Form factors of two mesons do not depend on the unit of energy (C318)

As for three mesons: the specification is written in MeV throughout, with the masses and widths of the fits
converted.
-/

namespace Hazma.MesonFF

open Hazma.Resonance
open Hazma.MesonThree (sqrt_scale bwFW_scale beta2_scale gammaP_scale bwPwave_scale)

/-! ### The Gounaris-Sakurai function is a function of ratios -/

theorem beta_scale {c : ℝ} (hc : 0 < c) (s m1 m2 : ℝ) : beta (c ^ 2 * s) (c * m1) (c * m2) = beta s m1 m2 := by
  unfold beta; rw [beta2_scale hc]

theorem beta_mass_scale {c : ℝ} (hc : 0 < c) (m m1 m2 : ℝ) :
    beta ((c * m) ^ 2) (c * m1) (c * m2) = beta (m ^ 2) m1 m2 := by
  rw [show (c * m) ^ 2 = c ^ 2 * m ^ 2 by ring, beta_scale hc]

theorem hhat_scale {c : ℝ} (hc : 0 < c) (s m w m1 m2 : ℝ) :
    hhat (c ^ 2 * s) (c * m) (c * w) (c * m1) (c * m2) = c ^ 2 * hhat s m w m1 m2 := by
  unfold hhat
  rw [beta_mass_scale hc, beta_scale hc, mul_div_mul_left _ _ hc.ne']
  ring

theorem dhhatds_scale {c : ℝ} (hc : 0 < c) (m w m1 m2 : ℝ) :
    dhhatds (c * m) (c * w) (c * m1) (c * m2) = dhhatds m w m1 m2 := by
  have hc2 : c ^ 2 ≠ 0 := by positivity
  have e : ((c * m1) ^ 2 + (c * m2) ^ 2) / (c * m) ^ 2 = (m1 ^ 2 + m2 ^ 2) / m ^ 2 := by
    rw [show (c * m1) ^ 2 + (c * m2) ^ 2 = c ^ 2 * (m1 ^ 2 + m2 ^ 2) by ring, mul_pow,
      mul_div_mul_left _ _ hc2]
  have e2 : c * w / Real.pi / (c * m) = w / Real.pi / m := by
    rw [mul_div_assoc, mul_div_mul_left _ _ hc.ne']
  unfold dhhatds
  rw [e, e2, show (c * m) ^ 2 = c ^ 2 * m ^ 2 by ring, beta2_scale hc]

theorem h_scale {c : ℝ} (hc : 0 < c) (s m w m1 m2 dh hres : ℝ) :
    h (c ^ 2 * s) (c * m) (c * w) (c * m1) (c * m2) dh (c ^ 2 * hres) = c ^ 2 * h s m w m1 m2 dh hres := by
  have hc2 : c ^ 2 ≠ 0 := by positivity
  unfold h
  by_cases hs : s = 0
  · rw [if_neg (by simp [hs]), if_neg (by simp [hs]), beta_mass_scale hc]
    have e : -2 * (c * m1 + c * m2) ^ 2 / Real.pi * (c * w) / (c * m)
        = c ^ 2 * (-2 * (m1 + m2) ^ 2 / Real.pi * w / m) := by
      rw [show -2 * (c * m1 + c * m2) ^ 2 / Real.pi * (c * w)
        = c * (c ^ 2 * (-2 * (m1 + m2) ^ 2 / Real.pi * w)) by ring, mul_div_mul_left _ _ hc.ne',
        mul_div_assoc]
    rw [e]; ring
  · rw [if_pos (mul_ne_zero hc2 hs), if_pos hs, hhat_scale hc]; ring

theorem gs_scale {c : ℝ} (hc : 0 < c) (s m w m1 : ℝ) :
    bwGS (c ^ 2 * s) (c * m) (c * w) (c * m1) (c * m1) (hParams (c * m) (c * w) (c * m1)).2.2
        (hParams (c * m) (c * w) (c * m1)).2.1 (hParams (c * m) (c * w) (c * m1)).1
      = bwGS s m w m1 m1 (hParams m w m1).2.2 (hParams m w m1).2.1 (hParams m w m1).1 := by
  have hc' : ((c ^ 2 : ℝ) : ℂ) ≠ 0 := by exact_mod_cast (pow_pos hc 2).ne'
  have e1 : hhat ((c * m) ^ 2) (c * m) (c * w) (c * m1) (c * m1) = c ^ 2 * hhat (m ^ 2) m w m1 m1 := by
    rw [show (c * m) ^ 2 = c ^ 2 * m ^ 2 by ring, hhat_scale hc]
  have e2 : ∀ dh hres, h 0 (c * m) (c * w) (c * m1) (c * m1) dh (c ^ 2 * hres)
      = c ^ 2 * h 0 m w m1 m1 dh hres := by
    intro dh hres
    have := h_scale hc 0 m w m1 m1 dh hres
    rwa [mul_zero] at this
  simp only [hParams, bwGS, e1, dhhatds_scale hc, e2, h_scale hc, gammaP_scale hc, sqrt_scale hc]
  symm
  rw [← mul_div_mul_left _ _ hc']
  congr 1
  · push_cast; ring
  · push_cast; ring

/-! ### Specification in MeV -/

/-- Gounaris-Sakurai function of a resonance decaying into charged pions. -/
noncomputable def gsMeV (r : Res) (s : ℝ) : ℂ :=
  let p := hParams (1000 * r.m) (1000 * r.w) mPi
  bwGS s (1000 * r.m) (1000 * r.w) mPi mPi p.2.2 p.2.1 p.1

/-- Breit-Wigner function `m²/(m² - s - i m Γ)`. -/
noncomputable def fixedMeV (r : Res) (s : ℝ) : ℂ := bwFW s (1000 * r.m) (1000 * r.w)

/-- Breit-Wigner function `m²/(m² - q² - i q Γ)`. -/
noncomputable def poleMeV (m w q : ℝ) : ℂ :=
  ((m ^ 2 : ℝ) : ℂ) / (((m ^ 2 - q ^ 2 : ℝ) : ℂ) - Complex.I * ((q * w : ℝ) : ℂ))

/-- The form factor at an energy `q` in MeV: a number for two pseudoscalars, in 1/MeV for the others. -/
noncomputable def specMeV (f : Fit) (g : Couplings) : Channel → ℝ → ℂ
  | .piPi, q => (((f.pipi.map fun r => (ci1 g : ℂ) * r.c * gsMeV r (q ^ 2)).modify 0 fun t =>
      t * ((1 + f.omegaWeight * bwFW (q ^ 2) (1000 * f.omegaMass) (1000 * f.omegaWidth))
        / (1 + f.omegaWeight)))).sum
  | .pi0Pi0, q => (√2 : ℝ) * (f.pipi.map fun r => (ci1 g : ℂ) * r.c * gsMeV r (q ^ 2)).sum
  | .kK, q => (f.kkRho.map fun r => 1 / 2 * (ci1 g : ℂ) * r.c * gsMeV r (q ^ 2)).sum
      + (f.kkOmega.map fun r => 1 / 6 * (ci0 g : ℂ) * r.c * fixedMeV r (q ^ 2)).sum
      + (f.kkPhi.map fun r => 1 / 3 * (cs g : ℂ) * r.c * bwPwave (q ^ 2) (1000 * r.m) (1000 * r.w) mK mK).sum
  | .k0K0, q => (f.kkRho.map fun r => -1 / 2 * (ci1 g : ℂ) * r.c * gsMeV r (q ^ 2)).sum
      + (f.kkOmega.map fun r => 1 / 6 * (ci0 g : ℂ) * r.c * fixedMeV r (q ^ 2)).sum
      + 1.055 *
        (f.kkPhi.map fun r => 1 / 3 * (cs g : ℂ) * r.c * bwPwave (q ^ 2) (1000 * r.m) (1000 * r.w) mK0 mK0).sum
  | .etaGamma, q =>
      (ci1 g : ℂ) * (f.etaRho.c / 1000) * poleMeV (1000 * f.etaRho.m) (1000 * f.etaRho.w *
        ((1000 * f.etaRho.m) ^ 2 / q ^ 2) *
        ((q ^ 2 - 4 * mPi ^ 2) / ((1000 * f.etaRho.m) ^ 2 - 4 * mPi ^ 2)) ^ (1.5 : ℝ)) q
      + (f.etaRest.map fun p => ((if p.1 = 0 then ci0 g else if p.1 = 1 then ci1 g else cs g : ℝ) : ℂ)
          * (p.2.c / 1000) * poleMeV (1000 * p.2.m) (1000 * p.2.w) q).sum
  | .pi0Gamma, q =>
      let amp : ℝ → Res → ℂ := fun c r =>
        (c : ℂ) / (((q ^ 2 - (1000 * r.m) ^ 2 : ℝ) : ℂ) + Complex.I * ((q * (1000 * r.w) : ℝ) : ℂ))
      ((√(4 * Real.pi * 7.2973525698e-3) : ℝ) : ℂ) *
        (((f.a0 * 4 * √2 * q ^ 2 / (3 * (1000 * f.fpi)) : ℝ) : ℂ) * (f.piRho.c * amp (ci1 g) f.piRho
          + f.piOmega.c * amp (ci0 g) f.piOmega + f.piPhi.c * amp (cs g) f.piPhi)
        - (((2 * g.u + g.d) / (4 * Real.pi ^ 2 * (1000 * f.fpi)) : ℝ) : ℂ))
  | .pi0Omega, q =>
      let k := f.gRhoOmegaPi / 1000
      let m := 1000 * f.poFirst.m
      let p := q / 2 * √((1 - mPi0 ^ 2 / q ^ 2 - mOmega ^ 2 / q ^ 2) ^ 2
        - 4 * (mPi0 ^ 2 / q ^ 2) * (mOmega ^ 2 / q ^ 2))
      let w := 1000 * f.poFirst.w * (m ^ 2 / q ^ 2) * ((q ^ 2 - 4 * mPi0 ^ 2) / (m ^ 2 - 4 * mPi0 ^ 2)) ^ (1.5 : ℝ)
        + k ^ 2 * p ^ 3 / (12 * Real.pi)
      ((k * ci1 g / f.frho : ℝ) : ℂ) * (f.poFirst.c * poleMeV m w q
        + (f.poRest.map fun r => r.c * poleMeV (1000 * r.m) (1000 * r.w) q).sum)
  | .pi0Phi, q => (f.pp.map fun p => (ci1 g : ℂ) * (p.1.c / 1000) * poleMeV (1000 * p.1.m)
      (1000 * p.1.w * (1 - p.2 + p.2 * ((1000 * p.1.m) ^ 2 / q ^ 2) *
        ((q ^ 2 - 16 * mPi0 ^ 2) / ((1000 * p.1.m) ^ 2 - 16 * mPi0 ^ 2)) ^ (1.5 : ℝ))) q).sum
  | .etaOmega, q => (ci0 g : ℂ) * (f.eo.map fun r => r.c / 1000 * fixedMeV r (q ^ 2)).sum
  | .etaPhi, q => (cs g : ℂ) * (f.ep.map fun r => r.c / 1000 * fixedMeV r (q ^ 2)).sum

/-! ### Agreement -/

theorem q_sq (q : ℝ) : (q * 1e-3) ^ 2 * 1000000 = q ^ 2 := by norm_num; ring

theorem gs_units (r : Res) (q : ℝ) : gs r ((q * 1e-3) ^ 2) = gsMeV r (q ^ 2) := by
  have h := gs_scale (c := 1000) (by norm_num) ((q * 1e-3) ^ 2) r.m r.w (mPi * 1e-3)
  have e1 : (1000 : ℝ) * (mPi * 1e-3) = mPi := by norm_num; ring
  have e2 : (1000 : ℝ) ^ 2 * (q * 1e-3) ^ 2 = q ^ 2 := by norm_num; ring
  rw [e1, e2] at h
  exact h.symm

theorem fixed_units (m w q : ℝ) : bwFW ((q * 1e-3) ^ 2) m w = bwFW (q ^ 2) (1000 * m) (1000 * w) := by
  rw [← bwFW_scale (c := 1000) (by norm_num)]
  congr 1; norm_num; ring

theorem pwave_units (m w mk q : ℝ) : bwPwave ((q * 1e-3) ^ 2) m w (mk * 1e-3) (mk * 1e-3)
    = bwPwave (q ^ 2) (1000 * m) (1000 * w) mk mk := by
  rw [← bwPwave_scale (c := 1000) (by norm_num)]
  congr 1 <;> norm_num <;> ring

theorem pole_units (a : ℂ) (m w q : ℝ) (hq : 0 ≤ q) :
    a * ((m ^ 2 : ℝ) : ℂ) / (((m ^ 2 - (q * 1e-3) ^ 2 : ℝ) : ℂ) - Complex.I * ((√((q * 1e-3) ^ 2) * w : ℝ) : ℂ))
      = a * poleMeV (1000 * m) (1000 * w) q := by
  rw [Real.sqrt_sq (by positivity)]
  unfold poleMeV
  rw [mul_div_assoc, ← mul_div_mul_left _ _ (show (1000000 : ℂ) ≠ 0 by norm_num)]
  congr 2
  · push_cast; ring
  · push_cast; norm_num; ring

theorem ratio_units (k m mp q : ℝ) : ((q * 1e-3) ^ 2 - k * (mp * 1e-3) ^ 2) / (m ^ 2 - k * (mp * 1e-3) ^ 2)
    = (q ^ 2 - k * mp ^ 2) / ((1000 * m) ^ 2 - k * mp ^ 2) := by
  rw [← mul_div_mul_left _ _ (show (1000000 : ℝ) ≠ 0 by norm_num)]
  congr 1 <;> norm_num <;> ring

theorem mass_units (m q : ℝ) : m ^ 2 / (q * 1e-3) ^ 2 = (1000 * m) ^ 2 / q ^ 2 := by
  rw [← mul_div_mul_left _ _ (show (1000000 : ℝ) ≠ 0 by norm_num)]
  congr 1 <;> norm_num <;> ring

theorem gev_units (m q : ℝ) : (m * 1e-3) ^ 2 / (q * 1e-3) ^ 2 = m ^ 2 / q ^ 2 := by
  rw [mass_units]; congr 2; norm_num; ring

/-- **C318.** Above threshold the form factor of an array with one energy is the specification in MeV. -/
theorem two_body_units (f : Fit) (g : Couplings) (c : Channel) (q : ℝ) (hq : threshold c < q) :
    formFactorArray f g c [q] = [specMeV f g c q] := by
  have hpos : 0 < q := by
    refine lt_trans ?_ hq
    cases c <;> norm_num [threshold, masses, mPi, mPi0, mK, mK0, mEta, mOmega, mPhi]
  have h0 : formFactorArray f g c [q] = [atFirst f g c (q * 1e-3) * arrayFactor c] := by
    simp [formFactorArray, filled_open f g c q [] hq]
  rw [h0]
  congr 1
  cases c with
  | piPi =>
    simp only [atFirst, piPiAt, specMeV, arrayFactor, gs_units, fixed_units, mul_one]
    simp only [Bool.false_eq_true, if_false]
    congr 2
    funext t
    ring
  | pi0Pi0 =>
    simp only [atFirst, piPiAt, specMeV, arrayFactor, gs_units, mul_one, if_true]
    ring
  | kK =>
    simp only [atFirst, kkRhoOmega, kkPhiPart, specMeV, arrayFactor, gs_units, fixed_units, pwave_units,
      mul_one, fixedMeV, Bool.false_eq_true, if_false]
    congr 3
    apply List.map_congr_left
    intro r _
    norm_num; ring
  | k0K0 =>
    simp only [atFirst, kkRhoOmega, kkPhiPart, specMeV, arrayFactor, gs_units, fixed_units, pwave_units,
      mul_one, fixedMeV, if_true]
    congr 3
    apply List.map_congr_left
    intro r _
    norm_num; ring
  | etaGamma =>
    simp only [atFirst, etaGammaAt, specMeV, arrayFactor, mul_one, pole_units _ _ _ _ hpos.le, ratio_units]
    rw [mul_add, ← List.sum_map_mul_left]
    congr 1
    · rw [mul_div_assoc f.etaRho.w, mass_units]
      ring_nf
    · congr 1
      apply List.map_congr_left
      intro p _
      norm_num; ring
  | pi0Gamma =>
    have hamp : ∀ (x : ℝ) (r : Res), (x : ℂ) /
        ((((q * 1e-3) ^ 2 - r.m ^ 2 : ℝ) : ℂ) + Complex.I * ((q * 1e-3 * r.w : ℝ) : ℂ))
        = 1000000 * ((x : ℂ) /
          (((q ^ 2 - (1000 * r.m) ^ 2 : ℝ) : ℂ) + Complex.I * ((q * (1000 * r.w) : ℝ) : ℂ))) := by
      intro x r
      rw [← mul_div_assoc, ← mul_div_mul_left _ _ (show (1000000 : ℂ) ≠ 0 by norm_num)]
      congr 1
      push_cast; norm_num; ring
    simp only [atFirst, pi0GammaAt, specMeV, arrayFactor, pi0_gamma_alpha q hq, Option.getD_some, hamp]
    push_cast
    norm_num
    ring
  | pi0Omega =>
    have hq2 : q ^ 2 ≠ 0 := by positivity
    have hr : ∀ M : ℝ, (1 - 4 * (mPi0 ^ 2 / q ^ 2)) / (M ^ 2 / q ^ 2 - 4 * (mPi0 ^ 2 / q ^ 2))
        = (q ^ 2 - 4 * mPi0 ^ 2) / (M ^ 2 - 4 * mPi0 ^ 2) := by
      intro M
      rw [← mul_div_mul_left _ _ hq2]
      congr 1 <;> field_simp
    simp only [atFirst, pi0OmegaAt, specMeV, arrayFactor, pole_units _ _ _ _ hpos.le, gev_units]
    simp only [mass_units]
    rw [hr]
    rw [Real.sqrt_sq (by positivity)]
    have hw : ∀ a b x : ℝ, 1000 * (a * b + f.gRhoOmegaPi ^ 2 * (0.5 * (q * 1e-3) * x) ^ 3 / (12 * Real.pi))
        = 1000 * a * b + (f.gRhoOmegaPi / 1000) ^ 2 * (q / 2 * x) ^ 3 / (12 * Real.pi) := by
      intro a b x; norm_num; ring
    rw [hw, ← mul_assoc 1000]
    push_cast
    norm_num
    ring
  | pi0Phi =>
    simp only [atFirst, pi0PhiAt, specMeV, arrayFactor, pole_units _ _ _ _ hpos.le, ratio_units]
    rw [← List.sum_map_mul_right]
    congr 1
    apply List.map_congr_left
    intro p _
    rw [mul_div_assoc p.2, mass_units]
    rw [← mul_assoc 1000]
    norm_num; ring
  | etaOmega =>
    simp only [atFirst, etaOmegaAt, specMeV, arrayFactor, fixed_units, fixedMeV]
    rw [mul_assoc, ← List.sum_map_mul_right]
    congr 2
    apply List.map_congr_left
    intro r _
    norm_num; ring
  | etaPhi =>
    simp only [atFirst, etaPhiAt, specMeV, arrayFactor, fixed_units, fixedMeV, cs]
    rw [mul_assoc, ← List.sum_map_mul_right]
    congr 2
    apply List.map_congr_left
    intro r _
    norm_num; ring

/-- **C318.** For arrays of energies in MeV, every channel but `K⁰ K⁰` (whose first open energy is
`two_body_units` and whose others are `k0_k0_array`). -/
theorem array_units (f : Fit) (g : Couplings) (c : Channel) (hc : c ≠ .k0K0) (qs : List ℝ) :
    formFactorArray f g c qs = qs.map fun q => if threshold c < q then specMeV f g c q else 0 := by
  rw [array_elementwise_partial f g c hc qs]
  induction qs with
  | nil => rfl
  | cons q qs ih =>
    rw [List.flatMap_cons, ih, List.map_cons]
    by_cases h : threshold c < q
    · rw [two_body_units f g c q h, if_pos h]; rfl
    · rw [(closed_channels f g c [q] (by simpa using h)).1, if_neg h]; rfl

/-- Eta and phi through one resonance of 1.5 GeV and width 0.1 GeV with coupling 1/GeV, at 1500 MeV: the
amplitude is `-3 g_s · i · 15 / 1000` per MeV. -/
example (f : Fit) (hf : f.ep = [⟨1, 1.5, 0.1⟩]) :
    formFactorArray f ⟨0, 0, 1⟩ .etaPhi [1600, 1500] = [specMeV f ⟨0, 0, 1⟩ .etaPhi 1600, 0]
    ∧ specMeV f ⟨0, 0, 1⟩ .etaPhi 1500 = -3 * (Complex.I * 15 / 1000) := by
  constructor
  · rw [array_units f _ _ (by simp)]
    norm_num [threshold, masses, mEta, mPhi]
  · simp only [specMeV, hf, fixedMeV, bwFW, cs, List.map_cons, List.map_nil, List.sum_cons, List.sum_nil,
      add_zero]
    have hI : Complex.I ≠ 0 := Complex.I_ne_zero
    norm_num
    field_simp
    ring_nf
    simp

end Hazma.MesonFF
