import Verif.Props.MuonSpectra
import Verif.Props.WeakDecays

/-!
# The spectra of muon decay and the weak interaction

Property C286.  The energy distributions of the electron and of the two neutrinos in `μ → e ν̄_e ν_μ` are
computed from the chiral currents and compared with the kernels for a muon at rest.
-/

namespace Hazma.MuonDecay

open Hazma Hazma.Spectra Hazma.Dirac Hazma.SelfScattering Hazma.WeakDecays
open Set MeasureTheory

/-! ## Three-body decays at rest -/

/-- Four-momentum of a particle of mass `M` at rest. -/
def rest (M : ℝ) : Fin 4 → ℝ := ![M, 0, 0, 0]

/-- The energies of the second particle for which a decay with the first one at energy `e` exists. -/
def allowed (M m1 m2 m3 e : ℝ) : Set ℝ :=
  {y | ∃ p1 p2 p3 : Fin 4 → ℝ, Decay M m1 m2 m3 (rest M) p1 p2 p3 ∧ p1 0 = e ∧ p2 0 = y
    ∧ 0 ≤ p1 0 ∧ 0 ≤ p2 0 ∧ 0 ≤ p3 0}

/-- `dΓ/dE₁ = 1/(64 π³ M) ∫ dE₂ |M|²`. -/
noncomputable def dGamma (M m1 m2 m3 : ℝ) (S : ℝ → ℝ → ℝ) (e : ℝ) : ℝ :=
  1 / (64 * Real.pi ^ 3 * M) * ∫ y in allowed M m1 m2 m3 e, S e y

/-- Energies and momenta close a triangle. -/
theorem allowed_iff {M m1 m2 m3 e y : ℝ} (h1 : 0 ≤ m1) (h2 : 0 ≤ m2) (h3 : 0 ≤ m3) (hy : 0 ≤ y) (hz : 0 ≤ M - e - y)
    (he : m1 < e) :
    y ∈ allowed M m1 m2 m3 e ↔ m2 ≤ y
      ∧ ((M - e - y) ^ 2 - m3 ^ 2 - (e ^ 2 - m1 ^ 2) - (y ^ 2 - m2 ^ 2)) ^ 2
          ≤ 4 * (e ^ 2 - m1 ^ 2) * (y ^ 2 - m2 ^ 2) := by
  have hp : 0 < e ^ 2 - m1 ^ 2 := by nlinarith
  constructor
  · rintro ⟨p1, p2, p3, ⟨ht, -, o1, o2, o3⟩, rfl, rfl, -, n2, n3⟩
    have t0 := congrFun ht 0
    have t1 := congrFun ht 1
    have t2 := congrFun ht 2
    have t3 := congrFun ht 3
    simp [rest] at t0 t1 t2 t3
    unfold mink at o1 o2 o3
    have e3 : p3 0 = M - p1 0 - p2 0 := by linarith
    have e31 : p3 1 = -(p1 1 + p2 1) := by linarith
    have e32 : p3 2 = -(p1 2 + p2 2) := by linarith
    have e33 : p3 3 = -(p1 3 + p2 3) := by linarith
    rw [e3, e31, e32, e33] at o3
    have q1 : p1 0 ^ 2 - m1 ^ 2 = p1 1 ^ 2 + p1 2 ^ 2 + p1 3 ^ 2 := by linarith
    have q2 : p2 0 ^ 2 - m2 ^ 2 = p2 1 ^ 2 + p2 2 ^ 2 + p2 3 ^ 2 := by linarith
    have q3 : (M - p1 0 - p2 0) ^ 2 - m3 ^ 2 - (p1 0 ^ 2 - m1 ^ 2) - (p2 0 ^ 2 - m2 ^ 2)
        = 2 * (p1 1 * p2 1 + p1 2 * p2 2 + p1 3 * p2 3) := by linear_combination o3 - q1 - q2
    constructor
    · refine (pow_le_pow_iff_left₀ h2 hy two_ne_zero).1 ?_
      linarith [sq_nonneg (p2 1), sq_nonneg (p2 2), sq_nonneg (p2 3)]
    · rw [q3, q1, q2, ← sub_nonneg, show 4 * (p1 1 ^ 2 + p1 2 ^ 2 + p1 3 ^ 2) * (p2 1 ^ 2 + p2 2 ^ 2 + p2 3 ^ 2)
        - (2 * (p1 1 * p2 1 + p1 2 * p2 2 + p1 3 * p2 3)) ^ 2 = 4 * ((p1 1 * p2 2 - p1 2 * p2 1) ^ 2
        + (p1 1 * p2 3 - p1 3 * p2 1) ^ 2 + (p1 2 * p2 3 - p1 3 * p2 2) ^ 2) by ring]
      positivity
  · rintro ⟨hy2, hc⟩
    obtain ⟨p, hpd⟩ : ∃ p, p = Real.sqrt (e ^ 2 - m1 ^ 2) := ⟨_, rfl⟩
    have hp2 : p ^ 2 = e ^ 2 - m1 ^ 2 := by rw [hpd]; exact Real.sq_sqrt hp.le
    have hp0 : 0 < p := by rw [hpd]; exact Real.sqrt_pos.mpr hp
    obtain ⟨l, hl⟩ : ∃ l, l = ((M - e - y) ^ 2 - m3 ^ 2 - (e ^ 2 - m1 ^ 2) - (y ^ 2 - m2 ^ 2)) / (2 * p) := ⟨_, rfl⟩
    have hlp : 2 * p * l = (M - e - y) ^ 2 - m3 ^ 2 - (e ^ 2 - m1 ^ 2) - (y ^ 2 - m2 ^ 2) := by
      rw [hl]; field_simp
    have hl2 : l ^ 2 ≤ y ^ 2 - m2 ^ 2 := by
      rw [← hlp, ← hp2] at hc
      have : p ^ 2 * l ^ 2 ≤ p ^ 2 * (y ^ 2 - m2 ^ 2) := by linarith
      exact le_of_mul_le_mul_left this (by positivity)
    obtain ⟨t, ht⟩ : ∃ t, t = Real.sqrt (y ^ 2 - m2 ^ 2 - l ^ 2) := ⟨_, rfl⟩
    have ht2 : t ^ 2 = y ^ 2 - m2 ^ 2 - l ^ 2 := by rw [ht]; exact Real.sq_sqrt (by linarith)
    refine ⟨![e, 0, 0, p], ![y, t, 0, l], ![M - e - y, -t, 0, -p - l], ⟨?_, ?_, ?_, ?_, ?_⟩, rfl, rfl, ?_, ?_, ?_⟩
    · ext i; fin_cases i <;> simp [rest]
    · simp [rest, mink]; ring
    · simp [mink]; linarith
    · simp [mink]; linarith
    · simp [mink]; linarith
    · change 0 ≤ e; linarith
    · exact hy
    · exact hz

/-- Energies outside the interval `[0, M - e]` are not allowed. -/
theorem allowed_range {M m1 m2 m3 e y : ℝ} (h : y ∈ allowed M m1 m2 m3 e) : 0 ≤ y ∧ 0 ≤ M - e - y := by
  obtain ⟨p1, p2, p3, ⟨ht, -, -, -, -⟩, rfl, rfl, -, n2, n3⟩ := h
  have t0 := congrFun ht 0
  simp [rest] at t0
  exact ⟨n2, by linarith⟩

/-! ## The amplitude -/

/-- **C286.** `|M|²` of `μ → e ν̄_e ν_μ`, averaged over the spin of the muon, depends on the energy of the
electron antineutrino only. -/
theorem amplitude (G M m : ℝ) {pe pn pm : Fin 4 → ℝ} (h : Decay M m 0 0 (rest M) pe pn pm) :
    currents G 1 0 pm 0 (rest M) M pe m pn 0
      = ((32 * G ^ 2 * (M * pn 0) * (M ^ 2 - m ^ 2 - 2 * M * pn 0) : ℝ) : ℂ) := by
  obtain ⟨ht, hP, o1, o2, o3⟩ := h
  have e1 : mink (rest M) pn = M * pn 0 := by simp [mink, rest]
  have e2 : 2 * mink pm pe = M ^ 2 - m ^ 2 - 2 * M * pn 0 := by
    have : mink (pm + pe) (pm + pe) = mink (rest M - pn) (rest M - pn) := by
      have : pm + pe = rest M - pn := by rw [ht]; ext i; simp; ring
      rw [this]
    have l : mink (pm + pe) (pm + pe) = mink pm pm + mink pe pe + 2 * mink pm pe := by simp [mink]; ring
    have r : mink (rest M - pn) (rest M - pn) = mink (rest M) (rest M) + mink pn pn - 2 * mink (rest M) pn := by
      simp [mink]; ring
    rw [l, r, hP, o1, o2, o3, e1] at this
    linarith
  rw [currents_eq, e1, show mink pm pe = (M ^ 2 - m ^ 2 - 2 * M * pn 0) / 2 by linarith]
  congr 1
  ring

/-! ## The spectra -/

theorem allowed_electron {M m e : ℝ} (hm : 0 < m) (h1 : m < e) (h2 : 2 * M * e < M ^ 2 + m ^ 2) (hM : e < M) (p : ℝ)
    (hp0 : 0 < p) (hp : p ^ 2 = e ^ 2 - m ^ 2) :
    allowed M m 0 0 e = Icc ((M - e - p) / 2) ((M - e + p) / 2) := by
  have hw : p < M - e := by
    refine lt_of_pow_lt_pow_left₀ 2 (by linarith) ?_
    rw [hp]; nlinarith
  have key : ∀ y, 0 ≤ y → (((M - e - y) ^ 2 - 0 ^ 2 - (e ^ 2 - m ^ 2) - (y ^ 2 - 0 ^ 2)) ^ 2
      ≤ 4 * (e ^ 2 - m ^ 2) * (y ^ 2 - 0 ^ 2) ↔ (M - e - p) / 2 ≤ y ∧ y ≤ (M - e + p) / 2) := by
    intro y hy
    rw [← hp, show 4 * p ^ 2 * (y ^ 2 - 0 ^ 2) = (2 * p * y) ^ 2 by ring, sq_le_sq, abs_of_nonneg (by positivity : 0 ≤ 2 * p * y), abs_le,
      show (M - e - y) ^ 2 - 0 ^ 2 - p ^ 2 - (y ^ 2 - 0 ^ 2) = (M - e) ^ 2 - p ^ 2 - 2 * (M - e) * y by ring]
    have f1 : (M - e) ^ 2 - p ^ 2 - 2 * (M - e) * y + 2 * p * y = (M - e - p) * (M - e + p - 2 * y) := by ring
    have f2 : 2 * p * y - ((M - e) ^ 2 - p ^ 2 - 2 * (M - e) * y) = (M - e + p) * (2 * y - (M - e - p)) := by ring
    have s1 : 0 < M - e - p := by linarith
    have s2 : 0 < M - e + p := by linarith
    constructor
    · rintro ⟨a, b⟩
      have a' : 0 ≤ (M - e - p) * (M - e + p - 2 * y) := by linarith
      have b' : 0 ≤ (M - e + p) * (2 * y - (M - e - p)) := by linarith
      have a'' := nonneg_of_mul_nonneg_right a' s1
      have b'' := nonneg_of_mul_nonneg_right b' s2
      constructor <;> linarith
    · rintro ⟨a, b⟩
      have a' : 0 ≤ (M - e - p) * (M - e + p - 2 * y) := mul_nonneg s1.le (by linarith)
      have b' : 0 ≤ (M - e + p) * (2 * y - (M - e - p)) := mul_nonneg s2.le (by linarith)
      constructor <;> linarith
  ext y
  constructor
  · intro h
    obtain ⟨hy, hz⟩ := allowed_range h
    exact (key y hy).1 ((allowed_iff hm.le le_rfl le_rfl hy hz h1).1 h).2
  · rintro ⟨a, b⟩
    have hy : 0 ≤ y := by linarith
    have hz : 0 ≤ M - e - y := by linarith
    exact (allowed_iff hm.le le_rfl le_rfl hy hz h1).2 ⟨hy, (key y hy).2 ⟨a, b⟩⟩

theorem allowed_neutrino {M m e : ℝ} (hm : 0 < m) (h1 : 0 < e) (hM : 0 < M) (h2 : 2 * M * e < M ^ 2 - m ^ 2) :
    allowed M 0 0 m e = Icc ((M ^ 2 - m ^ 2 - 2 * M * e) / (2 * M)) ((M ^ 2 - m ^ 2 - 2 * M * e) / (2 * (M - 2 * e))) := by
  have hs : 0 < M - 2 * e := by
    have : 0 < M * (M - 2 * e) := by nlinarith
    exact (mul_pos_iff_of_pos_left hM).1 this
  have key : ∀ y, 0 ≤ y → (((M - e - y) ^ 2 - m ^ 2 - (e ^ 2 - 0 ^ 2) - (y ^ 2 - 0 ^ 2)) ^ 2
      ≤ 4 * (e ^ 2 - 0 ^ 2) * (y ^ 2 - 0 ^ 2) ↔ (M ^ 2 - m ^ 2 - 2 * M * e) / (2 * M) ≤ y
        ∧ y ≤ (M ^ 2 - m ^ 2 - 2 * M * e) / (2 * (M - 2 * e))) := by
    intro y hy
    rw [show 4 * (e ^ 2 - 0 ^ 2) * (y ^ 2 - 0 ^ 2) = (2 * e * y) ^ 2 by ring, sq_le_sq, abs_of_nonneg (by positivity : 0 ≤ 2 * e * y),
      abs_le, div_le_iff₀ (by positivity), le_div_iff₀ (by positivity)]
    constructor
    · rintro ⟨a, b⟩
      constructor <;> linarith
    · rintro ⟨a, b⟩
      constructor <;> linarith
  ext y
  constructor
  · intro h
    obtain ⟨hy, hz⟩ := allowed_range h
    exact (key y hy).1 ((allowed_iff le_rfl le_rfl hm.le hy hz h1).1 h).2
  · rintro ⟨a, b⟩
    have hy : 0 ≤ y := le_trans (div_nonneg (by linarith) (by positivity)) a
    have hz : 0 ≤ M - e - y := by
      have : (M ^ 2 - m ^ 2 - 2 * M * e) / (2 * (M - 2 * e)) ≤ M - e := by
        rw [div_le_iff₀ (by positivity)]
        nlinarith
      linarith
    exact (allowed_iff le_rfl le_rfl hm.le hy hz h1).2 ⟨hy, (key y hy).2 ⟨a, b⟩⟩

theorem integral_amplitude (G M A a b : ℝ) : ∫ y in a..b, 32 * G ^ 2 * (M * y) * (A - 2 * M * y)
    = 32 * G ^ 2 * M * (A * (b ^ 2 - a ^ 2) / 2 - 2 * M * (b ^ 3 - a ^ 3) / 3) := by
  have hd : ∀ y, HasDerivAt (fun y : ℝ => 32 * G ^ 2 * M * (A * y ^ 2 / 2 - 2 * M * y ^ 3 / 3))
      (32 * G ^ 2 * (M * y) * (A - 2 * M * y)) y := by
    intro y
    have h2 := ((hasDerivAt_id y).pow 2)
    have h3 := ((hasDerivAt_id y).pow 3)
    refine (((((h2.const_mul A).div_const 2).sub ((h3.const_mul (2 * M)).div_const 3)).const_mul
      (32 * G ^ 2 * M))).congr_deriv ?_
    simp
    ring
  rw [intervalIntegral.integral_eq_sub_of_hasDerivAt (fun y _ => hd y) (by apply Continuous.intervalIntegrable; fun_prop)]
  ring

/-- The muon's partial width for massless electrons. -/
noncomputable def gamma0 (G M : ℝ) : ℝ := G ^ 2 * M ^ 5 / (192 * Real.pi ^ 3)

/-- **C286.** The positron spectrum of a muon at rest is the energy distribution of the electron in the decay
through two left-handed currents. -/
theorem electron_spectrum (G : ℝ) (S : ℝ → ℝ → ℝ)
    (hS : ∀ pe pn pm, Decay massMu massE 0 0 (rest massMu) pe pn pm →
      currents G 1 0 pm 0 (rest massMu) massMu pe massE pn 0 = (S (pe 0) (pn 0) : ℂ))
    {e : ℝ} (h1 : massE < e) (h2 : e < massMu / 2 * (1 + rr ^ 2)) :
    dGamma massMu massE 0 0 S e = gamma0 G massMu * (rFactor * positronRestE e) := by
  have hM := massMu_pos
  have hE := massE_pos
  have hr := rr_pos
  have hR := rFactor_pos
  have hpi := Real.pi_pos
  have h2' : 2 * massMu * e < massMu ^ 2 + massE ^ 2 := by rw [massE_eq]; nlinarith
  have hlt : massE < massMu := by norm_num [massE, massMu]
  have heM : e < massMu := by nlinarith
  obtain ⟨p, hpd⟩ : ∃ p, p = Real.sqrt (e ^ 2 - massE ^ 2) := ⟨_, rfl⟩
  have hpos : 0 < e ^ 2 - massE ^ 2 := by nlinarith
  have hp2 : p ^ 2 = e ^ 2 - massE ^ 2 := by rw [hpd]; exact Real.sq_sqrt hpos.le
  have hp0 : 0 < p := by rw [hpd]; exact Real.sqrt_pos.mpr hpos
  have hall := allowed_electron hE h1 h2' heM p hp0 hp2
  have hval : ∀ y ∈ allowed massMu massE 0 0 e,
      S e y = 32 * G ^ 2 * (massMu * y) * (massMu ^ 2 - massE ^ 2 - 2 * massMu * y) := by
    rintro y ⟨p1, p2, p3, hd, rfl, rfl, -⟩
    have := hS p1 p2 p3 hd
    rw [amplitude G massMu massE hd] at this
    exact (Complex.ofReal_injective this).symm
  have hhyp : hyp (2 * rr) (2 / massMu * e) = 2 / massMu * p := by
    unfold hyp
    rw [show (2 / massMu * e) ^ 2 - (2 * rr) ^ 2 = (2 / massMu * p) ^ 2 by
      rw [mul_pow _ p, hp2, massE_eq]; field_simp]
    exact Real.sqrt_sq (by positivity)
  unfold dGamma
  rw [setIntegral_congr_fun (by rw [hall]; exact measurableSet_Icc) hval, hall, integral_Icc_eq_integral_Ioc,
    ← intervalIntegral.integral_of_le (by linarith), integral_amplitude, positronRestE_eq h1 h2, hhyp, gamma0]
  rw [massE_eq] at hp2 ⊢
  field_simp
  linear_combination (-(24576 * G ^ 2 * p)) * hp2

/-- **C286.** The electron-neutrino spectrum of a muon at rest. -/
theorem electron_neutrino_spectrum (G : ℝ) (S : ℝ → ℝ → ℝ)
    (hS : ∀ pn pm pe, Decay massMu 0 0 massE (rest massMu) pn pm pe →
      currents G 1 0 pm 0 (rest massMu) massMu pe massE pn 0 = (S (pn 0) (pm 0) : ℂ))
    {e : ℝ} (h1 : 0 < e) (h2 : 2 / massMu * e < 1 - rr ^ 2) :
    rFactor * dGamma massMu 0 0 massE S e = gamma0 G massMu * nueRest e := by
  have hM := massMu_pos
  have hE := massE_pos
  have hr := rr_pos
  have hR := rFactor_pos
  have hpi := Real.pi_pos
  have h2' : 2 * massMu * e < massMu ^ 2 - massE ^ 2 := by
    rw [div_mul_eq_mul_div, div_lt_iff₀ hM] at h2
    rw [massE_eq]; nlinarith
  have hs : 0 < massMu - 2 * e := by
    have : 0 < massMu * (massMu - 2 * e) := by nlinarith
    exact (mul_pos_iff_of_pos_left hM).1 this
  have hall := allowed_neutrino hE h1 hM h2'
  have hval : ∀ y ∈ allowed massMu 0 0 massE e,
      S e y = 32 * G ^ 2 * (massMu * e) * (massMu ^ 2 - massE ^ 2 - 2 * massMu * e) := by
    rintro y ⟨p1, p2, p3, hd, rfl, rfl, -⟩
    have := hS p1 p2 p3 hd
    have hd' : Decay massMu massE 0 0 (rest massMu) p3 p1 p2 :=
      ⟨by rw [hd.total]; ext i; simp; ring, hd.onN, hd.on3, hd.on1, hd.on2⟩
    rw [amplitude G massMu massE hd'] at this
    exact (Complex.ofReal_injective this).symm
  have hle : (massMu ^ 2 - massE ^ 2 - 2 * massMu * e) / (2 * massMu)
      ≤ (massMu ^ 2 - massE ^ 2 - 2 * massMu * e) / (2 * (massMu - 2 * e)) := by
    apply div_le_div_of_nonneg_left (by linarith) (by positivity) (by linarith)
  unfold dGamma
  rw [setIntegral_congr_fun (by rw [hall]; exact measurableSet_Icc) hval, hall, integral_Icc_eq_integral_Ioc,
    ← intervalIntegral.integral_of_le hle, intervalIntegral.integral_const, smul_eq_mul, (nu_rest_eq h1 h2).1, gamma0, massE_eq]
  rw [show 1 - 2 / massMu * e = (massMu - 2 * e) / massMu by field_simp]
  obtain ⟨w, hw⟩ : ∃ w, w = massMu - 2 * e := ⟨_, rfl⟩
  have hw0 : w ≠ 0 := by rw [hw]; exact hs.ne'
  have he : e = (massMu - w) / 2 := by rw [hw]; ring
  rw [← hw]
  field_simp
  rw [he]
  ring

/-- **C286.** The muon-neutrino spectrum of a muon at rest. -/
theorem muon_neutrino_spectrum (G : ℝ) (S : ℝ → ℝ → ℝ)
    (hS : ∀ pm pn pe, Decay massMu 0 0 massE (rest massMu) pm pn pe →
      currents G 1 0 pm 0 (rest massMu) massMu pe massE pn 0 = (S (pm 0) (pn 0) : ℂ))
    {e : ℝ} (h1 : 0 < e) (h2 : 2 / massMu * e < 1 - rr ^ 2) :
    rFactor * dGamma massMu 0 0 massE S e = gamma0 G massMu * numuRest e := by
  have hM := massMu_pos
  have hE := massE_pos
  have hr := rr_pos
  have hR := rFactor_pos
  have hpi := Real.pi_pos
  have h2' : 2 * massMu * e < massMu ^ 2 - massE ^ 2 := by
    rw [div_mul_eq_mul_div, div_lt_iff₀ hM] at h2
    rw [massE_eq]; nlinarith
  have hs : 0 < massMu - 2 * e := by
    have : 0 < massMu * (massMu - 2 * e) := by nlinarith
    exact (mul_pos_iff_of_pos_left hM).1 this
  have hall := allowed_neutrino hE h1 hM h2'
  have hval : ∀ y ∈ allowed massMu 0 0 massE e,
      S e y = 32 * G ^ 2 * (massMu * y) * (massMu ^ 2 - massE ^ 2 - 2 * massMu * y) := by
    rintro y ⟨p1, p2, p3, hd, rfl, rfl, -⟩
    have := hS p1 p2 p3 hd
    have hd' : Decay massMu massE 0 0 (rest massMu) p3 p2 p1 :=
      ⟨by rw [hd.total]; ext i; simp; ring, hd.onN, hd.on3, hd.on2, hd.on1⟩
    rw [amplitude G massMu massE hd'] at this
    exact (Complex.ofReal_injective this).symm
  have hle : (massMu ^ 2 - massE ^ 2 - 2 * massMu * e) / (2 * massMu)
      ≤ (massMu ^ 2 - massE ^ 2 - 2 * massMu * e) / (2 * (massMu - 2 * e)) := by
    apply div_le_div_of_nonneg_left (by linarith) (by positivity) (by linarith)
  unfold dGamma
  rw [setIntegral_congr_fun (by rw [hall]; exact measurableSet_Icc) hval, hall, integral_Icc_eq_integral_Ioc,
    ← intervalIntegral.integral_of_le hle, integral_amplitude, (nu_rest_eq h1 h2).2, gamma0, massE_eq]
  rw [show 1 - 2 / massMu * e = (massMu - 2 * e) / massMu by field_simp]
  obtain ⟨w, hw⟩ : ∃ w, w = massMu - 2 * e := ⟨_, rfl⟩
  have hw0 : w ≠ 0 := by rw [hw]; exact hs.ne'
  have he : e = (massMu - w) / 2 := by rw [hw]; ring
  rw [← hw]
  field_simp
  rw [he]
  ring

/-- **C286.** Normalised by the total width, the distribution is `rFactor / michel` times the spectrum of the
code, for every energy; `michel · rFactor = 1` to 1e-8, so the code has the square of that factor missing (C30). -/
theorem electron_spectrum_normalised (G : ℝ) (hG : G ≠ 0) (S : ℝ → ℝ → ℝ)
    (hS : ∀ pe pn pm, Decay massMu massE 0 0 (rest massMu) pe pn pm →
      currents G 1 0 pm 0 (rest massMu) massMu pe massE pn 0 = (S (pe 0) (pn 0) : ℂ))
    {e : ℝ} (h1 : massE < e) (h2 : e < massMu / 2 * (1 + rr ^ 2)) :
    (∫ z in massE..(massMu / 2 * (1 + rr ^ 2)), dGamma massMu massE 0 0 S z) = gamma0 G massMu * michel
    ∧ dGamma massMu massE 0 0 S e / (∫ z in massE..(massMu / 2 * (1 + rr ^ 2)), dGamma massMu massE 0 0 S z)
      = rFactor / michel * positronRestE e := by
  have hM := massMu_pos
  have hpi := Real.pi_pos
  have hR := rFactor_pos
  have hmi : 0 < michel := by linarith [michel_bounds.1]
  have hg : gamma0 G massMu ≠ 0 := by unfold gamma0; positivity
  have htot : (∫ z in massE..(massMu / 2 * (1 + rr ^ 2)), dGamma massMu massE 0 0 S z) = gamma0 G massMu * michel := by
    have e1 : (∫ z in massE..(massMu / 2 * (1 + rr ^ 2)), dGamma massMu massE 0 0 S z)
        = ∫ z in massE..(massMu / 2 * (1 + rr ^ 2)), gamma0 G massMu * rFactor * positronRestE z := by
      rw [intervalIntegral.integral_of_le emax_mu, intervalIntegral.integral_of_le emax_mu,
        integral_Ioc_eq_integral_Ioo, integral_Ioc_eq_integral_Ioo]
      apply setIntegral_congr_fun measurableSet_Ioo
      rintro z ⟨a, b⟩
      simp only
      rw [electron_spectrum G S hS a b]
      ring
    have e2 : ∫ z in massE..(massMu / 2 * (1 + rr ^ 2)), positronRestE z = michel / rFactor := by
      rw [← positron_rest_total, intervalIntegral.integral_of_le emax_mu]
      refine (setIntegral_eq_of_subset_of_forall_diff_eq_zero measurableSet_Ioi Ioc_subset_Ioi_self ?_).symm
      rintro z ⟨hz, hn⟩
      exact positronRestE_zero' (Or.inr (by
        by_contra hc
        push Not at hc
        exact hn ⟨hz, hc.le⟩))
    rw [e1, intervalIntegral.integral_const_mul, e2]
    field_simp
  refine ⟨htot, ?_⟩
  rw [htot, electron_spectrum G S hS h1 h2]
  field_simp

/-- A function of the energies as in the hypotheses exists; so does a decay in which the electron takes a
third of the energy. -/
example (G : ℝ) : ∃ S : ℝ → ℝ → ℝ, ∀ pe pn pm, Decay massMu massE 0 0 (rest massMu) pe pn pm →
    currents G 1 0 pm 0 (rest massMu) massMu pe massE pn 0 = (S (pe 0) (pn 0) : ℂ) :=
  ⟨fun _ y => 32 * G ^ 2 * (massMu * y) * (massMu ^ 2 - massE ^ 2 - 2 * massMu * y),
    fun _ _ _ h => amplitude G massMu massE h⟩

example : (massMu / 3) ∈ allowed massMu massE 0 0 (massMu / 3) := by
  have hM := massMu_pos
  have hE := massE_pos
  have hs : massE < massMu / 3 := by norm_num [massE, massMu]
  refine (allowed_iff hE.le le_rfl le_rfl (by positivity) (by linarith) hs).2 ⟨by positivity, ?_⟩
  unfold massE massMu
  norm_num

end Hazma.MuonDecay
