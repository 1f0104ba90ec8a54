import Verif.Model.Resonance
import Mathlib.Analysis.SpecialFunctions.Gamma.BohrMollerup
import Mathlib.Analysis.SpecialFunctions.Sqrt
import Mathlib.Analysis.SpecialFunctions.Log.Deriv
import Mathlib.Analysis.Real.Pi.Bounds
import Mathlib.Tactic

/-!
# Resonance functions: derivatives, normalisation, couplings

The subtraction constants of the Gounaris-Sakurai function make the fitted mass the
zero of the real part of the inverse propagator, with slope minus one; the running width
is the `p`-wave width; the couplings of the towers of resonances have the closed form of
the dual model and the repairs of the low-lying ones keep their sum.  The bisection that
recovers the parameter of the tower does not return the value it has tested.
-/

namespace Hazma.Resonance

/-! ### Subtractions -/

private lemma thr_facts {s m1 m2 : ℝ} (n1 : 0 ≤ m1) (n2 : 0 ≤ m2) (h : (m1 + m2) ^ 2 < s) :
    0 < s ∧ 0 < 1 - (m1 + m2) ^ 2 / s ∧ 0 < 1 - (m1 - m2) ^ 2 / s := by
  have hs : 0 < s := lt_of_le_of_lt (sq_nonneg _) h
  refine ⟨hs, ?_, ?_⟩
  · rw [sub_pos, div_lt_one hs]; exact h
  · rw [sub_pos, div_lt_one hs]; nlinarith [mul_nonneg n1 n2]

private lemma beta2_eq {s m1 m2 : ℝ} (n1 : 0 ≤ m1) (n2 : 0 ≤ m2) (h : (m1 + m2) ^ 2 < s) :
    beta2 s m1 m2 = (1 - (m1 + m2) ^ 2 / s) * (1 - (m1 - m2) ^ 2 / s) ∧ 0 < beta2 s m1 m2 := by
  obtain ⟨-, h1, h2⟩ := thr_facts n1 n2 h
  have := mul_pos h1 h2
  unfold beta2
  rw [max_eq_left this.le]
  exact ⟨rfl, this⟩

private lemma beta_lt_one {s m1 m2 : ℝ} (n1 : 0 ≤ m1) (n2 : 0 ≤ m2) (np : 0 < m1 + m2)
    (h : (m1 + m2) ^ 2 < s) : beta2 s m1 m2 < 1 := by
  obtain ⟨hs, h1, h2⟩ := thr_facts n1 n2 h
  rw [(beta2_eq n1 n2 h).1]
  have h3 : 0 < (m1 + m2) ^ 2 / s := by positivity
  have h4 : 0 ≤ (m1 - m2) ^ 2 / s := by positivity
  nlinarith

/-- **Derivative.** `dhhatds` is the derivative of `hhat` at the resonance, for all masses
of the decay products and every resonance above their threshold. -/
theorem dhhatds_is_derivative (mres gamma m1 m2 : ℝ) (n1 : 0 ≤ m1) (n2 : 0 ≤ m2) (np : 0 < m1 + m2)
    (hthr : m1 + m2 < mres) :
    HasDerivAt (fun s => hhat s mres gamma m1 m2) (dhhatds mres gamma m1 m2) (mres ^ 2) := by
  have hm : 0 < mres := np.trans hthr
  have hthr2 : (m1 + m2) ^ 2 < mres ^ 2 := by nlinarith
  obtain ⟨s0, hs0⟩ : ∃ s0, s0 = mres ^ 2 := ⟨_, rfl⟩
  rw [← hs0] at hthr2
  obtain ⟨hb, hbpos⟩ := beta2_eq n1 n2 hthr2
  have hb1 := beta_lt_one n1 n2 np hthr2
  obtain ⟨hspos, -, -⟩ := thr_facts n1 n2 hthr2
  obtain ⟨v, hv⟩ : ∃ v, v = beta s0 m1 m2 := ⟨_, rfl⟩
  have hvpos : 0 < v := by rw [hv]; exact Real.sqrt_pos.2 hbpos
  have hv2 : v ^ 2 = beta2 s0 m1 m2 := by rw [hv]; exact Real.sq_sqrt hbpos.le
  have hv1 : v < 1 := by nlinarith
  -- the function near the resonance
  have hev : (fun s => hhat s mres gamma m1 m2) =ᶠ[nhds s0] fun s =>
      gamma / mres / Real.pi * s *
        (√((1 - (m1 + m2) ^ 2 / s) * (1 - (m1 - m2) ^ 2 / s)) / v) ^ 3 *
        Real.log ((1 + √((1 - (m1 + m2) ^ 2 / s) * (1 - (m1 - m2) ^ 2 / s))) /
          (1 - √((1 - (m1 + m2) ^ 2 / s) * (1 - (m1 - m2) ^ 2 / s)))) := by
    filter_upwards [isOpen_Ioi.mem_nhds hthr2] with s hs
    have hvr : beta (mres ^ 2) m1 m2 = v := by rw [← hs0, hv]
    have hbs : beta s m1 m2 = √((1 - (m1 + m2) ^ 2 / s) * (1 - (m1 - m2) ^ 2 / s)) := by
      unfold beta; rw [(beta2_eq n1 n2 hs).1]
    unfold hhat
    simp only [hvr, hbs]
  rw [← hs0]
  refine HasDerivAt.congr_of_eventuallyEq ?_ hev
  -- its derivative
  have hP : HasDerivAt (fun s => (1 - (m1 + m2) ^ 2 / s) * (1 - (m1 - m2) ^ 2 / s))
      ((2 * (1 - v ^ 2) - 2 * ((m1 ^ 2 + m2 ^ 2) / s0)) / s0) s0 := by
    have i : HasDerivAt (fun s : ℝ => s⁻¹) (-(s0 ^ 2)⁻¹) s0 := hasDerivAt_inv hspos.ne'
    have h1 := (i.const_mul ((m1 + m2) ^ 2)).const_sub 1
    have h2 := (i.const_mul ((m1 - m2) ^ 2)).const_sub 1
    have h3 := h1.mul h2
    simp only [← div_eq_mul_inv] at h3
    refine h3.congr_deriv ?_
    rw [hv2, hb]
    field_simp
    ring
  have hv' : √((1 - (m1 + m2) ^ 2 / s0) * (1 - (m1 - m2) ^ 2 / s0)) = v := by
    rw [← hb, hv]; rfl
  have hV := hP.sqrt (by rw [← hb]; exact hbpos.ne')
  rw [hv'] at hV
  have hD := (((hasDerivAt_id s0).const_mul (gamma / mres / Real.pi)).mul ((hV.div_const v).pow 3)).mul
    (((hV.const_add 1).div (hV.const_sub 1) (by rw [hv']; linarith)).log
      (by
        show (1 + √((1 - (m1 + m2) ^ 2 / s0) * (1 - (m1 - m2) ^ 2 / s0))) /
          (1 - √((1 - (m1 + m2) ^ 2 / s0) * (1 - (m1 - m2) ^ 2 / s0))) ≠ 0
        rw [hv']; exact div_ne_zero (by linarith) (by linarith)))
  refine hD.congr_deriv ?_
  simp only [id, Pi.mul_apply, Pi.pow_apply, Pi.div_apply, hv']
  unfold dhhatds
  simp only [← hs0, ← hv2, Real.sqrt_sq hvpos.le]
  obtain ⟨L, hL⟩ : ∃ L, L = Real.log ((1 + v) / (1 - v)) := ⟨_, rfl⟩
  obtain ⟨r, hr⟩ : ∃ r, r = (m1 ^ 2 + m2 ^ 2) / s0 := ⟨_, rfl⟩
  rw [← hL, ← hr]
  have e1 : (1 : ℝ) - v ≠ 0 := by linarith
  have e2 : (1 : ℝ) + v ≠ 0 := by linarith
  have e3 : (1 : ℝ) - v ^ 2 ≠ 0 := by nlinarith
  have hpi := Real.pi_pos.ne'
  rw [show (1 : ℝ) - v ^ 2 = (1 - v) * (1 + v) by ring]
  field_simp
  ring

/-- **Subtractions.** With the stored constants the real part of the inverse propagator
vanishes at the fitted mass and has slope minus one there. -/
theorem gs_real_part (mres gamma m : ℝ) (hm : 0 < m) (hthr : 2 * m < mres) :
    let p := hParams mres gamma m
    (mres ^ 2 - mres ^ 2 + h (mres ^ 2) mres gamma m m p.2.1 p.1 = 0) ∧
    HasDerivAt (fun s => mres ^ 2 - s + h s mres gamma m m p.2.1 p.1) (-1) (mres ^ 2) := by
  intro p
  have hmr : 0 < mres := by linarith
  have hne : mres ^ 2 ≠ 0 := by positivity
  constructor
  · simp only [h, if_pos hne, p, hParams]; ring
  · have hd := dhhatds_is_derivative mres gamma m m hm.le hm.le (by linarith) (by linarith)
    have hev : (fun s => mres ^ 2 - s + h s mres gamma m m p.2.1 p.1) =ᶠ[nhds (mres ^ 2)] fun s =>
        mres ^ 2 - s + (hhat s mres gamma m m - p.1 - (s - mres ^ 2) * p.2.1) := by
      filter_upwards [isOpen_ne.mem_nhds hne] with s hs
      simp only [h, if_pos (show s ≠ 0 from hs)]
    refine HasDerivAt.congr_of_eventuallyEq ?_ hev
    have h1 := ((hasDerivAt_id (mres ^ 2)).const_sub (mres ^ 2)).add
      ((hd.sub_const p.1).sub (((hasDerivAt_id (mres ^ 2)).sub_const (mres ^ 2)).mul_const p.2.1))
    refine h1.congr_deriv ?_
    simp only [p, hParams]
    ring

/-! ### Running width -/

/-- Momentum of the decay products of a resonance of squared mass `s`. -/
noncomputable def cmMomentum (s m1 m2 : ℝ) : ℝ :=
  √((s - (m1 + m2) ^ 2) * (s - (m1 - m2) ^ 2)) / (2 * √s)

private lemma beta_momentum {s m1 m2 : ℝ} (n1 : 0 ≤ m1) (n2 : 0 ≤ m2) (h : (m1 + m2) ^ 2 < s) :
    √(beta2 s m1 m2) = 2 * cmMomentum s m1 m2 / √s ∧ 0 < cmMomentum s m1 m2 := by
  obtain ⟨hs, h1, h2⟩ := thr_facts n1 n2 h
  have hq : 0 < √s := Real.sqrt_pos.2 hs
  have e : (s - (m1 + m2) ^ 2) * (s - (m1 - m2) ^ 2) = s ^ 2 * beta2 s m1 m2 := by
    rw [(beta2_eq n1 n2 h).1]; field_simp
  have hb := (beta2_eq n1 n2 h).2
  unfold cmMomentum
  rw [e, Real.sqrt_mul (by positivity), Real.sqrt_sq hs.le]
  constructor
  · have : √s * √s = s := Real.mul_self_sqrt hs.le
    field_simp
    nlinarith
  · have := Real.sqrt_pos.2 hb
    positivity

/-- **Running width.** Above threshold it is the `p`-wave width
`Γ (p/p_R)³ m²/s`; it equals the fitted width at the resonance, and vanishes between the
pseudo-threshold and the threshold. -/
theorem running_width (mres gamma m1 m2 : ℝ) (n1 : 0 ≤ m1) (n2 : 0 ≤ m2) (np : 0 < m1 + m2)
    (hthr : m1 + m2 < mres) :
    (∀ s, (m1 + m2) ^ 2 < s → gammaP s mres gamma m1 m2 =
      gamma * (cmMomentum s m1 m2 / cmMomentum (mres ^ 2) m1 m2) ^ 3 * (mres ^ 2 / s)) ∧
    gammaP (mres ^ 2) mres gamma m1 m2 = gamma ∧
    (∀ s, (m1 - m2) ^ 2 < s → s ≤ (m1 + m2) ^ 2 → gammaP s mres gamma m1 m2 = 0) := by
  have hm : 0 < mres := np.trans hthr
  have hthr2 : (m1 + m2) ^ 2 < mres ^ 2 := by nlinarith
  have hrp := (beta2_eq n1 n2 hthr2).2
  refine ⟨fun s hs => ?_, ?_, fun s h1 h2 => ?_⟩
  · obtain ⟨hs0, -, -⟩ := thr_facts n1 n2 hs
    obtain ⟨hb, hp⟩ := beta_momentum n1 n2 hs
    obtain ⟨hbr, hpr⟩ := beta_momentum n1 n2 hthr2
    have hbs := (beta2_eq n1 n2 hs).2
    unfold gammaP
    simp only [if_neg hrp.ne']
    rw [max_eq_left (by positivity), Real.sqrt_div' _ hrp.le, hb, hbr, Real.sqrt_sq hm.le]
    obtain ⟨q, hq⟩ : ∃ q, q = √s := ⟨_, rfl⟩
    have hqp : 0 < q := by rw [hq]; exact Real.sqrt_pos.2 hs0
    have hqq : s = q ^ 2 := by rw [hq, Real.sq_sqrt hs0.le]
    rw [← hq]
    obtain ⟨P, hP⟩ : ∃ P, P = cmMomentum s m1 m2 := ⟨_, rfl⟩
    rw [← hP] at hp ⊢
    rw [hqq]
    field_simp
  · unfold gammaP
    simp only [if_neg hrp.ne', div_self hrp.ne', Real.sqrt_sq hm.le]
    simp [div_self hm.ne']
  · have hs0 : 0 < s := lt_of_le_of_lt (sq_nonneg _) h1
    have e1 : 1 - (m1 + m2) ^ 2 / s ≤ 0 := by rw [sub_nonpos, one_le_div hs0]; exact h2
    have e2 : 0 < 1 - (m1 - m2) ^ 2 / s := by rw [sub_pos, div_lt_one hs0]; exact h1
    have : beta2 s m1 m2 = 0 := by
      unfold beta2; exact max_eq_right (mul_nonpos_of_nonpos_of_nonneg e1 e2.le)
    unfold gammaP
    simp [this, hrp.ne']

/-- **Propagators.** The Gounaris-Sakurai function is one at zero and purely imaginary at
the resonance; so are the other two at their resonance, but the fixed-width one is not
one at zero. -/
theorem propagators (mass width m : ℝ) (hm : 0 < m) (hthr : 2 * m < mass) (hw : 0 < width) :
    let p := hParams mass width m
    (mass ^ 2 + p.2.2 ≠ 0 → bwGS 0 mass width m m p.2.2 p.2.1 p.1 = 1) ∧
    bwGS (mass ^ 2) mass width m m p.2.2 p.2.1 p.1 =
      Complex.I * (((mass ^ 2 + p.2.2) / (mass * width) : ℝ) : ℂ) ∧
    bwFW (mass ^ 2) mass width = Complex.I * ((mass / width : ℝ) : ℂ) ∧
    bwPwave (mass ^ 2) mass width m m = Complex.I * ((mass / width : ℝ) : ℂ) ∧
    bwPwave 0 mass width m m = 1 ∧ bwFW 0 mass width ≠ 1 := by
  intro p
  have hM : 0 < mass := by linarith
  have hg := (running_width mass width m m hm.le hm.le (by linarith) (by linarith)).2.1
  have hr := (gs_real_part mass width m hm hthr).1
  have hMc : (mass : ℂ) ≠ 0 := by exact_mod_cast hM.ne'
  have hWc : (width : ℂ) ≠ 0 := by exact_mod_cast hw.ne'
  have hI : ∀ a b : ℂ, b ≠ 0 → a / (0 - Complex.I * b) = Complex.I * (a / b) := by
    intro a b hb
    have h1 : a / (Complex.I * b) = -Complex.I * (a / b) := by
      rw [div_eq_iff (mul_ne_zero Complex.I_ne_zero hb)]
      field_simp
      linear_combination a * Complex.I_sq
    rw [zero_sub, div_neg, h1]
    ring
  refine ⟨fun hne => ?_, ?_, ?_, ?_, ?_, ?_⟩
  · unfold bwGS
    rw [show mass ^ 2 - 0 + h 0 mass width m m p.2.1 p.1 = mass ^ 2 + p.2.2 by
      simp only [p, hParams]; ring]
    simp only [Real.sqrt_zero, zero_mul, Complex.ofReal_zero, mul_zero, sub_zero]
    exact div_self (by exact_mod_cast hne)
  · unfold bwGS
    rw [hr, hg, Real.sqrt_sq hM.le]
    push_cast
    exact hI _ _ (mul_ne_zero hMc hWc)
  · unfold bwFW
    rw [sub_self]
    push_cast
    rw [hI _ _ (mul_ne_zero hMc hWc)]
    field_simp
  · unfold bwPwave
    rw [sub_self, hg, Real.sqrt_sq hM.le]
    push_cast
    rw [hI _ _ (mul_ne_zero hMc hWc)]
    field_simp
  · unfold bwPwave
    simp [hM.ne']
  · unfold bwFW
    intro hcon
    have him : (((mass ^ 2 - 0 : ℝ) : ℂ) - Complex.I * ((mass * width : ℝ) : ℂ)).im = -(mass * width) := by
      rw [Complex.sub_im, Complex.ofReal_im, Complex.mul_im, Complex.I_re, Complex.I_im, Complex.ofReal_re,
        Complex.ofReal_im]
      ring
    have hmw := mul_pos hM hw
    rw [div_eq_one_iff_eq] at hcon
    · have := congrArg Complex.im hcon
      rw [him, Complex.ofReal_im] at this
      linarith
    · intro h0
      rw [h0, Complex.zero_im] at him
      linarith

/-- The imaginary part of every propagator is nonnegative at physical energies (for the
Gounaris-Sakurai function when its normalisation is). -/
theorem propagators_absorptive (s mass width m : ℝ) (hM : 0 < mass) (hw : 0 ≤ width) :
    0 ≤ (bwFW s mass width).im ∧ 0 ≤ (bwPwave s mass width m m).im ∧
    ∀ h0 dh hres, 0 ≤ mass ^ 2 + h0 → 0 ≤ (bwGS s mass width m m h0 dh hres).im := by
  have key : ∀ a x y : ℝ, 0 ≤ a → 0 ≤ y → 0 ≤ ((a : ℂ) / ((x : ℂ) - Complex.I * (y : ℂ))).im := by
    intro a x y ha hy
    have h1 : ((x : ℂ) - Complex.I * (y : ℂ)).im = -y := by
      rw [Complex.sub_im, Complex.ofReal_im, Complex.mul_im, Complex.I_re, Complex.I_im, Complex.ofReal_re,
        Complex.ofReal_im]
      ring
    rw [Complex.div_im, h1, Complex.ofReal_im, Complex.ofReal_re, zero_mul, zero_div, zero_sub, ← neg_div]
    exact div_nonneg (by nlinarith [mul_nonneg ha hy]) (Complex.normSq_nonneg _)
  have hg : 0 ≤ √s * gammaP s mass width m m := by
    unfold gammaP
    simp only
    split_ifs <;> positivity
  exact ⟨key _ _ _ (by positivity) (by positivity), key _ _ _ (by positivity) hg,
    fun h0 dh hres hn => key _ _ _ hn hg⟩

/-! ### Couplings -/

private lemma gammaLoop_get (b : ℝ) (hb : ∀ k : ℕ, b ≠ k + 2) (k : ℕ) : ∀ (n : ℕ) (val : ℝ), 1 ≤ n →
    val = Real.Gamma (1 - b + n) / Real.Gamma n → ∀ j < k,
    (gammaLoop b val n k)[j]? = some (Real.Gamma (2 - b + (n + j : ℕ)) / Real.Gamma (1 + (n + j : ℕ))) := by
  induction k with
  | zero => intro n val _ _ j hj; omega
  | succ k ih =>
    intro n val hn hval j hj
    have hn0 : (n : ℝ) ≠ 0 := by positivity
    have hbn : 1 - b + (n : ℝ) ≠ 0 := by
      have := hb (n - 1)
      rw [Nat.cast_sub hn] at this
      intro h0
      apply this
      push_cast
      linarith
    have hv : val * ((1 - b + n) / n) = Real.Gamma (2 - b + n) / Real.Gamma (1 + n) := by
      rw [hval, show 2 - b + (n : ℝ) = (1 - b + n) + 1 by ring, Real.Gamma_add_one hbn,
        show (1 : ℝ) + n = n + 1 by ring, Real.Gamma_add_one hn0]
      field_simp
    unfold gammaLoop
    simp only
    cases j with
    | zero => simp only [List.getElem?_cons_zero, Nat.add_zero, hv]
    | succ j =>
      rw [List.getElem?_cons_succ, ih (n + 1) _ (by omega) ?_ j (by omega)]
      · rw [show n + 1 + j = n + (j + 1) by ring]
      · rw [hv]; push_cast; rw [show 1 - b + ((n : ℝ) + 1) = 2 - b + n by ring,
          show (1 : ℝ) + n = n + 1 by ring]

/-- **Generator.** It yields the quotients of gamma functions of its docstring, `nmax` of
them (one if `nmax` is zero). -/
theorem gamma_generator_values (b : ℝ) (hb : ∀ k : ℕ, b ≠ k + 2) (nmax : ℕ) :
    (gammaGen b nmax).length = max 1 nmax ∧
    ∀ n < max 1 nmax, (gammaGen b nmax)[n]? = some (Real.Gamma (2 - b + n) / Real.Gamma (1 + n)) := by
  have hlen : ∀ (k : ℕ) (v : ℝ) (n : ℕ), (gammaLoop b v n k).length = k := by
    intro k
    induction k with
    | zero => intro v n; rfl
    | succ k ih => intro v n; simp [gammaLoop, ih]
  refine ⟨?_, fun n hn => ?_⟩
  · simp only [gammaGen, List.length_cons, hlen]; omega
  · unfold gammaGen
    cases n with
    | zero => simp
    | succ n =>
      rw [List.getElem?_cons_succ, gammaLoop_get b hb (nmax - 1) 1 _ le_rfl ?_ n (by omega)]
      · rw [show 1 + n = n + 1 by ring]
      · simp; congr 1; ring

/-- **Couplings of the tower.** The `n`-th one is
`(-1)^n Γ(β-1/2) / ((n+1/2) √π n! Γ(β-1-n))`. -/
theorem raw_couplings_closed (b : ℝ) (hb : ∀ k : ℤ, b ≠ k) (nmax : ℕ) :
    (rawCouplings b nmax).length = nmax ∧
    ∀ n < nmax, (rawCouplings b nmax)[n]? = some ((-1) ^ n * Real.Gamma (b - 1 / 2) /
      ((n + 1 / 2) * √Real.pi * n.factorial * Real.Gamma (b - 1 - n))) := by
  obtain ⟨hl, hg⟩ := gamma_generator_values b (fun k => by exact_mod_cast hb (k + 2)) nmax
  refine ⟨?_, fun n hn => ?_⟩
  · simp only [rawCouplings, List.length_zipWith, List.length_range, hl]; omega
  · unfold rawCouplings
    rw [List.getElem?_zipWith, List.getElem?_range hn, hg n (by omega)]
    simp only
    congr 1
    have hrefl := Real.Gamma_mul_Gamma_one_sub (b - 1 - n)
    rw [show 1 - (b - 1 - (n : ℝ)) = 2 - b + n by ring] at hrefl
    have hsin : Real.sin (Real.pi * (b - 1 - n)) ≠ 0 := by
      intro h0
      rw [Real.sin_eq_zero_iff] at h0
      obtain ⟨k, hk⟩ := h0
      have : (k : ℝ) = b - 1 - n := by
        have := Real.pi_pos.ne'
        field_simp at hk
        linarith
      apply hb (k + 1 + n)
      push_cast
      linarith
    have hpi := Real.pi_pos
    have hG : Real.Gamma (b - 1 - n) ≠ 0 := by
      intro h0
      rw [h0, zero_mul] at hrefl
      exact (div_ne_zero hpi.ne' hsin) hrefl.symm
    have hG2 : Real.Gamma (2 - b + n) =
        Real.pi / (Real.sin (Real.pi * (b - 1 - n)) * Real.Gamma (b - 1 - n)) := by
      field_simp at hrefl ⊢
      linarith
    have hs : (if n % 2 = 1 then (-1 : ℝ) else 1) = (-1) ^ n := by
      split_ifs with h
      · rw [Odd.neg_one_pow (Nat.odd_iff.2 h)]
      · rw [Even.neg_one_pow (Nat.even_iff.2 (by omega))]
    have hf : Real.Gamma (1 + n) = n.factorial := by
      rw [add_comm]; exact Real.Gamma_nat_eq_factorial n
    have hsp : 0 < √Real.pi := Real.sqrt_pos.2 hpi
    rw [hs, hG2, hf, show (0.5 : ℝ) = 1 / 2 by norm_num]
    have hfa : (n.factorial : ℝ) ≠ 0 := by positivity
    have hn0 : (1 / 2 + (n : ℝ)) ≠ 0 := by positivity
    have hn1 : ((n : ℝ) + 1 / 2) ≠ 0 := by positivity
    rw [add_comm (1 / 2 : ℝ) (n : ℝ)]
    field_simp

private lemma cLoop_eq (n : ℕ) : ∀ ratio b : ℝ, ⌈b⌉₊ ≤ n →
    cLoop ratio b = ratio * (Real.Gamma (b - 1 / 2) / Real.Gamma (b - 1)) := by
  induction n with
  | zero =>
    intro ratio b hb
    rw [cLoop, if_neg]
    · norm_num
    · have := Nat.ceil_le.1 hb; simp at this; linarith
  | succ n ih =>
    intro ratio b hb
    rw [cLoop]
    split_ifs with h
    · rw [ih]
      · have e1 : b - 1 / 2 = (b - 3 / 2) + 1 := by ring
        have e2 : b - 1 = (b - 2) + 1 := by ring
        have n1 : b - 3 / 2 ≠ 0 := by linarith
        have n2 : b - 2 ≠ 0 := by linarith
        rw [e1, Real.Gamma_add_one n1, e2, Real.Gamma_add_one n2]
        have : Real.Gamma (b - 2) ≠ 0 := (Real.Gamma_pos_of_pos (by linarith)).ne'
        rw [show b - 2 + 1 - 1 / 2 = b - 3 / 2 by ring, show b - 2 + 1 - 1 = b - 2 by ring]
        norm_num
        field_simp
      · rw [show b - 1 = b - ((1 : ℕ) : ℝ) by simp, Nat.ceil_sub_natCast]; omega
    · norm_num

/-- **Lowest coupling.** `c_0` inside `_find_beta` is the closed form
`2 Γ(β-1/2)/(√π Γ(β-1))` for every argument, and it is the coupling of the lowest state
of the tower with that parameter. -/
theorem lowest_coupling (b : ℝ) :
    cZero b = 2 * Real.Gamma (b - 1 / 2) / (√Real.pi * Real.Gamma (b - 1)) ∧
    ((∀ k : ℤ, b ≠ k) → ∀ nmax, 1 ≤ nmax → (rawCouplings b nmax)[0]? = some (cZero b)) := by
  have h0 : cZero b = 2 * Real.Gamma (b - 1 / 2) / (√Real.pi * Real.Gamma (b - 1)) := by
    unfold cZero
    rw [cLoop_eq _ _ _ le_rfl]
    rw [div_mul_div_comm]
  refine ⟨h0, fun hb nmax hn => ?_⟩
  rw [(raw_couplings_closed b hb nmax).2 0 (by omega), h0]
  congr 1
  simp
  rw [show b - 2⁻¹ = b - 1 / 2 by norm_num]
  field_simp

private lemma sum_modify (l : List ℂ) (k : ℕ) (hk : k < l.length) (c : ℂ) :
    (l.modify k fun x => x + c).sum = l.sum + c := by
  induction l generalizing k with
  | nil => simp at hk
  | cons a l ih =>
    cases k with
    | zero => simp; ring
    | succ k =>
      rw [List.modify_succ_cons, List.sum_cons, ih k (by simpa using hk), List.sum_cons]; ring

/-- **Kaons: the couplings add up to one** for every fit and tower parameter; the fitted
ones are kept, and there are `nmax` of them.  With too few resonances the constructor
raises. -/
theorem kk_couplings_sum (b : ℝ) (wgt : List ℂ) (nmax : ℕ) :
    (kkCouplings b wgt nmax = none ↔ nmax ≤ wgt.length) ∧
    ∀ coup, kkCouplings b wgt nmax = some coup →
      coup.sum = 1 ∧ coup.length = nmax ∧ coup.take wgt.length = wgt := by
  unfold kkCouplings
  split_ifs with h
  · simp [h]
  · refine ⟨by simp [h], ?_⟩
    intro coup hc
    simp only [Option.some.injEq] at hc
    have hlen : ((rawCouplings b nmax).map fun x : ℝ => (x : ℂ)).length = nmax := by
      have : ∀ (k : ℕ) (v : ℝ) (n : ℕ), (gammaLoop b v n k).length = k := by
        intro k
        induction k with
        | zero => intro v n; rfl
        | succ k ih => intro v n; simp [gammaLoop, ih]
      simp only [List.length_map, rawCouplings, List.length_zipWith, List.length_range, gammaGen,
        List.length_cons, this]
      omega
    have hl2 : (wgt ++ ((rawCouplings b nmax).map fun x : ℝ => (x : ℂ)).drop wgt.length).length = nmax := by
      rw [List.length_append, List.length_drop, hlen]; omega
    rw [← hc]
    refine ⟨?_, by rw [List.length_modify, hl2], ?_⟩
    · rw [sum_modify _ _ (by rw [hl2]; omega)]; ring
    · rw [List.modify_eq_take_drop, List.take_append_of_le_length (by simp), List.take_take, min_self,
        List.take_left]

/-- **Pions: rescaling the low-lying couplings keeps the sum.**  The replaced couplings
are proportional to the fitted weights and the total is that of the tower with the stored
lowest coupling. -/
theorem pipi_couplings_sum (b first : ℝ) (wgt : List ℂ) (nmax : ℕ) (hw : 1 ≤ wgt.length)
    (hn : wgt.length ≤ nmax) (hs : (wgt.drop 1).sum ≠ 0) :
    ∃ coup, pipiCouplings b first wgt nmax = some coup ∧ coup.length = nmax ∧
      coup.sum = first + (((rawCouplings b nmax).map fun x : ℝ => (x : ℂ)).drop 1).sum ∧
      ∃ c : ℂ, (coup.take wgt.length).drop 1 = (wgt.drop 1).map fun w => w * c := by
  have hlen : ((rawCouplings b nmax).map fun x : ℝ => (x : ℂ)).length = nmax := by
    have : ∀ (k : ℕ) (v : ℝ) (n : ℕ), (gammaLoop b v n k).length = k := by
      intro k
      induction k with
      | zero => intro v n; rfl
      | succ k ih => intro v n; simp [gammaLoop, ih]
    simp only [List.length_map, rawCouplings, List.length_zipWith, List.length_range, gammaGen,
      List.length_cons, this]
    omega
  obtain ⟨l, hl⟩ : ∃ l, l = (rawCouplings b nmax).map fun x : ℝ => (x : ℂ) := ⟨_, rfl⟩
  have hd : pipiCouplings b first wgt nmax = some ((l.set 0 first).take 1 ++
      (wgt.drop 1).map (fun w => w * (((l.set 0 first).take wgt.length).drop 1).sum / (wgt.drop 1).sum) ++
      (l.set 0 first).drop (max 1 wgt.length)) := by
    unfold pipiCouplings
    rw [if_neg (by omega), hl]
  rw [← hl] at hlen ⊢
  obtain ⟨a, t, hat⟩ : ∃ a t, l = a :: t := by
    cases l with
    | nil => simp at hlen; omega
    | cons a t => exact ⟨a, t, rfl⟩
  obtain ⟨w0, ws, hws⟩ : ∃ a t, wgt = a :: t := by
    cases wgt with
    | nil => simp at hw
    | cons a t => exact ⟨a, t, rfl⟩
  subst hws
  subst hat
  simp only [List.set_cons_zero, List.length_cons, List.drop_succ_cons, List.drop_zero, List.take_succ_cons,
    List.take_zero] at hd hs hlen hn ⊢
  refine ⟨_, hd, ?_, ?_, ⟨(t.take ws.length).sum / ws.sum, ?_⟩⟩
  · rw [show max 1 (ws.length + 1) = ws.length + 1 by omega]
    simp
    omega
  · rw [show max 1 (ws.length + 1) = ws.length + 1 by omega]
    simp only [List.drop_succ_cons, List.sum_append, List.sum_cons, List.sum_nil, add_zero]
    have : (ws.map fun w => w * (t.take ws.length).sum / ws.sum).sum = (t.take ws.length).sum := by
      rw [show (fun w : ℂ => w * (t.take ws.length).sum / ws.sum) =
        fun w => w * ((t.take ws.length).sum / ws.sum) by ext w; ring, List.sum_map_mul_right,
        List.map_id']
      field_simp
    rw [this, add_assoc, ← List.sum_append, List.take_append_drop]
  · rw [List.append_assoc, List.singleton_append, List.take_succ_cons, List.drop_succ_cons, List.drop_zero,
      List.take_append_of_le_length (by simp), List.take_of_length_le (by simp)]
    apply List.map_congr_left
    intro w _
    ring

/-! ### The bisection -/

private lemma gamma_half : Real.Gamma (1 / 2) = √Real.pi := Real.Gamma_one_half_eq

private lemma cZero_step (b : ℝ) (hb : 2 < b) : cZero b = (b - 3 / 2) / (b - 2) * cZero (b - 1) := by
  rw [(lowest_coupling b).1, (lowest_coupling (b - 1)).1]
  have e1 : b - 1 / 2 = (b - 3 / 2) + 1 := by ring
  have e2 : b - 1 = (b - 2) + 1 := by ring
  have n1 : b - 3 / 2 ≠ 0 := by linarith
  have n2 : b - 2 ≠ 0 := by linarith
  have n3 : Real.Gamma (b - 2) ≠ 0 := (Real.Gamma_pos_of_pos (by linarith)).ne'
  have n4 : √Real.pi ≠ 0 := (Real.sqrt_pos.2 Real.pi_pos).ne'
  rw [e1, Real.Gamma_add_one n1, e2, Real.Gamma_add_one n2,
    show b - 2 + 1 - 1 / 2 = b - 3 / 2 by ring, show b - 2 + 1 - 1 = b - 2 by ring]
  field_simp

private lemma cZero_two : cZero 2 = 1 := by
  rw [(lowest_coupling 2).1, show (2 : ℝ) - 1 / 2 = 1 / 2 + 1 by norm_num,
    Real.Gamma_add_one (by norm_num), gamma_half, show (2 : ℝ) - 1 = 1 by norm_num, Real.Gamma_one]
  have := Real.sqrt_pos.2 Real.pi_pos
  field_simp

private lemma cZero_three_halves : cZero (3 / 2) = 2 / Real.pi := by
  rw [(lowest_coupling _).1, show (3 / 2 : ℝ) - 1 / 2 = 1 by norm_num,
    show (3 / 2 : ℝ) - 1 = 1 / 2 by norm_num, gamma_half, Real.Gamma_one,
    Real.mul_self_sqrt Real.pi_pos.le, mul_one]

private lemma cZero_values : cZero 1 = 0 ∧ cZero 5 = 35 / 16 ∧ 3.3 < cZero 10 ∧
    cZero 7.5 = 2048 / (231 * Real.pi) := by
  refine ⟨?_, ?_, ?_, ?_⟩
  · rw [(lowest_coupling 1).1]; norm_num [Real.Gamma_zero]
  · rw [cZero_step 5 (by norm_num), show (5 : ℝ) - 1 = 4 by norm_num, cZero_step 4 (by norm_num),
      show (4 : ℝ) - 1 = 3 by norm_num, cZero_step 3 (by norm_num), show (3 : ℝ) - 1 = 2 by norm_num,
      cZero_two]
    norm_num
  · rw [cZero_step 10 (by norm_num), show (10 : ℝ) - 1 = 9 by norm_num, cZero_step 9 (by norm_num),
      show (9 : ℝ) - 1 = 8 by norm_num, cZero_step 8 (by norm_num), show (8 : ℝ) - 1 = 7 by norm_num,
      cZero_step 7 (by norm_num), show (7 : ℝ) - 1 = 6 by norm_num, cZero_step 6 (by norm_num),
      show (6 : ℝ) - 1 = 5 by norm_num, cZero_step 5 (by norm_num), show (5 : ℝ) - 1 = 4 by norm_num,
      cZero_step 4 (by norm_num),
      show (4 : ℝ) - 1 = 3 by norm_num, cZero_step 3 (by norm_num), show (3 : ℝ) - 1 = 2 by norm_num,
      cZero_two]
    norm_num
  · rw [cZero_step 7.5 (by norm_num), show (7.5 : ℝ) - 1 = 6.5 by norm_num, cZero_step 6.5 (by norm_num),
      show (6.5 : ℝ) - 1 = 5.5 by norm_num, cZero_step 5.5 (by norm_num),
      show (5.5 : ℝ) - 1 = 4.5 by norm_num, cZero_step 4.5 (by norm_num),
      show (4.5 : ℝ) - 1 = 3.5 by norm_num, cZero_step 3.5 (by norm_num),
      show (3.5 : ℝ) - 1 = 2.5 by norm_num, cZero_step 2.5 (by norm_num),
      show (2.5 : ℝ) - 1 = 3 / 2 by norm_num, cZero_three_halves]
    have := Real.pi_pos
    norm_num
    field_simp
    norm_num

private lemma cZero_mid_bounds : 2.81 < cZero 7.5 ∧ cZero 7.5 < 2.83 := by
  rw [cZero_values.2.2.2]
  have h1 := Real.pi_gt_d2
  have h2 := Real.pi_lt_d2
  constructor
  · rw [lt_div_iff₀ (by positivity)]; nlinarith
  · rw [div_lt_iff₀ (by positivity)]; nlinarith

private lemma cZero_next_lower : 3 < cZero 8.75 := by
  rw [(lowest_coupling _).1, show (8.75 : ℝ) - 1 / 2 = 8.25 by norm_num,
    show (8.75 : ℝ) - 1 = 7.75 by norm_num]
  have hconv := Real.Gamma_mul_add_mul_le_rpow_Gamma_mul_rpow_Gamma (s := 8.25) (t := 9.25)
    (a := 1 / 2) (b := 1 / 2) (by norm_num) (by norm_num) (by norm_num) (by norm_num) (by norm_num)
  rw [show (1 / 2 : ℝ) * 8.25 + 1 / 2 * 9.25 = 7.75 + 1 by norm_num, Real.Gamma_add_one (by norm_num),
    show (9.25 : ℝ) = 8.25 + 1 by norm_num, Real.Gamma_add_one (by norm_num), ← Real.sqrt_eq_rpow,
    ← Real.sqrt_eq_rpow] at hconv
  have hA : 0 < Real.Gamma 8.25 := Real.Gamma_pos_of_pos (by norm_num)
  have hB : 0 < Real.Gamma 7.75 := Real.Gamma_pos_of_pos (by norm_num)
  rw [Real.sqrt_mul (by norm_num)] at hconv
  have h1 : √(Real.Gamma 8.25) * (√8.25 * √(Real.Gamma 8.25)) = √8.25 * Real.Gamma 8.25 := by
    have := Real.mul_self_sqrt hA.le
    linear_combination √8.25 * this
  rw [h1] at hconv
  have h2 : √(8.25 : ℝ) < 2.8723 := by rw [Real.sqrt_lt' (by norm_num)]; norm_num
  have h3 : √Real.pi < 1.7726 := by
    rw [Real.sqrt_lt' (by norm_num)]
    have := Real.pi_lt_d4
    norm_num at this ⊢
    linarith
  rw [lt_div_iff₀ (mul_pos (Real.sqrt_pos.2 Real.pi_pos) hB)]
  have h4 : 7.75 * Real.Gamma 7.75 ≤ 2.8723 * Real.Gamma 8.25 :=
    hconv.trans (mul_le_mul_of_nonneg_right h2.le hA.le)
  have h5 : √Real.pi * Real.Gamma 7.75 ≤ 1.7726 * Real.Gamma 7.75 :=
    mul_le_mul_of_nonneg_right h3.le hB.le
  linarith

private lemma loop_det {c0 : ℝ} {st : Bisect} {r r' : Option ℝ} (h : Loop c0 st r) (h' : Loop c0 st r') :
    r = r' := by
  induction h with
  | stop h1 =>
    cases h' with
    | stop => rfl
    | fail h2 => linarith
    | step h2 => linarith
  | fail h1 h2 =>
    cases h' with
    | stop h3 => linarith
    | fail => rfl
    | step _ h3 => rw [h2] at h3; cases h3
  | step h1 h2 _ ih =>
    cases h' with
    | stop h3 => linarith
    | fail _ h3 => rw [h2] at h3; cases h3
    | step _ h3 h4 => rw [h2] at h3; cases h3; exact ih h4

/-- The state of a run that has not stopped: it was left by a pass that looked at some
midpoint. -/
private lemma loop_tested {c0 : ℝ} {st : Bisect} {r : Option ℝ} (h : Loop c0 st r) :
    ∀ b t, st.cmid = cZero t → r = some b → ∃ t', |cZero t' - c0| ≤ 1e-10 := by
  induction h with
  | stop h1 => intro b t ht _; exact ⟨t, by rw [← ht]; exact h1⟩
  | fail => intro b t _ hr; cases hr
  | @step st st' r h1 h2 _ ih =>
    intro b t _ hr
    refine ih b st.bmid ?_ hr
    unfold bisectStep at h2
    simp only at h2
    split_ifs at h2 <;> cases h2 <;> rfl

/-- Partial correctness of the bisection: whenever it returns, some midpoint it has looked at
reproduces the coupling to `1e-10`, and the outcome is determined by the coupling.  What is
missing is that this midpoint is the one returned, see `find_beta_wrong`. -/
theorem find_beta_partial (c0 : ℝ) :
    (∀ b, FindBeta c0 (some b) → ∃ t, |cZero t - c0| ≤ 1e-10) ∧
    (∀ r r', FindBeta c0 r → FindBeta c0 r' → r = r') ∧
    (|cZero 5 - c0| ≤ 1e-10 → FindBeta c0 (some 5)) ∧
    (c0 ≤ 0 → FindBeta c0 none) := by
  refine ⟨fun b h => loop_tested h b 5 rfl rfl, fun r r' h h' => loop_det h h', fun h => Loop.stop h, ?_⟩
  intro hc
  obtain ⟨v1, v5, v10, -⟩ := cZero_values
  refine Loop.fail ?_ ?_
  · simp only [v5]; rw [abs_of_pos (by linarith)]; linarith
  · unfold bisectStep
    simp only [v1, v5]
    rw [if_neg (by intro h; linarith [h.1]), if_neg (by intro h; linarith [h.1]), if_neg (by linarith)]

private lemma two_passes {c0 : ℝ} (h1 : 2.8 < c0) (h2 : c0 < 2.9) {r : Option ℝ}
    (h : Loop c0 ⟨5, 7.5, 10, cZero 5⟩ r) : FindBeta c0 r := by
  obtain ⟨v1, v5, v10, -⟩ := cZero_values
  refine Loop.step (st' := ⟨5, 7.5, 10, cZero 5⟩) ?_ ?_ h
  · simp only [v5]; rw [abs_sub_comm, abs_of_pos (by linarith)]; linarith
  · unfold bisectStep
    simp only
    rw [if_neg (by rw [v5]; intro h; linarith [h.2]), if_pos (by rw [v5]; constructor <;> linarith)]
    norm_num

/-- **Violation.** The tested midpoint is not the one returned.  For every coupling just
above that of `β = 7.5` the result is `8.75`, whose coupling is more than `0.15` off; for
every one just below, `6.25`; and for exactly that coupling an exception is raised. -/
theorem find_beta_wrong :
    (∀ c0, cZero 7.5 < c0 → c0 ≤ cZero 7.5 + 1e-10 →
      FindBeta c0 (some 8.75) ∧ 0.15 < |cZero 8.75 - c0|) ∧
    (∀ c0, cZero 7.5 - 1e-10 ≤ c0 → c0 < cZero 7.5 → FindBeta c0 (some 6.25)) ∧
    FindBeta (cZero 7.5) none := by
  obtain ⟨v1, v5, v10, -⟩ := cZero_values
  obtain ⟨l7, u7⟩ := cZero_mid_bounds
  have far : ∀ c0, 2.8 < c0 → 1e-10 < |cZero 5 - c0| := by
    intro c0 h
    rw [v5, abs_sub_comm, abs_of_pos (by linarith)]; linarith
  refine ⟨fun c0 h1 h2 => ⟨two_passes (by linarith) (by linarith) ?_, ?_⟩, fun c0 h1 h2 =>
    two_passes (by linarith) (by linarith) ?_, two_passes (by linarith) (by linarith) ?_⟩
  · refine Loop.step (st' := ⟨7.5, 8.75, 10, cZero 7.5⟩) (far c0 (by linarith)) ?_ (Loop.stop ?_)
    · unfold bisectStep
      simp only
      rw [if_neg (by intro h; linarith [h.2]), if_pos ⟨h1, by linarith⟩]
      norm_num
    · simp only; rw [abs_le]; constructor <;> linarith
  · have := cZero_next_lower
    rw [abs_of_pos (by linarith)]
    linarith
  · refine Loop.step (st' := ⟨5, 6.25, 7.5, cZero 7.5⟩) (far c0 (by linarith)) ?_ (Loop.stop ?_)
    · unfold bisectStep
      simp only
      rw [if_pos ⟨by rw [v5]; linarith, h2⟩]
      norm_num
    · simp only; rw [abs_le]; constructor <;> linarith
  · refine Loop.fail (far _ (by linarith)) ?_
    unfold bisectStep
    simp only
    rw [if_neg (by intro h; linarith [h.2]), if_neg (by intro h; linarith [h.1]), if_neg (by linarith)]

/-! ### Concrete cases -/

-- The rho with its shipped parameters.
example : HasDerivAt (fun s => hhat s 0.77337 0.1471 0.13957 0.13957)
    (dhhatds 0.77337 0.1471 0.13957 0.13957) (0.77337 ^ 2) :=
  dhhatds_is_derivative _ _ _ _ (by norm_num) (by norm_num) (by norm_num) (by norm_num)

example : gammaP (0.77337 ^ 2) 0.77337 0.1471 0.13957 0.13957 = 0.1471 :=
  (running_width _ _ _ _ (by norm_num) (by norm_num) (by norm_num) (by norm_num)).2.1

-- The tower of the pion form factor: β = 2.148 is not an integer.
example : (rawCouplings 2.148 2000)[1]? = some ((-1) ^ 1 * Real.Gamma (2.148 - 1 / 2) /
    (((1 : ℕ) + 1 / 2) * √Real.pi * (1 : ℕ).factorial * Real.Gamma (2.148 - 1 - (1 : ℕ)))) := by
  refine (raw_couplings_closed 2.148 ?_ 2000).2 1 (by norm_num)
  intro k hk
  have h1 : (2 : ℝ) < k := by rw [← hk]; norm_num
  have h2 : (k : ℝ) < 3 := by rw [← hk]; norm_num
  have h1' : (2 : ℤ) < k := by exact_mod_cast h1
  have h2' : k < (3 : ℤ) := by exact_mod_cast h2
  omega

-- Five fitted weights and two hundred resonances.
example (w : Fin 5 → ℂ) : ∃ coup, kkCouplings 2.2 (List.ofFn w) 200 = some coup ∧ coup.sum = 1 := by
  have h := kk_couplings_sum 2.2 (List.ofFn w) 200
  obtain ⟨c, hc⟩ := Option.ne_none_iff_exists'.1 (fun hn => by have := h.1.1 hn; simp at this)
  exact ⟨c, hc, (h.2 c hc).1⟩

end Hazma.Resonance
