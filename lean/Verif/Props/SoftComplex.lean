import Verif.Model.SoftComplex
import Verif.Model.CrossSections
import Mathlib.Tactic

/-!
# Complex division and power of the cross-section kernels (C200, C201)
-/

namespace Hazma.SoftComplex

theorem two_zpow_pos (n : ℤ) : (0 : ℝ) < 2 ^ n := by positivity

theorem magnitude_nonneg (b s : ℕ) : 0 ≤ magnitude b s := by
  unfold magnitude
  split_ifs <;> positivity

theorem magnitude_eq_zero (b s : ℕ) : magnitude b s = 0 ↔ b = 0 ∧ s = 0 := by
  unfold magnitude
  split_ifs with h
  · have := two_zpow_pos (-1074)
    rw [mul_eq_zero]
    constructor
    · rintro (h' | h')
      · exact ⟨h, by exact_mod_cast h'⟩
      · exact absurd h' this.ne'
    · intro h'
      left
      exact_mod_cast h'.2
  · constructor
    · intro h'
      have := two_zpow_pos ((b : ℤ) - 1075)
      have h2 : (0 : ℝ) < (2 : ℝ) ^ 52 + s := by positivity
      exact absurd h' (mul_pos h2 this).ne'
    · intro h'
      exact absurd h'.1 h

theorem abs_finValue (neg : Bool) (b s : ℕ) : |finValue neg b s| = magnitude b s := by
  unfold finValue
  split_ifs
  · rw [abs_neg, abs_of_nonneg (magnitude_nonneg b s)]
  · exact abs_of_nonneg (magnitude_nonneg b s)

/-- **C200.** `ilogb_finite` read off the bits is the binary exponent of the double, normal or
subnormal: `2^n ≤ |x| < 2^(n+1)`, with `-1074 ≤ n ≤ 1023`. -/
theorem ilogb_spec (neg : Bool) (b s : ℕ) (hv : (Dbl.fin neg b s).Valid)
    (h0 : finValue neg b s ≠ 0) :
    (2 : ℝ) ^ ilogbFinite b s ≤ |finValue neg b s| ∧
      |finValue neg b s| < (2 : ℝ) ^ (ilogbFinite b s + 1) ∧
      -1074 ≤ ilogbFinite b s ∧ ilogbFinite b s ≤ 1023 := by
  obtain ⟨hb, hs⟩ := hv
  rw [abs_finValue]
  have hm : magnitude b s ≠ 0 := by
    intro h
    apply h0
    rw [← abs_eq_zero, abs_finValue, h]
  unfold ilogbFinite
  by_cases h : b = 0
  · have hs0 : s ≠ 0 := fun h' => hm ((magnitude_eq_zero b s).mpr ⟨h, h'⟩)
    have hlog : Nat.log2 s < 52 := (Nat.log2_lt hs0).mpr hs
    have hn : (63 : ℤ) - (leadingZeros s : ℤ) - 1074 = (Nat.log2 s : ℤ) - 1074 := by
      unfold leadingZeros
      rw [if_neg hs0]
      omega
    have h1 : 2 ^ Nat.log2 s ≤ s := Nat.log2_self_le hs0
    have h2 : s < 2 ^ (Nat.log2 s + 1) := Nat.lt_log2_self
    have h1' : (2 : ℝ) ^ Nat.log2 s ≤ s := by exact_mod_cast h1
    have h2' : (s : ℝ) < (2 : ℝ) ^ (Nat.log2 s + 1) := by exact_mod_cast h2
    have hp := two_zpow_pos (-1074)
    rw [if_pos h, hn]
    unfold magnitude
    rw [if_pos h]
    have e1 : (2 : ℝ) ^ ((Nat.log2 s : ℤ) - 1074) = 2 ^ Nat.log2 s * 2 ^ (-1074 : ℤ) := by
      rw [sub_eq_add_neg, zpow_add₀ two_ne_zero, zpow_natCast]
    have e2 : (2 : ℝ) ^ ((Nat.log2 s : ℤ) - 1074 + 1)
        = 2 ^ (Nat.log2 s + 1) * 2 ^ (-1074 : ℤ) := by
      rw [show (Nat.log2 s : ℤ) - 1074 + 1 = ((Nat.log2 s + 1 : ℕ) : ℤ) + (-1074) by push_cast; ring,
        zpow_add₀ two_ne_zero, zpow_natCast]
    rw [e1, e2]
    refine ⟨mul_le_mul_of_nonneg_right h1' hp.le, mul_lt_mul_of_pos_right h2' hp, ?_, ?_⟩ <;> omega
  · rw [if_neg h]
    unfold magnitude
    rw [if_neg h]
    have hp := two_zpow_pos ((b : ℤ) - 1075)
    have e1 : (2 : ℝ) ^ ((b : ℤ) - 1023) = 2 ^ 52 * 2 ^ ((b : ℤ) - 1075) := by
      rw [show (b : ℤ) - 1023 = ((52 : ℕ) : ℤ) + ((b : ℤ) - 1075) by push_cast; ring,
        zpow_add₀ two_ne_zero, zpow_natCast]
    have e2 : (2 : ℝ) ^ ((b : ℤ) - 1023 + 1) = (2 ^ 52 + 2 ^ 52) * 2 ^ ((b : ℤ) - 1075) := by
      rw [zpow_add_one₀ two_ne_zero, e1]
      ring
    have hs' : (s : ℝ) < 2 ^ 52 := by exact_mod_cast hs
    have hs0 : (0 : ℝ) ≤ s := Nat.cast_nonneg s
    rw [e1, e2]
    refine ⟨mul_le_mul_of_nonneg_right (by linarith) hp.le,
      mul_lt_mul_of_pos_right (by linarith) hp, ?_, ?_⟩ <;> omega

theorem fromExponent_eq (n : ℤ) (h1 : -1022 ≤ n) : fromExponent n = (2 : ℝ) ^ n := by
  unfold fromExponent magnitude
  rw [if_neg (by omega), Nat.cast_zero, add_zero, show (2 : ℝ) ^ 52 = 2 ^ (52 : ℤ) by norm_num,
    ← zpow_add₀ two_ne_zero]
  congr 1
  omega

/-- **C200.** `scalbn(x, n)` is `x · 2ⁿ` for every `n` from `-2960` to `3069`; beyond, the exponent
saturates at these ends. -/
theorem scalbn_spec (x : ℝ) (n : ℤ) :
    scalbn x n = x * 2 ^ (max (-2960) (min 3069 n)) := by
  have hadd : ∀ a b : ℤ, (2 : ℝ) ^ a * 2 ^ b = 2 ^ (a + b) := fun a b =>
    (zpow_add₀ two_ne_zero a b).symm
  unfold scalbn
  simp only
  split_ifs with h1 h2 h3 h4
  · rw [fromExponent_eq _ (by omega), mul_assoc, mul_assoc, hadd, hadd]
    congr 2
    omega
  · rw [fromExponent_eq _ (by omega), mul_assoc, hadd]
    congr 2
    omega
  · rw [fromExponent_eq _ (by omega), mul_assoc, mul_assoc, hadd, hadd]
    congr 2
    omega
  · rw [fromExponent_eq _ (by omega), mul_assoc, hadd]
    congr 2
    omega
  · rw [fromExponent_eq _ (by omega)]
    congr 2
    omega

theorem toDouble_bad {v : XReal × XReal} (h : v.2 ≠ .num 0) : toDouble v = none := by
  unfold toDouble
  rw [if_pos h]

theorem recover_real {a scaled denom real imag : XReal} (h : ¬ isNan real) :
    recover a scaled denom real imag = (real, imag) := by
  unfold recover
  rw [if_neg (fun h' => h h'.1)]

/-- If the imaginary part came out NaN, no recovery clause makes it zero. -/
theorem recover_nan (a scaled denom real : XReal) :
    (recover a scaled denom real .nan).2 ≠ .num 0 := by
  unfold recover
  split_ifs with h1 h2 h3
  · simp [infTimes, xmul]
  · cases scaled with
    | num t => simp [infTimes, xmul]
    | nan => simp [infTimes, xmul]
    | pinf => simp [isInf] at h3
    | ninf => simp [isInf] at h3
  · simp
  · simp

theorem divide_finite (a t : ℝ) (n : ℤ) (ht : t ≠ 0) :
    divide (.num a) (.num t) n = some (.num (scalbn (a * t / (t * t)) (-n))) := by
  have hd : t * t ≠ 0 := mul_ne_zero ht ht
  have h0 : (0 : ℝ) * t - a * 0 = 0 := by ring
  unfold divide
  simp only [xmul, xdiv, xsub, hd, if_false, xscalbn, h0, zero_div]
  rw [recover_real (by simp [isNan])]
  unfold toDouble
  rw [if_neg]
  simp [scalbn_spec]

theorem divide_imag_nan (a scaled : XReal) (n : ℤ)
    (h : xdiv (xsub (xmul (.num 0) scaled) (xmul a (.num 0))) (xmul scaled scaled) = .nan) :
    divide a scaled n = none := by
  unfold divide
  simp only [h]
  exact toDouble_bad (recover_nan _ _ _ _)

theorem quotient_finite (a : ℝ) (neg : Bool) (b s : ℕ) (hv : (Dbl.fin neg b s).Valid)
    (h0 : finValue neg b s ≠ 0) :
    quotient (.num a) (.fin neg b s) = some (.num (a / finValue neg b s)) := by
  obtain ⟨-, -, hl, hu⟩ := ilogb_spec neg b s hv h0
  obtain ⟨c, hc⟩ : ∃ c, c = finValue neg b s := ⟨_, rfl⟩
  obtain ⟨n, hn⟩ : ∃ n, n = ilogbFinite b s := ⟨_, rfl⟩
  have hsc : ∀ x : ℝ, scalbn x (-n) = x * 2 ^ (-n) := by
    intro x
    rw [scalbn_spec]
    congr 2
    omega
  have hp := two_zpow_pos (-n)
  have hs : scaleDenominator (.fin neg b s) = (.num (c * 2 ^ (-n)), n) := by
    simp only [scaleDenominator]
    rw [if_neg h0, ← hc, ← hn, hsc]
  rw [← hc] at h0 ⊢
  unfold quotient
  rw [hs, divide_finite a _ n (by positivity), hsc]
  congr 2
  generalize (2 : ℝ) ^ (-n) = z at hp
  field_simp

theorem quotient_zero (a : XReal) (neg : Bool) (b s : ℕ) (h0 : finValue neg b s = 0) :
    quotient a (.fin neg b s) = none := by
  have hs : scaleDenominator (.fin neg b s) = (.num 0, 0) := by
    simp only [scaleDenominator]
    rw [if_pos h0]
  unfold quotient
  rw [hs]
  apply divide_imag_nan
  cases a <;> simp [xmul, xdiv, xsub]

theorem quotient_infinite (a : XReal) (neg : Bool) : quotient a (.inf neg) = none := by
  unfold quotient
  apply divide_imag_nan
  cases neg <;> cases a <;> simp [scaleDenominator, Dbl.value, xmul, xdiv, xsub]

theorem quotient_nan (a : XReal) : quotient a .nan = none := by
  unfold quotient
  apply divide_imag_nan
  cases a <;> simp [scaleDenominator, xmul, xdiv, xsub]

theorem quotient_bad_numerator (a : XReal) (ha : a = .nan ∨ a = .pinf ∨ a = .ninf) (neg : Bool)
    (b s : ℕ) (h0 : finValue neg b s ≠ 0) : quotient a (.fin neg b s) = none := by
  unfold quotient
  apply divide_imag_nan
  simp only [scaleDenominator]
  rw [if_neg h0]
  rcases ha with rfl | rfl | rfl <;> simp [xmul, xdiv, xsub]

/-- **C200.** The quotient is `a / c` when both are finite and `c` is not zero, for every double `c`,
subnormals included; in every other case the kernel raises. -/
theorem quotient_spec (a : XReal) (c : Dbl) (hc : c.Valid) (r : XReal) :
    quotient a c = some r ↔
      ∃ x y : ℝ, a = .num x ∧ c.value = .num y ∧ y ≠ 0 ∧ r = .num (x / y) := by
  cases c with
  | nan => simp [quotient_nan, Dbl.value]
  | inf neg => cases neg <;> simp [quotient_infinite, Dbl.value]
  | fin neg b s =>
    by_cases h0 : finValue neg b s = 0
    · rw [quotient_zero a neg b s h0]
      simp only [Dbl.value, h0, reduceCtorEq, false_iff]
      rintro ⟨x, y, -, h, hy, -⟩
      exact hy (XReal.num.inj h).symm
    · cases a with
      | num x =>
        rw [quotient_finite x neg b s hc h0]
        simp only [Dbl.value, Option.some.injEq]
        constructor
        · intro h
          exact ⟨x, _, rfl, rfl, h0, h.symm⟩
        · rintro ⟨x', y, h1, h2, -, h3⟩
          rw [h3, ← XReal.num.inj h1, ← XReal.num.inj h2]
      | nan => simp [quotient_bad_numerator _ (.inl rfl) neg b s h0]
      | pinf => simp [quotient_bad_numerator _ (.inr (.inl rfl)) neg b s h0]
      | ninf => simp [quotient_bad_numerator _ (.inr (.inr rfl)) neg b s h0]

/-- **C200.** The cross-section model's division is this one. -/
theorem quotient_refines (x : ℝ) (neg : Bool) (b s : ℕ) (hv : (Dbl.fin neg b s).Valid) (r : ℝ) :
    quotient (.num x) (.fin neg b s) = some (.num r) ↔
      Hazma.Xs.quotient x (finValue neg b s) = .ok r := by
  unfold Hazma.Xs.quotient
  by_cases h0 : finValue neg b s = 0
  · rw [quotient_zero _ neg b s h0, if_pos h0]
    simp
  · rw [quotient_finite x neg b s hv h0, if_neg h0]
    simp

/-- **C201.** `soft_complex_pow_1_5(t)` is `t · √t = t^(3/2)` for `t ≥ 0`, zero included, and NaN for
`t < 0`. -/
theorem pow15_spec (t : ℝ) :
    (0 ≤ t → pow15 t = .num (t * Real.sqrt t) ∧ t * Real.sqrt t = t ^ (3 / 2 : ℝ)) ∧
      (t < 0 → pow15 t = .nan) := by
  constructor
  · intro h
    have hpow : t * Real.sqrt t = t ^ (3 / 2 : ℝ) := by
      rcases h.eq_or_lt with h0 | h0
      · rw [← h0]
        rw [Real.zero_rpow (by norm_num)]
        simp
      · rw [Real.sqrt_eq_rpow, ← Real.rpow_one_add' h (by norm_num)]
        norm_num
    refine ⟨?_, hpow⟩
    unfold pow15
    rw [if_neg (not_lt.mpr h)]
    rcases h.eq_or_lt with h0 | h0
    · rw [if_pos h0.symm, ← h0]
      simp
    · rw [if_neg h0.ne', hpow, Real.rpow_def_of_pos h0]
      congr 2
      norm_num
      ring
  · intro h
    unfold pow15
    rw [if_pos h]

example : quotient (.num 3) (.fin true 1024 0) = some (.num (-(3 / 2))) := by
  have hv : finValue true 1024 0 = -2 := by
    unfold finValue magnitude
    norm_num
  rw [quotient_finite 3 true 1024 0 ⟨by norm_num, by norm_num⟩ (by rw [hv]; norm_num), hv]
  congr 2
  norm_num

example : ilogbFinite 0 1 = -1074 ∧ ilogbFinite 0 (2 ^ 51) = -1023 ∧ ilogbFinite 1023 0 = 0 := by
  decide

example : pow15 4 = .num 8 := by
  rw [((pow15_spec 4).1 (by norm_num)).1, show (4 : ℝ) = 2 ^ 2 by norm_num,
    Real.sqrt_sq (by norm_num)]
  norm_num

end Hazma.SoftComplex
