import Verif.Model.Num
import Mathlib.Analysis.SpecialFunctions.Pow.Real

/-!
# Complex division and power of the cross-section kernels

Model of `rust/src/kernels/soft_complex.rs`: the pieces of C complex arithmetic the cross-section
kernels reproduce.

Not modelled: rounding, overflow and underflow of the arithmetic, and the sign of a zero (which
only decides between values that are discarded).
-/

namespace Hazma.SoftComplex

/-- A `f64` as its bits: NaN, an infinity, or sign, biased exponent (11 bits, not all ones) and
significand (52 bits). -/
inductive Dbl where
  | nan : Dbl
  | inf (neg : Bool) : Dbl
  | fin (neg : Bool) (biased significand : ℕ) : Dbl

/-- The fields are in the range of their bits. -/
def Dbl.Valid : Dbl → Prop
  | .fin _ biased significand => biased < 2047 ∧ significand < 2 ^ 52
  | _ => True

/-- Magnitude of a finite double: `significand · 2⁻¹⁰⁷⁴` if the exponent field is zero,
`(2⁵² + significand) · 2^(biased - 1075)` otherwise (IEEE 754 binary64). -/
noncomputable def magnitude (biased significand : ℕ) : ℝ :=
  if biased = 0 then (significand : ℝ) * 2 ^ (-1074 : ℤ)
  else ((2 : ℝ) ^ 52 + significand) * 2 ^ ((biased : ℤ) - 1075)

/-- Value of a finite double. -/
noncomputable def finValue (neg : Bool) (biased significand : ℕ) : ℝ :=
  if neg then -magnitude biased significand else magnitude biased significand

/-- Value of a double. -/
noncomputable def Dbl.value : Dbl → XReal
  | .nan => .nan
  | .inf neg => if neg then .ninf else .pinf
  | .fin neg b s => .num (finValue neg b s)

/-- `u64::leading_zeros`. -/
def leadingZeros (x : ℕ) : ℕ := if x = 0 then 64 else 63 - Nat.log2 x

/-- `ilogb_finite` (`soft_complex.rs:57-69`), on the bits. -/
def ilogbFinite (biased significand : ℕ) : ℤ :=
  if biased = 0 then 63 - (leadingZeros significand : ℤ) - 1074 else (biased : ℤ) - 1023

/-- `f64::from_bits(((0x3ff + n) as u64) << 52)` (`soft_complex.rs:103`) for an exponent field in
range. -/
noncomputable def fromExponent (n : ℤ) : ℝ := magnitude (0x3ff + n).toNat 0

/-- `scalbn` (`soft_complex.rs:78-104`) on a real; `HUGE_STEP` is `2^1023`, `TINY_STEP` is
`2^-969`. -/
noncomputable def scalbn (x : ℝ) (n : ℤ) : ℝ :=
  let hugeStep : ℝ := 2 ^ (1023 : ℤ)
  let tinyStep : ℝ := 2 ^ (-969 : ℤ)
  if n > 1023 then
    let y := x * hugeStep
    let n := n - 1023
    if n > 1023 then y * hugeStep * fromExponent (min (n - 1023) 1023)
    else y * fromExponent n
  else if n < -1022 then
    let y := x * tinyStep
    let n := n + (1022 - 53)
    if n < -1022 then y * tinyStep * fromExponent (max (n + (1022 - 53)) (-1022))
    else y * fromExponent n
  else x * fromExponent n

/-- `scalbn` on NaN and the infinities: multiplication by positive powers of two. -/
noncomputable def xscalbn (x : XReal) (n : ℤ) : XReal :=
  match x with
  | .num y => .num (scalbn y n)
  | .pinf => .pinf
  | .ninf => .ninf
  | .nan => .nan

/-- Negation. -/
noncomputable def xneg : XReal → XReal
  | .nan => .nan
  | .pinf => .ninf
  | .ninf => .pinf
  | .num x => .num (-x)

/-- An infinity of the sign of `x`, for `x ≠ 0`. -/
noncomputable def signInf (x : ℝ) : XReal := if 0 < x then .pinf else .ninf

/-- IEEE multiplication. -/
noncomputable def xmul : XReal → XReal → XReal
  | .nan, _ => .nan
  | _, .nan => .nan
  | .num x, .num y => .num (x * y)
  | .num x, .pinf => if x = 0 then .nan else signInf x
  | .num x, .ninf => if x = 0 then .nan else signInf (-x)
  | .pinf, .num y => if y = 0 then .nan else signInf y
  | .ninf, .num y => if y = 0 then .nan else signInf (-y)
  | .pinf, .pinf => .pinf
  | .pinf, .ninf => .ninf
  | .ninf, .pinf => .ninf
  | .ninf, .ninf => .pinf

/-- IEEE subtraction. -/
noncomputable def xsub : XReal → XReal → XReal
  | .nan, _ => .nan
  | _, .nan => .nan
  | .num x, .num y => .num (x - y)
  | .num _, .pinf => .ninf
  | .num _, .ninf => .pinf
  | .pinf, .pinf => .nan
  | .pinf, _ => .pinf
  | .ninf, .ninf => .nan
  | .ninf, _ => .ninf

/-- IEEE division; a zero divisor counts as `+0`. -/
noncomputable def xdiv : XReal → XReal → XReal
  | .nan, _ => .nan
  | _, .nan => .nan
  | .num x, .num y => if y = 0 then (if x = 0 then .nan else signInf x) else .num (x / y)
  | .num _, .pinf => .num 0
  | .num _, .ninf => .num 0
  | .pinf, .num y => if 0 ≤ y then .pinf else .ninf
  | .ninf, .num y => if 0 ≤ y then .ninf else .pinf
  | _, _ => .nan

/-- `is_nan`. -/
def isNan : XReal → Prop
  | .nan => True
  | _ => False

/-- `is_infinite`. -/
def isInf : XReal → Prop
  | .pinf => True
  | .ninf => True
  | _ => False

/-- `f64::INFINITY.copysign(x) * y`, up to the sign of an infinite result. -/
noncomputable def infTimes (y : XReal) : XReal := xmul .pinf y

/-- The denominator scaled into `[1, 2)` and its exponent (`soft_complex.rs:150-163`): zero, NaN and
the infinities are left alone. -/
noncomputable def scaleDenominator : Dbl → XReal × ℤ
  | .fin neg b s =>
    if finValue neg b s = 0 then (.num 0, 0)
    else (.num (scalbn (finValue neg b s) (-ilogbFinite b s)), ilogbFinite b s)
  | .inf neg => ((Dbl.inf neg).value, 0)
  | .nan => (.nan, 0)

open Classical in
/-- The recovery clauses of C99 Annex G (`soft_complex.rs:178-193`). -/
noncomputable def recover (a scaled denom real imag : XReal) : XReal × XReal :=
  if isNan real ∧ isNan imag then
    if denom = .num 0 ∧ ¬ isNan a then (infTimes a, infTimes (.num 0))
    else if isInf a ∧ ¬ isInf scaled ∧ ¬ isNan scaled then
      (infTimes (xmul (.num 1) scaled), infTimes (xmul (.num 0) scaled))
    else (real, imag)
  else (real, imag)

open Classical in
/-- The test of `__Pyx_SoftComplexToDouble` (`soft_complex.rs:195-200`); `none` is
`Err(NonRealResult)`. -/
noncomputable def toDouble (v : XReal × XReal) : Option XReal :=
  if v.2 ≠ .num 0 then none else some v.1

/-- The quotient by a scaled denominator (`soft_complex.rs:165-200`). -/
noncomputable def divide (a scaled : XReal) (ilogbw : ℤ) : Option XReal :=
  let denom := xmul scaled scaled
  let real := xscalbn (xdiv (xmul a scaled) denom) (-ilogbw)
  let imag := xscalbn (xdiv (xsub (xmul (.num 0) scaled) (xmul a (.num 0))) denom) (-ilogbw)
  toDouble (recover a scaled denom real imag)

/-- `complex_quotient_real_denominator` (`soft_complex.rs:149-200`). -/
noncomputable def quotient (a : XReal) (c : Dbl) : Option XReal :=
  divide a (scaleDenominator c).1 (scaleDenominator c).2

/-- `soft_complex_pow_1_5` (`soft_complex.rs:121-123`) on a finite argument: `exp(1.5 · ln t)`, with
`ln` NaN below zero and `-∞` at zero. -/
noncomputable def pow15 (t : ℝ) : XReal :=
  if t < 0 then .nan else if t = 0 then .num 0 else .num (Real.exp (1.5 * Real.log t))

end Hazma.SoftComplex
