import Mathlib.Analysis.Real.Sqrt
import Verif.Model.PairwiseSum

/-!
# Boost integral of a tabulated spectrum

Model of `boost_integrate_linear_interp`, `rust/src/boost.rs:254-375`, for a real (not NaN) photon
energy.  A failed `expect`, a `usize` underflow or an out-of-range slice is `panic`.
-/

namespace Hazma.BoostTable

open Hazma.PairwiseSum

/-- `enum BoostError`, `rust/src/boost.rs:70-90`, plus `panic`. -/
inductive BoostError where
  | betaOutOfRange
  | lengthMismatch
  | emptyTable
  | panic
  deriving DecidableEq

/-- The `i`-th entry of a column. -/
noncomputable def at' (l : List ℝ) (i : ℕ) : ℝ := l.getD i 0

/-- `(0..npts).find(|&i| bound <= x[i])`, `rust/src/boost.rs:322-325, 327-330`. -/
noncomputable def firstAtOrAbove (bound : ℝ) (x : List ℝ) : Option ℕ :=
  (List.range x.length).find? fun i => decide (bound ≤ at' x i)

/-- `trapezoid(&x[ilow..ihigh], ilow, &yy)`, `rust/src/boost.rs:387-398`. -/
noncomputable def trapezoid (x : List ℝ) (yy : ℕ → ℝ) (ilow ihigh : ℕ) : ℝ :=
  if ihigh - ilow < 2 then 0
  else pairwiseSum ((List.range (ihigh - ilow - 1)).map fun i =>
    ((at' x (ilow + i + 1) - at' x (ilow + i)) * (yy (ilow + i + 1) + yy (ilow + i))) / 2)

/-- `y[i] / x[i]`, `rust/src/boost.rs:317`. -/
noncomputable def ratio (x y : List ℝ) (i : ℕ) : ℝ := at' y i / at' x i

/-- The scan that decides `ihigh`, `rust/src/boost.rs:326-338`. -/
noncomputable def highIndex (x : List ℝ) (ub : ℝ) : Except BoostError ℕ :=
  match firstAtOrAbove ub x with
  | none => .error .panic
  | some first =>
    if |at' x first - ub| > 1e-6 then
      (if first = 0 then .error .panic else .ok (first - 1))
    else .ok first

/-- The scan that decides `ilow`, `rust/src/boost.rs:321-325`. -/
noncomputable def lowIndex (x : List ℝ) (lb : ℝ) : Except BoostError ℕ :=
  match firstAtOrAbove lb x with
  | none => .error .panic
  | some i => .ok i

/-- The partial cell at the lower bound, `rust/src/boost.rs:346-355`. -/
noncomputable def lowerPartial (x y : List ℝ) (lb : ℝ) (ilow : ℕ) : ℝ :=
  if ilow > 0 ∧ |at' x ilow - lb| > 1e-6 then
    let x2 := at' x ilow
    let x1 := at' x (ilow - 1)
    let m := (ratio x y ilow - ratio x y (ilow - 1)) / (x2 - x1)
    let b := -m * x1 + ratio x y (ilow - 1)
    let inner := 0.5 * m * (x2 + lb) + b
    (x2 - lb) * inner
  else 0

/-- The partial cell at the upper bound, `rust/src/boost.rs:358-365`. -/
noncomputable def upperPartial (x y : List ℝ) (ub : ℝ) (ihigh : ℕ) : ℝ :=
  if ihigh < x.length - 1 ∧ |ub - at' x ihigh| > 1e-6 then
    let x2 := at' x (ihigh + 1)
    let x1 := at' x ihigh
    let m := (ratio x y (ihigh + 1) - ratio x y ihigh) / (x2 - x1)
    let b := -m * x1 + ratio x y ihigh
    let inner := 0.5 * m * (ub + x1) + b
    (ub - x1) * inner
  else 0

/-- `boost_integrate_linear_interp`, `rust/src/boost.rs:254-375`. -/
noncomputable def boostIntegrate (energy beta : ℝ) (x y : List ℝ) : Except BoostError ℝ :=
  if ¬ (0 < beta ∧ beta < 1) then .error .betaOutOfRange
  else if x.length ≠ y.length then .error .lengthMismatch
  else if x.length = 0 then .error .emptyTable
  else
    let npts := x.length
    let xmax := at' x (npts - 1)
    let x0 := at' x 0
    let y0 := at' y 0
    let gamma := 1 / Real.sqrt (-beta * beta + 1)
    let lb := energy * gamma * (1 - beta)
    let ub := energy * gamma * (1 + beta)
    if lb > xmax then .ok 0
    else if ub < x0 then .ok (y0 * x0 / energy)
    else
      let rat := (1 - beta) * energy * gamma / x0
      let tail := if lb < x0 then y0 * (1 - rat) / rat else 0
      let lb' := if lb < x0 then x0 else lb
      let ub' := if ub > xmax then xmax else ub
      match (if lb < x0 then .ok 0 else lowIndex x lb'),
            (if ub > xmax then .ok (npts - 1) else highIndex x ub') with
      | .ok ilow, .ok ihigh =>
        if ihigh < npts ∧ ilow < npts then
          let interior := if ilow < ihigh then trapezoid x (ratio x y) ilow ihigh else 0
          .ok ((tail + interior + lowerPartial x y lb' ilow + upperPartial x y ub' ihigh)
            / (2 * gamma * beta))
        else .error .panic
      | .error e, _ => .error e
      | _, .error e => .error e

end Hazma.BoostTable
