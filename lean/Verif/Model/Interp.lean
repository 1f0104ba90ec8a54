import Mathlib.Data.Real.Basic

/-!
# Table lookup and linear interpolation

Model of `rust/src/interp.rs`.  Every slice access is checked: an out-of-bounds read, an
`usize` underflow or a failed `assert!` makes the result `none` (a panic).
-/

namespace Hazma.Interp

/-- `enum Slot`, `rust/src/interp.rs:135-143`. -/
inductive Slot where
  | below
  | above
  | cell (j : ℕ)
  deriving DecidableEq

/-- The bisection loop of `search`, `rust/src/interp.rs:164-173`. -/
noncomputable def searchLoop (x : ℝ) (xp : List ℝ) (imin imax : ℕ) : Option ℕ :=
  if _h : imin < imax then
    let imid := imin + (imax - imin) / 2
    match xp[imid]? with
    | none => none
    | some v => if x ≥ v then searchLoop x xp (imid + 1) imax else searchLoop x xp imin imid
  else some imin
termination_by imax - imin
decreasing_by all_goals omega

/-- `search`, `rust/src/interp.rs:152-175`. -/
noncomputable def search (x : ℝ) (xp : List ℝ) : Option Slot := do
  let n := xp.length
  guard (1 ≤ n)
  let last ← xp[n - 1]?
  if x > last then return .above
  let first ← xp[0]?
  if x < first then return .below
  let imin ← searchLoop x xp 0 n
  guard (1 ≤ imin)
  return .cell (imin - 1)

/-- `interp`, `rust/src/interp.rs:86-133`, for a real (not NaN) abscissa and a table of real
numbers, for which the NaN branches are not reachable. -/
noncomputable def interp (x : ℝ) (xp fp : List ℝ) : Option ℝ := do
  guard (xp ≠ [])
  guard (xp.length = fp.length)
  let n := xp.length
  if n = 1 then fp[0]?
  else
    match ← search x xp with
    | .below => fp[0]?
    | .above => fp[n - 1]?
    | .cell j =>
      if j = n - 1 then fp[j]?
      else do
        let xj ← xp[j]?
        if xj = x then fp[j]?
        else
          let fj ← fp[j]?
          let fj1 ← fp[j + 1]?
          let xj1 ← xp[j + 1]?
          let slope := (fj1 - fj) / (xj1 - xj)
          return slope * (x - xj) + fj

end Hazma.Interp
