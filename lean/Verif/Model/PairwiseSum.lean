import Mathlib.Algebra.Group.Basic
import Mathlib.Data.List.Basic

/-!
# NumPy's pairwise summation

Model of `pairwise_sum`, `rust/src/boost.rs:419-449`, over any type with `+` and `0`, so that the
order of additions is kept.
-/

namespace Hazma.PairwiseSum

variable {M : Type} [Add M] [Zero M]

/-- The unrolled loop `while i < unrolled`, `rust/src/boost.rs:432-437`: eight accumulators. -/
def accLoop (values : List M) (r : List M) (i unrolled : ℕ) : List M × ℕ :=
  if i < unrolled then
    accLoop values (List.zipWith (· + ·) r ((values.drop i).take 8)) (i + 8) unrolled
  else (r, i)
termination_by unrolled - i

/-- The balanced tree of `rust/src/boost.rs:438`. -/
def tree : List M → M
  | [r0, r1, r2, r3, r4, r5, r6, r7] =>
    ((r0 + r1) + (r2 + r3)) + ((r4 + r5) + (r6 + r7))
  | _ => 0

/-- `pairwise_sum`, `rust/src/boost.rs:419-449`. -/
def pairwiseSum (values : List M) : M :=
  let n := values.length
  if n < 8 then values.foldl (· + ·) 0
  else if n ≤ 128 then
    let unrolled := n - n % 8
    let (r, i) := accLoop values (values.take 8) 8 unrolled
    (values.drop i).foldl (· + ·) (tree r)
  else
    let half := n / 2 - (n / 2) % 8
    pairwiseSum (values.take half) + pairwiseSum (values.drop half)
termination_by values.length
decreasing_by
  · simp only [List.length_take]; omega
  · simp only [List.length_drop]; omega

end Hazma.PairwiseSum
