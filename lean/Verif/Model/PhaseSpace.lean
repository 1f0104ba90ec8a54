import Verif.Model.Rambo
import Mathlib.Algebra.BigOperators.Group.Finset.Basic

/-!
# Phase-space limits and binned distributions

Models `hazma/phase_space/_utils.py` and `hazma/phase_space/_dist.py`.
-/

namespace Hazma.PhaseSpace

open Hazma.Rambo

/-- What `normalize_distribution` hands back: an array of NaN, an array of numbers, or the
`ValueError` of `np.min` on an empty array. -/
inductive Normalised where
  | nans : Normalised
  | values : List ℝ → Normalised
  | minOfEmpty : Normalised

/-- Bin widths `edges[i + 1] - edges[i]`. -/
def widths : List ℝ → List ℝ
  | a :: b :: es => (b - a) :: widths (b :: es)
  | _ => []

/-- `norm = np.sum([p * (edges[i + 1] - edges[i]) for i, p in enumerate(probabilities)])`
(`_dist.py:33`, `_utils.py:11`).  The `IndexError` of too few edges is not modelled: the only
caller asserts one more edge than probabilities (`_dist.py:62-65`). -/
def binSum (ps edges : List ℝ) : ℝ := (List.zipWith (fun p w => p * w) ps (widths edges)).sum

/-- `normalize_distribution` (`_dist.py:18-40`, duplicated in `_utils.py:10-17`).  The two
branches on negative entries follow `np.min(probabilities) < 0`. -/
noncomputable def normalizeDistribution (ps edges : List ℝ) : Normalised :=
  let norm := binSum ps edges
  if norm ≤ 0 then
    match ps with
    | [] => .minOfEmpty
    | _ => open Classical in if ∃ p ∈ ps, p < 0 then .nans else .values ps
  else .values (ps.map fun p => p / norm)

/-- `_bin_centers = 0.5 * (x[1:] + x[:-1])` (`_dist.py:68`). -/
noncomputable def binCenters : List ℝ → List ℝ
  | a :: b :: es => (b + a) / 2 :: binCenters (b :: es)
  | _ => []

/-- `np.trapezoid(ys, x=xs)`. -/
noncomputable def trapezoid : List ℝ → List ℝ → ℝ
  | x :: x' :: xs, y :: y' :: ys => (x' - x) * (y + y') / 2 + trapezoid (x' :: xs) (y' :: ys)
  | _, _ => 0

/-- `PhaseSpaceDistribution1D.expect(fn, method='trapz')` (`_dist.py:94-105`, `_dist.py:115-159`)
for a distribution with bin edges `edges` and normalised probabilities `ps`. -/
noncomputable def expectTrapz (fn : ℝ → ℝ) (edges ps : List ℝ) : ℝ :=
  let xs := binCenters edges
  let fs := xs.map fn
  trapezoid xs (List.zipWith (fun p f => p * f) ps fs)

/-- `energy_limits` (`_utils.py:20-46`). -/
noncomputable def energyLimits (q : ℝ) (ms : List ℝ) : List (ℝ × ℝ) :=
  let msum := ms.sum
  ms.map fun m => (m, (q ^ 2 + m ^ 2 - (msum - m) ^ 2) / (2 * q))

/-- `invariant_mass_limits` (`_utils.py:48-79`): the entry for the pair `(i, j)`.  `idxs` is a
Python set, hence the `Finset`. -/
noncomputable def invariantMassLimits (q : ℝ) (ms : List ℝ) (i j : ℕ) : ℝ × ℝ :=
  let msum := ∑ k ∈ (Finset.range ms.length).filter (fun k => k ≠ i ∧ k ≠ j), ms.getD k 0
  (ms.getD i 0 + ms.getD j 0, q - msum)

end Hazma.PhaseSpace
