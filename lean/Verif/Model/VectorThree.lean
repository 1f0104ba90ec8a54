import Verif.Model.ThreeBody
import Verif.Model.PhaseSpace

/-!
# Three-meson currents of the vector mediator

Models `hazma/form_factors/vector/_three_body.py`.  The form factor enters through its
absolute value, an arbitrary function.  `scipy.integrate.quad` is the exact integral,
scalars only: the broadcasting of `squared_lorentz_structure` is not modelled, nor the
Monte-Carlo method.
-/

namespace Hazma.VectorThree

open Hazma.Kinematics (kallenLambda)
open Hazma.ThreeBody (State create integrateQuad)
open Hazma.PhaseSpace (Normalised normalizeDistribution binCenters energyLimits)

/-- `__squared_lorentz_structure_ppp`, L22-35. -/
noncomputable def pppLorentz (q s t m1 m2 m3 : ℝ) : ℝ :=
  let q2 := q ^ 2
  let num := -(m1 ^ 4 * m2 ^ 2) + m2 ^ 2 * (q2 - s) * (m3 ^ 2 - t)
    - (m3 ^ 2 + q2 - s - t) * (m3 ^ 2 * q2 - s * t)
    + m1 ^ 2 * (-(m2 ^ 4) + (m3 ^ 2 - s) * (q2 - t) + m2 ^ 2 * (m3 ^ 2 + q2 + s + t))
  let den := 12 * q ^ 2
  num / den

/-- `VectorFormFactorPPP._integrated_form_factor`, L202-258, with `method='quad'`, for
a `float` energy. -/
noncomputable def pppIntegrated (ms : ℝ × ℝ × ℝ) (absF : ℝ → ℝ → ℝ → ℝ) (q : ℝ) : ℝ :=
  if q > ms.1 + ms.2.1 + ms.2.2 then
    integrateQuad (create q ms (.st fun s t => absF q s t ^ 2 * pppLorentz q s t ms.1 ms.2.1 ms.2.2))
  else 0

/-- `VectorFormFactorPPP2._partially_integrated_form_factor`, L498-518. -/
noncomputable def ppp2Partial (ms : ℝ × ℝ × ℝ) (absF : ℝ → ℝ → ℝ) (q s : ℝ) : ℝ :=
  let (m1, m2, m3) := ms
  let pre := 1 / (16 * (2 * Real.pi) ^ 3 * q ^ 2)
  let p1 := kallenLambda s (q ^ 2) (m1 ^ 2)
  let p2 := kallenLambda s (m2 ^ 2) (m3 ^ 2)
  let p12 := √(p1 * p2)
  pre * absF q s ^ 2 * p12 ^ 3 / (72 * q ^ 2 * s ^ 2)

/-- `VectorFormFactorPPP2._integrated_form_factor`, L520-581, for a `float` energy. -/
noncomputable def ppp2Integrated (ms : ℝ × ℝ × ℝ) (absF : ℝ → ℝ → ℝ) (q : ℝ) : ℝ :=
  let (m1, m2, m3) := ms
  if q > m1 + m2 + m3 then
    let mu1 := m1 / q
    let mu2 := m2 / q
    let mu3 := m3 / q
    let xmin := 2 * mu1
    let xmax := mu1 ^ 2 + (1 - (mu2 + mu3) ^ 2)
    q ^ 2 * ∫ x in xmin..xmax, ppp2Partial ms absF q (q ^ 2 * (1 - x + (m1 / q) ^ 2))
  else 0

/-- The object `_energy_distributions` and `_invariant_mass_distributions` of
`VectorFormFactorPPP2` build, L583-674. -/
noncomputable def ppp2State (ms : ℝ × ℝ × ℝ) (absF : ℝ → ℝ → ℝ) (q : ℝ) : State :=
  create q ms (.st fun s t => absF q s ^ 2 * pppLorentz q s t ms.1 ms.2.1 ms.2.2)

/-- `VectorFormFactorPPV.__squared_lorentz_structure`, L713-718. -/
noncomputable def ppvLorentz (ms : ℝ × ℝ × ℝ) (q s t : ℝ) : ℝ :=
  let (m1, m2, mv) := ms
  (2 * mv ^ 2 * q ^ 2 + (-(m1 ^ 2) - m2 ^ 2 + s + t) ^ 2 / 4) / (3 * mv ^ 2 * q ^ 4)

/-- `VectorFormFactorPPV._partially_integrated_form_factor`, L776-802. -/
noncomputable def ppvPartial (ms : ℝ × ℝ × ℝ) (absF : ℝ → ℝ) (q s : ℝ) : ℝ :=
  let (mv, m1, m2) := ms
  let muv := mv / q
  let mu1 := m1 / q
  let mu2 := m2 / q
  let x := 1 - s / q ^ 2 + muv ^ 2
  let p1 := kallenLambda 1 (muv ^ 2) (1 - x + muv ^ 2)
  let p2 := kallenLambda (mu1 ^ 2) (mu2 ^ 2) (1 - x + muv ^ 2)
  let num := q ^ 2 * (x ^ 2 + 8 * muv ^ 2) * √(max (p1 * p2) 0)
  let den := 1536 * Real.pi ^ 3 * mv ^ 2 * s
  num / den * absF q ^ 2

/-- `VectorFormFactorPPV._integrated_form_factor`, L804-873, for a `float` energy. -/
noncomputable def ppvIntegrated (ms : ℝ × ℝ × ℝ) (absF : ℝ → ℝ) (q : ℝ) : ℝ :=
  let (mv, m1, m2) := ms
  if q > mv + m1 + m2 then
    let muv := mv / q
    let mu1 := m1 / q
    let mu2 := m2 / q
    let integrand := fun x =>
      let xx := 1 - x + muv ^ 2
      let p1 := kallenLambda 1 (muv ^ 2) xx
      let p2 := kallenLambda (mu1 ^ 2) (mu2 ^ 2) xx
      (x ^ 2 + 8 * muv ^ 2) * √(p1 * p2) / xx
    let xmin := 2 * muv
    let xmax := muv ^ 2 + (1 - (mu1 + mu2) ^ 2)
    let pre := absF q ^ 2 / (1536 * Real.pi ^ 3 * muv ^ 2)
    pre * ∫ x in xmin..xmax, integrand x
  else 0

/-- `djde1`, L901-906. -/
noncomputable def djde1 (ms : ℝ × ℝ × ℝ) (absF : ℝ → ℝ) (q e : ℝ) : ℝ :=
  let (mv, m1, m2) := ms
  let muv := mv / q
  let mu1 := m1 / q
  let mu2 := m2 / q
  let pre := absF q ^ 2 / (1536 * Real.pi ^ 3 * muv ^ 2)
  let x := 2 * e / q
  let xx := 1 - x + muv ^ 2
  let p1 := kallenLambda 1 (muv ^ 2) xx
  let p2 := kallenLambda (mu1 ^ 2) (mu2 ^ 2) xx
  pre * (x ^ 2 + 8 * muv ^ 2) * √(p1 * p2) / xx

/-- `djde2`, L908-921. -/
noncomputable def djde2 (ms : ℝ × ℝ × ℝ) (q e : ℝ) : ℝ :=
  let (mv, m1, m2) := ms
  let muv := mv / q
  let mu1 := m1 / q
  let mu2 := m2 / q
  let x := 2 * e / q
  let xx := 1 - x + mu1 ^ 2
  let p1 := kallenLambda 1 (mu1 ^ 2) xx
  let p2 := kallenLambda (mu2 ^ 2) (muv ^ 2) xx
  let p12 := p1 * p2
  √p12 * (96 * (1 - x + mu1 ^ 2) ^ 2 * muv ^ 2
      + 3 * (-2 + x) ^ 2 * (1 - x + mu1 ^ 2 - mu2 ^ 2 + muv ^ 2) ^ 2 + p12)
    / (18432 * Real.pi ^ 3 * xx ^ 3 * muv ^ 2)

/-- `djde3`, L923-936. -/
noncomputable def djde3 (ms : ℝ × ℝ × ℝ) (q e : ℝ) : ℝ :=
  let (mv, m1, m2) := ms
  let muv := mv / q
  let mu1 := m1 / q
  let mu2 := m2 / q
  let x := 2 * e / q
  let xx := 1 - x + mu2 ^ 2
  let p1 := kallenLambda 1 (mu2 ^ 2) xx
  let p2 := kallenLambda (mu1 ^ 2) (muv ^ 2) xx
  let p12 := p1 * p2
  √p12 * (96 * (1 - x + mu2 ^ 2) ^ 2 * muv ^ 2
      + 3 * (-2 + x) ^ 2 * (1 - x - mu1 ^ 2 + mu2 ^ 2 + muv ^ 2) ^ 2 + p12)
    / (1 - x + mu2 ^ 2) ^ 3

/-- `np.linspace(a, b, n + 1)` for `n ≥ 1`. -/
noncomputable def edgesOf (lim : ℝ × ℝ) (nbins : ℕ) : List ℝ :=
  ThreeBody.linspace lim.1 lim.2 (nbins + 1)

/-- A distribution object: bin edges and probabilities. -/
structure Dist where
  bins : List ℝ
  probabilities : Normalised

/-- `PhaseSpaceDistribution1D.__init__` (`_dist.py:46-69`). -/
noncomputable def mkDist (x y : List ℝ) : Dist := ⟨x, normalizeDistribution y x⟩

/-- `VectorFormFactorPPV._energy_distributions`, L875-948.  `energy_limits` has one
entry per mass. -/
noncomputable def ppvEnergy (ms : ℝ × ℝ × ℝ) (absF : ℝ → ℝ) (q : ℝ) (nbins : ℕ) (i : Fin 3) : Dist :=
  let elims := energyLimits q [ms.1, ms.2.1, ms.2.2]
  let ebins := edgesOf (elims.getD i.val (0, 0)) nbins
  let ecs := binCenters ebins
  mkDist ebins (ecs.map (match i with
    | 0 => djde1 ms absF q
    | 1 => djde2 ms q
    | 2 => djde3 ms q))

/-- `etosqrts`, L977-978. -/
noncomputable def eToSqrtS (q e m : ℝ) : ℝ := q * √(1 - 2 * e / q + (m / q) ^ 2)

/-- `VectorFormFactorPPV._invariant_mass_distributions`, L950-992: the entry for the
pair opposite to particle `i`, given that particle's energy distribution with numbers
as probabilities. -/
noncomputable def ppvInvariant (q m : ℝ) (bins probs : List ℝ) : Dist :=
  let sqrts := bins.map fun e => eToSqrtS q e m
  mkDist sqrts (List.zipWith (fun s p => 0.25 * s / q * p)
    (List.zipWith (fun b a => b + a) sqrts.tail sqrts.dropLast) probs)

end Hazma.VectorThree
