import Mathlib.Analysis.SpecialFunctions.Pow.Real
import Mathlib.Analysis.Complex.Basic
import Mathlib.LinearAlgebra.Matrix.ConjTranspose
import Mathlib.LinearAlgebra.Matrix.Notation

/-!
# The CKM matrix

Model of `_ckm_wolfenstein` (`hazma/parameters.py:246-268`).  `none` stands for a matrix with NaN or infinite
entries: a root of a negative number, or a vanishing denominator of `s13d`.
-/

namespace Hazma.Ckm

open Matrix

/-- `s13d` (`hazma/parameters.py:252-258`); `lam ** 3` and `alam` as written. -/
noncomputable def s13d (lam a rhob etab : ℝ) : ℂ :=
  let z : ℂ := ⟨rhob, etab⟩
  let alam := a * lam ^ 2
  (a * lam ^ 3 : ℝ) * z * (Real.sqrt (1 - alam ^ 2) : ℝ)
    / ((Real.sqrt (1 - lam ^ 2) : ℝ) * (1 - (alam ^ 2 : ℝ) * z))

/-- The three rotations (`hazma/parameters.py:264-266`). -/
noncomputable def rot23 (c s : ℝ) : Matrix (Fin 3) (Fin 3) ℂ := !![1, 0, 0; 0, c, s; 0, -s, c]
noncomputable def rot13 (c : ℝ) (s : ℂ) : Matrix (Fin 3) (Fin 3) ℂ :=
  !![(c : ℂ), 0, (starRingEnd ℂ) s; 0, 1, 0; -s, 0, (c : ℂ)]
noncomputable def rot12 (c s : ℝ) : Matrix (Fin 3) (Fin 3) ℂ := !![(c : ℂ), s, 0; -s, c, 0; 0, 0, 1]

/-- `_ckm_wolfenstein` (`hazma/parameters.py:246-268`). -/
noncomputable def ckm (lam a rhob etab : ℝ) : Option (Matrix (Fin 3) (Fin 3) ℂ) :=
  let z : ℂ := ⟨rhob, etab⟩
  let alam := a * lam ^ 2
  let s12 := lam
  let s23 := alam
  if 1 - alam ^ 2 < 0 ∨ 1 - lam ^ 2 ≤ 0 ∨ 1 - (alam ^ 2 : ℝ) * z = 0 then none
  else
    let s13 := s13d lam a rhob etab
    if 1 - ‖s13‖ ^ 2 < 0 then none
    else
      let c12 := Real.sqrt (1 - s12 ^ 2)
      let c23 := Real.sqrt (1 - s23 ^ 2)
      let c13 := Real.sqrt (1 - ‖s13‖ ^ 2)
      some ((rot23 c23 s23 * rot13 c13 s13) * rot12 c12 s12)

/-- `CKM` (`hazma/parameters.py:271-281`). -/
noncomputable def shipped : Option (Matrix (Fin 3) (Fin 3) ℂ) := ckm 0.225 0.826 0.159 0.348

end Hazma.Ckm
