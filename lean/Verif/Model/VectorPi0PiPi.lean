import Mathlib.Analysis.Real.Sqrt
import Mathlib.Analysis.Real.Pi.Bounds

/-!
# Annihilation into three pions through a vector mediator

Models `dsigma_ds_xx_to_v_to_pi0pipi` and `sigma_xx_to_v_to_pi0pipi`
(`hazma/vector_mediator/_vector_mediator_cross_sections.py:262-337`).  Rounding is not modelled; a
quotient by zero, which the code turns into an infinity or NaN, is zero in the model and excluded
by hypotheses.  `scipy.integrate.quad` is represented by the points of its first pass and an
arbitrary estimate.
-/

namespace Hazma.VectorPi0PiPi

/-- `charged_pion_mass` (`parameters.py:58`). -/
noncomputable def mpi : ℝ := 139.57039

/-- `neutral_pion_mass` (`parameters.py:56`). -/
noncomputable def mpi0 : ℝ := 134.9768

/-- `fpi` (`parameters.py:312`). -/
noncomputable def fpi : ℝ := 92.2138

/-- The attributes of the model object that are read. -/
structure Params where
  mx : ℝ
  mv : ℝ
  gvxx : ℝ
  gvuu : ℝ
  gvdd : ℝ
  width : ℝ

/-- `AssertionError`. -/
inductive Err where
  | assertion
  deriving DecidableEq

/-- The polynomial of the matrix element, as it depends on the energy and on `s`
(`_vector_mediator_cross_sections.py:286-303`). -/
noncomputable def bracket (e s : ℝ) : ℝ :=
  -24 * mpi ^ 6 * s
    + mpi ^ 4 * (-2 * mpi0 ^ 4 + 28 * mpi0 ^ 2 * s + 22 * s ^ 2)
    + 2 * mpi ^ 2 * (mpi0 ^ 6 - 4 * s ^ 3)
    + s * (-2 * mpi0 ^ 6 - 4 * mpi0 ^ 4 * s - mpi0 ^ 2 * s ^ 2 + s ^ 3)
    + e ^ 4 * (-2 * mpi ^ 4 + 2 * mpi ^ 2 * (mpi0 ^ 2 - s) + s * (-2 * mpi0 ^ 2 + s))
    + e ^ 2 * (4 * mpi ^ 4 * (mpi0 ^ 2 + s) + s * (4 * mpi0 ^ 4 + 5 * mpi0 ^ 2 * s - 2 * s ^ 2)
        - 4 * mpi ^ 2 * (mpi0 ^ 4 + 3 * mpi0 ^ 2 * s - s ^ 2))

/-- `ret_val` of `dsigma_ds_xx_to_v_to_pi0pipi` (`_vector_mediator_cross_sections.py:276-314`). -/
noncomputable def value (p : Params) (s e : ℝ) : ℝ :=
  3 * ((p.gvdd + p.gvuu) ^ 2 * p.gvxx ^ 2 * √(s * (-4 * mpi ^ 2 + s))
      * √(e ^ 4 + (mpi0 ^ 2 - s) ^ 2 - 2 * e ^ 2 * (mpi0 ^ 2 + s)) * bracket e s)
    / (294912 * fpi ^ 6 * Real.pi ^ 7 * √(e ^ 2) * √(-4 * p.mx ^ 2 + e ^ 2) * s ^ 2
      * (p.mv ^ 4 - 2 * p.mv ^ 2 * e ^ 2 + e ^ 4 + p.mv ^ 2 * p.width ^ 2))

/-- `dsigma_ds_xx_to_v_to_pi0pipi` (`_vector_mediator_cross_sections.py:262-321`); the assertion on
the imaginary part always holds. -/
noncomputable def dsigma (p : Params) (s e : ℝ) : Except Err ℝ :=
  if 2 * mpi + mpi0 < e ∧ 2 * p.mx < e ∧ 4 * mpi ^ 2 < s ∧ s < (e - mpi0) ^ 2 then
    if 0 ≤ value p s e then .ok (value p s e) else .error .assertion
  else .ok 0

/-- The abscissae of the 21-point rule of QUADPACK, `dqk21`, that lie to the right of the centre.
They are the ones of `rust/src/kernels/quad.rs`; the first pass of `scipy.integrate.quad` uses the
same rule. -/
noncomputable def kronrod : List ℝ :=
  [0.995657163025808080735527280689003, 0.973906528517171720077964012084452,
    0.930157491355708226001207180059508, 0.865063366688984510732096688423493,
    0.780817726586416897063717578345042, 0.679409568299024406234327365114874,
    0.562757134668604683339000099272694, 0.433395394129247190799265943165784,
    0.294392862701460198131126603103866, 0.148874338981631210884826001129720]

/-- The points at which `quad` evaluates its argument first. -/
noncomputable def firstPass (a b : ℝ) : List ℝ :=
  (a + b) / 2 :: kronrod.flatMap fun x =>
    [(a + b) / 2 - (b - a) / 2 * x, (a + b) / 2 + (b - a) / 2 * x]

/-- `quad(f, a, b)[0]`: an exception of `f` ends it.  The points are those of the first pass and
then those that `more` names; `est` computes the estimate from the values. -/
noncomputable def quad (more : ℝ → ℝ → List ℝ) (est : List (ℝ × ℝ) → ℝ → ℝ → ℝ)
    (f : ℝ → Except Err ℝ) (a b : ℝ) : Except Err ℝ :=
  ((firstPass a b ++ more a b).mapM fun x => (f x).map fun y => (x, y)).map fun ys => est ys a b

/-- `sigma_xx_to_v_to_pi0pipi` (`_vector_mediator_cross_sections.py:323-337`). -/
noncomputable def sigma (more : ℝ → ℝ → List ℝ) (est : List (ℝ × ℝ) → ℝ → ℝ → ℝ) (p : Params)
    (e : ℝ) : Except Err ℝ :=
  if 2 * mpi + mpi0 < e ∧ 2 * p.mx < e then
    match quad more est (fun s => dsigma p s e) (4 * mpi ^ 2) ((e - mpi0) ^ 2) with
    | .error err => .error err
    | .ok v => if 0 ≤ v then .ok v else .error .assertion
  else .ok 0

end Hazma.VectorPi0PiPi
