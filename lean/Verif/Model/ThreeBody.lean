import Verif.Model.Rambo
import Verif.Model.Kinematics
import Mathlib.MeasureTheory.Integral.IntervalIntegral.Basic

/-!
# Two- and three-body phase space

Models `hazma/phase_space/_three_body.py`, `hazma/phase_space/_two_body.py` and
`two_body_phase_space_prefactor` of `hazma/phase_space/_utils.py`.  SciPy's `quad`/`dblquad` are
replaced by the exact integral.  `np.sqrt` of a negative number (NaN) is outside the stated
hypotheses of every theorem; the definitions use the real square root.
-/

namespace Hazma.ThreeBody

open Hazma.Kinematics Hazma.Rambo

/-- `_integration_bounds_x` (`_three_body.py:306-322`). -/
noncomputable def boundsX (q m1 m2 m3 : ℝ) : ℝ × ℝ :=
  let mu1 := m1 / q
  let mu2 := m2 / q
  let mu3 := m3 / q
  (2 * mu1, mu1 ^ 2 + (1 - (mu2 + mu3) ^ 2))

/-- `_integration_bounds_y` (`_three_body.py:277-304`). -/
noncomputable def boundsY (q m1 m2 m3 x : ℝ) : ℝ × ℝ :=
  let mu1 := m1 / q
  let mu2 := m2 / q
  let mu3 := m3 / q
  let pfac := (2 - x) * (1 - x + mu1 ^ 2 + mu2 ^ 2 - mu3 ^ 2)
  let sfac := Real.sqrt (kallenLambda 1 (mu1 ^ 2) (1 - x + mu1 ^ 2)
    * kallenLambda (1 - x + mu1 ^ 2) (mu2 ^ 2) (mu3 ^ 2))
  (0.5 * (pfac - sfac) / (1 - x + mu1 ^ 2), 0.5 * (pfac + sfac) / (1 - x + mu1 ^ 2))

/-- `_integration_bounds_s` (`_three_body.py:258-275`). -/
def boundsS (q m1 m2 m3 : ℝ) : ℝ × ℝ := ((m2 + m3) ^ 2, (q - m1) ^ 2)

/-- `_integration_bounds_t` (`_three_body.py:225-256`). -/
noncomputable def boundsT (q m1 m2 m3 s : ℝ) : ℝ × ℝ :=
  let msqr := q ^ 2
  let m12 := m1 ^ 2
  let m22 := m2 ^ 2
  let m32 := m3 ^ 2
  let pfac := -(msqr - m12) * (m22 - m32) + (msqr + m12 + m22 + m32) * s - s ^ 2
  let sfac := Real.sqrt (kallenLambda s m12 m22 * kallenLambda s m22 m32)
  (0.5 * (pfac - sfac) / s, 0.5 * (pfac + sfac) / s)

/-- `_mandelstam_to_momenta` (`_three_body.py:43-76`) on scalars. -/
noncomputable def mandelstamToMomenta (s t q m1 m2 m3 : ℝ) : List P4 :=
  let e1 := (q ^ 2 + m1 ^ 2 - s) / (2 * q)
  let e2 := (q ^ 2 + m2 ^ 2 - t) / (2 * q)
  let p1 := Real.sqrt (e1 ^ 2 - m1 ^ 2)
  let p2 := Real.sqrt (e2 ^ 2 - m2 ^ 2)
  let u := q ^ 2 + m1 ^ 2 + m2 ^ 2 + m3 ^ 2 - s - t
  let ct := (e1 * e2 - 0.5 * (u - m1 ^ 2 - m2 ^ 2)) / (p1 * p2)
  let st := Real.sqrt (1 - ct ^ 2)
  let p2z := p2 * ct
  let p2x := p2 * st
  [⟨e1, 0, 0, p1⟩, ⟨e2, p2x, 0, p2z⟩, ⟨q - e1 - e2, -p2x, 0, -p2z - p1⟩]

/-- Squared matrix elements as functions of `s = (p2+p3)^2`, `t = (p1+p3)^2`. -/
abbrev Msqrd := ℝ → ℝ → ℝ

/-- The attributes of a `ThreeBody` object (`_three_body.py:118-139`).  `original` is
`__original_msqrd`, set only for the `'momenta'` signature. -/
structure State where
  cme : ℝ
  masses : ℝ × ℝ × ℝ
  original : Option (List P4 → ℝ)
  msqrd : Msqrd

/-- `_convert_msqrd_to_st_signature` (`_three_body.py:79-84`). -/
noncomputable def convert (f : List P4 → ℝ) (q : ℝ) (ms : ℝ × ℝ × ℝ) : Msqrd :=
  fun s t => f (mandelstamToMomenta s t q ms.1 ms.2.1 ms.2.2)

/-- The matrix element passed to the constructor: none, one of `(s, t)`, or one of momenta. -/
inductive MsqrdArg where
  | flat
  | st (f : Msqrd)
  | momenta (f : List P4 → ℝ)

/-- `ThreeBody.__init__` (`_three_body.py:114-139`); assertions on types are not modelled.  The flat
matrix element is 1 on scalars (`_three_body.py:34-35`). -/
noncomputable def create (q : ℝ) (ms : ℝ × ℝ × ℝ) : MsqrdArg → State
  | .flat => ⟨q, ms, none, fun _ _ => 1⟩
  | .st f => ⟨q, ms, none, f⟩
  | .momenta f => ⟨q, ms, some f, convert f q ms⟩

/-- `__update_msqrd` (`_three_body.py:141-145`). -/
noncomputable def update (s : State) : State :=
  match s.original with
  | some f => { s with msqrd := convert f s.cme s.masses }
  | none => s

/-- Assignments to the three settable attributes (`_three_body.py:152-180`). -/
inductive Assign where
  | cme (q : ℝ)
  | masses (ms : ℝ × ℝ × ℝ)
  | msqrd (f : Msqrd)

/-- The `cme`, `masses` and `msqrd` setters (`_three_body.py:152-180`). -/
noncomputable def assign (s : State) : Assign → State
  | .cme q => update { s with cme := q }
  | .masses ms => update { s with masses := ms }
  | .msqrd f => update { s with msqrd := f }

/-- `_integrate_quad` (`_three_body.py:427-463`), value only. -/
noncomputable def integrateQuad (s : State) : ℝ :=
  let q := s.cme
  let (m1, m2, m3) := s.masses
  let mu1 := m1 / q
  let mu2 := m2 / q
  let pre := q ^ 2 / (128 * Real.pi ^ 3)
  let bx := boundsX q m1 m2 m3
  pre * ∫ x in bx.1..bx.2, ∫ y in (boundsY q m1 m2 m3 x).1..(boundsY q m1 m2 m3 x).2,
    s.msqrd (q ^ 2 * (1 - x + mu1 ^ 2)) (q ^ 2 * (1 - y + mu2 ^ 2))

/-- `_partial_integration(e, i)` (`_three_body.py:324-425`) at a scalar energy. -/
noncomputable def partialIntegration (s : State) (e : ℝ) (i : Fin 3) : ℝ :=
  let q := s.cme
  let (m1, m2, m3) := s.masses
  let pre := q / (64 * Real.pi ^ 3)
  let msqrdxy := fun x y =>
    s.msqrd (q ^ 2 * (1 - x + (m1 / q) ^ 2)) (q ^ 2 * (1 - y + (m2 / q) ^ 2))
  let (n1, n2, n3) := match i with
    | 0 => (m1, m2, m3)
    | 1 => (m2, m1, m3)
    | 2 => (m3, m2, m1)
  let integrand : ℝ → ℝ → ℝ := match i with
    | 0 => fun x y => msqrdxy x y
    | 1 => fun x y => msqrdxy y x
    | 2 => fun x y => msqrdxy (2 - (x + y)) y
  let x := 2 * e / q
  let bx := boundsX q n1 n2 n3
  if x < bx.1 ∨ bx.2 < x then 0
  else pre * ∫ y in (boundsY q n1 n2 n3 x).1..(boundsY q n1 n2 n3 x).2, integrand x y

/-- The mass of particle `i`. -/
def massOf (ms : ℝ × ℝ × ℝ) : Fin 3 → ℝ
  | 0 => ms.1
  | 1 => ms.2.1
  | 2 => ms.2.2

/-- The invariant-mass density of the pair opposite to particle `i` at mass `m`
(`_three_body.py:646-653`). -/
noncomputable def invariantMassDensity (s : State) (m : ℝ) (i : Fin 3) : ℝ :=
  let m1 := massOf s.masses i
  let e := (s.cme ^ 2 - m ^ 2 + m1 ^ 2) / (2 * s.cme)
  m / s.cme * partialIntegration s e i

/-- `np.linspace(a, b, n)` for `n ≥ 2`. -/
noncomputable def linspace (a b : ℝ) (n : ℕ) : List ℝ :=
  (List.range n).map fun (k : ℕ) => a + k * ((b - a) / (n - 1))

/-- The bins and (unnormalised) densities of one energy distribution computed by
`_energy_distributions_quad` (`_three_body.py:548-573`). -/
noncomputable def energyHistQuad (s : State) (emin emax : ℝ) (nbins : ℕ) (i : Fin 3) :
    List ℝ × List ℝ :=
  let ebins := linspace emin emax nbins
  let es := List.zipWith (fun b a => 0.5 * (b + a)) ebins.tail ebins.dropLast
  (ebins, es.map fun e => partialIntegration s e i)

/-- The bin edges the Monte-Carlo method uses for the same request (`_rambo.py:582`). -/
noncomputable def energyBinsRambo (emin emax : ℝ) (nbins : ℕ) : List ℝ :=
  linspace emin emax (nbins + 1)

/-- The default matrix element on arrays (`_three_body.py:30-40`): zeros of the shape of the first
array argument. -/
def msqrdFlatArray (ss _ts : List ℝ) : List ℝ := ss.map fun _ => 0

/-- `Rambo.integrate` with a matrix element (`_rambo.py:394-400`, `468-472`): the mean of the
weights times the values of the matrix element. -/
noncomputable def monteCarloMean (weights msq : List ℝ) : ℝ :=
  (List.zipWith (fun w m => w * m) weights msq).sum / weights.length

/-- `two_body_phase_space_prefactor` (`_utils.py:82-98`). -/
noncomputable def twoBodyPrefactor (q m1 m2 : ℝ) : ℝ :=
  Real.sqrt (max (kallenLambda (q ^ 2) (m1 ^ 2) (m2 ^ 2)) 0) / (8 * Real.pi * q ^ 2)

/-- `TwoBody.integrate` for a matrix element of the angle (`_two_body.py:129-140`); the momentum is
the value `two_body_momentum` returns, NaN when it is NaN. -/
noncomputable def twoBodyIntegrate (q m1 m2 : ℝ) (msqrd : ℝ → ℝ) : XReal :=
  match twoBodyMomentum q m1 m2 with
  | .num p => .num ((∫ z in (-1 : ℝ)..1, msqrd z) * (1 / (8 * Real.pi) * p / q))
  | _ => .nan

end Hazma.ThreeBody
