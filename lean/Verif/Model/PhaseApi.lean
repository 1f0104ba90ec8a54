import Verif.Model.ThreeBody
import Verif.Model.PhaseSpace
import Verif.Model.NBody

/-!
# Arguments of the phase-space integrators and of the n-body spectra

Models the choice of a method in `hazma/phase_space/_three_body.py`, the two-body integrator with a
matrix element of the momenta (`hazma/phase_space/_two_body.py`), `expect(…, method='quad')` of
`hazma/phase_space/_dist.py`, and how `hazma/spectra/_nbody.py` hands its arguments to them.  The
Monte-Carlo generator is a parameter; SciPy's `quad` and `dblquad` are exact integrals.
-/

namespace Hazma.PhaseApi

open Hazma.ThreeBody Hazma.PhaseSpace Hazma.Rambo Hazma.Kinematics

/-- The exceptions that can be raised. -/
inductive Err where
  | valueError
  | assertionError
  | typeError
  | keyError
  deriving DecidableEq

/-- A squared matrix element as a Python callable: of one array of momenta or of `s` and `t`. -/
inductive Callable where
  | unary (f : List P4 → ℝ)
  | binary (g : Msqrd)

/-- One `PhaseSpaceDistribution1D`: bin edges and normalised entries. -/
abbrev D := List ℝ × Normalised

/-! ## `ThreeBody` -/

/-- A `ThreeBody` object.  `call` is `self.__msqrd(s, t)` on scalars: a `TypeError` when the callable
does not take the number of arguments it is called with. -/
structure Obj where
  cme : ℝ
  masses : ℝ × ℝ × ℝ
  call : Except Err Msqrd

/-- `ThreeBody.__init__` (`_three_body.py:114-139`); `msqrd` is callable. -/
noncomputable def create (q : ℝ) (ms : List ℝ) (msq : Option Callable) (sig : Option String) :
    Except Err Obj :=
  match ms with
  | [m1, m2, m3] =>
    if sig = none ∨ sig = some "momenta" ∨ sig = some "st" then
      .ok ⟨q, (m1, m2, m3),
        match msq with
        | none => .ok fun _ _ => 1
        | some (.unary f) =>
          if sig = some "momenta" then .ok (convert f q (m1, m2, m3)) else .error .typeError
        | some (.binary g) => if sig = some "momenta" then .error .typeError else .ok g⟩
    else .error .assertionError
  | _ => .error .assertionError

/-- The object without the possibility of a failing call, as in `Verif.Model.ThreeBody`. -/
def Obj.state (o : Obj) (f : Msqrd) : ThreeBody.State := ⟨o.cme, o.masses, none, f⟩

/-- The sum of the masses. -/
def Obj.msum (o : Obj) : ℝ := o.masses.1 + o.masses.2.1 + o.masses.2.2

/-- Whether `_partial_integration` integrates at energy `e` (`_three_body.py:405-407`). -/
def inRange (o : Obj) (e : ℝ) (i : Fin 3) : Prop :=
  let (m1, m2, m3) := o.masses
  let (n1, n2, n3) : ℝ × ℝ × ℝ := match i with
    | 0 => (m1, m2, m3)
    | 1 => (m2, m1, m3)
    | 2 => (m3, m2, m1)
  ¬ (2 * e / o.cme < (boundsX o.cme n1 n2 n3).1 ∨ (boundsX o.cme n1 n2 n3).2 < 2 * e / o.cme)

/-- `_partial_integration` (`_three_body.py:324-425`): outside of the range the matrix element is not
called. -/
noncomputable def partialCall (o : Obj) (e : ℝ) (i : Fin 3) : Except Err ℝ :=
  open Classical in
  if inRange o e i then
    match o.call with
    | .error x => .error x
    | .ok f => .ok (partialIntegration (o.state f) e i)
  else .ok 0

/-- A list comprehension whose entries can raise. -/
def mapE {α β : Type} (f : α → Except Err β) : List α → Except Err (List β)
  | [] => .ok []
  | a :: l =>
    match f a with
    | .error x => .error x
    | .ok b =>
      match mapE f l with
      | .error x => .error x
      | .ok bs => .ok (b :: bs)

/-- `PhaseSpaceDistribution1D(x, y)` (`_dist.py:46-69`). -/
noncomputable def mkDist (x y : List ℝ) : Except Err D :=
  if x.length = y.length + 1 then
    match normalizeDistribution y x with
    | .minOfEmpty => .error .valueError
    | n => .ok (x, n)
  else .error .assertionError

/-- One pass of the loop in `_energy_distributions_quad` (`_three_body.py:563-568`). -/
noncomputable def energyQuad1 (o : Obj) (nbins : ℕ) (i : Fin 3) : Except Err D :=
  let lim := (energyLimits o.cme [o.masses.1, o.masses.2.1, o.masses.2.2]).getD i (0, 0)
  let ebins := linspace lim.1 lim.2 nbins
  match mapE (fun e => partialCall o e i) (binCenters ebins) with
  | .error x => .error x
  | .ok dwde => mkDist ebins dwde

/-- `_energy_distributions_quad` (`_three_body.py:548-570`). -/
noncomputable def energyQuad (o : Obj) (nbins : ℕ) : Except Err (List D) :=
  mapE (energyQuad1 o nbins) [0, 1, 2]

/-- The pairs of `invariant_mass_limits` for three particles and the particle opposite to each. -/
def opposite : List ((ℕ × ℕ) × Fin 3) := [((0, 1), 2), ((0, 2), 1), ((1, 2), 0)]

/-- One pass of the loop in `_invariant_mass_distributions_quad` (`_three_body.py:644-653`). -/
noncomputable def massQuad1 (o : Obj) (nbins : ℕ) (p : (ℕ × ℕ) × Fin 3) :
    Except Err ((ℕ × ℕ) × D) :=
  let lim := invariantMassLimits o.cme [o.masses.1, o.masses.2.1, o.masses.2.2] p.1.1 p.1.2
  let mbins := linspace lim.1 lim.2 nbins
  let m1 := massOf o.masses p.2
  match mapE (fun m => (partialCall o ((o.cme ^ 2 - m ^ 2 + m1 ^ 2) / (2 * o.cme)) p.2).map
      fun v => m / o.cme * v) (binCenters mbins) with
  | .error x => .error x
  | .ok dwdm => (mkDist mbins dwdm).map fun d => (p.1, d)

/-- `_invariant_mass_distributions_quad` (`_three_body.py:628-655`). -/
noncomputable def massQuad (o : Obj) (nbins : ℕ) : Except Err (List ((ℕ × ℕ) × D)) :=
  mapE (massQuad1 o nbins) opposite

/-- What the Monte-Carlo methods return (`_three_body.py:464-492`, `572-579`, `657-666`). -/
structure Monte where
  integral : Obj → ℕ → Except Err (ℝ × ℝ)
  energy : Obj → ℕ → ℕ → Except Err (List D)
  mass : Obj → ℕ → ℕ → Except Err (List ((ℕ × ℕ) × D))

/-- `ThreeBody.integrate` (`_three_body.py:494-546`); `err` is SciPy's error estimate, scaled as the
value is. -/
noncomputable def integrate (mc : Monte) (err : ℝ) (o : Obj) (method : String) (npts : ℕ) :
    Except Err (ℝ × ℝ) :=
  if o.cme < o.msum then .ok (0, 0)
  else if method = "quad" then
    match o.call with
    | .error x => .error x
    | .ok f => .ok (integrateQuad (o.state f), o.cme ^ 2 / (128 * Real.pi ^ 3) * err)
  else if method = "rambo" then mc.integral o npts
  else .error .valueError

/-- `ThreeBody.energy_distributions` (`_three_body.py:581-626`). -/
noncomputable def energyDistributions (mc : Monte) (o : Obj) (nbins : ℕ) (method : String) (npts : ℕ) :
    Except Err (List D) :=
  if method = "quad" then energyQuad o nbins
  else if method = "rambo" then mc.energy o nbins npts
  else .error .valueError

/-- `ThreeBody.invariant_mass_distributions` (`_three_body.py:668-733`). -/
noncomputable def massDistributions (mc : Monte) (o : Obj) (nbins : ℕ) (method : String) (npts : ℕ) :
    Except Err (List ((ℕ × ℕ) × D)) :=
  if o.cme < o.msum then .error .valueError
  else if method = "quad" then massQuad o nbins
  else if method = "rambo" then mc.mass o nbins npts
  else .error .valueError

/-- `__integrate_fn` on `[a, b]` (`_three_body.py:182-223`), without `simps`. -/
noncomputable def integrateFn (f : ℝ → ℝ) (a b : ℝ) (method : String) (npts : ℕ) : Option ℝ :=
  if method = "trapz" then
    some (trapezoid (linspace a b npts) ((linspace a b npts).map f))
  else if method = "quad" then some (∫ y in a..b, f y)
  else none

/-! ## `_nbody.py` -/

/-- `_INTEGRATORS` (`_nbody.py:26`). -/
def integrators : List String := ["quad", "trapz", "simps", "rambo"]

/-- The Monte-Carlo distributions of `Rambo(cme, masses, msqrd=…)` for a matrix element of the momenta
(or none). -/
structure RamboDists where
  energy : ℝ → List ℝ → Option (List P4 → ℝ) → ℕ → ℕ → List D
  mass : ℝ → List ℝ → Option (List P4 → ℝ) → ℕ → ℕ → List ((ℕ × ℕ) × D)

/-- How `Rambo` calls its matrix element (`_rambo.py:341-342`, `397-398`): with one array of momenta. -/
def ramboMsqrd : Option Callable → Except Err (Option (List P4 → ℝ))
  | none => .ok none
  | some (.unary f) => .ok (some f)
  | some (.binary _) => .error .typeError

/-- The names for which a three-body state is not sent to `Rambo` (`_nbody.py:203`, `247`). -/
def threeBodyNames : List String := ["quad", "trapz", "simps"]

/-- The exceptions of `_get_masses` (`_nbody.py:147-167`). -/
noncomputable def masses (fs : List String) : Except Err (List ℝ) :=
  match NBody.getMasses fs with
  | .ok ms => .ok ms
  | .error _ => .error .valueError

/-- `_make_energy_distributions` (`_nbody.py:170-208`). -/
noncomputable def makeEnergy (mc : Monte) (R : RamboDists) (cme : ℝ) (fs : List String)
    (msq : Option Callable) (npts nbins : ℕ) (tbi : String) (sig : Option String) :
    Except Err (List D) :=
  if tbi ∉ integrators then .error .assertionError
  else
    match masses fs with
    | .error x => .error x
    | .ok ms =>
      if fs.length = 3 ∧ tbi ∈ threeBodyNames then
        match create cme ms msq sig with
        | .error x => .error x
        | .ok o => energyDistributions mc o nbins "quad" 10000
      else (ramboMsqrd msq).map fun f => R.energy cme ms f npts nbins

/-- `_make_invariant_mass_distributions` (`_nbody.py:211-256`). -/
noncomputable def makeMass (mc : Monte) (R : RamboDists) (cme : ℝ) (fs : List String)
    (msq : Option Callable) (npts nbins : ℕ) (tbi : String) (sig : Option String) :
    Except Err (List ((ℕ × ℕ) × D)) :=
  if tbi ∉ integrators then .error .assertionError
  else
    match masses fs with
    | .error x => .error x
    | .ok ms =>
      if fs.length = 3 ∧ tbi ∈ threeBodyNames then
        match create cme ms msq sig with
        | .error x => .error x
        | .ok o => massDistributions mc o nbins "quad" 10000
      else (ramboMsqrd msq).map fun f => R.mass cme ms f npts nbins

/-- The spectra built from the distributions: one and two particles (`_nbody.py:554-572`), and three
or more (`_nbody.py:493-509`, `520-524`) from the energy distributions and, if the radiation is included
and some state is charged (`_nbody.py:347-392`), the mass distributions. -/
structure Assemble where
  one : String → Except Err ℝ
  two : String → String → ℝ
  many : List String → List D → Option (List ((ℕ × ℕ) × D)) → Except Err ℝ

/-- The keyword arguments shared by `dnde_photon`, `dnde_positron` and `dnde_neutrino`. -/
structure Args where
  msqrd : Option Callable := none
  integrator : Option String := none
  signature : Option String := none
  npts : ℕ := 2 ^ 14
  nbins : ℕ := 25

/-- `_dnde_multi_particle` (`_nbody.py:448-524`) at one energy.  `radiate` says that the product is the
photon and `include_fsr` is set; the mass distributions are made only if a final state radiates. -/
noncomputable def multi (mc : Monte) (R : RamboDists) (A : Assemble) (radiate : Bool) (cme : ℝ)
    (fs : List String) (a : Args) : Except Err ℝ :=
  let tbi := a.integrator.getD "quad"
  match makeEnergy mc R cme fs a.msqrd a.npts a.nbins tbi a.signature with
  | .error x => .error x
  | .ok ed =>
    if radiate = true ∧ ∃ s ∈ fs, s ∈ NBody.fsrKeys then
      match makeMass mc R cme fs a.msqrd a.npts a.nbins tbi a.signature with
      | .error x => .error x
      | .ok inv => A.many fs ed (some inv)
    else A.many fs ed none

/-- `_dnde_nbody` (`_nbody.py:527-589`) at one energy, for a sequence of names. -/
noncomputable def dnde (mc : Monte) (R : RamboDists) (A : Assemble) (radiate : Bool) (cme : ℝ)
    (fs : List String) (a : Args) : Except Err ℝ :=
  match masses fs with
  | .error x => .error x
  | .ok ms =>
    if cme < ms.sum then .error .valueError
    else
      match fs with
      | [s] => A.one s
      | [s1, s2] => .ok (A.two s1 s2)
      | _ => multi mc R A radiate cme fs a

/-! ## `TwoBody` -/

/-- A squared matrix element of a two-body state: of the momenta or of the cosine. -/
inductive Callable2 where
  | momenta (f : List P4 → ℝ)
  | angle (f : ℝ → ℝ)

/-- The momenta the integrand hands to the matrix element (`_two_body.py:113-121`). -/
noncomputable def twoMomenta (p m1 m2 z : ℝ) : List P4 :=
  let e1 := Real.sqrt (m1 ^ 2 + p ^ 2)
  let e2 := Real.sqrt (m2 ^ 2 + p ^ 2)
  let sin := Real.sqrt (1 - z ^ 2)
  [⟨e1, sin * p, 0, z * p⟩, ⟨e2, -sin * p, 0, -z * p⟩]

/-- `__integrate_momenta` (`_two_body.py:105-127`), value only. -/
noncomputable def integrateMomenta (q m1 m2 : ℝ) (f : List P4 → ℝ) : XReal :=
  match twoBodyMomentum q m1 m2 with
  | .num p => .num ((∫ z in (-1 : ℝ)..1, f (twoMomenta p m1 m2 z)) * (1 / (8 * Real.pi) * p / q))
  | _ => .nan

/-- `TwoBody(q, masses, msqrd, msqrd_signature).integrate()` (`_two_body.py:49-71`, `142-155`).  A
callable of the momenta is anything that takes an array; one of the cosine is given a number.  Calling
either kind with the other argument is not modelled: both take one argument.  Without a matrix
element, the signature `'momenta'` makes the default return an array of zeros
(`_two_body.py:16-20`), which `quad` refuses. -/
noncomputable def twoBody (q : ℝ) (ms : List ℝ) (msq : Option Callable2) (sig : Option String) :
    Except Err (Option XReal) :=
  match ms with
  | [m1, m2] =>
    if sig = none ∨ sig = some "momenta" ∨ sig = some "z" then
      if sig = some "momenta" then
        match msq with
        | none => .error .typeError
        | some (.momenta f) => .ok (some (integrateMomenta q m1 m2 f))
        | some (.angle _) => .ok none
      else
        match msq with
        | none => .ok (some (twoBodyIntegrate q m1 m2 fun _ => 1))
        | some (.angle f) => .ok (some (twoBodyIntegrate q m1 m2 f))
        | some (.momenta _) => .ok none
    else .error .assertionError
  | _ => .error .assertionError

/-! ## `PhaseSpaceDistribution1D` -/

/-- `np.interp(x, xs, ys, 0.0, 0.0)` (`_dist.py:161-163`) for increasing `xs`: the chord of the cell
that contains `x`, zero outside. -/
noncomputable def interp0 : List ℝ → List ℝ → ℝ → ℝ
  | [a], [y], x => if x = a then y else 0
  | a :: b :: xs, y :: y' :: ys, x =>
    if x < a then 0
    else if x < b then (y' - y) / (b - a) * (x - a) + y
    else interp0 (b :: xs) (y' :: ys) x
  | _, _, _ => 0

/-- `expect(fn, method='quad')` (`_dist.py:107-113`) for increasing bin edges. -/
noncomputable def expectQuad (fn : ℝ → ℝ) (edges ps : List ℝ) : ℝ :=
  ∫ x in (edges.headD 0)..(edges.getLastD 0), interp0 (binCenters edges) ps x * fn x

end Hazma.PhaseApi
