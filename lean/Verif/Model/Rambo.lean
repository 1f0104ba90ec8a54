import Mathlib.Analysis.SpecialFunctions.Log.Basic
import Mathlib.Analysis.SpecialFunctions.Trigonometric.Basic
import Mathlib.Analysis.Real.Sqrt
import Mathlib.Data.Nat.Factorial.Basic

/-!
# RAMBO phase-space generator

Models `hazma/phase_space/_rambo.py`.  The arrays of shape `(4, n, batch)` are lists of events,
an event being the list of its `n` four-momenta.  Random numbers are an argument.  Rounding is not
modelled.
-/

namespace Hazma.Rambo

/-- A four-momentum `(E, px, py, pz)` (first axis of the arrays, `_rambo.py:155-157`). -/
@[ext] structure P4 where
  e : ℝ
  x : ℝ
  y : ℝ
  z : ℝ

/-- The four uniform random numbers of one particle (`_rambo.py:145-148`). -/
structure Draw where
  r1 : ℝ
  r2 : ℝ
  r3 : ℝ
  r4 : ℝ

/-- `_initialize_momenta` for one particle (`_rambo.py:150-157`). -/
noncomputable def initMomentum (d : Draw) : P4 :=
  let ctheta := 2 * d.r1 - 1
  let stheta := Real.sqrt (1 - ctheta ^ 2)
  let phi := 2 * Real.pi * d.r2
  let e := -Real.log (d.r3 * d.r4)
  ⟨e, e * stheta * Real.cos phi, e * stheta * Real.sin phi, e * ctheta⟩

/-- `np.sum(ps, axis=1)` (`_rambo.py:175`). -/
def total (ps : List P4) : P4 :=
  ⟨(ps.map P4.e).sum, (ps.map P4.x).sum, (ps.map P4.y).sum, (ps.map P4.z).sum⟩

/-- `_boost` applied to one momentum, given the total (`_rambo.py:176-195`). -/
noncomputable def boostOne (cme : ℝ) (t p : P4) : P4 :=
  let invMass := 1 / Real.sqrt (t.e ^ 2 - t.x ^ 2 - t.y ^ 2 - t.z ^ 2)
  let bx := -invMass * t.x
  let yb := -invMass * t.y
  let bz := -invMass * t.z
  let x := cme * invMass
  let g := t.e * invMass
  let a := 1 / (1 + g)
  let bdotp := bx * p.x + yb * p.y + bz * p.z
  let fact := a * bdotp + p.e
  ⟨x * (g * p.e + bdotp), x * (fact * bx + p.x), x * (fact * yb + p.y), x * (fact * bz + p.z)⟩

/-- `_boost` for one event (`_rambo.py:159-197`). -/
noncomputable def boost (cme : ℝ) (ps : List P4) : List P4 := ps.map (boostOne cme (total ps))

/-- `np.hypot`. -/
noncomputable def hypot (a b : ℝ) : ℝ := Real.sqrt (a ^ 2 + b ^ 2)

/-- `f = np.sum(np.hypot(e * xi, masses), axis=0) - cme` for one event (`_rambo.py:225-226`). -/
noncomputable def scaleF (cme : ℝ) (ms es : List ℝ) (xi : ℝ) : ℝ :=
  (List.zipWith (fun e m => hypot (e * xi) m) es ms).sum - cme

/-- `df = np.sum(xi * e**2 / deltaf, axis=0)` for one event (`_rambo.py:227`). -/
noncomputable def scaleDf (ms es : List ℝ) (xi : ℝ) : ℝ :=
  (List.zipWith (fun e m => xi * e ^ 2 / hypot (e * xi) m) es ms).sum

/-- `xi - f / df` for one event (`_rambo.py:228`). -/
noncomputable def newtonStep (cme : ℝ) (ms es : List ℝ) (xi : ℝ) : ℝ :=
  xi - scaleF cme ms es xi / scaleDf ms es xi

/-- The `while not last` loop of `_compute_scale_factor` over a batch (`_rambo.py:224-236`).  The
first argument is the number of iterations still allowed; `np.max(f) < sqrt(eps)` is `∀ f, f < tol`
(the batch is not empty).  `ess` holds the energies of each event, `xis` the current scale of each
event. -/
noncomputable def newtonLoop (cme tol : ℝ) (ms : List ℝ) (ess : List (List ℝ)) :
    ℕ → List ℝ → List ℝ
  | 0, xis => xis
  | k + 1, xis =>
    let fs := List.zipWith (fun es xi => scaleF cme ms es xi) ess xis
    let xis' := List.zipWith (fun es xi => newtonStep cme ms es xi) ess xis
    open Classical in if (∀ f ∈ fs, f < tol) ∨ k = 0 then xis'
    else newtonLoop cme tol ms ess k xis'

/-- `_compute_scale_factor` with its default `iterations=5` (`_rambo.py:199-238`). -/
noncomputable def scaleFactors (cme xi0 eps : ℝ) (ms : List ℝ) (evs : List (List P4)) : List ℝ :=
  newtonLoop cme (Real.sqrt eps) ms (evs.map fun ps => ps.map P4.e) 5 (evs.map fun _ => xi0)

/-- `_correct_masses` for one particle (`_rambo.py:255-256`). -/
noncomputable def correctOne (xi : ℝ) (p : P4) (m : ℝ) : P4 :=
  ⟨hypot (xi * p.e) m, xi * p.x, xi * p.y, xi * p.z⟩

/-- `_correct_masses` for one event (`_rambo.py:240-257`). -/
noncomputable def correctEvent (ms : List ℝ) (ps : List P4) (xi : ℝ) : List P4 :=
  List.zipWith (correctOne xi) ps ms

/-- Squared three-momentum, `np.sum(ps[1:] ** 2, axis=0)` (`_rambo.py:276`). -/
def modsqr (p : P4) : ℝ := p.x ^ 2 + p.y ^ 2 + p.z ^ 2

/-- `_compute_base_weight` (`_rambo.py:106-122`); `none` is the `ValueError` of
`math.factorial(n - 2)` for `n < 2`. -/
noncomputable def baseWeight (cme : ℝ) (n : ℕ) : Option ℝ :=
  if n < 2 then none
  else
    let fact := 1 / (((n : ℝ) - 1) * ((n - 2).factorial : ℝ) ^ 2)
    some (fact * (Real.pi / 2) ^ (n - 1) * cme ^ (2 * n - 4) * (1 / (2 * Real.pi)) ^ (3 * n - 4))

/-- `_compute_weights` for one event (`_rambo.py:259-283`). -/
noncomputable def weight (cme baseWgt : ℝ) (n : ℕ) (ps : List P4) : ℝ :=
  let t1 := (ps.map fun p => Real.sqrt (modsqr p) / cme).sum ^ (2 * n - 3)
  let t2 := (ps.map fun p => modsqr p / p.e).sum
  let t3 := (ps.map fun p => Real.sqrt (modsqr p) / p.e).prod
  t1 / t2 * t3 * cme * baseWgt

/-- The attributes of a `Rambo` object that influence its events (`_rambo.py:61-72`). -/
structure State where
  cme : ℝ
  masses : List ℝ
  n : ℕ
  xi0 : ℝ
  baseWgt : ℝ

/-- `Rambo.__init__` (`_rambo.py:58-72`); `none` when the base weight raises. -/
noncomputable def create (cme : ℝ) (ms : List ℝ) : Option State :=
  (baseWeight cme ms.length).map fun b =>
    { cme := cme, masses := ms, n := ms.length,
      xi0 := Real.sqrt (1 - (ms.sum / cme) ^ 2), baseWgt := b }

/-- The `cme` setter (`_rambo.py:81-84`): `xi0` is not recomputed.  The number of particles was
accepted before, so the base weight cannot raise; the old one is kept in that unreachable case. -/
noncomputable def setCme (s : State) (v : ℝ) : State :=
  { s with cme := v, baseWgt := (baseWeight v s.n).getD s.baseWgt }

/-- The `masses` setter (`_rambo.py:93-97`): `xi0` is not recomputed.  Fewer than two masses raise
after the new masses have been stored, leaving the old base weight. -/
noncomputable def setMasses (s : State) (ms : List ℝ) : State :=
  { s with n := ms.length, masses := ms, baseWgt := (baseWeight s.cme ms.length).getD s.baseWgt }

/-- An assignment to one of the two settable attributes. -/
inductive Assign where
  | cme (v : ℝ)
  | masses (ms : List ℝ)

/-- Run one assignment. -/
noncomputable def assign (s : State) : Assign → State
  | .cme v => setCme s v
  | .masses ms => setMasses s ms

/-- `generate` (`_rambo.py:345-400`) without a matrix element: events and weights for given random
draws (one list of draws per event) and machine epsilon. -/
noncomputable def generate (s : State) (eps : ℝ) (draws : List (List Draw)) :
    List (List P4) × List ℝ :=
  let boosted := draws.map fun ds => boost s.cme (ds.map initMomentum)
  let xis := scaleFactors s.cme s.xi0 eps s.masses boosted
  let evs := List.zipWith (correctEvent s.masses) boosted xis
  (evs, evs.map (weight s.cme s.baseWgt s.n))

/-- Number of batches `generator(n, batch_size)` yields (`_rambo.py:329-330`). -/
def numBatches (n batch : ℕ) : ℕ :=
  let niters := n / batch
  niters + if batch * niters = n then 0 else 1

/-- Sizes of the batches `generator(n, batch_size)` yields: every batch is full
(`_rambo.py:332-333`). -/
def batchSizes (n batch : ℕ) : List ℕ := List.replicate (numBatches n batch) batch

end Hazma.Rambo
