import Verif.Model.Rambo
import Verif.Model.PhaseSpace
import Verif.Model.Kinematics

/-!
# Monte-Carlo estimates of the RAMBO generator

Models `Rambo.integrate`, `decay_width`, `cross_section`, `energy_distributions` and
`invariant_mass_distributions` (`hazma/phase_space/_rambo.py:423-675`).  The weights of one batch
are a list of `Option ℝ`, `none` being NaN.  The random numbers enter through the function that
hands out batches: `batch k b` is the `k`-th batch of size `b`.  Rounding is not modelled.
-/

namespace Hazma.RamboEstimate

open Hazma.Rambo Hazma.PhaseSpace Hazma.Kinematics

/-- The entries of an array that are not NaN. -/
def valid (ws : List (Option ℝ)) : List ℝ := ws.filterMap id

/-- `np.nanmean`: the mean of the entries that are not NaN, NaN if there are none. -/
noncomputable def nanmean (ws : List (Option ℝ)) : Option ℝ :=
  let v := valid ws
  if v.length = 0 then none else some (v.sum / v.length)

/-- `np.nanstd(…, ddof=1)`: NaN unless at least two entries are not NaN. -/
noncomputable def nanstd (ws : List (Option ℝ)) : Option ℝ :=
  let v := valid ws
  let mean := v.sum / v.length
  if v.length ≤ 1 then none
  else some (Real.sqrt ((v.map fun x => (x - mean) ^ 2).sum / ((v.length : ℝ) - 1)))

/-- `np.nansum`: NaN counts as zero. -/
def nansum (ws : List (Option ℝ)) : ℝ := (valid ws).sum

/-- Exceptions raised by the code of this file. -/
inductive Err where
  /-- `n // 0` (`_rambo.py:333`). -/
  | zeroDivision
  /-- `UFuncTypeError`: an in-place addition of floats to an array of integers. -/
  | casting
  deriving DecidableEq

/-- The branch of `integrate` without batches (`_rambo.py:468-472`). -/
noncomputable def integrateOnce (ws : List (Option ℝ)) (n : ℕ) : Option ℝ × Option ℝ :=
  (nanmean ws, (nanstd ws).map fun s => s / Real.sqrt n)

/-- The branch of `integrate` with batches (`_rambo.py:453-466`).  The division by
`len(errors) = 0` gives NaN. -/
noncomputable def integrateBatches (bs : List (List (Option ℝ))) (b : ℕ) :
    Option ℝ × Option ℝ :=
  let integrals := bs.map nanmean
  let errors := bs.map fun ws => (nanstd ws).map fun s => s / Real.sqrt b
  (nanmean integrals,
    if errors.length = 0 then none
    else some (Real.sqrt (nansum (errors.map fun e => e.map fun x => x ^ 2)) / errors.length))

/-- `Rambo.integrate(n, batch_size)` (`_rambo.py:423-472`). -/
noncomputable def integrate (batch : ℕ → ℕ → List (Option ℝ)) (n : ℕ) (batchSize : Option ℕ) :
    Except Err (Option ℝ × Option ℝ) :=
  match batchSize with
  | none => .ok (integrateOnce (batch 0 n) n)
  | some b =>
    if b = n then .ok (integrateOnce (batch 0 n) n)
    else if b = 0 then .error .zeroDivision
    else .ok (integrateBatches ((List.range (numBatches n b)).map fun k => batch k b) b)

/-- The weights of one batch (`_rambo.py:337-344`, `_rambo.py:391-399`): the phase-space weights,
multiplied by the squared matrix element when there is one.  The matrix element is called with the
whole batch; it is taken to act event by event. -/
noncomputable def eventWeights (s : State) (eps : ℝ) (msqrd : Option (List P4 → Option ℝ))
    (draws : List (List Draw)) : List (Option ℝ) :=
  let g := generate s eps draws
  List.zipWith (fun ev w => match msqrd with
    | none => some w
    | some f => (f ev).map fun x => w * x) g.1 g.2

/-- `decay_width` (`_rambo.py:500-506`). -/
noncomputable def decayWidth (s : State) (batch : ℕ → ℕ → List (Option ℝ)) (n : ℕ)
    (batchSize : Option ℕ) : Except Err (Option ℝ × Option ℝ) :=
  (integrate batch n batchSize).map fun r =>
    let pre := 0.5 / s.cme
    (r.1.map fun x => pre * x, r.2.map fun x => pre * x)

/-- A float that is a number or NaN. -/
noncomputable def toX : Option ℝ → XReal
  | none => XReal.nan
  | some x => XReal.num x

/-- `cross_section` (`_rambo.py:508-546`). -/
noncomputable def crossSection (s : State) (m1 m2 : ℝ) (batch : ℕ → ℕ → List (Option ℝ)) (n : ℕ)
    (batchSize : Option ℕ) : Except Err (XReal × XReal) :=
  (integrate batch n batchSize).map fun r =>
    let pre := crossSectionPrefactor m1 m2 s.cme
    (XReal.mul pre (toX r.1), XReal.mul pre (toX r.2))

/-- `np.linspace(lo, hi, nbins + 1)`: NumPy stores the end point exactly. -/
noncomputable def linspace (lo hi : ℝ) (nbins i : ℕ) : ℝ :=
  if i = nbins then hi else lo + i * ((hi - lo) / nbins)

/-- The bin edges `np.linspace(lo, hi, nbins + 1)` as a list. -/
noncomputable def edges (lo hi : ℝ) (nbins : ℕ) : List ℝ :=
  (List.range (nbins + 1)).map (linspace lo hi nbins)

/-- Whether `np.histogram` puts `x` into bin `i`: bins are half open, the last one is closed. -/
def InBin (e : ℕ → ℝ) (nbins i : ℕ) (x : ℝ) : Prop :=
  e i ≤ x ∧ (x < e (i + 1) ∨ (i + 1 = nbins ∧ x ≤ e nbins))

/-- `np.histogram(xs, bins=e, weights=ws)[0]`; the argument pairs values and weights. -/
noncomputable def histogram (e : ℕ → ℝ) (nbins : ℕ) (xw : List (ℝ × ℝ)) : List ℝ :=
  open Classical in
  (List.range nbins).map fun i => ((xw.filter fun p => InBin e nbins i p.1).map Prod.snd).sum

/-- A histogram array with its element type: counts are integers, weighted sums are floats. -/
inductive Counts where
  | ints (c : List ℕ)
  | floats (c : List ℝ)

/-- `np.histogram(np.zeros(nbins), bins=b)[0]` (`_rambo.py:584-586`, `_rambo.py:653-655`). -/
noncomputable def seed (e : ℕ → ℝ) (nbins : ℕ) : Counts :=
  open Classical in
  .ints ((List.range nbins).map fun i => if InBin e nbins i 0 then nbins else 0)

/-- `distributions[i] += d` with an array `d` of floats (`_rambo.py:593`, `_rambo.py:662`). -/
noncomputable def Counts.addInPlace : Counts → List ℝ → Except Err Counts
  | .ints _, _ => .error .casting
  | .floats c, d => .ok (.floats (List.zipWith (· + ·) c d))

/-- The entries as numbers. -/
def Counts.toReals : Counts → List ℝ
  | .ints c => c.map fun k => (k : ℝ)
  | .floats c => c

/-- One column of the distributions: the limits of its histogram and the observable filled in. -/
structure Column where
  lo : ℝ
  hi : ℝ
  obs : List P4 → ℝ

/-- The histogram of one column over the events of one batch (`_rambo.py:592`, `_rambo.py:597`,
`_rambo.py:661`, `_rambo.py:666-668`). -/
noncomputable def Column.fill (c : Column) (nbins : ℕ) (evs : List (List P4 × ℝ)) : List ℝ :=
  histogram (linspace c.lo c.hi nbins) nbins (evs.map fun ew => (c.obs ew.1, ew.2))

/-- `PhaseSpaceDistribution1D(bins, counts)` of one column (`_dist.py:46-69`): the bin edges and the
normalised entries. -/
noncomputable def Column.dist (c : Column) (nbins : ℕ) (d : Counts) : List ℝ × Normalised :=
  (edges c.lo c.hi nbins, normalizeDistribution d.toReals (edges c.lo c.hi nbins))

/-- The inner loop over columns for one batch (`_rambo.py:591-593`, `_rambo.py:660-662`). -/
noncomputable def addBatch (nbins : ℕ) (evs : List (List P4 × ℝ)) :
    List (Column × Counts) → Except Err (List (Column × Counts))
  | [] => .ok []
  | (c, d) :: rest =>
    match d.addInPlace (c.fill nbins evs) with
    | .error e => .error e
    | .ok d' => (addBatch nbins evs rest).map fun r => (c, d') :: r

/-- The loop over batches (`_rambo.py:590`, `_rambo.py:659`). -/
noncomputable def addBatches (nbins : ℕ) :
    List (List (List P4 × ℝ)) → List (Column × Counts) → Except Err (List (Column × Counts))
  | [], ds => .ok ds
  | evs :: rest, ds =>
    match addBatch nbins evs ds with
    | .error e => .error e
    | .ok ds' => addBatches nbins rest ds'

/-- The common body of `energy_distributions` (`_rambo.py:579-602`) and
`invariant_mass_distributions` (`_rambo.py:651-668`): the distribution of every column. -/
noncomputable def distributions (cols : List Column) (batch : ℕ → ℕ → List (List P4 × ℝ))
    (n nbins : ℕ) (batchSize : Option ℕ) : Except Err (List (List ℝ × Normalised)) :=
  let seeds := cols.map fun c => (c, seed (linspace c.lo c.hi nbins) nbins)
  let single := cols.map fun c => (c, Counts.floats (c.fill nbins (batch 0 n)))
  let filled : Except Err (List (Column × Counts)) :=
    match batchSize with
    | none => .ok single
    | some b =>
      if b = n then .ok single
      else if b = 0 then .error .zeroDivision
      else addBatches nbins ((List.range (numBatches n b)).map fun k => batch k b) seeds
  filled.map fun ds => ds.map fun cd => cd.1.dist nbins cd.2

/-- The `i`-th momentum of an event, `ps[:, i]`. -/
def nth (ev : List P4) (i : ℕ) : P4 := ev.getD i ⟨0, 0, 0, 0⟩

/-- The columns of `energy_distributions` (`_rambo.py:581-582`): `ps[0, i]` between the limits of
particle `i`. -/
noncomputable def energyColumns (q : ℝ) (ms : List ℝ) : List Column :=
  (List.range ms.length).map fun i =>
    let lim := (energyLimits q ms).getD i (0, 0)
    ⟨lim.1, lim.2, fun ev => (nth ev i).e⟩

/-- `inv_mass` (`_rambo.py:647-649`): `np.sqrt(np.abs(lnorm_sqr(ps[:, i] + ps[:, j])))`. -/
noncomputable def invMass (i j : ℕ) (ev : List P4) : ℝ :=
  let a := nth ev i
  let b := nth ev j
  Real.sqrt |(a.e + b.e) ^ 2 - (a.x + b.x) ^ 2 - (a.y + b.y) ^ 2 - (a.z + b.z) ^ 2|

/-- `itertools.combinations(range(n), 2)` (`_utils.py:68-77`), the keys of the limits. -/
def pairs (n : ℕ) : List (ℕ × ℕ) :=
  (List.range n).flatMap fun i => ((List.range n).filter fun j => i < j).map fun j => (i, j)

/-- The column of a pair of particles (`_rambo.py:643-649`). -/
noncomputable def massColumn (q : ℝ) (ms : List ℝ) (ij : ℕ × ℕ) : Column :=
  let lim := invariantMassLimits q ms ij.1 ij.2
  ⟨lim.1, lim.2, invMass ij.1 ij.2⟩

/-- `d[k] = v` for a dictionary keyed by pairs. -/
def put {β : Type} : List ((ℕ × ℕ) × β) → ℕ × ℕ → β → List ((ℕ × ℕ) × β)
  | [], k, v => [(k, v)]
  | (k', w) :: d, k, v => if k' = k then (k', v) :: d else (k', w) :: put d k v

/-- `d[k]`. -/
def look {β : Type} : List ((ℕ × ℕ) × β) → ℕ × ℕ → Option β
  | [], _ => none
  | (k', w) :: d, k => if k' = k then some w else look d k

/-- `{key: … [i] for i in range(nfsp) for i, key in enumerate(pairs)}` (`_rambo.py:670-674`): the
inner `i` shadows the outer one, so the whole dictionary is written `nfsp` times. -/
def comprehension {β : Type} (nfsp : ℕ) (keys : List (ℕ × ℕ)) (vals : List β) :
    List ((ℕ × ℕ) × β) :=
  (List.range nfsp).foldl (fun d _ => (keys.zip vals).foldl (fun d kv => put d kv.1 kv.2) d) []

/-- `invariant_mass_distributions` (`_rambo.py:604-675`). -/
noncomputable def invariantMassDistributions (s : State) (batch : ℕ → ℕ → List (List P4 × ℝ))
    (n nbins : ℕ) (batchSize : Option ℕ) : Except Err (List ((ℕ × ℕ) × (List ℝ × Normalised))) :=
  let ks := pairs s.masses.length
  (distributions (ks.map (massColumn s.cme s.masses)) batch n nbins batchSize).map fun ds =>
    comprehension s.masses.length ks ds

/-- `energy_distributions` (`_rambo.py:548-602`). -/
noncomputable def energyDistributions (s : State) (batch : ℕ → ℕ → List (List P4 × ℝ))
    (n nbins : ℕ) (batchSize : Option ℕ) : Except Err (List (List ℝ × Normalised)) :=
  distributions (energyColumns s.cme s.masses) batch n nbins batchSize

/-- Events and weights of one batch without a matrix element, as `generate` returns them. -/
noncomputable def ramboBatch (s : State) (eps : ℝ) (draws : ℕ → ℕ → List (List Draw)) (k b : ℕ) :
    List (List P4 × ℝ) :=
  let g := generate s eps (draws k b)
  g.1.zip g.2

end Hazma.RamboEstimate
