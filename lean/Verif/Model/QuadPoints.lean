import Verif.Model.Quad
import Mathlib.Data.List.Sort

/-!
# Adaptive quadrature with break points and the driver (`rust/src/quad.rs:1096-1628`)

Same conventions as `Verif.Model.Quad`: `none` is a panic, arithmetic is exact.  `qagpe` shares the bisection,
the sorting of the errors and the ε-algorithm with `qagse` line by line (`quad.rs:1265-1354` against
`817-904`), so those definitions are reused; what differs is modelled here: the initial partition, the
`level` of a panel in place of its width, and the conditions at the extrapolation.
-/

namespace Hazma.Quad

/-! ## The initial partition -/

/-- `if pts[i] > pts[j] { pts.swap(i, j) }` (`quad.rs:1154-1156`). -/
noncomputable def swapIf (b : Buf ℝ) (i j : ℕ) : Option (Buf ℝ) := do
  let x ← b.rd i
  let y ← b.rd j
  if x > y then
    let b ← b.wr i y
    b.wr j x
  else some b

/-- The inner loop of the selection sort (`quad.rs:1153-1157`), `cnt` turns left. -/
noncomputable def sortInner (i : ℕ) : (cnt j : ℕ) → Buf ℝ → Option (Buf ℝ)
  | 0, _, b => some b
  | cnt + 1, j, b => do
    let b ← swapIf b i j
    sortInner i cnt (j + 1) b

/-- The outer loop (`quad.rs:1152-1158`): `i` from `1` to `nint`, the last entry being `nint + 1`. -/
noncomputable def sortOuter (nint : ℕ) : (cnt i : ℕ) → Buf ℝ → Option (Buf ℝ)
  | 0, _, b => some b
  | cnt + 1, i, b => do
    let b ← sortInner i (nint + 1 - i) (i + 1) b
    sortOuter nint cnt (i + 1) b

/-- `pts[i + 2] = p` for all points (`quad.rs:1141-1143`). -/
def storePts : (i : ℕ) → List ℝ → Buf ℝ → Option (Buf ℝ)
  | _, [], b => some b
  | i, x :: l, b => do
    let b ← b.wr (i + 2) x
    storePts (i + 1) l b

/-- The vector `pts` before sorting (`quad.rs:1130,1140-1144`). -/
noncomputable def rawPts (a b : ℝ) (points : List ℝ) : Option (Buf ℝ) := do
  let v ← (Buf.new (points.length + 3) 0).wr 1 (min a b)
  let v ← storePts 0 points v
  v.wr (points.length + 2) (max a b)

/-- The initial partition (`quad.rs:1140-1162`). -/
noncomputable def partition (a b : ℝ) (points : List ℝ) : Option (Except QuadError (Buf ℝ)) := do
  let v ← rawPts a b points
  if points.length ≠ 0 then
    let v ← sortOuter (points.length + 1) (points.length + 1) 1 v
    let lo ← v.rd 1
    let hi ← v.rd (points.length + 2)
    if lo ≠ min a b ∨ hi ≠ max a b then return .error .breakpointOutside
    else return .ok v
  else return .ok v

/-! ## The first rules -/

/-- What the loop over the initial panels fills (`quad.rs:1164-1185`). -/
structure FirstPass where
  P : Panels
  iord : Buf ℕ
  level : Buf ℕ
  /-- `ndin[i] == 1` -/
  ndin : Buf Bool
  result : ℝ
  abserr : ℝ
  resabs : ℝ
  trace : List ℝ

/-- One turn (`quad.rs:1168-1185`); `a1` is the left end. -/
noncomputable def firstTurn (M : Mach) (f : ℝ → ℝ) (pts : Buf ℝ) (i : ℕ) (a1 : ℝ) (w : FirstPass) :
    Option (FirstPass × ℝ) := do
  let b1 ← pts.rd (i + 1)
  let piece := qk21 M f a1 b1
  let ndin ← w.ndin.wr i (decide (piece.abserr = piece.resasc ∧ piece.abserr ≠ 0))
  let level ← w.level.wr i 0
  let elist ← w.P.elist.wr i piece.abserr
  let alist ← w.P.alist.wr i a1
  let blist ← w.P.blist.wr i b1
  let rlist ← w.P.rlist.wr i piece.result
  let iord ← w.iord.wr i i
  return (⟨⟨alist, blist, rlist, elist⟩, iord, level, ndin, w.result + piece.result,
    w.abserr + piece.abserr, w.resabs + piece.resabs, w.trace ++ piece.pts⟩, b1)

/-- The loop (`quad.rs:1168-1185`). -/
noncomputable def firstLoop (M : Mach) (f : ℝ → ℝ) (pts : Buf ℝ) :
    (cnt i : ℕ) → ℝ → FirstPass → Option FirstPass
  | 0, _, _, w => some w
  | cnt + 1, i, a1, w => do
    let r ← firstTurn M f pts i a1 w
    firstLoop M f pts cnt (i + 1) r.2 r.1

/-- `if ndin[i] == 1 { elist[i] = abserr }` (`quad.rs:1188-1190`). -/
def putIf (flag : Bool) (e : Buf ℝ) (i : ℕ) (abserr : ℝ) : Option (Buf ℝ) :=
  if flag then e.wr i abserr else some e

/-- Flagged panels get the total error (`quad.rs:1186-1192`): new `elist` and `errsum`. -/
noncomputable def inflate (ndin : Buf Bool) (abserr : ℝ) :
    (cnt i : ℕ) → Buf ℝ → ℝ → Option (Buf ℝ × ℝ)
  | 0, _, e, sum => some (e, sum)
  | cnt + 1, i, e, sum => do
    let flag ← ndin.rd i
    let e ← putIf flag e i abserr
    let x ← e.rd i
    inflate ndin abserr cnt (i + 1) e (sum + x)

/-- The search for the largest remaining error (`quad.rs:1205-1214`): `(ind1, k)`. -/
noncomputable def largest (elist : Buf ℝ) (iord : Buf ℕ) : (cnt j ind1 k : ℕ) → Option (ℕ × ℕ)
  | 0, _, ind1, k => some (ind1, k)
  | cnt + 1, j, ind1, k => do
    let ind2 ← iord.rd j
    let e1 ← elist.rd ind1
    let e2 ← elist.rd ind2
    if e1 ≤ e2 then largest elist iord cnt (j + 1) ind2 j
    else largest elist iord cnt (j + 1) ind1 k

/-- One turn of the selection (`quad.rs:1204-1219`). -/
noncomputable def selectTurn (elist : Buf ℝ) (nint i : ℕ) (iord : Buf ℕ) : Option (Buf ℕ) := do
  let x ← iord.rd i
  let r ← largest elist iord (nint - i) (i + 1) x 0
  if r.1 ≠ x then
    let iord ← iord.wr r.2 x
    iord.wr i r.1
  else some iord

/-- The largest errors to the head of the list (`quad.rs:1203-1219`). -/
noncomputable def selectLoop (elist : Buf ℝ) (nint : ℕ) : (cnt i : ℕ) → Buf ℕ → Option (Buf ℕ)
  | 0, _, iord => some iord
  | cnt + 1, i, iord => do
    let iord ← selectTurn elist nint i iord
    selectLoop elist nint cnt (i + 1) iord

/-! ## The main loop -/

/-- The state of `qagpe`: that of `qagse` with the levels (`small` is not used). -/
structure PSt where
  s : St
  level : Buf ℕ
  levmax : ℕ

/-- The growth of `level` with the rest of the workspace (`quad.rs:1269-1277`). -/
def growLevel (limit : ℕ) (q : PSt) : Buf ℕ :=
  if q.s.last + 1 + 2 > q.s.cap then q.level.resize (grownWorkspaceLen q.s.cap limit) 0 else q.level

/-- Bisection with the level of the halves (`quad.rs:1268-1354`): the state, the halves and `levcur`. -/
noncomputable def bisectP (M : Mach) (f : ℝ → ℝ) (p : Args) (q : PSt) : Option (PSt × Halves × ℕ) := do
  let level := growLevel p.limit q
  let l ← level.rd q.s.maxerr
  let r ← bisect M f p q.s
  let level ← level.wr q.s.maxerr (l + 1)
  let level ← level.wr (q.s.last + 1) (l + 1)
  return (⟨r.1, level, q.levmax⟩, r.2, l + 1)

/-- The search for a panel that is not of the smallest level (`quad.rs:1385-1393`):
`(found, nrmax, maxerr, errmax)`. -/
noncomputable def seekP (P : Panels) (iord level : Buf ℕ) (levmax : ℕ) :
    (cnt nrmax maxerr : ℕ) → ℝ → Option (Bool × ℕ × ℕ × ℝ)
  | 0, nrmax, maxerr, errmax => some (false, nrmax, maxerr, errmax)
  | cnt + 1, nrmax, _, _ => do
    let maxerr ← iord.rd nrmax
    let errmax ← P.elist.rd maxerr
    let l ← level.rd maxerr
    if l + 1 ≤ levmax then return (true, nrmax, maxerr, errmax)
    else seekP P iord level levmax cnt (nrmax + 1) maxerr errmax

/-- Label 155 (`quad.rs:1427-1433`). -/
noncomputable def restartP (q : PSt) : Option (PSt × Ctl) := do
  let m ← q.s.iord.rd 1
  let e ← q.s.P.elist.rd m
  return (⟨{ q.s with maxerr := m, errmax := e, nrmax := 1, extrap := false, erlarg := q.s.errsum },
    q.level, q.levmax + 1⟩, .next)

/-- What follows the call of `qelg` (`quad.rs:1405-1425`); `accept` and `noMore` are as in `qagse`. -/
noncomputable def afterElgP (p : Args) (q : PSt) (r : Elg × ℝ × ℝ) : Option (PSt × Ctl) :=
  if r.2.2 < q.s.abserr ∧ (accept p q.s r).abserr < (accept p q.s r).ertest then
    some ({ q with s := accept p q.s r }, .to100)
  else if (noMore (accept p q.s r)).ier ≥ 5 then some ({ q with s := noMore (accept p q.s r) }, .to100)
  else restartP { q with s := noMore (accept p q.s r) }

/-- Label 140 (`quad.rs:1399-1433`). -/
noncomputable def extrapolateP (M : Mach) (p : Args) (q : PSt) : Option (PSt × Ctl) := do
  let tab ← q.s.elg.tab.wr (q.s.elg.n + 1) q.s.area
  if q.s.elg.n + 1 > 2 then
    let r ← qelg M ⟨q.s.elg.n + 1, tab, q.s.elg.res3, q.s.elg.nres⟩
    afterElgP p q r
  else
    restartP { q with s := { q.s with elg := { q.s.elg with n := q.s.elg.n + 1, tab := tab } } }

/-- Label 120 (`quad.rs:1377-1397`); `2 + limit / 2` is the bound of `jupbn`. -/
noncomputable def label120 (M : Mach) (p : Args) (q : PSt) : Option (PSt × Ctl) :=
  if ¬(q.s.ierro = 3 ∨ q.s.erlarg ≤ q.s.ertest) then do
    let jup ← jupbn p.limit q.s.last
    let r ← seekP q.s.P q.s.iord q.level q.levmax (jup + 1 - q.s.nrmax) q.s.nrmax q.s.maxerr q.s.errmax
    let q1 : PSt := { q with s := { q.s with nrmax := r.2.1, maxerr := r.2.2.1, errmax := r.2.2.2 } }
    if r.1 then return (q1, .next) else extrapolateP M p q1
  else extrapolateP M p q

/-- Is the panel to be bisected next the smallest one? (`quad.rs:1369-1376`). -/
noncomputable def chooseP (M : Mach) (p : Args) (q : PSt) : Option (PSt × Ctl) :=
  if q.s.extrap then label120 M p q
  else do
    let l ← q.level.rd q.s.maxerr
    if l + 1 ≤ q.levmax then some (q, .next)
    else label120 M p { q with s := { q.s with extrap := true, nrmax := 2 } }

/-- `erlarg` after a bisection (`quad.rs:1365-1368`). -/
noncomputable def wideErrorP (erlast : ℝ) (q : PSt) (w : Halves) (levcur : ℕ) : ℝ :=
  if levcur + 1 ≤ q.levmax then q.s.erlarg - erlast + (w.left.abserr + w.right.abserr)
  else q.s.erlarg - erlast

/-- The second half of an iteration (`quad.rs:1355-1433`). -/
noncomputable def steerP (M : Mach) (p : Args) (erlast : ℝ) (q : PSt) (w : Halves) (levcur : ℕ) :
    Option (PSt × Ctl) :=
  if q.s.errsum ≤ q.s.errbnd then some (q, .to115)
  else if q.s.ier ≠ 0 then some (q, .to100)
  else if q.s.noext then some (q, .next)
  else chooseP M p { q with s := { q.s with erlarg := wideErrorP erlast q w levcur } }

/-- One turn of the main loop (`quad.rs:1265-1434`). -/
noncomputable def stepP (M : Mach) (f : ℝ → ℝ) (p : Args) (q : PSt) : Option (PSt × Ctl) := do
  let r ← bisectP M f p q
  steerP M p q.s.errmax r.1 r.2.1 r.2.2

/-- The main loop with `cnt` turns left; `true` means `goto_190`. -/
noncomputable def mainLoopP (M : Mach) (f : ℝ → ℝ) (p : Args) : (cnt : ℕ) → PSt → Option (PSt × Bool)
  | 0, q => some (q, false)
  | cnt + 1, q => do
    let r ← stepP M f p q
    match r.2 with
    | .next => mainLoopP M f p cnt r.1
    | .to100 => return (r.1, false)
    | .to115 => return (r.1, true)

/-- Labels 170 to 210 (`quad.rs:1436-1501`); the tests are those of `qagse`.  `nint` initial panels were
evaluated, each turn evaluated two more rules. -/
noncomputable def finishP (M : Mach) (ksgn : Bool) (resabs sign : ℝ) (nint : ℕ) (s : St) (goto190 : Bool) :
    Option Outcome := do
  let r := if goto190 then (true, s.abserr, s.ier) else label100 M ksgn resabs s
  let out ← settle s r.1 r.2.1
  let turns ← csub s.last nint
  return ⟨out.1 * sign, out.2, 21 * nint + 42 * turns, s.last, if r.2.2 > 2 then r.2.2 - 1 else r.2.2, s.trace⟩

/-- The vectors before the first rules (`quad.rs:1122-1130`). -/
noncomputable def emptyPass (cap npts : ℕ) : FirstPass :=
  ⟨⟨Buf.new cap 0, Buf.new cap 0, Buf.new cap 0, Buf.new cap 0⟩, Buf.new cap 0, Buf.new cap 0,
    Buf.new (npts + 3) false, 0, 0, 0, []⟩

/-- The flag after the first rules (`quad.rs:1194-1223`). -/
noncomputable def firstIerP (M : Mach) (p : Args) (npts : ℕ) (w : FirstPass) : ℕ :=
  let errbnd := max p.epsabs (p.epsrel * |w.result|)
  let ier := if w.abserr ≤ 100 * M.eps * w.resabs ∧ w.abserr > errbnd then 2 else 0
  if npts + 1 ≠ 1 ∧ p.limit < npts + 2 then 1 else ier

/-- The first rules, the flagged errors and the order of the panels (`quad.rs:1164-1219`). -/
structure Prepared where
  w : FirstPass
  elist : Buf ℝ
  errsum : ℝ
  iord : Buf ℕ

/-- The initialisation up to label 70 (`quad.rs:1122-1219`). -/
noncomputable def prepare (M : Mach) (f : ℝ → ℝ) (p : Args) (npts : ℕ) (pts : Buf ℝ) : Option Prepared := do
  let a1 ← pts.rd 1
  let w ← firstLoop M f pts (npts + 1) 1 a1 (emptyPass (workspaceLen p.limit (npts + 1)) npts)
  let e ← inflate w.ndin w.abserr (npts + 1) 1 w.P.elist 0
  let iord ← selectLoop e.1 (npts + 1) npts 1 w.iord
  return ⟨w, e.1, e.2, iord⟩

/-- The early return (`quad.rs:1225`). -/
def stopsAtOnceP (M : Mach) (p : Args) (npts : ℕ) (w : FirstPass) : Prop :=
  firstIerP M p npts w ≠ 0 ∨ w.abserr ≤ max p.epsabs (p.epsrel * |w.result|)

/-- The state before the main loop (`quad.rs:1239-1263`). -/
noncomputable def initP (M : Mach) (p : Args) (npts : ℕ) (g : Prepared) : Option PSt := do
  let tab ← (Buf.new 53 0).wr 1 g.w.result
  let m ← g.iord.rd 1
  let e ← g.elist.rd m
  return ⟨{ cap := workspaceLen p.limit (npts + 1), P := { g.w.P with elist := g.elist }, iord := g.iord
            last := npts + 1, maxerr := m, errmax := e, nrmax := 1, area := g.w.result, errsum := g.errsum
            errbnd := max p.epsabs (p.epsrel * |g.w.result|), result := g.w.result, abserr := M.oflow
            elg := ⟨1, tab, Buf.new 4 0, 0⟩, ktmin := 0, extrap := false, noext := false, iroff1 := 0
            iroff2 := 0, iroff3 := 0, ier := 0, ierro := 0, small := 0, erlarg := g.errsum
            ertest := max p.epsabs (p.epsrel * |g.w.result|), correc := 0, trace := g.w.trace },
    g.w.level, 1⟩

open Classical in
/-- From the first rules to the result (`quad.rs:1164-1501`). -/
noncomputable def runP (M : Mach) (f : ℝ → ℝ) (p : Args) (npts : ℕ) (sign : ℝ) (pts : Buf ℝ) :
    Option Outcome := do
  let g ← prepare M f p npts pts
  let ier := firstIerP M p npts g.w
  if stopsAtOnceP M p npts g.w then
    return ⟨g.w.result * sign, g.w.abserr, 21 * (npts + 1), npts + 1, if ier > 2 then ier - 1 else ier,
      g.w.trace⟩
  else
    let q ← initP M p npts g
    let r ← mainLoopP M f p (p.limit - (npts + 1)) q
    finishP M (decide (|g.w.result| ≥ (1 - 50 * M.eps) * g.w.resabs)) g.w.resabs sign (npts + 1) r.1.s r.2

open Classical in
/-- `qagpe` (`quad.rs:1096-1502`). -/
noncomputable def qagpe (M : Mach) (f : ℝ → ℝ) (p : Args) (points : List ℝ) :
    Option (Except QuadError Outcome) :=
  if p.limit ≤ points.length then some (.error (.limitTooSmall p.limit points.length))
  else if unachievable M p then some (.error .toleranceUnachievable)
  else do
    let r ← partition p.a p.b points
    match r with
    | .error e => return .error e
    | .ok pts => do
      let o ← runP M f p points.length (if p.a > p.b then -1 else 1) pts
      return .ok o

/-! ## The driver -/

/-- `dedup_by(|x, y| *x == *y)`: consecutive equal entries, the first is kept. -/
noncomputable def dedupAdj : List ℝ → List ℝ
  | [] => []
  | [x] => [x]
  | x :: y :: l => if x = y then dedupAdj (x :: l) else x :: dedupAdj (y :: l)
termination_by l => l.length

open Classical in
/-- `filter_points` (`quad.rs:1553-1563`). -/
noncomputable def filterPoints (points : List ℝ) (a b : ℝ) : List ℝ :=
  (dedupAdj (points.insertionSort (· ≤ ·))).filter (fun x => a < x ∧ x < b)

/-- The dispatch on `opts.points` for ordered limits (`quad.rs:1613-1619`); `none` selects `qagse`. -/
noncomputable def quadOrdered (M : Mach) (f : ℝ → ℝ) (p : Args) :
    Option (List ℝ) → Option (Except QuadError Outcome)
  | none => qagse M f p
  | some l => qagpe M f p (filterPoints l p.a p.b)

open Classical in
/-- `quad` (`quad.rs:1596-1624`). -/
noncomputable def quad (M : Mach) (f : ℝ → ℝ) (p : Args) (points : Option (List ℝ)) :
    Option (Except QuadError Outcome) :=
  if p.a = p.b then some (.ok ⟨0, 0, 0, 0, 0, []⟩)
  else
    let lo := if p.b < p.a then p.b else p.a
    let hi := if p.b < p.a then p.a else p.b
    let r := quadOrdered M f { p with a := lo, b := hi } points
    if p.b < p.a then r.map (fun e => e.map (fun o => { o with value := -o.value })) else r

end Hazma.Quad
