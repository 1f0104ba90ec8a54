import Verif.Model.Kronrod
import Mathlib.Logic.Function.Basic

/-!
# Adaptive quadrature (`rust/src/quad.rs:95-114`, `489-1622`)

Vectors are buffers with a length; reading or writing outside the length is a panic (`none`), as is taking a
natural number below zero.  Everything runs in `Option`, so a result of the form `some …` says that no index
was out of range.  Loops are recursions over the number of turns left.  Arithmetic is exact; integrands
return reals (no NaN).
-/

namespace Hazma.Quad

/-- A Rust vector or array. -/
structure Buf (α : Type) where
  len : ℕ
  get : ℕ → α

namespace Buf
variable {α : Type}

/-- `v[i]`. -/
def rd (b : Buf α) (i : ℕ) : Option α := if i < b.len then some (b.get i) else none
/-- `v[i] = x`. -/
def wr (b : Buf α) (i : ℕ) (x : α) : Option (Buf α) :=
  if i < b.len then some ⟨b.len, Function.update b.get i x⟩ else none
/-- `v.resize(n, d)` with `n` at least the length. -/
def resize (b : Buf α) (n : ℕ) (d : α) : Buf α := ⟨n, fun i => if i < b.len then b.get i else d⟩
/-- `vec![d; n]`. -/
def new (n : ℕ) (d : α) : Buf α := ⟨n, fun _ => d⟩

end Buf

/-- `x - y` on `usize`. -/
def csub (x y : ℕ) : Option ℕ := if y ≤ x then some (x - y) else none

/-! ## Wynn's ε-algorithm -/

/-- The table, the last three results and the counters of `qelg`. -/
structure Elg where
  n : ℕ
  tab : Buf ℝ
  res3 : Buf ℝ
  nres : ℕ

/-- How the loop over the elements of the table ends. -/
structure ElgLoop where
  tab : Buf ℝ
  n : ℕ
  result : ℝ
  abserr : ℝ
  converged : Bool

/-- The loop `for i in 1..=newelm` (`quad.rs:508-559`); `cnt` turns are left. -/
noncomputable def elgLoop (M : Mach) : (cnt i k1 : ℕ) → ElgLoop → Option ElgLoop
  | 0, _, _, s => some s
  | cnt + 1, i, k1, s => do
    let k2 ← csub k1 1
    let k3 ← csub k1 2
    let e2 ← s.tab.rd (k1 + 2)
    let e0 ← s.tab.rd k3
    let e1 ← s.tab.rd k2
    let err2 := |e2 - e1|
    let tol2 := max |e2| |e1| * M.eps
    let err3 := |e1 - e0|
    let tol3 := max |e1| |e0| * M.eps
    if ¬(err2 > tol2 ∨ err3 > tol3) then
      return { s with result := e2, abserr := err2 + err3, converged := true }
    else
      let e3 ← s.tab.rd k1
      let tab ← s.tab.wr k1 e1
      let delta1 := e1 - e3
      let tol1 := max |e1| |e3| * M.eps
      let ss := 1 / delta1 + 1 / (e2 - e1) - 1 / (e1 - e0)
      if |delta1| ≤ tol1 ∨ err2 ≤ tol2 ∨ err3 ≤ tol3 ∨ |ss * e1| ≤ 0.1e-3 then
        let n ← csub (i + i) 1
        return { s with tab := tab, n := n }
      else
        let res := e1 + 1 / ss
        let tab ← tab.wr k1 res
        let k1' ← csub k1 2
        let error := err2 + |res - e2| + err3
        if error ≤ s.abserr then
          elgLoop M cnt (i + 1) k1' { s with tab := tab, abserr := error, result := res }
        else
          elgLoop M cnt (i + 1) k1' { s with tab := tab }

/-- The shift by two (`quad.rs:569-578`). -/
def elgShift : (cnt ib : ℕ) → Buf ℝ → Option (Buf ℝ)
  | 0, _, t => some t
  | cnt + 1, ib, t => do
    let v ← t.rd (ib + 2)
    let t ← t.wr ib v
    elgShift cnt (ib + 2) t

/-- The compaction after a truncation (`quad.rs:579-585`). -/
def elgCompact : (cnt i indx : ℕ) → Buf ℝ → Option (Buf ℝ)
  | 0, _, _, t => some t
  | cnt + 1, i, indx, t => do
    let v ← t.rd indx
    let t ← t.wr i v
    elgCompact cnt (i + 1) (indx + 1) t

/-- The error estimate from the last three results (`quad.rs:586-599`). -/
noncomputable def elgEstimate (M : Mach) (n nres : ℕ) (tab res3 : Buf ℝ) (result : ℝ) :
    Option (Elg × ℝ × ℝ) :=
  if nres < 4 then do
    let res3 ← res3.wr nres result
    return (⟨n, tab, res3, nres⟩, result, max M.oflow (5 * M.eps * |result|))
  else do
    let r3 ← res3.rd 3
    let r2 ← res3.rd 2
    let r1 ← res3.rd 1
    let abserr := |result - r3| + |result - r2| + |result - r1|
    let res3 ← res3.wr 1 r2
    let res3 ← res3.wr 2 r3
    let res3 ← res3.wr 3 result
    return (⟨n, tab, res3, nres⟩, result, max abserr (5 * M.eps * |result|))

/-- Dropping the elements that fall out of the table (`quad.rs:579-585`). -/
def elgDrop (num n : ℕ) (tab : Buf ℝ) : Option (Buf ℝ) :=
  if num ≠ n then (csub num n).bind fun d => elgCompact n 1 (d + 1) tab else some tab

/-- The full table loses an element (`quad.rs:566-568`). -/
def elgLen (n : ℕ) : ℕ := if n = 50 then 49 else n

/-- What follows the loop over the elements (`quad.rs:560-599`); `num` is the length on entry. -/
noncomputable def elgTail (M : Mach) (num newelm nres : ℕ) (res3 : Buf ℝ) (r : ElgLoop) :
    Option (Elg × ℝ × ℝ) :=
  if r.converged then
    some (⟨r.n, r.tab, res3, nres⟩, r.result, max r.abserr (5 * M.eps * |r.result|))
  else do
    let tab ← elgShift (newelm + 1) (if (num / 2) * 2 = num then 2 else 1) r.tab
    let tab ← elgDrop num (elgLen r.n) tab
    elgEstimate M (elgLen r.n) nres tab res3 r.result

/-- `qelg` (`quad.rs:489-600`): new table and counters, result, error estimate. -/
noncomputable def qelg (M : Mach) (g : Elg) : Option (Elg × ℝ × ℝ) := do
  let result ← g.tab.rd g.n
  if g.n < 3 then
    some ({ g with nres := g.nres + 1 }, result, max M.oflow (5 * M.eps * |result|))
  else do
    let tab ← g.tab.wr (g.n + 2) result
    let nm1 ← csub g.n 1
    let tab ← tab.wr g.n M.oflow
    let r ← elgLoop M (nm1 / 2) 1 g.n ⟨tab, g.n, result, M.oflow, false⟩
    elgTail M g.n (nm1 / 2) (g.nres + 1) g.res3 r

/-! ## Keeping the error estimates ordered -/

section psrt
variable {α : Type} [LinearOrder α]

/-- The loop moving `nrmax` up the list (`quad.rs:635-645`). -/
def climb (elist : Buf α) (errmax : α) : (cnt nrmax : ℕ) → Buf ℕ → Option (ℕ × Buf ℕ)
  | 0, nrmax, iord => some (nrmax, iord)
  | cnt + 1, nrmax, iord => do
    let above ← csub nrmax 1
    let isucc ← iord.rd above
    let e ← elist.rd isucc
    if errmax ≤ e then return (nrmax, iord)
    else
      let iord ← iord.wr nrmax isucc
      climb elist errmax cnt above iord

/-- The top-down search for the place of `errmax` (`quad.rs:657-668`). -/
def sift (elist : Buf α) (errmax : α) : (cnt i : ℕ) → Buf ℕ → Option (Option ℕ × Buf ℕ)
  | 0, _, iord => some (none, iord)
  | cnt + 1, i, iord => do
    let isucc ← iord.rd i
    let e ← elist.rd isucc
    if errmax ≥ e then return (some i, iord)
    else
      let im1 ← csub i 1
      let iord ← iord.wr im1 isucc
      sift elist errmax cnt (i + 1) iord

/-- The bottom-up search for the place of `errmin` (`quad.rs:680-694`). -/
def place (elist : Buf α) (errmin : α) (last : ℕ) : (cnt k : ℕ) → Buf ℕ → Option (Bool × Buf ℕ)
  | 0, _, iord => some (false, iord)
  | cnt + 1, k, iord => do
    let isucc ← iord.rd k
    let e ← elist.rd isucc
    if errmin < e then
      let iord ← iord.wr (k + 1) last
      return (true, iord)
    else
      let iord ← iord.wr (k + 1) isucc
      let km1 ← csub k 1
      place elist errmin last cnt km1 iord

/-- What `qpsrt` changes: `maxerr`, `ermax`, `iord`, `nrmax`. -/
structure Psrt (α : Type) where
  maxerr : ℕ
  errmax : α
  iord : Buf ℕ
  nrmax : ℕ

/-- Label 90 (`quad.rs:627-629,674-676,699-701`). -/
def psrtPick (elist : Buf α) (iord : Buf ℕ) (nrmax : ℕ) : Option (Psrt α) := do
  let m ← iord.rd nrmax
  let e ← elist.rd m
  return ⟨m, e, iord, nrmax⟩

/-- How much of the list stays ordered (`quad.rs:647-651` and `940-943`). -/
def jupbn (limit last : ℕ) : Option ℕ := if last > limit / 2 + 2 then csub (limit + 3) last else some last

/-- `qpsrt` (`quad.rs:615-702`). -/
def qpsrt (limit last maxerr : ℕ) (elist : Buf α) (iord : Buf ℕ) (nrmax : ℕ) : Option (Psrt α) :=
  if last ≤ 2 then do
    let iord ← iord.wr 1 1
    let iord ← iord.wr 2 2
    psrtPick elist iord nrmax
  else do
    let errmax ← elist.rd maxerr
    let ido ← csub nrmax 1
    let c ← climb elist errmax ido nrmax iord
    let nrmax := c.1
    let jup ← jupbn limit last
    let errmin ← elist.rd last
    let jbnd ← csub jup 1
    let r ← sift elist errmax (jbnd + 1 - (nrmax + 1)) (nrmax + 1) c.2
    match r.1 with
    | none => do
      let iord ← r.2.wr jbnd maxerr
      let iord ← iord.wr jup last
      psrtPick elist iord nrmax
    | some i => do
      let im1 ← csub i 1
      let iord ← r.2.wr im1 maxerr
      let p ← place elist errmin last (jbnd + 1 - i) jbnd iord
      let iord ← if p.1 then some p.2 else p.2.wr i last
      psrtPick elist iord nrmax

end psrt

/-! ## Adaptive bisection -/

/-- The panel lists. -/
structure Panels where
  alist : Buf ℝ
  blist : Buf ℝ
  rlist : Buf ℝ
  elist : Buf ℝ

/-- Everything `qagse` carries through its main loop (`quad.rs:740-814`). `trace` is the list of points at
which the integrand has been evaluated. -/
structure St where
  cap : ℕ
  P : Panels
  iord : Buf ℕ
  last : ℕ
  maxerr : ℕ
  errmax : ℝ
  nrmax : ℕ
  area : ℝ
  errsum : ℝ
  errbnd : ℝ
  result : ℝ
  abserr : ℝ
  elg : Elg
  ktmin : ℕ
  extrap : Bool
  noext : Bool
  iroff1 : ℕ
  iroff2 : ℕ
  iroff3 : ℕ
  ier : ℕ
  ierro : ℕ
  small : ℝ
  erlarg : ℝ
  ertest : ℝ
  correc : ℝ
  trace : List ℝ

/-- The arguments of `qagse` (`quad.rs:716-723`). -/
structure Args where
  a : ℝ
  b : ℝ
  epsabs : ℝ
  epsrel : ℝ
  limit : ℕ

/-- `workspace_len` (`quad.rs:106-108`), `WORKSPACE_SEED` being 64. -/
def workspaceLen (limit needed : ℕ) : ℕ := min (max needed 64) limit + 2
/-- `grown_workspace_len` (`quad.rs:111-113`). -/
def grownWorkspaceLen (current limit : ℕ) : ℕ := min (current * 2) (limit + 2)

/-- The growth of the workspace at the head of an iteration (`quad.rs:817-829`). -/
def growSt (limit : ℕ) (s : St) : St :=
  let last := s.last + 1
  if last + 2 > s.cap then
    let cap := grownWorkspaceLen s.cap limit
    { s with last := last, cap := cap
             P := ⟨s.P.alist.resize cap 0, s.P.blist.resize cap 0, s.P.rlist.resize cap 0,
               s.P.elist.resize cap 0⟩
             iord := s.iord.resize cap 0 }
  else { s with last := last }

/-- The two halves of the bisected panel with their rules (`quad.rs:832-840`). -/
structure Halves where
  a1 : ℝ
  b1 : ℝ
  b2 : ℝ
  left : KOut
  right : KOut
  old : ℝ

/-- Bisecting panel `maxerr` (`quad.rs:832-840`); `old` is `rlist[maxerr]`. -/
noncomputable def halves (M : Mach) (f : ℝ → ℝ) (P : Panels) (maxerr : ℕ) : Option Halves := do
  let a1 ← P.alist.rd maxerr
  let b2 ← P.blist.rd maxerr
  let b1 := 0.5 * (a1 + b2)
  let old ← P.rlist.rd maxerr
  return ⟨a1, b1, b2, qk21 M f a1 b1, qk21 M f b1 b2, old⟩

/-- Storing the halves (`quad.rs:860-861` and `878-893`). -/
noncomputable def append (P : Panels) (maxerr last : ℕ) (w : Halves) : Option Panels := do
  let rlist ← P.rlist.wr maxerr w.left.result
  let rlist ← rlist.wr last w.right.result
  if w.right.abserr > w.left.abserr then
    let alist ← P.alist.wr maxerr w.b1
    let alist ← alist.wr last w.a1
    let blist ← P.blist.wr last w.b1
    let rlist ← rlist.wr maxerr w.right.result
    let rlist ← rlist.wr last w.left.result
    let elist ← P.elist.wr maxerr w.right.abserr
    let elist ← elist.wr last w.left.abserr
    return ⟨alist, blist, rlist, elist⟩
  else
    let alist ← P.alist.wr last w.b1
    let blist ← P.blist.wr maxerr w.b1
    let blist ← blist.wr last w.b2
    let elist ← P.elist.wr maxerr w.left.abserr
    let elist ← elist.wr last w.right.abserr
    return ⟨alist, blist, rlist, elist⟩

/-- The roundoff counters and the flags (`quad.rs:846-858` and `864-875`): new
`(iroff1, iroff2, iroff3, ier, ierro)`. -/
noncomputable def flags (M : Mach) (limit : ℕ) (s : St) (w : Halves) : ℕ × ℕ × ℕ × ℕ × ℕ :=
  let area12 := w.left.result + w.right.result
  let erro12 := w.left.abserr + w.right.abserr
  let counted := ¬(w.left.resasc = w.left.abserr ∨ w.right.resasc = w.right.abserr)
  let stuck := ¬(|w.old - area12| > 0.1e-4 * |area12| ∨ erro12 < 0.99 * s.errmax)
  let iroff1 := if counted ∧ stuck ∧ ¬ s.extrap then s.iroff1 + 1 else s.iroff1
  let iroff2 := if counted ∧ stuck ∧ s.extrap then s.iroff2 + 1 else s.iroff2
  let iroff3 := if counted ∧ s.last > 10 ∧ erro12 > s.errmax then s.iroff3 + 1 else s.iroff3
  let ier := if iroff1 + iroff2 ≥ 10 ∨ iroff3 ≥ 20 then 2 else s.ier
  let ierro := if iroff2 ≥ 5 then 3 else s.ierro
  let ier := if s.last = limit then 1 else ier
  let ier := if max |w.a1| |w.b2| ≤ (1 + 100 * M.eps) * (|w.b1| + 1000 * M.uflow) then 4 else ier
  (iroff1, iroff2, iroff3, ier, ierro)

/-- The first half of an iteration: grow, bisect, store, sort (`quad.rs:817-904`). -/
noncomputable def bisect (M : Mach) (f : ℝ → ℝ) (p : Args) (s : St) : Option (St × Halves) := do
  let s := growSt p.limit s
  let w ← halves M f s.P s.maxerr
  let area12 := w.left.result + w.right.result
  let erro12 := w.left.abserr + w.right.abserr
  let errsum := s.errsum + (erro12 - s.errmax)
  let area := s.area + (area12 - w.old)
  let fl := flags M p.limit s w
  let P ← append s.P s.maxerr s.last w
  let q ← qpsrt p.limit s.last s.maxerr P.elist s.iord s.nrmax
  return ({ s with P := P, iord := q.iord, maxerr := q.maxerr, errmax := q.errmax, nrmax := q.nrmax
                   area := area, errsum := errsum, errbnd := max p.epsabs (p.epsrel * |area|)
                   iroff1 := fl.1, iroff2 := fl.2.1, iroff3 := fl.2.2.1, ier := fl.2.2.2.1
                   ierro := fl.2.2.2.2, trace := s.trace ++ w.left.pts ++ w.right.pts }, w)

/-- The end of an iteration: next turn, or leave towards label 100 or label 115. -/
inductive Ctl where
  | next
  | to100
  | to115

/-- The search for a wide panel at label 40 (`quad.rs:939-953`): `(found, nrmax, maxerr, errmax)`. -/
noncomputable def seek (P : Panels) (iord : Buf ℕ) (small : ℝ) :
    (cnt nrmax maxerr : ℕ) → ℝ → Option (Bool × ℕ × ℕ × ℝ)
  | 0, nrmax, maxerr, errmax => some (false, nrmax, maxerr, errmax)
  | cnt + 1, nrmax, _, _ => do
    let maxerr ← iord.rd nrmax
    let errmax ← P.elist.rd maxerr
    let bb ← P.blist.rd maxerr
    let aa ← P.alist.rd maxerr
    if |bb - aa| > small then return (true, nrmax, maxerr, errmax)
    else seek P iord small cnt (nrmax + 1) maxerr errmax

/-- What the extrapolated value changes (`quad.rs:963-972`). -/
noncomputable def accept (p : Args) (s : St) (r : Elg × ℝ × ℝ) : St :=
  let ktmin := s.ktmin + 1
  let ier := if ktmin > 5 ∧ s.abserr < 0.1e-2 * s.errsum then 5 else s.ier
  if r.2.2 < s.abserr
    then { s with elg := r.1, ier := ier, ktmin := 0, abserr := r.2.2, result := r.2.1
                  correc := s.erlarg, ertest := max p.epsabs (p.epsrel * |r.2.1|) }
    else { s with elg := r.1, ier := ier, ktmin := ktmin }

/-- `numrl2 == 1` (`quad.rs:979-981`). -/
def noMore (s : St) : St := if s.elg.n = 1 then { s with noext := true } else s

/-- Going back to the panel with the largest error (`quad.rs:985-990`). -/
noncomputable def restart (s : St) : Option (St × Ctl) := do
  let m ← s.iord.rd 1
  let e ← s.P.elist.rd m
  return ({ s with maxerr := m, errmax := e, nrmax := 1, extrap := false
                   small := s.small * 0.5, erlarg := s.errsum }, .next)

/-- What follows the call of `qelg` (`quad.rs:963-990`). -/
noncomputable def afterElg (p : Args) (s : St) (r : Elg × ℝ × ℝ) : Option (St × Ctl) :=
  if r.2.2 < s.abserr ∧ (accept p s r).abserr ≤ (accept p s r).ertest then some (accept p s r, .to100)
  else if (noMore (accept p s r)).ier = 5 then some (noMore (accept p s r), .to100)
  else restart (noMore (accept p s r))

/-- Label 60: extrapolation and preparation of the next bisection (`quad.rs:959-990`). -/
noncomputable def extrapolate (M : Mach) (p : Args) (s : St) : Option (St × Ctl) := do
  let tab ← s.elg.tab.wr (s.elg.n + 1) s.area
  let r ← qelg M ⟨s.elg.n + 1, tab, s.elg.res3, s.elg.nres⟩
  afterElg p s r

/-- Label 40 (`quad.rs:935-957`). -/
noncomputable def label40 (M : Mach) (p : Args) (s : St) : Option (St × Ctl) :=
  if ¬(s.ierro = 3 ∨ s.erlarg ≤ s.ertest) then do
    let jup ← jupbn p.limit s.last
    let r ← seek s.P s.iord s.small (jup + 1 - s.nrmax) s.nrmax s.maxerr s.errmax
    let s1 : St := { s with nrmax := r.2.1, maxerr := r.2.2.1, errmax := r.2.2.2 }
    if r.1 then return (s1, .next) else extrapolate M p s1
  else extrapolate M p s

/-- The test whether the panel to be bisected next is the smallest (`quad.rs:927-934`). -/
noncomputable def choose (M : Mach) (p : Args) (s : St) : Option (St × Ctl) :=
  if s.extrap then label40 M p s
  else do
    let bb ← s.P.blist.rd s.maxerr
    let aa ← s.P.alist.rd s.maxerr
    if |bb - aa| > s.small then some (s, .next)
    else label40 M p { s with extrap := true, nrmax := 2 }

/-- The error over the wide panels after a bisection (`quad.rs:923-926`). -/
noncomputable def wideError (erlast : ℝ) (s : St) (w : Halves) : ℝ :=
  if |w.b1 - w.a1| > s.small then s.erlarg - erlast + (w.left.abserr + w.right.abserr)
  else s.erlarg - erlast

/-- The second half of an iteration (`quad.rs:905-990`); `erlast` is the error of the bisected panel
before the bisection. -/
noncomputable def steer (M : Mach) (p : Args) (erlast : ℝ) (s : St) (w : Halves) : Option (St × Ctl) :=
  if s.errsum ≤ s.errbnd then some (s, .to115)
  else if s.ier ≠ 0 then some (s, .to100)
  else if s.last = 2 then do
    let tab ← s.elg.tab.wr 2 s.area
    return ({ s with small := |p.b - p.a| * 0.375, erlarg := s.errsum, ertest := s.errbnd
                     elg := { s.elg with tab := tab } }, .next)
  else if s.noext then some (s, .next)
  else choose M p { s with erlarg := wideError erlast s w }

/-- One turn of the main loop (`quad.rs:816-991`). -/
noncomputable def step (M : Mach) (f : ℝ → ℝ) (p : Args) (s : St) : Option (St × Ctl) := do
  let r ← bisect M f p s
  steer M p s.errmax r.1 r.2

/-- The main loop with `cnt` turns left (`quad.rs:816-991`); `true` means `goto_115`. -/
noncomputable def mainLoop (M : Mach) (f : ℝ → ℝ) (p : Args) : (cnt : ℕ) → St → Option (St × Bool)
  | 0, s => some (s, false)
  | cnt + 1, s => do
    let r ← step M f p s
    match r.2 with
    | .next => mainLoop M f p cnt r.1
    | .to100 => return (r.1, false)
    | .to115 => return (r.1, true)

/-- `Σ_{k=1}^{last} rlist[k]` (`quad.rs:1041-1044`). -/
noncomputable def sumList (rlist : Buf ℝ) : (cnt k : ℕ) → ℝ → Option ℝ
  | 0, _, acc => some acc
  | cnt + 1, k, acc => do
    let r ← rlist.rd k
    sumList rlist cnt (k + 1) (acc + r)

/-- Which of the labels 115 and 130 is reached, with the error estimate and flag
(`quad.rs:1002-1038`); `result / area` with `area = 0`
is set to zero, which takes the same branch as the NaN or infinity of the code when `errsum > 0`. -/
noncomputable def label100 (M : Mach) (ksgn : Bool) (defabs : ℝ) (s : St) : Bool × ℝ × ℕ :=
  let diverge : ℕ → ℕ := fun ier =>
    if ¬ ksgn ∧ max |s.result| |s.area| ≤ defabs * 0.1e-1 then ier
    else if 0.1e-1 > s.result / s.area ∨ s.result / s.area > 0.1e3 ∨ s.errsum > |s.area| then 6 else ier
  if s.abserr = M.oflow then (true, s.abserr, s.ier)
  else if s.ier + s.ierro = 0 then (false, s.abserr, diverge s.ier)
  else
    let abserr := if s.ierro = 3 then s.abserr + s.correc else s.abserr
    let ier := if s.ier = 0 then 3 else s.ier
    if s.result ≠ 0 ∧ s.area ≠ 0 then
      if abserr / |s.result| > s.errsum / |s.area| then (true, abserr, ier)
      else (false, abserr, diverge ier)
    else if abserr > s.errsum then (true, abserr, ier)
    else if s.area = 0 then (false, abserr, ier)
    else (false, abserr, diverge ier)

/-- `QuadOutcome` (`quad.rs:179-191`) with the code of `ier`, and the points evaluated. -/
structure Outcome where
  value : ℝ
  abserr : ℝ
  neval : ℕ
  last : ℕ
  ier : ℕ
  trace : List ℝ

/-- `QuadError` (`quad.rs:202-220`). -/
inductive QuadError where
  | toleranceUnachievable
  | limitTooSmall (limit npts : ℕ)
  | breakpointOutside
deriving DecidableEq

/-- The value and error estimate returned (`quad.rs:1040-1047`): at label 115 the sum of the panels, else
the extrapolated value. -/
noncomputable def settle (s : St) (sum : Bool) (abserr : ℝ) : Option (ℝ × ℝ) :=
  if sum then (sumList s.P.rlist s.last 1 0).map (fun v => (v, s.errsum)) else some (s.result, abserr)

/-- Labels 100 to 140 (`quad.rs:993-1058`). -/
noncomputable def finish (M : Mach) (ksgn : Bool) (defabs : ℝ) (s : St) (goto115 : Bool) :
    Option Outcome := do
  let r := if goto115 then (true, s.abserr, s.ier) else label100 M ksgn defabs s
  let out ← settle s r.1 r.2.1
  let n ← csub (42 * s.last) 21
  return ⟨out.1, out.2, n, s.last, if r.2.2 > 2 then r.2.2 - 1 else r.2.2, s.trace⟩

/-- The state before the main loop (`quad.rs:740-810`). -/
noncomputable def initSt (M : Mach) (p : Args) (first : KOut) : Option St := do
  let cap := workspaceLen p.limit 1
  let alist ← (Buf.new cap 0).wr 1 p.a
  let blist ← (Buf.new cap 0).wr 1 p.b
  let rlist ← (Buf.new cap 0).wr 1 first.result
  let elist ← (Buf.new cap 0).wr 1 first.abserr
  let iord ← (Buf.new cap 0).wr 1 1
  let tab ← (Buf.new 53 0).wr 1 first.result
  return { cap := cap, P := ⟨alist, blist, rlist, elist⟩, iord := iord, last := 1, maxerr := 1
           errmax := first.abserr, nrmax := 1, area := first.result, errsum := first.abserr
           errbnd := max p.epsabs (p.epsrel * |first.result|), result := first.result
           abserr := M.oflow, elg := ⟨2, tab, Buf.new 4 0, 0⟩, ktmin := 0, extrap := false
           noext := false, iroff1 := 0, iroff2 := 0, iroff3 := 0, ier := 0, ierro := 0, small := 0
           erlarg := 0, ertest := 0, correc := 0, trace := first.pts }

/-- The tolerance check (`quad.rs:735-737`). -/
def unachievable (M : Mach) (p : Args) : Prop :=
  p.epsabs ≤ 0 ∧ p.epsrel < max (50 * M.eps) 0.5e-28

/-- The flag after the first rule (`quad.rs:769-774`). -/
noncomputable def firstIer (M : Mach) (p : Args) (first : KOut) : ℕ :=
  let errbnd := max p.epsabs (p.epsrel * |first.result|)
  let ier := if first.abserr ≤ 100 * M.eps * first.resabs ∧ first.abserr > errbnd then 2 else 0
  if p.limit = 1 then 1 else ier

/-- The early return (`quad.rs:775`). -/
def stopsAtOnce (M : Mach) (p : Args) (first : KOut) : Prop :=
  firstIer M p first ≠ 0 ∨
    (first.abserr ≤ max p.epsabs (p.epsrel * |first.result|) ∧ first.abserr ≠ first.resasc) ∨
    first.abserr = 0

open Classical in
/-- `qagse` (`quad.rs:716-1059`): outer `none` is a panic. -/
noncomputable def qagse (M : Mach) (f : ℝ → ℝ) (p : Args) : Option (Except QuadError Outcome) :=
  if p.limit < 1 then some (.error (.limitTooSmall p.limit 0))
  else if unachievable M p then some (.error .toleranceUnachievable)
  else
    let first := qk21 M f p.a p.b
    if stopsAtOnce M p first then
      some (.ok ⟨first.result, first.abserr, 21, 1, firstIer M p first, first.pts⟩)
    else do
      let s ← initSt M p first
      let r ← mainLoop M f p (p.limit - 1) s
      let ksgn := decide (|first.result| ≥ (1 - 50 * M.eps) * first.resabs)
      let out ← finish M ksgn first.resabs r.1 r.2
      return .ok out

end Hazma.Quad
