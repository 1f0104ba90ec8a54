import Verif.Model.SmMasses
import Verif.Model.Theory

/-!
# Single-channel models (`hazma/single_channel.py`)

A final state such as `"mu mu"` is represented by its words; `key` joins them, and `fs.split(" ")` undoes
that for words without blanks.  A setter that raises leaves the object as it was at that point, so setters
return the new object together with the outcome.
-/

namespace Hazma.SingleChannel

open Hazma Hazma.Theory

/-- The string of a final state. -/
def key (fs : List String) : String := " ".intercalate fs

/-- `list(map(lambda s: sm_masses[s], fs))` (`single_channel.py:21,41,140`). -/
noncomputable def massList : List String → Except Err (List ℝ)
  | [] => .ok []
  | s :: l => do
    let m ← index smMasses s
    let r ← massList l
    return m :: r

/-- The attributes of `SingleChannelAnn` and `SingleChannelDec`; `rate` is `sigma` or `width`. -/
structure Model where
  mx : ℝ
  fs : List String
  rate : ℝ
  finalStates : List String
  fsMasses : List ℝ

/-- The constructors (`single_channel.py:16-21` and `135-140`). -/
noncomputable def mk (mx : ℝ) (fs : List String) (rate : ℝ) : Except Err Model := do
  let ms ← massList fs
  return ⟨mx, fs, rate, fs, ms⟩

/-- `SingleChannelAnn.fs` setter (`single_channel.py:37-41`). -/
noncomputable def setFsAnn (m : Model) (fs : List String) : Model × Except Err Unit :=
  let m1 := { m with fs := fs, finalStates := fs }
  match massList fs with
  | .ok ms => ({ m1 with fsMasses := ms }, .ok ())
  | .error e => (m1, .error e)

/-- `SingleChannelDec.fs` setter (`single_channel.py:156-158`): nothing but `_fs`. -/
def setFsDec (m : Model) (fs : List String) : Model × Except Err Unit :=
  ({ m with fs := fs }, .ok ())

/-- `mx` setters (`single_channel.py:48-50` and `165-167`). -/
def setMx (m : Model) (mx : ℝ) : Model := { m with mx := mx }

/-- `fs_mass` (`single_channel.py:52-55` and `169-172`). -/
noncomputable def fsMass (m : Model) : Except Err ℝ := do
  let ms ← massList m.finalStates
  return ms.sum

/-- `SingleChannelAnn.annihilation_cross_section_funcs()[fs](e_cm)` (`single_channel.py:57-63`). -/
noncomputable def xsec (m : Model) (ecm : ℝ) : Except Err ℝ :=
  if ecm < 2 * m.mx then .ok 0
  else do
    let t ← fsMass m
    if ecm < t then return 0 else return m.rate

/-- `SingleChannelDec._decay_widths` (`single_channel.py:178-179`). -/
def widths (m : Model) : Dict ℝ := [(key m.fs, m.rate)]

/-- A value found in a dictionary of line energies. -/
inductive LineVal where
  | num (e : ℝ)
  | dict (d : Dict ℝ)

/-- The two energies of a two-body final state (`single_channel.py:92-95` etc.). -/
noncomputable def twoEnergies (ecm m1 m2 : ℝ) : ℝ × ℝ :=
  ((ecm ^ 2 + m1 ^ 2 - m2 ^ 2) / (2 * ecm), (ecm ^ 2 - m1 ^ 2 + m2 ^ 2) / (2 * ecm))

/-- `_gamma_ray_line_energies` (`single_channel.py:87-104` with `e_cm`, `200-218` with `mx`).  The
unpacking of two stored masses raises when the state and the masses got out of step. -/
noncomputable def gammaLines (m : Model) (ecm : ℝ) : Except Err (Dict LineVal) :=
  match m.finalStates with
  | [s1, s2] =>
    match m.fsMasses with
    | [m1, m2] =>
      let e := twoEnergies ecm m1 m2
      if s1 = "g" ∧ s2 = "g" then .ok [(key m.fs, .dict [("g g", e.1)])]
      else if s1 = "g" then .ok [(key m.fs, .dict [("g g", e.1)])]
      else if s2 = "g" then .ok [(key m.fs, .dict [("g g", e.2)])]
      else .ok []
    | _ => .error (.user "ValueError")
  | _ => .ok []

/-- `_positron_line_energies` (`single_channel.py:109-124` and `223-239`). -/
noncomputable def positronLines (m : Model) (ecm : ℝ) : Except Err (Dict LineVal) :=
  match m.finalStates with
  | [s1, s2] =>
    match m.fsMasses with
    | [m1, m2] =>
      let e := twoEnergies ecm m1 m2
      if s1 = "e" then .ok [(key m.fs, .dict [(key m.fs, e.1)])]
      else if s2 = "e" then .ok [(key m.fs, .dict [(key m.fs, e.2)])]
      else .ok []
    | _ => .error (.user "ValueError")
  | _ => .ok []

/-- `energy > e_min` on a line energy: comparing a `dict` with a number is a `TypeError`
(`theory/_theory_cmb.py:113`). -/
noncomputable def lineAbove (emin : ℝ) : LineVal → Except Err Bool
  | .num e => .ok (decide (emin < e))
  | .dict _ => .error (.user "TypeError")

/-- The loop over the lines in `_f_eff_helper` (`theory/_theory_cmb.py:107-122`) for a given efficiency
`f`, channel name `fs` and branching fractions; the sum of the line terms. -/
noncomputable def lineSum (f : ℝ → ℝ) (fs : String) (emin ecm : ℝ) (bfs : Dict ℝ) :
    Dict LineVal → Except Err ℝ
  | [] => .ok 0
  | (ch, v) :: rest => do
    let above ← lineAbove emin v
    let bf ← index bfs ch
    let tail ← lineSum f fs emin ecm bfs rest
    match v with
    | .num e => return (if above then e * bf * f e * (if ch = fs then 2 else 1) / ecm else 0) + tail
    | .dict _ => .error (.user "TypeError")

end Hazma.SingleChannel
