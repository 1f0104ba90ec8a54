import Mathlib.Analysis.SpecialFunctions.Trigonometric.Basic

/-!
# The width cache of the GeV vector mediator

Model of `hazma/vector_mediator/_gev/model.py`, lines 35-62 (the caching
decorator), 104-210 (construction and cache control), 217-331 (attribute
setters), 634-913 (partial widths) and 1083-1297 (the two restricted models).

The hadronic widths come from the form factor objects; they enter as one
function `FF` of the channel name, the mediator mass, the three quark couplings
stored in `_couplings`, and the number of integration points.  (The four-pion
widths are Monte-Carlo estimates in the code; the model takes one value per
argument.)  A keyword argument dictionary is `{}` or `{"npts": n}`: `Option ℕ`.
-/

namespace Hazma.GevCache

open Real

/-- Attribute values, model.py L165-176. -/
structure Params where
  mx : ℝ
  mv : ℝ
  gvxx : ℝ
  gvuu : ℝ
  gvdd : ℝ
  gvss : ℝ
  gvee : ℝ
  gvmumu : ℝ
  gvveve : ℝ
  gvvmvm : ℝ
  gvvtvt : ℝ

/-- `VectorFormFactorCouplings`, model.py L176. -/
structure Coup where
  u : ℝ
  d : ℝ
  s : ℝ

/-- One cache record `{"value", "valid", "kwargs"}`, model.py L178-182. -/
structure Entry where
  value : ℝ
  valid : Bool
  kw : Option ℕ

/-- The part of a `VectorMediatorGeV` object that widths depend on. -/
structure St where
  p : Params
  coup : Coup
  cache : String → Option Entry

/-- Exceptions raised by the methods modelled here. -/
inductive Err
  | assertion
  | typeError
  | attribute
  deriving DecidableEq

/-- Widths computed by the form factor objects, model.py L143-163. -/
abbrev FF := String → ℝ → Coup → ℕ → ℝ

/-- `list_annihilation_final_states`, model.py L919-955. -/
def finalStates : List String :=
  ["e e", "mu mu", "ve ve", "vt vt", "vm vm", "pi pi", "k0 k0", "k k",
   "pi0 gamma", "eta gamma", "pi0 phi", "eta phi", "eta omega",
   "pi0 pi0 gamma", "pi pi pi0", "pi pi eta", "pi pi etap", "pi pi omega",
   "pi0 pi0 omega", "pi0 k0 k0", "pi0 k k", "pi k k0", "pi pi pi pi",
   "pi pi pi0 pi0"]

/-- Construction, model.py L165-182: every final state and `"x x"` get an
invalid record. -/
def init (p : Params) : St where
  p := p
  coup := ⟨p.gvuu, p.gvdd, p.gvss⟩
  cache := fun n => if n ∈ finalStates ∨ n = "x x" then some ⟨0, false, none⟩ else none

/-- `__width_v_to_f_f`, model.py L634-640. -/
noncomputable def widthFF (mv mass g : ℝ) : ℝ :=
  (g ^ 2 * √(max (-4 * mass ^ 2 + mv ^ 2) 0) * (2 * mass ^ 2 + mv ^ 2)) / (12 * mv ^ 2 * π)

/-- Electron mass, parameters.py L50. -/
noncomputable def mE : ℝ := 0.5109989461
/-- Muon mass, parameters.py L52. -/
noncomputable def mMu : ℝ := 105.6583745

/-- Default of the keyword `npts`, for the methods that have one:
model.py L775, L818, L828, L836, L844, L862. -/
def defaultNpts (n : String) : Option ℕ :=
  if n = "pi pi pi0" then some 10000
  else if n = "pi0 k0 k0" ∨ n = "pi0 k k" ∨ n = "pi k k0" then some 50000
  else if n = "pi pi pi pi" ∨ n = "pi pi pi0 pi0" then some (2 ^ 14)
  else none

/-- The body of the width method named `n`, below the caching decorator,
model.py L642-877.  The fermion methods read the attributes, the others read
`mv` and `_couplings`.  A method without the keyword `npts` raises `TypeError`
if it is given one. -/
noncomputable def body (ff : FF) (s : St) (n : String) (kw : Option ℕ) : Except Err ℝ :=
  match defaultNpts n, kw with
  | none, some _ => .error .typeError
  | dflt, _ =>
    .ok (if n = "e e" then widthFF s.p.mv mE s.p.gvee
      else if n = "mu mu" then widthFF s.p.mv mMu s.p.gvmumu
      else if n = "ve ve" then widthFF s.p.mv 0 s.p.gvveve / 2
      else if n = "vm vm" then widthFF s.p.mv 0 s.p.gvvmvm / 2
      else if n = "vt vt" then widthFF s.p.mv 0 s.p.gvvtvt / 2
      else if n = "x x" then widthFF s.p.mv s.p.mx s.p.gvxx
      else ff n s.p.mv s.coup (kw.getD (dflt.getD 0)))

/-- Write one record of the dictionary. -/
def put (s : St) (n : String) (e : Entry) : St :=
  { s with cache := fun m => if m = n then some e else s.cache m }

/-- A width method with its decorator, model.py L47-60. -/
noncomputable def width (ff : FF) (n : String) (kw : Option ℕ) (s : St) : Except Err ℝ × St :=
  match s.cache n with
  | none => (.error .assertion, s)
  | some e =>
    if e.valid = true ∧ e.kw = kw then (.ok e.value, s)
    else
      match body ff s n kw with
      | .error x => (.error x, s)
      | .ok v => (.ok v, put s n ⟨v, true, kw⟩)

/-- `_invalidate_width_cache`, model.py L194-197. -/
def invalidate (s : St) : St :=
  { s with cache := fun n => (s.cache n).map fun e => { e with valid := false } }

/-- `_update_width_cache(name, self.width_v_to_...())` on a state whose
attribute was just assigned, model.py L199-204 with L285-288, L308-331. -/
noncomputable def refresh (ff : FF) (n : String) (s : St) : St :=
  match width ff n none s with
  | (.error _, s') => s'
  | (.ok v, s') =>
    match s'.cache n with
    | none => s'
    | some e => put s' n { e with valid := true, value := v }

/-- `_width_cache["x x"]["value"] = self.width_v_to_x_x()`, model.py L226-229. -/
noncomputable def refreshValue (ff : FF) (n : String) (s : St) : St :=
  match width ff n none s with
  | (.error _, s') => s'
  | (.ok v, s') =>
    match s'.cache n with
    | none => s'
    | some e => put s' n { e with value := v }

/-- The calls made by `partial_widths(npts)`, in order, model.py L879-909. -/
def partialCalls (npts : ℕ) : List (String × Option ℕ) :=
  [("e e", none), ("mu mu", none), ("ve ve", none), ("vm vm", none), ("vt vt", none),
   ("x x", none), ("pi pi", none), ("k0 k0", none), ("k k", none), ("pi0 gamma", none),
   ("eta gamma", none), ("pi0 phi", none), ("eta phi", none), ("eta omega", none),
   ("pi0 pi0 gamma", none), ("pi pi pi0", some npts), ("pi pi eta", none),
   ("pi pi etap", none), ("pi pi omega", none), ("pi0 pi0 omega", none),
   ("pi0 k0 k0", some npts), ("pi0 k k", some npts), ("pi k k0", some npts),
   ("pi pi pi pi", some npts), ("pi pi pi0 pi0", some npts)]

/-- Evaluate a list of width calls from left to right. -/
noncomputable def callAll (ff : FF) : List (String × Option ℕ) → St → Except Err (List ℝ) × St
  | [], s => (.ok [], s)
  | (n, kw) :: rest, s =>
    match width ff n kw s with
    | (.error x, s') => (.error x, s')
    | (.ok v, s') =>
      match callAll ff rest s' with
      | (.error x, s'') => (.error x, s'')
      | (.ok vs, s'') => (.ok (v :: vs), s'')

/-- `width_v`, model.py L911-913: the sum of `partial_widths()` with its
default of 50000 points. -/
noncomputable def widthV (ff : FF) (s : St) : Except Err ℝ × St :=
  match callAll ff (partialCalls 50000) s with
  | (.error x, s') => (.error x, s')
  | (.ok vs, s') => (.ok vs.sum, s')

/-- What can happen to the object: attribute assignments (model.py L226-331),
width queries, and `BLGeV._update_charges` (L1243-1253), which writes the
underscored attributes directly. -/
inductive Act
  | mx (v : ℝ) | mv (v : ℝ) | gvxx (v : ℝ)
  | gvuu (v : ℝ) | gvdd (v : ℝ) | gvss (v : ℝ)
  | gvee (v : ℝ) | gvmumu (v : ℝ) | gvveve (v : ℝ) | gvvmvm (v : ℝ) | gvvtvt (v : ℝ)
  | width (n : String) (kw : Option ℕ)
  | widthV
  | charges (gq gl : ℝ)

/-- The new `_couplings`, model.py L290-306. -/
def recouple (s : St) : St := { s with coup := ⟨s.p.gvuu, s.p.gvdd, s.p.gvss⟩ }

/-- One action. -/
noncomputable def act (ff : FF) (s : St) : Act → St
  | .mx v => refreshValue ff "x x" { s with p := { s.p with mx := v } }
  | .mv v => invalidate { s with p := { s.p with mv := v } }
  | .gvxx v => refresh ff "x x" { s with p := { s.p with gvxx := v } }
  | .gvuu v => invalidate (recouple { s with p := { s.p with gvuu := v } })
  | .gvdd v => invalidate (recouple { s with p := { s.p with gvdd := v } })
  | .gvss v => invalidate (recouple { s with p := { s.p with gvss := v } })
  | .gvee v => refresh ff "e e" { s with p := { s.p with gvee := v } }
  | .gvmumu v => refresh ff "mu mu" { s with p := { s.p with gvmumu := v } }
  | .gvveve v => refresh ff "ve ve" { s with p := { s.p with gvveve := v } }
  | .gvvmvm v => refresh ff "vm vm" { s with p := { s.p with gvvmvm := v } }
  | .gvvtvt v => refresh ff "vt vt" { s with p := { s.p with gvvtvt := v } }
  | .width n kw => (width ff n kw s).2
  | .widthV => (widthV ff s).2
  | .charges gq gl =>
    { s with p := { s.p with gvuu := gq, gvdd := gq, gvss := gq, gvee := gl, gvmumu := gl,
                             gvveve := gl, gvvmvm := gl, gvvtvt := gl } }

/-- A history of actions, oldest first. -/
noncomputable def run (ff : FF) (s : St) (h : List Act) : St := h.foldl (act ff) s

/-! ### `KineticMixingGeV`, model.py L1083-1186 -/

/-- `Qu`, `Qd`, `Qe`, parameters.py L235-239. -/
noncomputable def Qu : ℝ := 2 / 3
/-- See `Qu`. -/
noncomputable def Qd : ℝ := -1 / 3
/-- See `Qu`. -/
noncomputable def Qe : ℝ := -1

/-- Attribute values of a new `KineticMixingGeV`, model.py L1111-1126. -/
noncomputable def kmParams (qe mx mv gvxx eps : ℝ) : Params :=
  ⟨mx, mv, gvxx, -Qu * eps * qe, -Qd * eps * qe, -Qd * eps * qe, -Qe * eps * qe,
   -Qe * eps * qe, 0, 0, 0⟩

/-- A `KineticMixingGeV` object. -/
structure KM where
  eps : ℝ
  st : St

/-- Assignments and queries on the restricted models. -/
inductive RAct
  | mx (v : ℝ) | mv (v : ℝ) | gvxx (v : ℝ)
  | hidden (name : String) (v : ℝ)
  | strength (v : ℝ)
  | width (n : String) (kw : Option ℕ)
  | widthV

/-- One action on a `KineticMixingGeV`, with its outcome.  The `eps` setter
(L1141-1148) stores `_eps` and then assigns `self.gvuu`, whose setter (L1156-1158)
raises; the hidden setters (L1155-1186) raise. -/
noncomputable def kmAct (ff : FF) (k : KM) : RAct → Except Err Unit × KM
  | .mx v => (.ok (), { k with st := act ff k.st (.mx v) })
  | .mv v => (.ok (), { k with st := act ff k.st (.mv v) })
  | .gvxx v => (.ok (), { k with st := act ff k.st (.gvxx v) })
  | .hidden _ _ => (.error .attribute, k)
  | .strength v => (.error .attribute, { k with eps := v })
  | .width n kw => ((width ff n kw k.st).1.map fun _ => (), { k with st := act ff k.st (.width n kw) })
  | .widthV => ((widthV ff k.st).1.map fun _ => (), { k with st := act ff k.st .widthV })

/-- Construction of a `KineticMixingGeV`. -/
noncomputable def kmInit (qe mx mv gvxx eps : ℝ) : KM := ⟨eps, init (kmParams qe mx mv gvxx eps)⟩

/-- A history on a `KineticMixingGeV`; exceptions are caught by the caller. -/
noncomputable def kmRun (ff : FF) (k : KM) (h : List RAct) : KM :=
  h.foldl (fun k a => (kmAct ff k a).2) k

/-! ### `BLGeV`, model.py L1189-1296 -/

/-- Attribute values of a new `BLGeV`, model.py L1210-1227. -/
noncomputable def blParams (mx mv gvxx g : ℝ) : Params :=
  ⟨mx, mv, gvxx, g * (1 / 3), g * (1 / 3), g * (1 / 3), g * (-1), g * (-1), g * (-1),
   g * (-1), g * (-1)⟩

/-- A `BLGeV` object. -/
structure BL where
  g : ℝ
  st : St

/-- One action on a `BLGeV`: the `g` setter (L1260-1263) stores `_g` and calls
`_update_charges`. -/
noncomputable def blAct (ff : FF) (b : BL) : RAct → Except Err Unit × BL
  | .mx v => (.ok (), { b with st := act ff b.st (.mx v) })
  | .mv v => (.ok (), { b with st := act ff b.st (.mv v) })
  | .gvxx v => (.ok (), { b with st := act ff b.st (.gvxx v) })
  | .hidden _ _ => (.error .attribute, b)
  | .strength v => (.ok (), ⟨v, act ff b.st (.charges (v * (1 / 3)) (v * (-1)))⟩)
  | .width n kw => ((width ff n kw b.st).1.map fun _ => (), { b with st := act ff b.st (.width n kw) })
  | .widthV => ((widthV ff b.st).1.map fun _ => (), { b with st := act ff b.st .widthV })

/-- Construction of a `BLGeV`. -/
noncomputable def blInit (mx mv gvxx g : ℝ) : BL := ⟨g, init (blParams mx mv gvxx g)⟩

/-- A history on a `BLGeV`; exceptions are caught by the caller. -/
noncomputable def blRun (ff : FF) (b : BL) (h : List RAct) : BL :=
  h.foldl (fun b a => (blAct ff b a).2) b

end Hazma.GevCache
