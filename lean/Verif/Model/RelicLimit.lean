import Verif.Model.GevCache
import Mathlib.Analysis.SpecialFunctions.Pow.Real
import Mathlib.Analysis.SpecialFunctions.Log.Base

/-!
# Relic-density limits and shallow copies

Models `hazma/limits/_relic_density.py`: the cross section at the value of one
attribute for which the model has the observed relic density, found on
`copy(model)`.  `scipy.optimize.root_scalar` is an arbitrary adaptive procedure:
it asks for values of the residual one after the other and then returns a root
or raises `ValueError`.

`copy.copy` of a `VectorMediatorGeV` copies the attribute dictionary, so that
the copy holds the *same* `_width_cache` dictionary
(`vector_mediator/_gev/model.py:178-182`); the quark couplings object is
replaced, never written, by the setters (`model.py:290-306`).
-/

namespace Hazma.RelicLimit

/-- Exceptions: `ValueError` is caught by `_constrain`, the others are not. -/
inductive Exc
  | value
  | other
  deriving DecidableEq

/-- What `_constrain` does: return a number, return `nan`, raise. -/
inductive Outcome
  | num (v : ℝ)
  | nan
  | raises

/-- A bracketing root finder after it was given the bracket
(`_relic_density.py:83-85`): a decision tree over the residuals. -/
inductive Finder
  | root (x : ℝ)
  | fail
  | ask (x : ℝ) (k : ℝ → Finder)

/-- What `_constrain` uses of a model with states `σ`: `setattr(model, prop, v)`,
`relic_density(model, semi_analytic=True)`,
`annihilation_cross_sections(cme)["total"]` and `mx`. -/
structure Ops (σ : Type) where
  set : ℝ → σ → σ
  omega : σ → Except Exc ℝ × σ
  sigma : ℝ → σ → Except Exc ℝ × σ
  mx : σ → ℝ

/-- Constructor arguments (`_relic_density.py:16-50`). -/
structure Cfg where
  propMin : ℝ
  propMax : ℝ
  vx : ℝ
  log : Bool

/-- `parameters.omega_h2_cdm` (`parameters.py:223`). -/
noncomputable def omegaCdm : ℝ := 0.1198

/-- `10**val` or `val` (`_relic_density.py:66-70`). -/
noncomputable def Cfg.value (c : Cfg) (x : ℝ) : ℝ := if c.log = true then (10 : ℝ) ^ x else x

/-- The bracket (`_relic_density.py:74-75`), for positive limits if `log`. -/
noncomputable def Cfg.bracket (c : Cfg) : ℝ × ℝ :=
  if c.log = true then (Real.logb 10 c.propMin, Real.logb 10 c.propMax) else (c.propMin, c.propMax)

/-- The residual (`_relic_density.py:77-79`). -/
noncomputable def residual {σ : Type} (o : Ops σ) (c : Cfg) (x : ℝ) (s : σ) : Except Exc ℝ × σ :=
  let r := o.omega (o.set (c.value x) s)
  (r.1.map fun w => w - omegaCdm, r.2)

/-- Run the finder on a residual that may change the state of the model. -/
def search {σ : Type} (f : ℝ → σ → Except Exc ℝ × σ) : Finder → σ → Except Exc ℝ × σ
  | .root x, s => (.ok x, s)
  | .fail, s => (.error .value, s)
  | .ask x k, s =>
    match f x s with
    | (.error e, s') => (.error e, s')
    | (.ok y, s') => search f (k y) s'

/-- `_sigmav` (`_relic_density.py:60-64`); `conv` is `sv_inv_MeV_to_cm3_per_s`. -/
noncomputable def sigmav {σ : Type} (o : Ops σ) (conv vx : ℝ) (s : σ) : Except Exc ℝ × σ :=
  let r := o.sigma (2 * o.mx s * (1 + 0.5 * vx ^ 2)) s
  (r.1.map fun sig => sig * vx * conv, r.2)

/-- The `except ValueError` clause (`_relic_density.py:90-92`). -/
def catchValue : Except Exc ℝ → Outcome
  | .ok v => .num v
  | .error .value => .nan
  | .error .other => .raises

/-- `_constrain` on the copy (`_relic_density.py:72-92`): the outcome and the
state of the copy afterwards. -/
noncomputable def constrain {σ : Type} (o : Ops σ) (c : Cfg) (conv : ℝ) (fd : ℝ → ℝ → Finder)
    (s : σ) : Outcome × σ :=
  match search (residual o c) (fd c.bracket.1 c.bracket.2) s with
  | (.error e, s') => (catchValue (.error e), s')
  | (.ok x, s') =>
    let r := sigmav o conv c.vx (o.set (c.value x) s')
    (catchValue r.1, r.2)

/-! ### Two `VectorMediatorGeV` objects and one dictionary -/

open Hazma.GevCache

/-- The attributes an object has for itself. -/
structure Own where
  p : Params
  coup : Coup

/-- An object, its shallow copy, and the dictionary both refer to. -/
structure Pair where
  orig : Own
  dup : Own
  cache : String → Option Entry

/-- `copy.copy(model)`. -/
def copy (s : St) : Pair := ⟨⟨s.p, s.coup⟩, ⟨s.p, s.coup⟩, s.cache⟩

/-- The original as its methods see it. -/
def Pair.original (w : Pair) : St := ⟨w.orig.p, w.orig.coup, w.cache⟩

/-- The copy as its methods see it. -/
def Pair.duplicate (w : Pair) : St := ⟨w.dup.p, w.dup.coup, w.cache⟩

/-- An action on the copy. -/
noncomputable def onDup (ff : FF) (w : Pair) (a : Act) : Pair :=
  let s := act ff w.duplicate a
  ⟨w.orig, ⟨s.p, s.coup⟩, s.cache⟩

/-- An action on the original. -/
noncomputable def onOrig (ff : FF) (w : Pair) (a : Act) : Pair :=
  let s := act ff w.original a
  ⟨⟨s.p, s.coup⟩, w.dup, s.cache⟩

/-- A `VectorMediatorGeV` whose attribute is set by `prop`.  Every cross section
is a function of the attributes, the couplings and `width_v()`
(`cross_sections.py:27,69,123`), which is the same for all calls between two
assignments; so are the relic density and the total cross section. -/
noncomputable def gevOps (ff : FF) (prop : ℝ → Act) (om : Params → Coup → ℝ → Except Exc ℝ)
    (sg : Params → Coup → ℝ → ℝ → ℝ) : Ops St where
  set v s := act ff s (prop v)
  omega s :=
    match widthV ff s with
    | (.error _, s') => (.error .other, s')
    | (.ok w, s') => (om s.p s.coup w, s')
  sigma e s :=
    match widthV ff s with
    | (.error _, s') => (.error .other, s')
    | (.ok w, s') => (.ok (sg s.p s.coup w e), s')
  mx s := s.p.mx

/-- `RelicDensityLimit._constrain(model)` for such a model: the outcome, and the
original with its copy. -/
noncomputable def gevConstrain (ff : FF) (prop : ℝ → Act) (om : Params → Coup → ℝ → Except Exc ℝ)
    (sg : Params → Coup → ℝ → ℝ → ℝ) (c : Cfg) (conv : ℝ) (fd : ℝ → ℝ → Finder) (s : St) :
    Outcome × Pair :=
  let r := constrain (gevOps ff prop om sg) c conv fd (copy s).duplicate
  (r.1, ⟨(copy s).orig, ⟨r.2.p, r.2.coup⟩, r.2.cache⟩)

end Hazma.RelicLimit
