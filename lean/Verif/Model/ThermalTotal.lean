import Verif.Model.CrossSections
import Verif.Model.RelicDensity
import Verif.Model.Dict

/-!
# The cross section behind the relic density and the reported total

`thermal_cross_section` averages a sum of channels written inside the compiled kernels
(`sigma_xx_to_all`, `scalar_xs.rs:851-871` and `vector_xs.rs:379-401`).  What the user sees is the
`"total"` entry of `annihilation_cross_sections`, a sum over the dictionary returned by
`annihilation_cross_section_funcs`.  Both are modelled here on top of the same channel kernels.
Sums are exact, so their order does not matter.
-/

namespace Hazma.ThermalTotal

open Hazma
open Hazma.Xs
open Hazma.Relic (scalarTcs vectorTcs)

/-- The lepton masses handed to the kernels. -/
structure Leptons where
  me : ℝ
  mmu : ℝ

/-- `electron_mass`, `muon_mass` (`hazma/parameters.py:50-52`). -/
noncomputable def pyLeptons : Leptons := ⟨0.5109989461, 105.6583745⟩

/-- `ME`, `MMU` (`scalar_xs.rs:104-106`, `vector_xs.rs:123-125`). -/
noncomputable def kernelLeptons : Leptons := ⟨0.510998928, 105.6583715⟩

/-! ### What `annihilation_cross_sections` reports -/

/-- The dictionary comprehension of `annihilation_cross_sections` (`theory/__init__.py:68-71`), stopping
at the first channel that raises. -/
def evalFuncs (e : ℝ) : Dict (ℝ → Except Err ℝ) → Except Err (Dict ℝ)
  | [] => .ok []
  | (n, f) :: d => do
    let v ← f e
    let rest ← evalFuncs e d
    return (n, v) :: rest

/-- `annihilation_cross_sections` (`theory/__init__.py:53-73`) for functions that may raise. -/
def crossSections (funcs : Dict (ℝ → Except Err ℝ)) (e : ℝ) : Except Err (Dict ℝ) := do
  let sigmas ← evalFuncs e funcs
  return sigmas.set "total" sigmas.values.sum

/-- `annihilation_cross_sections(e_cm)["total"]`. -/
def reported (funcs : Dict (ℝ → Except Err ℝ)) (e : ℝ) : Except Err ℝ := do
  let d ← crossSections funcs e
  return (d.get? "total").getD 0

/-- `annihilation_cross_section_funcs` of the scalar models
(`_scalar_mediator_cross_sections.py:472-480`); the lepton masses come from `parameters.py` (`32-33,
55`), everything else from the kernels. -/
noncomputable def scalarFuncs (l : Leptons) (k : ScalarModel.Consts) (s : ScalarModel.Base) :
    Dict (ℝ → Except Err ℝ) :=
  [("mu mu", fun e => scalarFF k.vh e s.mx s.ms s.gsxx s.gsff s.width l.mmu),
   ("e e", fun e => scalarFF k.vh e s.mx s.ms s.gsxx s.gsff s.width l.me),
   ("g g", fun e => .ok (scalarGG k s e)),
   ("pi0 pi0", fun e => .ok (scalarPi0Pi0 k s e)),
   ("pi pi", fun e => .ok (scalarPiPi k s e)),
   ("s s", fun e => .ok (scalarSS e s.mx s.ms s.gsxx))]

/-- `annihilation_cross_section_funcs` of the vector models
(`_vector_mediator_cross_sections.py:339-347`). -/
noncomputable def vectorFuncs (l : Leptons) (k : VectorModel.Consts) (s : VectorModel.Base) :
    Dict (ℝ → Except Err ℝ) :=
  [("mu mu", fun e => .ok (vectorFF e s.mx s.mv s.gvxx s.gvmumu s.width l.mmu)),
   ("e e", fun e => .ok (vectorFF e s.mx s.mv s.gvxx s.gvee s.width l.me)),
   ("pi pi", fun e => vectorPiPi k e s.mx s.mv s.gvxx s.gvuu s.gvdd s.width),
   ("pi0 g", fun e => .ok (vectorPi0G k e s.mx s.mv s.gvxx s.gvuu s.gvdd s.width)),
   ("pi0 v", fun e => vectorPi0V k e s.mx s.mv s.gvxx s.gvuu s.gvdd s.width),
   ("v v", fun e => .ok (vectorVV e s.mx s.mv s.gvxx))]

/-! ### What the relic density averages -/

/-- `sigma_xx_to_all` (`scalar_xs.rs:851-871`). -/
noncomputable def scalarAll (l : Leptons) (k : ScalarModel.Consts) (s : ScalarModel.Base) (e : ℝ) :
    Except Err ℝ := do
  let sigE ← scalarFF k.vh e s.mx s.ms s.gsxx s.gsff s.width l.me
  let sigMu ← scalarFF k.vh e s.mx s.ms s.gsxx s.gsff s.width l.mmu
  let sigG := scalarGG k s e
  let sigPi0 := scalarPi0Pi0 k s e
  let sigPi := scalarPiPi k s e
  let sigS := scalarSS e s.mx s.ms s.gsxx
  return sigE + sigMu + sigG + sigPi0 + sigPi + sigS

/-- `sigma_xx_to_all` (`vector_xs.rs:379-401`). -/
noncomputable def vectorAll (l : Leptons) (k : VectorModel.Consts) (s : VectorModel.Base) (e : ℝ) :
    Except Err ℝ := do
  let sigE := vectorFF e s.mx s.mv s.gvxx s.gvee s.width l.me
  let sigMu := vectorFF e s.mx s.mv s.gvxx s.gvmumu s.width l.mmu
  let sigPi ← vectorPiPi k e s.mx s.mv s.gvxx s.gvuu s.gvdd s.width
  let sigPi0G := vectorPi0G k e s.mx s.mv s.gvxx s.gvuu s.gvdd s.width
  let sigPi0V ← vectorPi0V k e s.mx s.mv s.gvxx s.gvuu s.gvdd s.width
  let sigV := vectorVV e s.mx s.mv s.gvxx
  return sigE + sigMu + sigPi + sigPi0G + sigPi0V + sigV

/-- The number inside a result; a raised error has none and is given zero, which no theorem uses. -/
def value : Except Err ℝ → ℝ
  | .ok v => v
  | .error _ => 0

/-- The scalar model's `thermal_cross_section` (`_scalar_mediator_cross_sections.py:443-470`, kernel
`scalar_xs.rs:895-961`). -/
noncomputable def scalarThermal (k : ScalarModel.Consts) (s : ScalarModel.Base) (x : ℝ) : ℝ :=
  scalarTcs (fun e => value (scalarAll kernelLeptons k s e)) s.mx x

/-- The vector model's `thermal_cross_section` (`_vector_mediator_cross_sections.py:349-376`, kernel
`vector_xs.rs:413-483`). -/
noncomputable def vectorThermal (k : VectorModel.Consts) (s : VectorModel.Base) (x : ℝ) : ℝ :=
  vectorTcs (fun e => value (vectorAll kernelLeptons k s e)) s.mx x

end Hazma.ThermalTotal
