import Verif.Model.ThermalTotal
import Verif.Model.GevRegistry

/-!
# `list_annihilation_final_states`
-/

namespace Hazma.FinalStates

/-- `ScalarMediator`, `scalar_mediator/__init__.py:273-283`; not overridden by `HiggsPortal`. -/
def scalar : List String := ["mu mu", "e e", "g g", "pi0 pi0", "pi pi", "s s"]

/-- `HeavyQuark`, `scalar_mediator/__init__.py:404-406`. -/
def heavyQuark : List String := ["g g", "pi0 pi0", "pi pi", "s s"]

/-- `VectorMediator`, `vector_mediator/__init__.py:164-174`; not overridden by `KineticMixing`. -/
def vector : List String := ["mu mu", "e e", "pi pi", "pi0 g", "pi0 v", "v v"]

/-- `QuarksOnly`, `vector_mediator/__init__.py:307-309`. -/
def quarksOnly : List String := ["pi pi", "pi0 g", "pi0 v", "v v"]

end Hazma.FinalStates
