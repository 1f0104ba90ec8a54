import Verif.Model.Theory
import Verif.Model.MediatorDecay

/-!
# Monochromatic photons and positrons of the mediator models

`gamma_ray_lines` and `positron_lines` of `ScalarMediator` and `VectorMediator`.  The cross sections of the channels are
a parameter `σ`, by the name of the final state.
-/

namespace Hazma.MediatorLines

open Hazma Hazma.Theory

/-- `annihilation_cross_section_funcs` (`_scalar_mediator_cross_sections.py:472-480`). -/
def scalarFuncs (σ : String → ℝ → ℝ) : Dict (ℝ → ℝ) :=
  [("mu mu", σ "mu mu"), ("e e", σ "e e"), ("g g", σ "g g"), ("pi0 pi0", σ "pi0 pi0"), ("pi pi", σ "pi pi"),
   ("s s", σ "s s")]

/-- `annihilation_cross_section_funcs` (`_vector_mediator_cross_sections.py:339-347`). -/
def vectorFuncs (σ : String → ℝ → ℝ) : Dict (ℝ → ℝ) :=
  [("mu mu", σ "mu mu"), ("e e", σ "e e"), ("pi pi", σ "pi pi"), ("pi0 g", σ "pi0 g"), ("pi0 v", σ "pi0 v"),
   ("v v", σ "v v")]

/-- `gamma_ray_lines` of the scalar model (`_scalar_mediator_spectra.py:105-108`): energy and branching fraction. -/
noncomputable def scalarGammaLines (σ : String → ℝ → ℝ) (ecm : ℝ) : Except Err (Dict (ℝ × ℝ)) := do
  let bfs ← annihilationBranchingFractions (scalarFuncs σ) ecm
  let bf ← index bfs "g g"
  return [("g g", (ecm / 2, bf))]

/-- `positron_lines` of the scalar model (`_scalar_mediator_positron_spectra.py:88-107`). -/
noncomputable def scalarPositronLines (σ : String → ℝ → ℝ) (ecm : ℝ) : Except Err (Dict (ℝ × ℝ)) := do
  let bfs ← annihilationBranchingFractions (scalarFuncs σ) ecm
  let bf ← index bfs "e e"
  return [("e e", (ecm / 2, bf))]

/-- `gamma_ray_lines` of the vector model (`_vector_mediator_spectra.py:142-145`), for a given pion mass. -/
noncomputable def vectorGammaLines (mpi0 : ℝ) (σ : String → ℝ → ℝ) (ecm : ℝ) : Except Err (Dict (ℝ × ℝ)) := do
  let bfs ← annihilationBranchingFractions (vectorFuncs σ) ecm
  let bf ← index bfs "pi0 g"
  return [("pi0 g", (Mediator.pi0gLine mpi0 ecm, bf))]

/-- `positron_lines` of the vector model (`_vector_mediator_positron_spectra.py:37-40`). -/
noncomputable def vectorPositronLines (σ : String → ℝ → ℝ) (ecm : ℝ) : Except Err (Dict (ℝ × ℝ)) := do
  let bfs ← annihilationBranchingFractions (vectorFuncs σ) ecm
  let bf ← index bfs "e e"
  return [("e e", (ecm / 2, bf))]

end Hazma.MediatorLines
