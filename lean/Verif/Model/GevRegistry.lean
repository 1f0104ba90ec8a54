import Verif.Model.Theory
import Verif.Model.GevSpectra

/-!
# Tables of final states of the GeV vector mediator

Models `annihilation_cross_section_funcs` (`hazma/vector_mediator/_gev/cross_sections.py:517-546`),
`list_annihilation_final_states` and the keys of `partial_widths` (`model.py:879-954`), the dictionaries
`dnde_photon_spectrum_fns`, `dnde_positron_spectrum_fns` and `dnde_neutrino_spectrum_fns`
(`spectra.py:847-897`, `positron.py:947-993`, `neutrino.py:1049-1095`) and `_dnde_photon_v_v_rest_frame`
(`spectra.py:756-815`).  The functions behind the names are parameters, labelled by the Python function.
-/

namespace Hazma.GevRegistry

open Hazma.Theory

/-- The Python functions: `sigma_xx_to_X`, `width_v_to_X`, `dnde_photon_X`, `dnde_positron_X`,
`dnde_neutrino_X`, for each `X`. -/
inductive Fn where
  | e_e | mu_mu | ve_ve | vm_vm | vt_vt | pi_pi | k0_k0 | k_k | pi0_gamma | eta_gamma | pi0_phi | eta_phi | eta_omega
  | pi0_pi0_gamma | pi_pi_pi0 | pi_pi_eta | pi_pi_etap | pi_pi_omega | pi0_pi0_omega | pi0_k0_k0 | pi0_k_k | pi_k_k0
  | pi_pi_pi_pi | pi_pi_pi0_pi0 | v_v | x_x
  deriving DecidableEq

/-- `annihilation_cross_section_funcs`, `cross_sections.py:517-546`. -/
def sigmaFns {α : Type} (f : Fn → α) : Dict α :=
  [("e e", f .e_e), ("mu mu", f .mu_mu), ("ve ve", f .ve_ve), ("vt vt", f .vt_vt), ("vm vm", f .vm_vm),
   ("pi pi", f .pi_pi), ("k0 k0", f .k0_k0), ("k k", f .k_k), ("pi0 gamma", f .pi0_gamma),
   ("eta gamma", f .eta_gamma), ("pi0 phi", f .pi0_phi), ("eta phi", f .eta_phi), ("eta omega", f .eta_omega),
   ("pi0 pi0 gamma", f .pi0_pi0_gamma), ("pi pi pi0", f .pi_pi_pi0), ("pi pi eta", f .pi_pi_eta),
   ("pi pi etap", f .pi_pi_etap), ("pi pi omega", f .pi_pi_omega), ("pi0 pi0 omega", f .pi0_pi0_omega),
   ("pi0 k0 k0", f .pi0_k0_k0), ("pi0 k k", f .pi0_k_k), ("pi k k0", f .pi_k_k0),
   ("pi pi pi pi", f .pi_pi_pi_pi), ("pi pi pi0 pi0", f .pi_pi_pi0_pi0), ("v v", f .v_v)]

/-- `dnde_photon_spectrum_fns`, `spectra.py:847-897`; the positron and neutrino dictionaries
(`positron.py:947-993`, `neutrino.py:1049-1095`) have the same entries.  `zero` is `dnde_zero`. -/
def spectrumFns {α : Type} (zero : α) (f : Fn → α) : Dict α :=
  [("e e", f .e_e), ("mu mu", f .mu_mu), ("ve ve", zero), ("vt vt", zero), ("vm vm", zero),
   ("pi pi", f .pi_pi), ("k0 k0", f .k0_k0), ("k k", f .k_k), ("pi0 gamma", f .pi0_gamma),
   ("eta gamma", f .eta_gamma), ("pi0 phi", f .pi0_phi), ("eta phi", f .eta_phi), ("eta omega", f .eta_omega),
   ("pi0 pi0 gamma", f .pi0_pi0_gamma), ("pi pi pi0", f .pi_pi_pi0), ("pi pi eta", f .pi_pi_eta),
   ("pi pi etap", f .pi_pi_etap), ("pi pi omega", f .pi_pi_omega), ("pi0 pi0 omega", f .pi0_pi0_omega),
   ("pi0 k0 k0", f .pi0_k0_k0), ("pi0 k k", f .pi0_k_k), ("pi k k0", f .pi_k_k0),
   ("pi pi pi pi", f .pi_pi_pi_pi), ("pi pi pi0 pi0", f .pi_pi_pi0_pi0), ("v v", f .v_v)]

/-- `list_annihilation_final_states`, `model.py:919-954`. -/
def finalStates : List String :=
  ["e e", "mu mu", "ve ve", "vt vt", "vm vm", "pi pi", "k0 k0", "k k", "pi0 gamma", "eta gamma", "pi0 phi",
   "eta phi", "eta omega", "pi0 pi0 gamma", "pi pi pi0", "pi pi eta", "pi pi etap", "pi pi omega",
   "pi0 pi0 omega", "pi0 k0 k0", "pi0 k k", "pi k k0", "pi pi pi pi", "pi pi pi0 pi0"]

/-- `partial_widths`, `model.py:879-909`. -/
def partialWidths {α : Type} (f : Fn → α) : Dict α :=
  [("e e", f .e_e), ("mu mu", f .mu_mu), ("ve ve", f .ve_ve), ("vm vm", f .vm_vm), ("vt vt", f .vt_vt),
   ("x x", f .x_x), ("pi pi", f .pi_pi), ("k0 k0", f .k0_k0), ("k k", f .k_k), ("pi0 gamma", f .pi0_gamma),
   ("eta gamma", f .eta_gamma), ("pi0 phi", f .pi0_phi), ("eta phi", f .eta_phi), ("eta omega", f .eta_omega),
   ("pi0 pi0 gamma", f .pi0_pi0_gamma), ("pi pi pi0", f .pi_pi_pi0), ("pi pi eta", f .pi_pi_eta),
   ("pi pi etap", f .pi_pi_etap), ("pi pi omega", f .pi_pi_omega), ("pi0 pi0 omega", f .pi0_pi0_omega),
   ("pi0 k0 k0", f .pi0_k0_k0), ("pi0 k k", f .pi0_k_k), ("pi k k0", f .pi_k_k0),
   ("pi pi pi pi", f .pi_pi_pi_pi), ("pi pi pi0 pi0", f .pi_pi_pi0_pi0)]

/-- `me`, `parameters.py:50`. -/
noncomputable def me : ℝ := 0.5109989461

/-- `_dnde_photon_v_v_rest_frame`, `spectra.py:756-815`, at one photon energy: `w` are the widths, `S` the
photon spectra `dnde_photon_X(self, photon_energies, self.mv)`.  A total width of zero divides by zero. -/
noncomputable def photonVVRest (mv : ℝ) (w S : Fn → ℝ) : Option ℝ :=
  if mv < 2 * me then some 0
  else
    let pws := partialWidths w
    let pw := pws.values.sum
    if pw = 0 then none
    else
      let b := fun k => (pws.get? k).getD 0 / pw
      some (2 * (b "e e" * S .e_e + b "mu mu" * S .mu_mu + b "pi pi" * S .pi_pi + b "k0 k0" * S .k0_k0
        + b "k k" * S .k_k + b "pi0 gamma" * S .pi0_gamma + b "eta gamma" * S .eta_gamma + b "pi0 phi" * S .pi0_phi
        + b "eta phi" * S .eta_phi + b "eta omega" * S .eta_omega + b "pi0 pi0 gamma" * S .pi0_pi0_gamma
        + b "pi pi pi0" * S .pi_pi_pi0 + b "pi pi eta" * S .pi_pi_eta + b "pi pi etap" * S .pi_pi_etap
        + b "pi pi omega" * S .pi_pi_omega + b "pi0 pi0 omega" * S .pi0_pi0_omega + b "pi0 k0 k0" * S .pi0_k0_k0
        + b "pi0 k k" * S .pi0_k_k + b "pi k k0" * S .pi_k_k0 + b "pi pi pi pi" * S .pi_pi_pi_pi
        + b "pi pi pi0 pi0" * S .pi_pi_pi0_pi0))

end Hazma.GevRegistry
