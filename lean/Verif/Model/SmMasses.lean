import Verif.Model.Dict

/-! # The table of particle masses (`hazma/parameters.py:43-135`) -/

namespace Hazma

/-- `standard_model_masses`, `hazma/parameters.py:107-135`, with the values of lines 47-95 (MeV). -/
noncomputable def smMasses : Dict ℝ :=
  [("e", 0.5109989461), ("mu", 105.6583745), ("tau", 1776.86), ("ve", 0), ("vm", 0), ("vt", 0),
   ("u", 2.16), ("c", 1270), ("t", 172900), ("d", 4.67), ("s", 95), ("b", 4180), ("h", 125100),
   ("pi", 139.57039), ("pi0", 134.9768), ("k", 493.677), ("k0", 497.611), ("kl", 497.611),
   ("ks", 497.611), ("eta", 547.862), ("etap", 957.78), ("rho", 775.26), ("rho0", 775.26),
   ("omega", 782.66), ("phi", 1019.461), ("photon", 0), ("a", 0)]

end Hazma
