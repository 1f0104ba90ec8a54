import Mathlib.Analysis.SpecialFunctions.Gamma.Beta
import Mathlib.Analysis.SpecialFunctions.Pow.Real
import Mathlib.Analysis.SpecialFunctions.Complex.Log
import Mathlib.Algebra.Order.Floor.Ring

/-!
# Resonance functions of the vector form factors

Models `hazma/form_factors/vector/_utils.py` and the parts of `_pi_pi.py` and `_k_k.py`
that turn fitted magnitudes into couplings.  Everything is elementwise; the `reshape`
variants compute the same expressions on a grid and are modelled by the same functions
(their only difference, the missing case `s = 0` of `h`, is noted there).
`scipy.special.gamma` is `Real.Gamma`; at the poles it returns an infinity and the
quotients by it used here are zero, as in `ℝ`.
-/

namespace Hazma.Resonance

/-- `beta2`, `_utils.py:38-60`. -/
noncomputable def beta2 (s m1 m2 : ℝ) : ℝ :=
  max ((1 - (m1 + m2) ^ 2 / s) * (1 - (m1 - m2) ^ 2 / s)) 0

/-- `beta`, `_utils.py:63-85`. -/
noncomputable def beta (s m1 m2 : ℝ) : ℝ := √(beta2 s m1 m2)

/-- `dhhatds`, `_utils.py:88-130`. -/
noncomputable def dhhatds (mres gamma m1 m2 : ℝ) : ℝ :=
  let v2 := beta2 (mres ^ 2) m1 m2
  let v := √v2
  let r := (m1 ^ 2 + m2 ^ 2) / mres ^ 2
  gamma / Real.pi / mres / v2 *
    ((3 - 2 * v2 - 3 * r) * Real.log ((1 + v) / (1 - v)) + 2 * v * (1 - r / (1 - v2)))

/-- `hhat`, `_utils.py:133-179`. -/
noncomputable def hhat (s mres gamma m1 m2 : ℝ) : ℝ :=
  let vr := beta (mres ^ 2) m1 m2
  let v := beta s m1 m2
  gamma / mres / Real.pi * s * (v / vr) ^ 3 * Real.log ((1 + v) / (1 - v))

/-- `h`, `_utils.py:182-238`.  The array variant always takes the first branch. -/
noncomputable def h (s mres gamma m1 m2 dh hres : ℝ) : ℝ :=
  if s ≠ 0 then hhat s mres gamma m1 m2 - hres - (s - mres ^ 2) * dh
  else (-2) * (m1 + m2) ^ 2 / Real.pi * gamma / mres / beta (mres ^ 2) m1 m2 ^ 3 - hres +
    mres ^ 2 * dh

/-- `gamma_p`, `_utils.py:241-287`. -/
noncomputable def gammaP (s mres gamma m1 m2 : ℝ) : ℝ :=
  let v2 := beta2 s m1 m2
  let vr2 := beta2 (mres ^ 2) m1 m2
  let rp := if vr2 = 0 then vr2 else √(max (v2 / vr2) 0)
  √s / mres * rp ^ 3 * gamma

/-- `breit_wigner_gs`, `_utils.py:290-351`. -/
noncomputable def bwGS (s mass width m1 m2 h0 dh hres : ℝ) : ℂ :=
  ((mass ^ 2 + h0 : ℝ) : ℂ) /
    (((mass ^ 2 - s + h s mass width m1 m2 dh hres : ℝ) : ℂ) -
      Complex.I * ((√s * gammaP s mass width m1 m2 : ℝ) : ℂ))

/-- `breit_wigner_fw`, `_utils.py:354-386`. -/
noncomputable def bwFW (s mass width : ℝ) : ℂ :=
  ((mass ^ 2 : ℝ) : ℂ) / (((mass ^ 2 - s : ℝ) : ℂ) - Complex.I * ((mass * width : ℝ) : ℂ))

/-- `breit_wigner_pwave`, `_utils.py:389-409`. -/
noncomputable def bwPwave (s mres gamma m1 m2 : ℝ) : ℂ :=
  ((mres ^ 2 : ℝ) : ℂ) / (((mres ^ 2 - s : ℝ) : ℂ) -
    Complex.I * ((√s * gammaP s mres gamma m1 m2 : ℝ) : ℂ))

/-- The parameters of one Gounaris-Sakurai resonance: `hres`, `dh`, `h0`.
`_k_k.py:167-188`, `_pi_pi.py:106-119`. -/
noncomputable def hParams (mass width m : ℝ) : ℝ × ℝ × ℝ :=
  let hres := hhat (mass ^ 2) mass width m m
  let dh := dhhatds mass width m m
  (hres, dh, h 0 mass width m m dh hres)

/-- The loop of `gamma_generator`, `_utils.py:434-440`: values from `n` on, `k` of them. -/
noncomputable def gammaLoop (b : ℝ) (val : ℝ) (n : ℕ) : ℕ → List ℝ
  | 0 => []
  | k + 1 =>
    let val' := val * ((1 - b + n) / n)
    val' :: gammaLoop b val' (n + 1) k

/-- `list(gamma_generator(beta, nmax))`, `_utils.py:412-440`. -/
noncomputable def gammaGen (b : ℝ) (nmax : ℕ) : List ℝ :=
  Real.Gamma (2 - b) :: gammaLoop b (Real.Gamma (2 - b)) 1 (nmax - 1)

/-- The couplings before the low-lying ones are replaced: `_pi_pi.py:80-94`,
`_k_k.py:134-148`. -/
noncomputable def rawCouplings (b : ℝ) (nmax : ℕ) : List ℝ :=
  List.zipWith (fun (n : ℕ) g =>
    (if n % 2 = 1 then -1 else 1) *
      (Real.Gamma (b - 0.5) / (0.5 + n) / √Real.pi * Real.sin (Real.pi * (b - 1 - n)) / Real.pi * g))
    (List.range nmax) (gammaGen b nmax)

/-- `c_0` inside `_find_beta`, `_k_k.py:88-95`. -/
noncomputable def cLoop (ratio b1 : ℝ) : ℝ :=
  if 2 < b1 then cLoop (ratio * ((b1 - 1.5) / (b1 - 2))) (b1 - 1)
  else ratio * (Real.Gamma (b1 - 0.5) / Real.Gamma (b1 - 1))
termination_by ⌈b1⌉₊
decreasing_by
  have h1 : b1 - 1 = b1 - ((1 : ℕ) : ℝ) := by simp
  rw [h1, Nat.ceil_sub_natCast]
  have : 0 < ⌈b1⌉₊ := Nat.ceil_pos.2 (by linarith)
  omega

/-- `c_0`. -/
noncomputable def cZero (b0 : ℝ) : ℝ := cLoop (2 / √Real.pi) b0

/-- The variables of the loop of `_find_beta`. -/
structure Bisect where
  bmin : ℝ
  bmid : ℝ
  bmax : ℝ
  cmid : ℝ

/-- One pass of the loop, `_k_k.py:103-116`; `none` is the `RuntimeError`. -/
noncomputable def bisectStep (c0 : ℝ) (st : Bisect) : Option Bisect :=
  let cmin := cZero st.bmin
  let cmax := cZero st.bmax
  let cmid := cZero st.bmid
  if cmin < c0 ∧ c0 < cmid then some ⟨st.bmin, 0.5 * (st.bmin + st.bmid), st.bmid, cmid⟩
  else if cmid < c0 ∧ c0 < cmax then some ⟨st.bmid, 0.5 * (st.bmid + st.bmax), st.bmax, cmid⟩
  else if cmax ≤ c0 then some ⟨st.bmin, 0.5 * (st.bmin + st.bmax * 2), st.bmax * 2, cmid⟩
  else none

/-- The `while` loop, `_k_k.py:102-117`: `Loop c0 st r` says that it ends with result
`r` (`none` for the exception). -/
inductive Loop (c0 : ℝ) : Bisect → Option ℝ → Prop
  | stop {st} : |st.cmid - c0| ≤ 1e-10 → Loop c0 st (some st.bmid)
  | fail {st} : 1e-10 < |st.cmid - c0| → bisectStep c0 st = none → Loop c0 st none
  | step {st st' r} : 1e-10 < |st.cmid - c0| → bisectStep c0 st = some st' → Loop c0 st' r →
      Loop c0 st r

/-- `_find_beta(c0)`, `_k_k.py:85-117`. -/
def FindBeta (c0 : ℝ) (r : Option ℝ) : Prop := Loop c0 ⟨1, 5, 10, cZero 5⟩ r

/-- The couplings of the kaon form factors for a given `beta`, `_k_k.py:139-162`;
`none` if the slice assignment or the index fails. -/
noncomputable def kkCouplings (b : ℝ) (wgt : List ℂ) (nmax : ℕ) : Option (List ℂ) :=
  if nmax ≤ wgt.length then none
  else
    let coup := wgt ++ ((rawCouplings b nmax).map fun x : ℝ => (x : ℂ)).drop wgt.length
    some (coup.modify wgt.length fun c => c + (1 - coup.sum))

/-- The couplings of the pion form factor, `_pi_pi.py:82-94` and `:122-125`; `first` is
the literal stored for the lowest state and `wgt` are the fitted weights of all
low-lying states.  `none` if a slice assignment or the index fails. -/
noncomputable def pipiCouplings (b first : ℝ) (wgt : List ℂ) (nmax : ℕ) : Option (List ℂ) :=
  if nmax < wgt.length ∨ nmax = 0 then none
  else
    let coup := ((rawCouplings b nmax).map fun x : ℝ => (x : ℂ)).set 0 first
    let cwgt := ((coup.take wgt.length).drop 1).sum
    let rhoSum := (wgt.drop 1).sum
    some (coup.take 1 ++ (wgt.drop 1).map (fun w => w * cwgt / rhoSum) ++ coup.drop (max 1 wgt.length))

end Hazma.Resonance
