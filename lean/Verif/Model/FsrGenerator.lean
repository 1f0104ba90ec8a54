import Verif.Model.ThreeBody

/-!
# Photon spectra from a radiative squared matrix element

Model of `hazma/spectra/_fsr.py`.  External: `scipy.integrate.quad`, the three-body integrator, the
RAMBO generator and integrator, all collected in `Env`; the spawned random streams are named by
their index.  A squared matrix element is a function of the list of momenta with real values (NaN
is not modelled, so `np.nanmean` is the mean and `np.nanstd` the standard deviation).
-/

namespace Hazma.FsrGen

open Hazma.Rambo Hazma.Kinematics

/-- Squared matrix elements of the momenta. -/
abbrev Msq := List P4 → ℝ

/-- The libraries `_fsr.py` calls: `integrate.quad` (value and error), `ThreeBody(…).integrate`,
`Rambo(…).integrate` and `Rambo(…).generate` with the index of the random stream. -/
structure Env where
  quad : (ℝ → ℝ) → ℝ → ℝ → ℝ × ℝ
  three : ℝ → List ℝ → Msq → ℝ × ℝ
  ramboInt : ℝ → List ℝ → Msq → ℕ → ℕ → ℝ × ℝ
  gen : ℝ → List ℝ → ℕ → ℕ → List (List P4 × ℝ)

/-- `_dphi2` (`_fsr.py:85-90`). -/
noncomputable def dphi2 (s m1 m2 : ℝ) : ℝ :=
  let lam := kallenLambda s (m1 ^ 2) (m2 ^ 2)
  if lam ≤ 0 then 0 else Real.sqrt lam / (8 * Real.pi * s)

/-- `_split_quad` (`_fsr.py:93-126`). -/
noncomputable def splitQuad (env : Env) (f : ℝ → ℝ) : ℝ × ℝ :=
  let lo := env.quad f (-1) 0
  let hi := env.quad f 0 1
  (lo.1 + hi.1, lo.2 + hi.2)

/-- `_two_body_momenta` (`_fsr.py:129-145`). -/
noncomputable def twoBodyMomenta (cme m1 m2 ct : ℝ) : List P4 :=
  let e1 := (cme ^ 2 + m1 ^ 2 - m2 ^ 2) / (2 * cme)
  let p := Real.sqrt (max (e1 ^ 2 - m1 ^ 2) 0)
  let st := Real.sqrt (max (1 - ct ^ 2) 0)
  [⟨e1, p * st, 0, p * ct⟩, ⟨cme - e1, -p * st, 0, -p * ct⟩]

/-- `_nonrad_integral` (`_fsr.py:148-191`). -/
noncomputable def nonradIntegral (env : Env) (cme : ℝ) (masses : List ℝ) (msq0 : Msq)
    (npts stream : ℕ) : ℝ × ℝ :=
  match masses with
  | [m1, m2] =>
    let ang := splitQuad env fun ct => msq0 (twoBodyMomenta cme m1 m2 ct)
    let pre := 0.5 * dphi2 (cme ^ 2) m1 m2
    (pre * ang.1, pre * ang.2)
  | [m1, m2, m3] => env.three cme [m1, m2, m3] msq0
  | ms => env.ramboInt cme ms msq0 npts stream

/-- The event built for one angle by the quadrature backend (`_fsr.py:217-221`). -/
noncomputable def quadEvent (cmeRf egRf m1 m2 ct : ℝ) : List P4 :=
  twoBodyMomenta cmeRf m1 m2 ct ++ [⟨egRf, 0, 0, egRf⟩]

/-- `_dnde_point_quad` (`_fsr.py:194-225`). -/
noncomputable def pointQuad (env : Env) (e cme m1 m2 : ℝ) (msq : Msq) : ℝ × ℝ :=
  let sp := cme * (cme - 2 * e)
  if ¬ (e > 0 ∧ sp > (m1 + m2) ^ 2) then (0, 0)
  else
    let cmeRf := Real.sqrt sp
    let egRf := e * cme / cmeRf
    let ang := splitQuad env fun ct => msq (quadEvent cmeRf egRf m1 m2 ct)
    let pre := e / (4 * Real.pi ^ 2) * dphi2 sp m1 m2 * 0.5
    (pre * ang.1, pre * ang.2)

/-- The mean of a list. -/
noncomputable def mean (xs : List ℝ) : ℝ := xs.sum / xs.length

/-- `np.nanstd(xs, ddof=1)`. -/
noncomputable def std1 (xs : List ℝ) : ℝ :=
  Real.sqrt ((xs.map fun x => (x - mean xs) ^ 2).sum / ((xs.length : ℝ) - 1))

/-- `_dnde_point_rambo` (`_fsr.py:228-268`). -/
noncomputable def pointRambo (env : Env) (e cme : ℝ) (masses : List ℝ) (msq : Msq)
    (npts stream : ℕ) : ℝ × ℝ :=
  let sp := cme * (cme - 2 * e)
  if ¬ (e > 0 ∧ sp > masses.sum ^ 2) then (0, 0)
  else
    let cmeRf := Real.sqrt sp
    let egRf := e * cme / cmeRf
    let integrands := (env.gen cmeRf masses npts stream).map fun ev =>
      ev.2 * msq (ev.1 ++ [⟨egRf, 0, 0, egRf⟩])
    let pre := e / (4 * Real.pi ^ 2)
    (pre * mean integrands, pre * (std1 integrands / Real.sqrt npts))

/-- The exceptions of `dnde_photon_fsr`. -/
inductive Err where
  | value
  | cmeTooSmall
  deriving DecidableEq

/-- The `npts` argument: an integer, or something else. -/
inductive Npts where
  | int (n : ℤ)
  | other

/-- `isinstance(npts, (int, np.integer)) and npts >= 2` (`_fsr.py:427-429`). -/
def Npts.ok : Npts → Bool
  | .int n => decide (2 ≤ n)
  | .other => false

/-- The number of points a library is asked for. -/
def Npts.toNat : Npts → ℕ
  | .int n => n.toNat
  | .other => 0

/-- The method after `"auto"` has been resolved, and its checks (`_fsr.py:417-437`). -/
def resolve (method : String) (n : ℕ) (npts : Npts) : Except Err String :=
  let method := if method = "auto" then (if n = 2 then "quad" else "rambo") else method
  if method = "quad" ∧ n ≠ 2 then .error .value
  else if method ∉ ["quad", "rambo"] then .error .value
  else if method = "rambo" ∧ npts.ok = false then .error .value
  else .ok method

/-- One step of the loop over energies (`_fsr.py:459-464`), before the division. -/
noncomputable def numerator (env : Env) (method : String) (cme : ℝ) (masses : List ℝ) (msq : Msq)
    (npts : ℕ) (i : ℕ) (e : ℝ) : ℝ × ℝ :=
  if method = "quad" then pointQuad env e cme (masses.getD 0 0) (masses.getD 1 0) msq
  else pointRambo env e cme masses msq npts i

/-- The division of `_fsr.py:465-467`: the spectrum and its propagated error. -/
noncomputable def ratio (num nonrad : ℝ × ℝ) : ℝ × ℝ :=
  (num.1 / nonrad.1, hypot (num.2 / nonrad.1) (num.1 * nonrad.2 / nonrad.1 ^ 2))

/-- The part of `dnde_photon_fsr` after the checks of the arguments (`_fsr.py:439-467`). -/
noncomputable def loop (env : Env) (method : String) (energies : List ℝ) (cme : ℝ)
    (masses : List ℝ) (msq msq0 : Msq) (npts : ℕ) : Except Err (List (ℝ × ℝ)) :=
  let nonrad := nonradIntegral env cme masses msq0 npts energies.length
  if ¬ nonrad.1 > 0 then .error .value
  else .ok (energies.mapIdx fun i e =>
    ratio (numerator env method cme masses msq npts i e) nonrad)

/-- `dnde_photon_fsr` (`_fsr.py:271-471`) for a list of energies: the pairs `(dnde, error)`. -/
noncomputable def dndePhotonFsr (env : Env) (energies : List ℝ) (cme : ℝ) (masses : List ℝ)
    (msq msq0 : Msq) (method : String := "auto") (npts : Npts := .int 16384) :
    Except Err (List (ℝ × ℝ)) :=
  if masses.length < 2 then .error .value
  else if cme ≤ masses.sum then .error .cmeTooSmall
  else
    match resolve method masses.length npts with
    | .error e => .error e
    | .ok m => loop env m energies cme masses msq msq0 npts.toNat

end Hazma.FsrGen
