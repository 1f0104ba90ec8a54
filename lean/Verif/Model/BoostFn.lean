import Verif.Model.Boost
import Mathlib.MeasureTheory.Integral.IntervalIntegral.Basic

/-!
# Boosting functions and averaging over energies

Model of `make_boost_function`, `dnde_boost` (`hazma/spectra/boost.py:233-409`) and of
`make_marginal_fn`, `marginalize` (`hazma/spectra/convolve.py:17-124`).

Not modelled: rounding, and the error of `scipy.integrate.quad`, which is the exact integral here.
-/

namespace Hazma.BoostFn

open MeasureTheory

/-- The exceptions the two modules can raise. -/
inductive Err where
  | value : Err
  | type : Err
  | assertion : Err

/-- A Python spectrum function: the number of arguments it takes after the energy, and its value.
Calling it with another number of arguments raises `TypeError`. -/
structure Fn where
  arity : ℕ
  eval : ℝ → List ℝ → ℝ

/-- `[fn(e, *args) for e in energies]`: no call, hence no error, when there is no energy. -/
noncomputable def Fn.calls (fn : Fn) (energies args : List ℝ) : Except Err (List ℝ) :=
  if energies = [] ∨ args.length = fn.arity then .ok (energies.map fun e => fn.eval e args)
  else .error .type

/-- `np.linspace(a, b, npts)` (`boost.py:85`). -/
noncomputable def linspace (a b : ℝ) (npts : ℕ) : List ℝ :=
  (List.range npts).map fun i : ℕ => a + (i : ℝ) * ((b - a) / ((npts : ℝ) - 1))

/-- `np.trapezoid`/`scipy.integrate.trapezoid` of samples `ys` at `xs`. -/
noncomputable def trapz : List ℝ → List ℝ → ℝ
  | x0 :: x1 :: xs, y0 :: y1 :: ys => (x1 - x0) * (y1 + y0) / 2 + trapz (x1 :: xs) (y1 :: ys)
  | _, _ => 0

/-- `_make_integrator` (`boost.py:55-92`) on one window, for a method that passed `check_method`;
`simps` is `scipy.integrate.simpson`, external. -/
noncomputable def integrator (simps : List ℝ → List ℝ → ℝ) (method : String) (npts : ℕ)
    (f : ℝ → ℝ) (a b : ℝ) : ℝ :=
  if method = "quad" ∨ method = "quadrature" then ∫ x in a..b, f x
  else
    let es := linspace a b npts
    if method = "trapz" then trapz es (es.map f) else simps es (es.map f)

/-- `fn_boosted`, the function `make_boost_function(fn, mass)` returns (`boost.py:314-365`, with
the helpers of `boost.py:278-312`).  `eps` is the machine epsilon of the energies' type; at
`beta = 1` the Lorentz factor is infinite and `unit` stands for whatever NumPy and QUADPACK make of
infinite bounds. -/
noncomputable def fnBoosted (simps : List ℝ → List ℝ → ℝ)
    (unit : List ℝ → Except Err (List ℝ)) (eps : ℝ) (fn : Fn) (mass : ℝ) (energies : List ℝ)
    (beta : ℝ) (method : String) (args : List ℝ) (npts : ℕ) : Except Err (List ℝ) :=
  if method ∉ ["quad", "trapz", "simps", "quadrature"] then .error .value
  else if beta < eps then fn.calls energies []
  else if beta < 0 ∨ beta > 1 then .ok (energies.map fun _ => 0)
  else if beta = 1 then unit energies
  else
    let gamma := 1 / Real.sqrt (1 - beta ^ 2)
    let masked := energies.filter fun e => decide (e > mass)
    if masked ≠ [] ∧ args.length ≠ fn.arity then .error .type
    else
      .ok (energies.map fun e =>
        let boosted :=
          if e > mass then
            let k := Real.sqrt (e ^ 2 - mass ^ 2)
            integrator simps method npts
              (fun x => fn.eval x args / Real.sqrt (x ^ 2 - mass ^ 2))
              (gamma * (e - beta * k)) (gamma * (e + beta * k))
          else 0
        0.5 * boosted / (beta * gamma))

/-- `dnde_boost` (`boost.py:370-409`): the `mass` it repeats as a keyword of the boosted function
is dropped by `_get_integrator_kwargs` (`boost.py:50-52`). -/
noncomputable def dndeBoost (simps : List ℝ → List ℝ → ℝ)
    (unit : List ℝ → Except Err (List ℝ)) (eps : ℝ) (fn : Fn) (energies : List ℝ)
    (beta mass : ℝ) (method : String) (args : List ℝ) (npts : ℕ) : Except Err (List ℝ) :=
  fnBoosted simps unit eps fn mass energies beta method args npts

/-- The integrand of `make_marginal_fn` (`convolve.py:61-66`, `convolve.py:75`), as a table: one
row per centre-of-mass energy, one column per product energy.  `np.vectorize` refuses empty inputs;
with `vectorized` the product energies are excluded from the broadcasting, every call returns a
whole row, and rows of more or less than one entry cannot be stored in the array of floats
`np.vectorize` builds. -/
noncomputable def integrandTable (vectorized : Bool) (dnde : ℝ → ℝ → ℝ) (energies cmes : List ℝ) :
    Except Err (List (List ℝ)) :=
  if cmes = [] then .error .value
  else if vectorized = true ∧ energies.length ≠ 1 then .error .value
  else if energies = [] then .error .value
  else .ok (cmes.map fun cme => energies.map fun e => dnde e cme)

/-- `make_marginal_fn(dnde_fn, cmes, probs, method=…, vectorized=…)(product_energies)`
(`convolve.py:55-78`).  `probs` and `cmes` of different lengths are rejected here (NumPy would also
broadcast a single probability). -/
noncomputable def marginalFn (simpson : List ℝ → List ℝ → ℝ) (dnde : ℝ → ℝ → ℝ)
    (cmes probs : List ℝ) (method : String) (vectorized : Bool) (energies : List ℝ) :
    Except Err (List ℝ) :=
  if method ∉ ["trapz", "simpson"] then .error .assertion
  else
    match integrandTable vectorized dnde energies cmes with
    | .error e => .error e
    | .ok table =>
      if probs.length ≠ cmes.length then .error .value
      else
        .ok ((List.range energies.length).map fun i : ℕ =>
          let vals := List.zipWith (fun p row => p * row.getD i 0) probs table
          if method = "trapz" then trapz cmes vals else simpson cmes vals)

/-- `marginalize` (`convolve.py:81-124`); `vectorized` defaults to `True`
(`convolve.py:88`) and `method` to `"trapz"` (`convolve.py:87`). -/
noncomputable def marginalize (simpson : List ℝ → List ℝ → ℝ) (dnde : ℝ → ℝ → ℝ)
    (energies cmes probs : List ℝ) (method : String := "trapz") (vectorized : Bool := true) :
    Except Err (List ℝ) :=
  marginalFn simpson dnde cmes probs method vectorized energies

end Hazma.BoostFn
