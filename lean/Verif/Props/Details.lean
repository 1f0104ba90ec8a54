import Verif.Model.BoostFn
import Verif.Model.Cmb
import Verif.Model.GevSpectra
import Verif.Model.FourPion
import Verif.Model.Dict
import Verif.Props.FeynmanRules
import Mathlib.Tactic
import Mathlib.Analysis.SpecialFunctions.Integrals.Basic

/-! # Further facts about functions used by other claims -/

namespace Hazma.Details

open Hazma

/-! ## C196: the sampled integration methods of `make_boost_function` -/

theorem linspace_cons (a b : ℝ) (n : ℕ) (hn : 2 ≤ n) :
    ∃ xs : List ℝ, BoostFn.linspace a b n = a :: xs ∧ (a :: xs).getLast (by simp) = b ∧ (a :: xs).length = n := by
  obtain ⟨k, rfl⟩ : ∃ k, n = k + 2 := ⟨n - 2, by omega⟩
  refine ⟨(List.range (k + 1)).map fun i : ℕ => a + ((i + 1 : ℕ) : ℝ) * ((b - a) / (((k + 2 : ℕ) : ℝ) - 1)),
    ?_, ?_, by simp⟩
  · unfold BoostFn.linspace
    rw [List.range_succ_eq_map]
    simp
  · rw [List.getLast_cons (by simp)]
    rw [List.getLast_map]
    simp only [List.getLast_range]
    have : ((k : ℝ) + 1) ≠ 0 := by positivity
    push_cast
    have h2 : (k : ℝ) + 2 - 1 = k + 1 := by ring
    rw [h2]
    field_simp
    ring

theorem trapz_affine_aux (c d : ℝ) : ∀ (x : ℝ) (xs : List ℝ),
    BoostFn.trapz (x :: xs) ((x :: xs).map fun t => c + d * t)
      = (c * (x :: xs).getLast (by simp) + d * (x :: xs).getLast (by simp) ^ 2 / 2) - (c * x + d * x ^ 2 / 2)
  | x, [] => by simp [BoostFn.trapz]
  | x, y :: ys => by
    have h := trapz_affine_aux c d y ys
    simp only [List.map_cons] at h ⊢
    have hl : (x :: y :: ys).getLast (by simp) = (y :: ys).getLast (by simp) := List.getLast_cons (by simp)
    rw [BoostFn.trapz, h, hl]
    ring

/-- C196: with `method="trapz"` and at least two points the integrator of `make_boost_function` integrates every
affine function over the whole window exactly. -/
theorem trapz_exact (simps : List ℝ → List ℝ → ℝ) (n : ℕ) (hn : 2 ≤ n) (a b c d : ℝ) :
    BoostFn.integrator simps "trapz" n (fun t => c + d * t) a b = ∫ t in a..b, (c + d * t) := by
  obtain ⟨xs, h1, h2, -⟩ := linspace_cons a b n hn
  have : ∫ t in a..b, (c + d * t) = c * b + d * b ^ 2 / 2 - (c * a + d * a ^ 2 / 2) := by
    have hi : IntervalIntegrable (fun t : ℝ => d * t) MeasureTheory.volume a b :=
      (by fun_prop : Continuous fun t : ℝ => d * t).intervalIntegrable _ _
    rw [intervalIntegral.integral_add intervalIntegrable_const hi]
    rw [intervalIntegral.integral_const_mul, integral_id]
    simp
    ring
  rw [this]
  simp only [BoostFn.integrator]
  rw [if_neg (by decide), if_pos trivial, h1, trapz_affine_aux, h2]

/-- Three points on the identity from 0 to 2. -/
example : BoostFn.integrator (fun _ _ => 0) "trapz" 3 (fun t => 0 + 1 * t) 0 2 = 2 := by
  rw [trapz_exact _ 3 (by norm_num)]
  norm_num [integral_id]

/-! ## C119: what the limit class would have to call -/

/-- C119: given the model, `CMBLimit.f_eff` is the efficiency of the theory class at a decoupling parameter with the
same centre-of-mass energy. -/
theorem limit_efficiency (g ep : Cmb.Table) (m : Cmb.Model) (xkd xkd' : ℝ)
    (h : Cmb.ecmLimit m.mx xkd = Cmb.ecmTheory m.mx xkd') :
    Cmb.limitFEff g ep xkd (.theory m) = Cmb.fEff g ep m xkd' := by
  simp only [Cmb.limitFEff, Cmb.fEff, Cmb.fEffEp, Cmb.fEffG, Cmb.limitHelper, h]

/-! ## C159: thresholds of the spectra -/

/-- C159: the energy below which the spectra of three and four mesons are zero is the sum of the masses of the
particles they consist of. -/
theorem threshold_is_mass (c : GevSpectra.Many) :
    GevSpectra.threshold c = ((GevSpectra.listed c).map GevSpectra.P.mass).sum := by
  cases c <;> norm_num [GevSpectra.threshold, GevSpectra.listed, GevSpectra.P.mass]

/-! ## C220: shapes of momenta -/

theorem go_comm : ∀ a b : List ℕ, FourPion.broadcast.go a b = FourPion.broadcast.go b a
  | [], [] => rfl
  | [], y :: ys => by simp [FourPion.broadcast.go]
  | x :: xs, [] => by simp [FourPion.broadcast.go]
  | x :: xs, y :: ys => by
    simp only [FourPion.broadcast.go, go_comm xs ys]
    congr 1
    funext zs
    by_cases h : x = y
    · subst h; rfl
    · rw [if_neg h, if_neg (Ne.symm h)]
      by_cases hx : x = 1 <;> by_cases hy : y = 1 <;> simp_all

theorem go_ones : ∀ (a : List ℕ) (n : ℕ), n ≤ a.length → FourPion.broadcast.go a (List.replicate n 1) = some a
  | a, 0, _ => by cases a <;> simp [FourPion.broadcast.go]
  | [], n + 1, h => by simp at h
  | x :: xs, n + 1, h => by
    rw [List.replicate_succ, FourPion.broadcast.go, go_ones xs n (by simpa using h)]
    by_cases hx : x = 1 <;> simp [hx]

/-- C220: broadcasting is symmetric, and an array is unchanged by an array of ones of no more axes. -/
theorem broadcast_laws (a b : FourPion.Shape) (n : ℕ) (hn : n ≤ a.length) :
    FourPion.broadcast a b = FourPion.broadcast b a
    ∧ FourPion.broadcast a (List.replicate n 1) = some a := by
  unfold FourPion.broadcast
  refine ⟨by rw [go_comm], ?_⟩
  rw [List.reverse_replicate, go_ones _ _ (by simpa using hn)]
  simp

example : FourPion.broadcast [3, 5] [1, 5] = some [3, 5] ∧ FourPion.broadcast [3] [2] = none := by decide

/-! ## C03: dictionaries -/

/-- C03: assignment to a key is seen under that key and under no other. -/
theorem dict_set_get {α : Type} (d : Dict α) (k k' : String) (v : α) :
    (d.set k v).get? k' = if k' = k then some v else d.get? k' := by
  induction d with
  | nil => simp [Dict.set, Dict.get?, eq_comm]
  | cons x d ih => 
    obtain ⟨y, w⟩ := x
    by_cases h : y = k
    · subst h
      by_cases h' : k' = y
      · simp [Dict.set, Dict.get?, h']
      · simp [Dict.set, Dict.get?, h', Ne.symm h']
    · by_cases h' : k' = k <;> by_cases h'' : y = k' <;> simp_all [Dict.set, Dict.get?]

/-! ## C281: which lepton is which -/

/-- The mass of a lepton in `parameters.py`. -/
noncomputable def leptonMass : String → ℝ
  | "e" => 0.5109989461
  | "mu" => 105.6583745
  | _ => 0

/-- C281: `sigma_xx_to_s_to_ff` for electrons and muons is the cross section of the Feynman rules with the lepton's
own mass, coupled in proportion to it. -/
theorem scalar_lepton_sigma (s : ScalarModel.Base) (e : ℝ) (f : String) (hf : f = "e" ∨ f = "mu") (hm : 0 ≤ s.mx)
    (h1 : 2 * s.mx < e) (h2 : 2 * leptonMass f < e) (hp : Xs.propagator s.ms e s.width ≠ 0) :
    Xs.sigmaScalarFF Xs.pythonConsts Xs.kernelConsts s e f
      = .ok (FeynmanRules.fermionSigma SelfScattering.scalarVertex s.gsxx
          (s.gsff * leptonMass f / Xs.kernelConsts.vh) s.ms s.width s.mx (leptonMass f) e) := by
  have hv : Xs.kernelConsts.vh ≠ 0 := by norm_num [Xs.kernelConsts]
  have hl : 0 ≤ leptonMass f := by rcases hf with rfl | rfl <;> norm_num [leptonMass]
  rw [← FeynmanRules.scalar_fermion_sigma _ _ _ _ hm hl h1 h2 hv hp]
  unfold Xs.sigmaScalarFF
  rw [if_pos hf]
  rcases hf with rfl | rfl <;> simp [leptonMass, Xs.pythonConsts]

end Hazma.Details
