import Verif.Props.Fisher
import Mathlib.Tactic
import Mathlib.Analysis.SpecialFunctions.Integrals.Basic

/-! # How far the Fisher matrix is from the information integral -/

namespace Hazma.Fisher

open MeasureTheory Set

/-- Energies in increasing order with steps of at most `h`. -/
def Steps (h : ℝ) (grid : List ℝ) : Prop := grid.IsChain fun a b => a ≤ b ∧ b - a ≤ h

theorem steps_head_le_last {h : ℝ} : ∀ {x : ℝ} {xs : List ℝ}, Steps h (x :: xs) → x ≤ (x :: xs).getLast (by simp)
  | x, [], _ => by simp
  | x, y :: ys, hs => by
    obtain ⟨h1, h2⟩ := List.isChain_cons_cons.1 hs
    have := steps_head_le_last (x := y) (xs := ys) h2
    rw [List.getLast_cons (by simp)]
    linarith [h1.1]

/-- One trapezium of a Lipschitz function. -/
theorem trapezium_error {f : ℝ → ℝ} {K : NNReal} {x y : ℝ} (hxy : x ≤ y) (hf : LipschitzOnWith K f (Icc x y)) :
    |(y - x) * (f x + f y) / 2 - ∫ t in x..y, f t| ≤ K * (y - x) ^ 2 / 2 := by
  have hc : IntervalIntegrable f volume x y := by
    apply ContinuousOn.intervalIntegrable
    rw [uIcc_of_le hxy]
    exact hf.continuousOn
  have h1 : (y - x) * (f x + f y) / 2 - ∫ t in x..y, f t = ∫ t in x..y, ((f x + f y) / 2 - f t) := by
    rw [intervalIntegral.integral_sub intervalIntegrable_const hc, intervalIntegral.integral_const]
    simp only [smul_eq_mul]
    ring
  rw [h1]
  have h2 : ‖∫ t in x..y, ((f x + f y) / 2 - f t)‖ ≤ K * (y - x) / 2 * |y - x| := by
    refine intervalIntegral.norm_integral_le_of_norm_le_const fun t ht => ?_
    rw [uIoc_of_le hxy] at ht
    have ht' : t ∈ Icc x y := ⟨ht.1.le, ht.2⟩
    have e1 := hf.dist_le_mul x ⟨le_refl _, hxy⟩ t ht'
    have e2 := hf.dist_le_mul y ⟨hxy, le_refl _⟩ t ht'
    rw [Real.dist_eq, Real.dist_eq] at e1 e2
    rw [abs_of_nonpos (by linarith [ht'.1] : x - t ≤ 0)] at e1
    rw [abs_of_nonneg (by linarith [ht'.2] : 0 ≤ y - t)] at e2
    rw [Real.norm_eq_abs]
    have e3 : (f x + f y) / 2 - f t = ((f x - f t) + (f y - f t)) / 2 := by ring
    rw [e3, abs_div, abs_of_pos (by norm_num : (0 : ℝ) < 2)]
    have e4 := abs_add_le (f x - f t) (f y - f t)
    have e5 : (K : ℝ) * -(x - t) + K * (y - t) = K * (y - x) := by ring
    linarith
  rw [Real.norm_eq_abs, abs_of_nonneg (by linarith : 0 ≤ y - x)] at h2
  calc _ ≤ _ := h2
    _ = _ := by ring

/-- The integral of the degree-one spline differs from the integral of a Lipschitz function by at most half the
Lipschitz constant times the largest step times the length of the range. -/
theorem trapz_error {f : ℝ → ℝ} {K : NNReal} {h : ℝ} : ∀ {x : ℝ} {xs : List ℝ}, Steps h (x :: xs) →
    LipschitzOnWith K f (Icc x ((x :: xs).getLast (by simp))) →
    |trapz (x :: xs) f - ∫ t in x..(x :: xs).getLast (by simp), f t|
      ≤ K * h * ((x :: xs).getLast (by simp) - x) / 2
  | x, [], _, _ => by simp [trapz]
  | x, y :: ys, hs, hf => by
    obtain ⟨h1, h2⟩ := List.isChain_cons_cons.1 hs
    have hl : (x :: y :: ys).getLast (by simp) = (y :: ys).getLast (by simp) := List.getLast_cons (by simp)
    have hyl := steps_head_le_last (x := y) (xs := ys) h2
    rw [hl] at hf ⊢
    have ih := trapz_error (x := y) (xs := ys) h2 (hf.mono (Icc_subset_Icc_left h1.1))
    obtain ⟨z, hz⟩ : ∃ z, z = (y :: ys).getLast (by simp) := ⟨_, rfl⟩
    rw [← hz] at ih hf hyl ⊢
    have e1 := trapezium_error h1.1 (hf.mono (Icc_subset_Icc_right hyl))
    have i1 : IntervalIntegrable f volume x y := by
      apply ContinuousOn.intervalIntegrable
      rw [uIcc_of_le h1.1]
      exact (hf.mono (Icc_subset_Icc_right hyl)).continuousOn
    have i2 : IntervalIntegrable f volume y z := by
      apply ContinuousOn.intervalIntegrable
      rw [uIcc_of_le hyl]
      exact (hf.mono (Icc_subset_Icc_left h1.1)).continuousOn
    have e2 := intervalIntegral.integral_add_adjacent_intervals i1 i2
    rw [trapz, ← e2]
    have e3 : (y - x) * (f x + f y) / 2 + trapz (y :: ys) f - ((∫ t in x..y, f t) + ∫ t in y..z, f t)
        = ((y - x) * (f x + f y) / 2 - ∫ t in x..y, f t) + (trapz (y :: ys) f - ∫ t in y..z, f t) := by ring
    rw [e3]
    have e4 := abs_add_le ((y - x) * (f x + f y) / 2 - ∫ t in x..y, f t) (trapz (y :: ys) f - ∫ t in y..z, f t)
    have e5 : (K : ℝ) * (y - x) ^ 2 / 2 ≤ K * h * (y - x) / 2 := by
      have : (K : ℝ) * (y - x) * (y - x) ≤ K * (y - x) * h :=
        mul_le_mul_of_nonneg_left h1.2 (mul_nonneg K.2 (by linarith [h1.1]))
      nlinarith [this]
    have e6 : (K : ℝ) * h * (y - x) / 2 + K * h * (z - y) / 2 = K * h * (z - x) / 2 := by ring
    linarith

/-- The Poisson information density: the expected number of observed photons per energy, `counts` times the flux,
differentiated with respect to two parameters and divided by the expected background.  The background flux is the one
in the field of view, so its derivatives carry the solid angle. -/
noncomputable def infoDensity (phiS : ℝ → ℝ) (bg : ParamBg) (dOmega : ℝ) (aeff : ℝ → ℝ) (tobs : ℝ) (k1 k2 : String)
    (e : ℝ) : ℝ :=
  let derivative (k : String) := if k = "rate" then phiS e else bg.deriv k e * dOmega
  let counts := aeff e * tobs
  (counts * derivative k1) * (counts * derivative k2) / (counts * (bg.flux e * dOmega))

/-- The factor that the derivatives of background parameters lack (C172). -/
def missing (dOmega : ℝ) (key : String) : ℝ := if key = "rate" then 1 else dOmega

/-- **C313.** Claim: every entry of the Fisher matrix is the integral of the Poisson information density over the
range of the energy grid, up to half the Lipschitz constant of the density times the largest step times the length of
the range.  What holds: this is so once the solid angle missing from the derivatives of background parameters (C172) is
restored; it is the entry itself only for the rate. -/
theorem fisher_accuracy_partial (x : ℝ) (xs : List ℝ) (h : ℝ) (hs : Steps h (x :: xs)) (phiS : ℝ → ℝ) (bg : ParamBg)
    (dOmega : ℝ) (aeff : ℝ → ℝ) (tobs : ℝ) (i j : Fin (fisherParams bg).length) (K : NNReal)
    (hK : LipschitzOnWith K (infoDensity phiS bg dOmega aeff tobs ((fisherParams bg).get i).1 ((fisherParams bg).get j).1)
      (Icc x ((x :: xs).getLast (by simp)))) :
    |missing dOmega ((fisherParams bg).get i).1 * missing dOmega ((fisherParams bg).get j).1
        * (fisherMatrix (x :: xs) phiS bg dOmega aeff tobs).mat i j
      - ∫ e in x..(x :: xs).getLast (by simp),
          infoDensity phiS bg dOmega aeff tobs ((fisherParams bg).get i).1 ((fisherParams bg).get j).1 e|
      ≤ K * h * ((x :: xs).getLast (by simp) - x) / 2 := by
  have e1 : missing dOmega ((fisherParams bg).get i).1 * missing dOmega ((fisherParams bg).get j).1
        * (fisherMatrix (x :: xs) phiS bg dOmega aeff tobs).mat i j
      = trapz (x :: xs) (infoDensity phiS bg dOmega aeff tobs ((fisherParams bg).get i).1 ((fisherParams bg).get j).1) := by
    show _ * element (x :: xs) phiS bg dOmega aeff tobs ((fisherParams bg).get j).1 ((fisherParams bg).get i).1 = _
    unfold element infoDensity dphi missing
    rw [← trapz_smul]
    refine trapz_congr fun e _ => ?_
    simp only []
    have : ∀ c a b d : ℝ, c * a * (c * b) / (c * d) = b * a / d * c := by
      intro c a b d
      by_cases hc : c = 0
      · simp [hc]
      rw [show c * a * (c * b) = c * (b * a * c) by ring, mul_div_mul_left _ _ hc]
      ring
    rw [this]
    by_cases k1 : ((fisherParams bg).get i).1 = "rate" <;> by_cases k2 : ((fisherParams bg).get j).1 = "rate" <;>
      simp only [k1, k2, if_true, if_false] <;> ring
  rw [e1]
  exact trapz_error hs hK

/-- The information on the rate itself: squared signal counts over background counts, nothing missing. -/
theorem rate_accuracy (x : ℝ) (xs : List ℝ) (h : ℝ) (hs : Steps h (x :: xs)) (phiS : ℝ → ℝ) (bg : ParamBg)
    (dOmega : ℝ) (aeff : ℝ → ℝ) (tobs : ℝ) (K : NNReal)
    (hK : LipschitzOnWith K (infoDensity phiS bg dOmega aeff tobs "rate" "rate")
      (Icc x ((x :: xs).getLast (by simp)))) :
    |(fisherMatrix (x :: xs) phiS bg dOmega aeff tobs).mat ⟨0, Nat.succ_pos _⟩ ⟨0, Nat.succ_pos _⟩
      - ∫ e in x..(x :: xs).getLast (by simp), infoDensity phiS bg dOmega aeff tobs "rate" "rate" e|
      ≤ K * h * ((x :: xs).getLast (by simp) - x) / 2 := by
  have := fisher_accuracy_partial x xs h hs phiS bg dOmega aeff tobs ⟨0, Nat.succ_pos _⟩ ⟨0, Nat.succ_pos _⟩ K hK
  have hm : missing dOmega ((fisherParams bg).get ⟨0, Nat.succ_pos _⟩).1 = 1 := if_pos rfl
  rw [hm, one_mul, one_mul] at this
  exact this

/-- Without the solid angle the claim fails for background parameters: a constant background of amplitude one,
seen in a solid angle of two.  The entry of the amplitude is 1/2 for every grid from 1 to 2, the information integral 2. -/
theorem background_information_differs (xs : List ℝ) (hlast : ((1 : ℝ) :: xs).getLast (by simp) = 2) :
    (fisherMatrix (1 :: xs) (fun _ => 1) ⟨[("a", 1)], fun _ => 1, fun _ _ => 1⟩ 2 (fun _ => 1) 1).mat
        ⟨1, by norm_num [fisherMatrix, fisherParams]; decide⟩ ⟨1, by norm_num [fisherMatrix, fisherParams]; decide⟩ = 1 / 2
    ∧ (∫ e in (1 : ℝ)..2, infoDensity (fun _ => 1) ⟨[("a", 1)], fun _ => 1, fun _ _ => 1⟩ 2 (fun _ => 1) 1 "a" "a" e)
        = 2 := by
  constructor
  · show element (1 :: xs) (fun _ => 1) ⟨[("a", 1)], fun _ => 1, fun _ _ => 1⟩ 2 (fun _ => 1) 1 "a" "a" = 1 / 2
    have h1 : ∀ (x : ℝ) (xs : List ℝ), trapz (x :: xs) (fun _ => 1) = (x :: xs).getLast (by simp) - x := by
      intro x xs
      induction xs generalizing x with
      | nil => simp [trapz]
      | cons y ys ih =>
        have hl : (x :: y :: ys).getLast (by simp) = (y :: ys).getLast (by simp) := List.getLast_cons (by simp)
        rw [trapz, ih, hl]
        ring
    have h2 : element (1 :: xs) (fun _ => 1) ⟨[("a", 1)], fun _ => 1, fun _ _ => 1⟩ 2 (fun _ => 1) 1 "a" "a"
        = 1 / 2 * trapz (1 :: xs) (fun _ => 1) := by
      rw [← trapz_smul]
      unfold element dphi
      refine trapz_congr fun e _ => ?_
      rw [if_neg (by decide)]
      norm_num
    rw [h2, h1, hlast]
    norm_num
  · have : ∀ e, infoDensity (fun _ => 1) ⟨[("a", 1)], fun _ => 1, fun _ _ => 1⟩ 2 (fun _ => 1) 1 "a" "a" e = 2 := by
      intro e
      simp only [infoDensity, if_neg (by decide : ¬ "a" = "rate")]
      norm_num
    simp only [this]
    norm_num

/-- With ever finer grids of the same range the information on the rate converges to the information integral. -/
theorem rate_converges (a b : ℝ) (grids : ℕ → List ℝ) (h : ℕ → ℝ)
    (hg : ∀ n, Steps (h n) (a :: grids n)) (hlast : ∀ n, (a :: grids n).getLast (by simp) = b)
    (hh : Filter.Tendsto h Filter.atTop (nhds 0)) (phiS : ℝ → ℝ) (bg : ParamBg)
    (dOmega : ℝ) (aeff : ℝ → ℝ) (tobs : ℝ) (K : NNReal)
    (hK : LipschitzOnWith K (infoDensity phiS bg dOmega aeff tobs "rate" "rate") (Icc a b)) :
    Filter.Tendsto
      (fun n => (fisherMatrix (a :: grids n) phiS bg dOmega aeff tobs).mat ⟨0, Nat.succ_pos _⟩ ⟨0, Nat.succ_pos _⟩)
      Filter.atTop (nhds (∫ e in a..b, infoDensity phiS bg dOmega aeff tobs "rate" "rate" e)) := by
  rw [tendsto_iff_dist_tendsto_zero]
  refine squeeze_zero (g := fun n => K * h n * (b - a) / 2) (fun _ => dist_nonneg) (fun n => ?_) ?_
  · have := rate_accuracy a (grids n) (h n) (hg n) phiS bg dOmega aeff tobs K (by rw [hlast]; exact hK)
    rw [hlast] at this
    exact this
  · have := ((hh.const_mul (K : ℝ)).mul_const (b - a)).div_const 2
    simpa using this

/-- A background falling off like `1/e` and a signal constant in energy on three energies. -/
example :
    |(fisherMatrix [1, 2, 3] (fun _ => 1) ⟨[], fun e => 1 / e, fun _ _ => 0⟩ 1 (fun _ => 1) 1).mat
        ⟨0, Nat.succ_pos _⟩ ⟨0, Nat.succ_pos _⟩ - ∫ e in (1 : ℝ)..3, e| ≤ 1 := by
  have hd : infoDensity (fun _ => 1) ⟨[], fun e => 1 / e, fun _ _ => 0⟩ 1 (fun _ => 1) 1 "rate" "rate" = fun e => e := by
    funext e
    simp [infoDensity]
  have := rate_accuracy 1 [2, 3] 1 (by norm_num [Steps]) (fun _ => 1) ⟨[], fun e => 1 / e, fun _ _ => 0⟩ 1 (fun _ => 1) 1
    1 (by rw [hd]; exact LipschitzWith.id.lipschitzOnWith)
  have h3 : ([1, 2, 3] : List ℝ).getLast (by simp) = 3 := rfl
  rw [h3, hd] at this
  calc _ ≤ _ := this
    _ = 1 := by norm_num

end Hazma.Fisher
