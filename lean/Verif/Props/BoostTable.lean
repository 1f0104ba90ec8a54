import Verif.Model.BoostTable
import Verif.Props.PairwiseSum
import Mathlib.Analysis.SpecialFunctions.Integrals.Basic
import Mathlib.Tactic

/-!
# Boost integral of a table (C18-C20)
-/

namespace Hazma.BoostTable

open Hazma.PairwiseSum MeasureTheory

/-! ## C18 -/

theorem firstAtOrAbove_some {bound : ℝ} {x : List ℝ} {k : ℕ} (hk : k < x.length)
    (hb : bound ≤ at' x k) :
    ∃ i, firstAtOrAbove bound x = some i ∧ i < x.length ∧ bound ≤ at' x i ∧
      ∀ j < i, at' x j < bound := by
  unfold firstAtOrAbove
  cases h : (List.range x.length).find? fun i => decide (bound ≤ at' x i) with
  | none =>
    rw [List.find?_eq_none] at h
    exact absurd hb (by simpa using h k (List.mem_range.mpr hk))
  | some i =>
    rw [List.find?_range_eq_some] at h
    obtain ⟨h1, h2, h3⟩ := h
    refine ⟨i, rfl, List.mem_range.mp h2, by simpa using h1, ?_⟩
    intro j hj
    simpa using h3 j hj

/-- **C18.** Invalid arguments are reported in a fixed order of precedence - velocity, column
lengths, empty table - and for valid ones, sorted or not, the function returns a number: none of
its indexing can fail. -/
theorem boost_integrate_validation (energy beta : ℝ) (x y : List ℝ) :
    (¬ (0 < beta ∧ beta < 1) → boostIntegrate energy beta x y = .error .betaOutOfRange) ∧
    ((0 < beta ∧ beta < 1) → x.length ≠ y.length →
      boostIntegrate energy beta x y = .error .lengthMismatch) ∧
    ((0 < beta ∧ beta < 1) → x = [] → y = [] →
      boostIntegrate energy beta x y = .error .emptyTable) ∧
    ((0 < beta ∧ beta < 1) → x.length = y.length → x ≠ [] →
      ∃ v, boostIntegrate energy beta x y = .ok v) := by
  refine ⟨?_, ?_, ?_, ?_⟩
  · intro h; unfold boostIntegrate; rw [if_pos h]
  · intro h hl; unfold boostIntegrate; rw [if_neg (not_not.mpr h), if_pos hl]
  · rintro h rfl rfl; unfold boostIntegrate; rw [if_neg (not_not.mpr h)]; simp
  · intro h hl hne
    have hpos : 0 < x.length := List.length_pos_iff.mpr hne
    unfold boostIntegrate
    rw [if_neg (not_not.mpr h), if_neg (not_not.mpr hl), if_neg hpos.ne']
    simp only
    set gamma := 1 / Real.sqrt (-beta * beta + 1)
    set lb := energy * gamma * (1 - beta)
    set ub := energy * gamma * (1 + beta)
    split_ifs with h1 h2 h3 h4 h5
    · exact ⟨_, rfl⟩
    · exact ⟨_, rfl⟩
    · simp only
      rw [if_pos ⟨by omega, hpos⟩]
      exact ⟨_, rfl⟩
    · obtain ⟨i, hi, hil, hib, -⟩ := firstAtOrAbove_some (bound := ub) (x := x)
        (k := x.length - 1) (by omega) (not_lt.mp h4)
      simp only [highIndex, hi]
      by_cases ht : |at' x i - ub| > 1e-6
      · rw [if_pos ht]
        by_cases hi0 : i = 0
        · subst hi0
          have : at' x 0 = ub := le_antisymm (not_lt.mp h2) hib
          rw [this] at ht
          norm_num at ht
        · rw [if_neg hi0]
          simp only
          rw [if_pos ⟨by omega, hpos⟩]
          exact ⟨_, rfl⟩
      · rw [if_neg ht]
        simp only
        rw [if_pos ⟨hil, hpos⟩]
        exact ⟨_, rfl⟩
    · obtain ⟨i, hi, hil, hib, -⟩ := firstAtOrAbove_some (bound := lb) (x := x)
        (k := x.length - 1) (by omega) (not_lt.mp h1)
      simp only [lowIndex, hi]
      rw [if_pos ⟨by omega, hil⟩]
      exact ⟨_, rfl⟩
    · obtain ⟨i, hi, hil, hib, -⟩ := firstAtOrAbove_some (bound := lb) (x := x)
        (k := x.length - 1) (by omega) (not_lt.mp h1)
      obtain ⟨j, hj, hjl, hjb, -⟩ := firstAtOrAbove_some (bound := ub) (x := x)
        (k := x.length - 1) (by omega) (not_lt.mp h5)
      simp only [lowIndex, hi, highIndex, hj]
      by_cases ht : |at' x j - ub| > 1e-6
      · rw [if_pos ht]
        by_cases hj0 : j = 0
        · subst hj0
          have : at' x 0 = ub := le_antisymm (not_lt.mp h2) hjb
          rw [this] at ht
          norm_num at ht
        · rw [if_neg hj0]
          simp only
          rw [if_pos ⟨by omega, hil⟩]
          exact ⟨_, rfl⟩
      · rw [if_neg ht]
        simp only
        rw [if_pos ⟨hjl, hil⟩]
        exact ⟨_, rfl⟩

example : ∃ v, boostIntegrate 3 (1 / 2) [1, 2, 5] [1, 1, 1] = .ok v :=
  (boost_integrate_validation 3 (1 / 2) [1, 2, 5] [1, 1, 1]).2.2.2 (by norm_num) rfl (by simp)

/-! ## C19 -/

/-- Specification: Lorentz factor. -/
noncomputable def lorentz (beta : ℝ) : ℝ := 1 / Real.sqrt (1 - beta ^ 2)

/-- Specification: the rest-frame window of a lab energy. -/
noncomputable def winLow (energy beta : ℝ) : ℝ := energy * lorentz beta * (1 - beta)

/-- Specification: the rest-frame window of a lab energy. -/
noncomputable def winHigh (energy beta : ℝ) : ℝ := energy * lorentz beta * (1 + beta)

theorem gamma_eq (beta : ℝ) : 1 / Real.sqrt (-beta * beta + 1) = lorentz beta := by
  unfold lorentz
  rw [show -beta * beta + 1 = 1 - beta ^ 2 by ring]

theorem lorentz_pos {beta : ℝ} (h0 : 0 < beta) (h1 : beta < 1) : 0 < lorentz beta :=
  div_pos one_pos (Real.sqrt_pos.mpr (by nlinarith))

theorem lorentz_sq {beta : ℝ} (h0 : 0 < beta) (h1 : beta < 1) :
    lorentz beta ^ 2 * (1 - beta ^ 2) = 1 := by
  have h : 0 < 1 - beta ^ 2 := by nlinarith
  unfold lorentz
  rw [div_pow, Real.sq_sqrt h.le]
  field_simp

theorem integral_soft {a b c : ℝ} (ha : 0 < a) (hb : 0 < b) :
    ∫ t in a..b, c / t / t = c * (1 / a - 1 / b) := by
  have hmem : ∀ x ∈ Set.uIcc a b, 0 < x := by
    intro x hx
    exact (lt_min ha hb).trans_le hx.1
  have hderiv : ∀ x ∈ Set.uIcc a b, HasDerivAt (fun t : ℝ => -(c * t⁻¹)) (c / x / x) x := by
    intro x hx
    have hx0 := (hmem x hx).ne'
    have h : HasDerivAt (fun t : ℝ => -(c * t⁻¹)) (-(c * -(x ^ 2)⁻¹)) x :=
      ((hasDerivAt_inv hx0).const_mul c).neg
    have he : c / x / x = -(c * -(x ^ 2)⁻¹) := by
      rw [div_div, ← pow_two]; ring
    rw [he]; exact h
  rw [intervalIntegral.integral_eq_sub_of_hasDerivAt hderiv]
  · ring
  · apply ContinuousOn.intervalIntegrable
    intro x hx
    have hx0 := (hmem x hx).ne'
    apply ContinuousAt.continuousWithinAt
    fun_prop (disch := assumption)

/-- **C19.** When the whole rest-frame window lies below the table, the result is exactly the boost
integral of the soft-photon extrapolation `y₀ x₀/E`. -/
theorem boost_integrate_below_table (energy beta : ℝ) (x y : List ℝ) (h0 : 0 < beta)
    (h1 : beta < 1) (hE : 0 < energy) (hlen : x.length = y.length) (hne : x ≠ [])
    (hlast : at' x 0 ≤ at' x (x.length - 1)) (hub : winHigh energy beta < at' x 0) :
    boostIntegrate energy beta x y
      = .ok ((∫ t in (winLow energy beta)..(winHigh energy beta), at' y 0 * at' x 0 / t / t)
          / (2 * lorentz beta * beta)) := by
  have hg := lorentz_pos h0 h1
  have hgs := lorentz_sq h0 h1
  have hpos : 0 < x.length := List.length_pos_iff.mpr hne
  have hlo : 0 < winLow energy beta := by
    unfold winLow; have : 0 < 1 - beta := by linarith
    positivity
  have hhi : 0 < winHigh energy beta := by unfold winHigh; positivity
  have hlh : winLow energy beta < winHigh energy beta := by
    unfold winLow winHigh
    have : 0 < energy * lorentz beta := by positivity
    nlinarith
  unfold boostIntegrate
  rw [if_neg (not_not.mpr ⟨h0, h1⟩), if_neg (not_not.mpr hlen), if_neg hpos.ne']
  simp only [gamma_eq]
  rw [show energy * lorentz beta * (1 - beta) = winLow energy beta from rfl,
    show energy * lorentz beta * (1 + beta) = winHigh energy beta from rfl]
  rw [if_neg (not_lt.mpr (by linarith)), if_pos hub, integral_soft hlo hhi]
  congr 1
  unfold winLow winHigh
  have hb1 : (0 : ℝ) < 1 - beta := by linarith
  have hb2 : (0 : ℝ) < 1 + beta := by linarith
  have key : 1 / (energy * lorentz beta * (1 - beta)) - 1 / (energy * lorentz beta * (1 + beta))
      = 2 * lorentz beta * beta / energy := by
    have : 1 / (energy * lorentz beta * (1 - beta)) - 1 / (energy * lorentz beta * (1 + beta))
        = 2 * beta / (energy * lorentz beta * (1 - beta ^ 2)) := by
      have : (1 : ℝ) - beta ^ 2 = (1 - beta) * (1 + beta) := by ring
      rw [this]
      field_simp
      ring
    rw [this, div_eq_div_iff (by
      have : 0 < 1 - beta ^ 2 := by nlinarith
      positivity) hE.ne']
    calc 2 * beta * energy = 2 * beta * energy * (lorentz beta ^ 2 * (1 - beta ^ 2)) := by
          rw [hgs, mul_one]
      _ = _ := by ring
  rw [key]
  field_simp

/-- **C19.** When the window lies above the table, the result is zero. -/
theorem boost_integrate_above_table (energy beta : ℝ) (x y : List ℝ) (h0 : 0 < beta)
    (h1 : beta < 1) (hlen : x.length = y.length) (hne : x ≠ [])
    (hlb : at' x (x.length - 1) < winLow energy beta) :
    boostIntegrate energy beta x y = .ok 0 := by
  have hpos : 0 < x.length := List.length_pos_iff.mpr hne
  unfold boostIntegrate
  rw [if_neg (not_not.mpr ⟨h0, h1⟩), if_neg (not_not.mpr hlen), if_neg hpos.ne']
  simp only [gamma_eq]
  rw [show energy * lorentz beta * (1 - beta) = winLow energy beta from rfl, if_pos hlb]

theorem lorentz_three_fifths : lorentz (3 / 5) = 5 / 4 := by
  unfold lorentz
  rw [show (1 : ℝ) - (3 / 5) ^ 2 = (4 / 5) ^ 2 by norm_num, Real.sqrt_sq (by norm_num)]
  norm_num

/-- Concrete case: energy 1 with window `[1/2, 2]` below a table starting at 10. -/
example : boostIntegrate 1 (3 / 5) [10, 20] [7, 7] = .ok 70 := by
  have hhi : winHigh 1 (3 / 5) = 2 := by unfold winHigh; rw [lorentz_three_fifths]; norm_num
  have hlo : winLow 1 (3 / 5) = 1 / 2 := by unfold winLow; rw [lorentz_three_fifths]; norm_num
  rw [boost_integrate_below_table 1 (3 / 5) [10, 20] [7, 7] (by norm_num) (by norm_num)
    (by norm_num) rfl (by simp) (by norm_num [at']) (by rw [hhi]; norm_num [at'])]
  rw [integral_soft (by rw [hlo]; norm_num) (by rw [hhi]; norm_num), hhi, hlo,
    lorentz_three_fifths]
  norm_num [at']

/-! ## C20 -/

/-- Specification: `L` is the piecewise-linear interpolant of `y/x` on the table. -/
def IsInterpolant (x y : List ℝ) (L : ℝ → ℝ) : Prop :=
  ∀ j, j + 1 < x.length → ∀ t ∈ Set.Icc (at' x j) (at' x (j + 1)),
    L t = at' y j / at' x j + (at' y (j + 1) / at' x (j + 1) - at' y j / at' x j)
      * ((t - at' x j) / (at' x (j + 1) - at' x j))

/-- Specification: strictly increasing table. -/
def Ascending (x : List ℝ) : Prop := ∀ i j, i < j → j < x.length → at' x i < at' x j

/-- Specification: a bound either is a node or is further than the code's tolerance from every
node. -/
def Resolved (x : List ℝ) (t : ℝ) : Prop :=
  ∀ i, i < x.length → t = at' x i ∨ |at' x i - t| > 1e-6

theorem interpolant_affine {x y : List ℝ} {L : ℝ → ℝ} (hL : IsInterpolant x y L) {j : ℕ}
    (hj : j + 1 < x.length) {t : ℝ} (ht : t ∈ Set.Icc (at' x j) (at' x (j + 1))) :
    L t = (ratio x y (j + 1) - ratio x y j) / (at' x (j + 1) - at' x j) * t
      + (-((ratio x y (j + 1) - ratio x y j) / (at' x (j + 1) - at' x j)) * at' x j
        + ratio x y j) := by
  rw [hL j hj t ht]
  unfold ratio
  ring

theorem cell_integral {x y : List ℝ} {L : ℝ → ℝ} (hL : IsInterpolant x y L) {j : ℕ}
    (hj : j + 1 < x.length) {s t : ℝ} (hs : at' x j ≤ s) (hst : s ≤ t) (ht : t ≤ at' x (j + 1)) :
    IntervalIntegrable L volume s t ∧
    ∫ u in s..t, L u = (t - s) * (0.5 * ((ratio x y (j + 1) - ratio x y j)
        / (at' x (j + 1) - at' x j)) * (t + s)
      + (-((ratio x y (j + 1) - ratio x y j) / (at' x (j + 1) - at' x j)) * at' x j
        + ratio x y j)) := by
  set m := (ratio x y (j + 1) - ratio x y j) / (at' x (j + 1) - at' x j)
  set b := -m * at' x j + ratio x y j
  have heq : ∀ u ∈ Set.uIcc s t, L u = m * u + b := by
    intro u hu
    rw [Set.uIcc_of_le hst] at hu
    exact interpolant_affine hL hj ⟨hs.trans hu.1, hu.2.trans ht⟩
  constructor
  · apply ContinuousOn.intervalIntegrable
    apply ContinuousOn.congr (f := fun u => m * u + b)
    · fun_prop
    · exact heq
  · rw [intervalIntegral.integral_congr heq, intervalIntegral.integral_add
      (by apply Continuous.intervalIntegrable; fun_prop)
      (by apply Continuous.intervalIntegrable; fun_prop),
      intervalIntegral.integral_const_mul, integral_id, intervalIntegral.integral_const,
      smul_eq_mul]
    ring

/-- The trapezoid of one full cell. -/
noncomputable def cell (x y : List ℝ) (i : ℕ) : ℝ :=
  ((at' x (i + 1) - at' x i) * (ratio x y (i + 1) + ratio x y i)) / 2

theorem full_cell_integral {x y : List ℝ} {L : ℝ → ℝ} (hL : IsInterpolant x y L)
    (hx : Ascending x) {j : ℕ} (hj : j + 1 < x.length) :
    IntervalIntegrable L volume (at' x j) (at' x (j + 1)) ∧
    ∫ u in (at' x j)..(at' x (j + 1)), L u = cell x y j := by
  have hlt := hx j (j + 1) (by omega) hj
  obtain ⟨h1, h2⟩ := cell_integral hL hj le_rfl hlt.le le_rfl
  refine ⟨h1, ?_⟩
  rw [h2]
  have : at' x (j + 1) - at' x j ≠ 0 := by linarith
  unfold cell
  field_simp
  ring

theorem node_integral {x y : List ℝ} {L : ℝ → ℝ} (hL : IsInterpolant x y L) (hx : Ascending x)
    (a : ℕ) : ∀ d, a + d < x.length →
    IntervalIntegrable L volume (at' x a) (at' x (a + d)) ∧
    ∫ u in (at' x a)..(at' x (a + d)), L u = ((List.range d).map fun i => cell x y (a + i)).sum
  | 0, _ => by simp
  | d + 1, h => by
    obtain ⟨h1, h2⟩ := node_integral hL hx a d (by omega)
    obtain ⟨h3, h4⟩ := full_cell_integral hL hx (j := a + d) (by omega)
    refine ⟨h1.trans h3, ?_⟩
    rw [← add_assoc, ← intervalIntegral.integral_add_adjacent_intervals h1 h3, h2, h4,
      List.range_succ]
    simp

theorem trapezoid_eq (x y : List ℝ) (a b : ℕ) :
    trapezoid x (ratio x y) a b = ((List.range (b - a - 1)).map fun i => cell x y (a + i)).sum := by
  unfold trapezoid
  split_ifs with h
  · have : b - a - 1 = 0 := by omega
    rw [this]; simp
  · rw [pairwise_sum_eq_sum]
    rfl

/-- The pieces added by the code for bounds `s ≤ t` inside the table, with `a` the first node at or
above `s` and `b` the last node at or below `t`, compared with the true integral. -/
theorem pieces_eq {x y : List ℝ} {L : ℝ → ℝ} (hL : IsInterpolant x y L) (hx : Ascending x)
    {s t : ℝ} (hst : s ≤ t) {a b : ℕ} (ha : a < x.length) (hb : b < x.length)
    (hsa : s ≤ at' x a) (hsa' : ∀ i < a, at' x i < s) (htb : at' x b ≤ t)
    (htb' : ∀ i, b < i → i < x.length → t < at' x i) (hrs : Resolved x s) (hrt : Resolved x t)
    (h0s : at' x 0 ≤ s) (htn : t ≤ at' x (x.length - 1)) :
    (if a < b then trapezoid x (ratio x y) a b else 0) + lowerPartial x y s a
        + upperPartial x y t b
      = (∫ u in s..t, L u)
        + (if a < b then - ∫ u in (at' x (b - 1))..(at' x b), L u
           else if a = b then 0 else ∫ u in (at' x b)..(at' x (b + 1)), L u) := by
  have hab : a ≤ b + 1 := by
    by_contra hcon
    have h1 := hsa' (b + 1) (by omega)
    have h2 := htb' (b + 1) (by omega) (by omega)
    linarith
  have hlow : IntervalIntegrable L volume s (at' x a) ∧
      lowerPartial x y s a = ∫ u in s..(at' x a), L u := by
    unfold lowerPartial
    rcases hrs a ha with h | h
    · rw [if_neg (by rintro ⟨-, h'⟩; rw [h] at h'; norm_num at h'), h]; simp
    · have hapos : a > 0 := by
        by_contra hcon
        have : a = 0 := by omega
        subst this
        have : at' x 0 = s := le_antisymm h0s hsa
        rw [this] at h; norm_num at h
      rw [if_pos ⟨hapos, h⟩]
      obtain ⟨j, rfl⟩ : ∃ j, a = j + 1 := ⟨a - 1, by omega⟩
      obtain ⟨h1, h2⟩ := cell_integral hL ha (hsa' j (by omega)).le hsa le_rfl
      refine ⟨h1, ?_⟩
      rw [h2]
      simp only [Nat.add_sub_cancel]
  have hupp : IntervalIntegrable L volume (at' x b) t ∧
      upperPartial x y t b = ∫ u in (at' x b)..t, L u := by
    unfold upperPartial
    rcases hrt b hb with h | h
    · rw [if_neg (by rintro ⟨-, h'⟩; rw [h] at h'; norm_num at h'), h]; simp
    · have hbn : b < x.length - 1 := by
        by_contra hcon
        have : b = x.length - 1 := by omega
        subst this
        have : at' x (x.length - 1) = t := le_antisymm htb htn
        rw [this] at h; norm_num at h
      rw [if_pos ⟨hbn, by rw [abs_sub_comm]; exact h⟩]
      obtain ⟨h1, h2⟩ := cell_integral hL (show b + 1 < x.length by omega) le_rfl htb
        (htb' (b + 1) (by omega) (by omega)).le
      exact ⟨h1, h2.symm⟩
  rw [hlow.2, hupp.2]
  by_cases hlt : a < b
  · rw [if_pos hlt, if_pos hlt, trapezoid_eq]
    obtain ⟨d, rfl⟩ : ∃ d, b = a + (d + 1) := ⟨b - a - 1, by omega⟩
    obtain ⟨n1, n2⟩ := node_integral hL hx a d (by omega)
    obtain ⟨c1, c2⟩ := full_cell_integral hL hx (j := a + d) (by omega)
    have e1 : a + (d + 1) - a - 1 = d := by omega
    have e2 : a + (d + 1) - 1 = a + d := by omega
    have e3 : a + (d + 1) = a + d + 1 := by omega
    rw [e1, e2, ← n2]
    rw [e3] at hupp ⊢
    rw [← intervalIntegral.integral_add_adjacent_intervals hlow.1
      ((n1.trans c1).trans hupp.1),
      ← intervalIntegral.integral_add_adjacent_intervals (n1.trans c1) hupp.1,
      ← intervalIntegral.integral_add_adjacent_intervals n1 c1]
    ring
  · rw [if_neg hlt, if_neg hlt]
    by_cases heq : a = b
    · subst heq
      rw [if_pos rfl, ← intervalIntegral.integral_add_adjacent_intervals hlow.1 hupp.1]
      ring
    · have hab1 : a = b + 1 := by omega
      subst hab1
      rw [if_neg heq]
      obtain ⟨c1, c2⟩ := full_cell_integral hL hx (j := b) ha
      have hs' : at' x b ≤ s := (hsa' b (by omega)).le
      have ht' : t ≤ at' x (b + 1) := (htb' (b + 1) (by omega) ha).le
      have hI : IntervalIntegrable L volume s t := (cell_integral hL ha hs' hst ht').1
      have hJ : IntervalIntegrable L volume (at' x b) s :=
        (cell_integral hL ha le_rfl hs' (hst.trans ht')).1
      have hK : IntervalIntegrable L volume t (at' x (b + 1)) :=
        (cell_integral hL ha (hs'.trans hst) ht' le_rfl).1
      rw [← intervalIntegral.integral_add_adjacent_intervals hI hK,
        ← intervalIntegral.integral_add_adjacent_intervals hJ hI,
        ← intervalIntegral.integral_add_adjacent_intervals hJ (hI.trans hK),
        ← intervalIntegral.integral_add_adjacent_intervals hI hK]
      ring

/-- The clamped lower bound (specification). -/
noncomputable def clampLow (x : List ℝ) (t : ℝ) : ℝ := max t (at' x 0)

/-- The clamped upper bound (specification). -/
noncomputable def clampHigh (x : List ℝ) (t : ℝ) : ℝ := min t (at' x (x.length - 1))

/-- Specification of the intended result: soft extrapolation below the table, interpolant inside,
nothing above. -/
noncomputable def exactBoost (energy beta : ℝ) (x y : List ℝ) (L : ℝ → ℝ) : ℝ :=
  ((∫ t in (min (winLow energy beta) (at' x 0))..(at' x 0), at' y 0 * at' x 0 / t / t)
    + ∫ t in (clampLow x (winLow energy beta))..(clampHigh x (winHigh energy beta)), L t)
    / (2 * lorentz beta * beta)

/-- **C20 (what the code does).** For every table with positive ascending energies and every window
that meets it and whose bounds are resolved by the tolerance: let `a` be the first node at or above
the window's lower end and `b` the last node at or below its upper end.  The result is the exact
boost integral of the interpolant,
* *minus* the whole cell `[x[b-1], x[b]]` if at least two nodes are inside the window,
* unchanged if exactly one node is inside,
* *plus* the whole cell `[x[b], x[b+1]]` if no node is inside. -/
theorem boost_integrate_value (energy beta : ℝ) (x y : List ℝ) (L : ℝ → ℝ) (h0 : 0 < beta)
    (h1 : beta < 1) (hE : 0 < energy) (hlen : x.length = y.length) (hne : x ≠ [])
    (hx0 : 0 < at' x 0) (hx : Ascending x) (hL : IsInterpolant x y L)
    (hmeet1 : winLow energy beta ≤ at' x (x.length - 1)) (hmeet2 : at' x 0 ≤ winHigh energy beta)
    (hrs : Resolved x (clampLow x (winLow energy beta)))
    (hrt : Resolved x (clampHigh x (winHigh energy beta))) (a b : ℕ)
    (ha : a < x.length) (hb : b < x.length)
    (hsa : clampLow x (winLow energy beta) ≤ at' x a)
    (hsa' : ∀ i < a, at' x i < clampLow x (winLow energy beta))
    (htb : at' x b ≤ clampHigh x (winHigh energy beta))
    (htb' : ∀ i, b < i → i < x.length → clampHigh x (winHigh energy beta) < at' x i) :
    boostIntegrate energy beta x y = .ok (exactBoost energy beta x y L
      + (if a < b then - ∫ u in (at' x (b - 1))..(at' x b), L u
         else if a = b then 0 else ∫ u in (at' x b)..(at' x (b + 1)), L u)
        / (2 * lorentz beta * beta)) := by
  have hg := lorentz_pos h0 h1
  have hpos : 0 < x.length := List.length_pos_iff.mpr hne
  have hlh : winLow energy beta < winHigh energy beta := by
    unfold winLow winHigh
    have : 0 < energy * lorentz beta := by positivity
    nlinarith
  have hlo0 : 0 < winLow energy beta := by
    unfold winLow; have : 0 < 1 - beta := by linarith
    positivity
  have hmono : ∀ i j, i ≤ j → j < x.length → at' x i ≤ at' x j := by
    intro i j hij hj
    rcases hij.eq_or_lt with h | h
    · rw [h]
    · exact (hx i j h hj).le
  have hst : clampLow x (winLow energy beta) ≤ clampHigh x (winHigh energy beta) := by
    unfold clampLow clampHigh
    rw [max_le_iff, le_min_iff, le_min_iff]
    exact ⟨⟨hlh.le, hmeet1⟩, hmeet2, hmono 0 _ (by omega) (by omega)⟩
  have hpieces := pieces_eq hL hx hst ha hb hsa hsa' htb htb' hrs hrt (le_max_right _ _)
    (min_le_right _ _)
  -- the indices found by the scans
  have hlowIdx : (if winLow energy beta < at' x 0 then (.ok 0 : Except BoostError ℕ)
      else lowIndex x (if winLow energy beta < at' x 0 then at' x 0 else winLow energy beta))
      = .ok a := by
    by_cases h : winLow energy beta < at' x 0
    · rw [if_pos h]
      have hc : clampLow x (winLow energy beta) = at' x 0 := max_eq_right h.le
      congr 1
      by_contra hcon
      have := hsa' 0 (by omega)
      rw [hc] at this
      exact lt_irrefl _ this
    · rw [if_neg h, if_neg h]
      have hc : clampLow x (winLow energy beta) = winLow energy beta := max_eq_left (not_lt.mp h)
      rw [hc] at hsa hsa'
      obtain ⟨i, hi, hil, hib, hij⟩ := firstAtOrAbove_some (bound := winLow energy beta) ha hsa
      unfold lowIndex
      rw [hi]
      simp only
      congr 1
      rcases lt_trichotomy i a with hlt | heq | hgt
      · exact absurd (hsa' i hlt) (not_lt.mpr hib)
      · exact heq
      · exact absurd (hij a hgt) (not_lt.mpr hsa)
  have hhighIdx : (if winHigh energy beta > at' x (x.length - 1)
        then (.ok (x.length - 1) : Except BoostError ℕ)
      else highIndex x (if winHigh energy beta > at' x (x.length - 1) then at' x (x.length - 1)
        else winHigh energy beta)) = .ok b := by
    by_cases h : winHigh energy beta > at' x (x.length - 1)
    · rw [if_pos h]
      have hc : clampHigh x (winHigh energy beta) = at' x (x.length - 1) := min_eq_right h.le
      congr 1
      by_contra hcon
      have := htb' (x.length - 1) (by omega) (by omega)
      rw [hc] at this
      exact lt_irrefl _ this
    · rw [if_neg h, if_neg h]
      have hc : clampHigh x (winHigh energy beta) = winHigh energy beta := min_eq_left (not_lt.mp h)
      rw [hc] at htb htb' hrt
      obtain ⟨i, hi, hil, hib, hij⟩ := firstAtOrAbove_some (bound := winHigh energy beta)
        (x := x) (k := x.length - 1) (by omega) (not_lt.mp h)
      unfold highIndex
      rw [hi]
      simp only
      rcases hrt i hil with heq | hgt
      · rw [if_neg (by rw [heq]; norm_num)]
        congr 1
        rcases lt_trichotomy i b with h' | h' | h'
        · have := hx i b h' hb
          linarith
        · exact h'
        · have := htb' i h' hil
          linarith
      · rw [if_pos hgt]
        have hne' : winHigh energy beta ≠ at' x i := by
          rintro heq; rw [heq] at hgt; norm_num at hgt
        have hlt' : winHigh energy beta < at' x i := lt_of_le_of_ne hib hne'
        have hi0 : i ≠ 0 := by
          rintro rfl; linarith
        rw [if_neg hi0]
        congr 1
        have hbi : b < i := by
          by_contra hcon
          have := hmono i b (by omega) hb
          linarith
        by_contra hcon
        have h2 := hij (b + 1) (by omega)
        have h3 := htb' (b + 1) (by omega) (by omega)
        linarith
  unfold boostIntegrate
  rw [if_neg (not_not.mpr ⟨h0, h1⟩), if_neg (not_not.mpr hlen), if_neg hpos.ne']
  simp only [gamma_eq]
  rw [show energy * lorentz beta * (1 - beta) = winLow energy beta from rfl,
    show energy * lorentz beta * (1 + beta) = winHigh energy beta from rfl]
  rw [if_neg (not_lt.mpr hmeet1), if_neg (not_lt.mpr hmeet2), hlowIdx, hhighIdx]
  simp only
  rw [if_pos ⟨hb, ha⟩]
  have hcl : (if winLow energy beta < at' x 0 then at' x 0 else winLow energy beta)
      = clampLow x (winLow energy beta) := by
    unfold clampLow
    split_ifs with h
    · exact (max_eq_right h.le).symm
    · exact (max_eq_left (not_lt.mp h)).symm
  have hch : (if winHigh energy beta > at' x (x.length - 1) then at' x (x.length - 1)
      else winHigh energy beta) = clampHigh x (winHigh energy beta) := by
    unfold clampHigh
    split_ifs with h
    · exact (min_eq_right h.le).symm
    · exact (min_eq_left (not_lt.mp h)).symm
  rw [hcl, hch]
  have htail : (if winLow energy beta < at' x 0 then
        at' y 0 * (1 - (1 - beta) * energy * lorentz beta / at' x 0)
          / ((1 - beta) * energy * lorentz beta / at' x 0) else 0)
      = ∫ t in (min (winLow energy beta) (at' x 0))..(at' x 0), at' y 0 * at' x 0 / t / t := by
    have hw : (1 - beta) * energy * lorentz beta = winLow energy beta := by unfold winLow; ring
    rw [hw]
    split_ifs with h
    · rw [min_eq_left h.le, integral_soft hlo0 hx0]
      field_simp
    · rw [min_eq_right (not_lt.mp h)]; simp
  rw [htail]
  congr 1
  unfold exactBoost
  rw [← add_div]
  congr 1
  linarith [hpieces]

/-- **C20 (partial).** If exactly one table node lies in the (clamped) window, the result is the
exact boost integral.  Missing: zero or at least two nodes, where `boost_integrate_value` shows the
result is off by exactly one cell. -/
theorem boost_integrate_exact_partial (energy beta : ℝ) (x y : List ℝ) (L : ℝ → ℝ) (h0 : 0 < beta)
    (h1 : beta < 1) (hE : 0 < energy) (hlen : x.length = y.length)
    (hx0 : 0 < at' x 0) (hx : Ascending x) (hL : IsInterpolant x y L)
    (hmeet1 : winLow energy beta ≤ at' x (x.length - 1)) (hmeet2 : at' x 0 ≤ winHigh energy beta)
    (hrs : Resolved x (clampLow x (winLow energy beta)))
    (hrt : Resolved x (clampHigh x (winHigh energy beta))) (a : ℕ)
    (ha : a < x.length)
    (hin : at' x a ∈ Set.Icc (clampLow x (winLow energy beta)) (clampHigh x (winHigh energy beta)))
    (honly : ∀ i, i < x.length → at' x i ∈ Set.Icc (clampLow x (winLow energy beta))
      (clampHigh x (winHigh energy beta)) → i = a) :
    boostIntegrate energy beta x y = .ok (exactBoost energy beta x y L) := by
  have hne : x ≠ [] := by rintro rfl; simp at ha
  rw [boost_integrate_value energy beta x y L h0 h1 hE hlen hne hx0 hx hL hmeet1 hmeet2 hrs hrt a a
    ha ha hin.1 ?_ hin.2 ?_]
  · simp
  · intro i hi
    by_contra hcon
    have hi' := hx i a hi ha
    have := honly i (by omega) ⟨not_lt.mp hcon, hi'.le.trans hin.2⟩
    omega
  · intro i hi hil
    by_contra hcon
    have hi' := hx a i hi hil
    have := honly i hil ⟨hin.1.trans hi'.le, not_lt.mp hcon⟩
    omega

/-- **C20 (violated).** The flat table `y/x = 1` at energies 1, 2, 3, 4, boosted with β = 3/5 at
energy 2, has window `[1, 4]`: the exact value is 2, the code returns 4/3. -/
theorem boost_integrate_drops_a_cell :
    boostIntegrate 2 (3 / 5) [1, 2, 3, 4] [1, 2, 3, 4] = .ok (4 / 3) ∧
    exactBoost 2 (3 / 5) [1, 2, 3, 4] [1, 2, 3, 4] (fun _ => 1) = 2 := by
  have hlo : winLow 2 (3 / 5) = 1 := by unfold winLow; rw [lorentz_three_fifths]; norm_num
  have hhi : winHigh 2 (3 / 5) = 4 := by unfold winHigh; rw [lorentz_three_fifths]; norm_num
  have hcl : clampLow [1, 2, 3, 4] (winLow 2 (3 / 5)) = 1 := by
    rw [hlo]; norm_num [clampLow, at']
  have hch : clampHigh [1, 2, 3, 4] (winHigh 2 (3 / 5)) = 4 := by
    rw [hhi]; norm_num [clampHigh, at']
  have hex : exactBoost 2 (3 / 5) [1, 2, 3, 4] [1, 2, 3, 4] (fun _ => 1) = 2 := by
    unfold exactBoost
    rw [hcl, hch, hlo, lorentz_three_fifths]
    norm_num [at']
  refine ⟨?_, hex⟩
  rw [boost_integrate_value 2 (3 / 5) [1, 2, 3, 4] [1, 2, 3, 4] (fun _ => 1) (by norm_num)
    (by norm_num) (by norm_num) rfl (by simp) (by norm_num [at']) ?_ ?_
    (by rw [hlo]; norm_num [at']) (by rw [hhi]; norm_num [at']) ?_ ?_ 0 3 (by simp) (by simp)
    (by rw [hcl]; norm_num [at']) (by intro i hi; omega) (by rw [hch]; norm_num [at']) ?_, hex,
    lorentz_three_fifths]
  · norm_num [at']
  · intro i j hij hj
    simp only [List.length_cons, List.length_nil] at hj
    interval_cases j <;> interval_cases i <;> norm_num [at']
  · intro j hj t _
    simp only [List.length_cons, List.length_nil] at hj
    have : j < 3 := by omega
    interval_cases j <;> norm_num [at']
  · intro i hi
    rw [hcl]
    simp only [List.length_cons, List.length_nil] at hi
    interval_cases i <;> norm_num [at', abs_of_pos]
  · intro i hi
    rw [hch]
    simp only [List.length_cons, List.length_nil] at hi
    interval_cases i <;> norm_num [at', abs_of_neg]
  · intro i hi hil
    simp only [List.length_cons, List.length_nil] at hil
    omega

end Hazma.BoostTable
