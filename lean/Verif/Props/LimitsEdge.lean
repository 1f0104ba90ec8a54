import Verif.Props.Limits
import Verif.Props.LimitsApi

/-!
# Gamma-ray limits at the edges (C316, C269)

Windows without signal or without background, and the default significance of the telescopes.
-/

namespace Hazma.Limits

/-- Once an entry is `+∞`, so is the maximum. -/
theorem nanmax_pinf (l : List XReal) (h : XReal.pinf ∈ l) : nanmax l = .pinf := by
  induction l with
  | nil => simp at h
  | cons a t ih =>
    show nanmax2 a (nanmax t) = .pinf
    rcases List.mem_cons.mp h with h | h
    · subst h
      cases nanmax t <;> rfl
    · rw [ih h]
      cases a <;> rfl

/-- Nothing but NaN gives NaN. -/
theorem nanmax_nan (l : List XReal) (h : ∀ x ∈ l, x = .nan) : nanmax l = .nan := by
  induction l with
  | nil => rfl
  | cons a t ih =>
    show nanmax2 a (nanmax t) = .nan
    rw [h a (by simp), ih fun x hx => h x (by simp [hx])]
    rfl

/-- The limit on a strictly increasing grid of at least two energies. -/
theorem unbinned_eq (kind : Kind) (mx J dw tObs n : ℝ) (iS iB : ℝ → ℝ → ℝ) (grid : List ℝ)
    (hlen : 2 ≤ grid.length) (hgrid : grid.Pairwise (· < ·)) :
    unbinnedLimit kind mx J dw tObs n iS iB grid
      = .ok (divX (unbinnedPrefactor kind mx J dw tObs * n)
          (nanmax ((windows grid).map fun w => snr (iS w.1 w.2) (iB w.1 w.2)))) := by
  have hwne : windows grid ≠ [] := by
    have : (grid[0], grid[1]) ∈ windows grid :=
      mem_windows.mpr ⟨0, 1, by omega, by omega, by omega, rfl, rfl⟩
    exact List.ne_nil_of_mem this
  have hany : (windows grid).any (fun w => decide (¬ w.1 < w.2)) = false := by
    rw [List.any_eq_false]
    rintro ⟨a, b⟩ hab
    obtain ⟨i, j, hi, hj, hij, rfl, rfl⟩ := mem_windows.mp hab
    simpa using List.pairwise_iff_getElem.mp hgrid i j hi hj hij
  have : (windows grid).isEmpty = false := by simpa using hwne
  unfold unbinnedLimit
  simp only [hany, this]
  rfl

theorem prefactor_pos (kind : Kind) {mx J dw tObs : ℝ} (hmx : 0 < mx) (hJ : 0 < J) (hdw : 0 < dw)
    (ht : 0 < tObs) : 0 < unbinnedPrefactor kind mx J dw tObs := by
  have hpi := Real.pi_pos
  have hsq : 0 < Real.sqrt (tObs * dw) := Real.sqrt_pos.mpr (mul_pos ht hdw)
  unfold unbinnedPrefactor
  cases kind <;> positivity

/-- **C316.** A model without photons in any window is not constrained: the limit is `+∞`. -/
theorem unbinned_limit_no_signal (kind : Kind) (mx J dw tObs n : ℝ) (iS iB : ℝ → ℝ → ℝ)
    (grid : List ℝ) (hmx : 0 < mx) (hJ : 0 < J) (hdw : 0 < dw) (ht : 0 < tObs) (hn : 0 < n)
    (hlen : 2 ≤ grid.length) (hgrid : grid.Pairwise (· < ·))
    (hB : ∀ (i j) (hi : i < grid.length) (hj : j < grid.length), i < j → 0 < iB grid[i] grid[j])
    (hS : ∀ (i j) (hi : i < grid.length) (hj : j < grid.length), i < j → iS grid[i] grid[j] = 0) :
    unbinnedLimit kind mx J dw tObs n iS iB grid = .ok .pinf := by
  rw [unbinned_eq kind mx J dw tObs n iS iB grid hlen hgrid]
  have hsnr : ((windows grid).map fun w => snr (iS w.1 w.2) (iB w.1 w.2))
      = ((windows grid).map fun _ => (0 : ℝ)).map XReal.num := by
    rw [List.map_map]
    apply List.map_congr_left
    rintro ⟨a, b⟩ hab
    obtain ⟨i, j, hi, hj, hij, rfl, rfl⟩ := mem_windows.mp hab
    have := hB i j hi hj hij
    simp only [snr, Function.comp_apply, if_neg (not_lt.mpr this.le), if_neg this.ne', hS i j hi hj hij,
      zero_div]
  obtain ⟨M, hM, hmem, -⟩ := nanmax_num ((windows grid).map fun _ => (0 : ℝ)) (by
    have : (grid[0], grid[1]) ∈ windows grid :=
      mem_windows.mpr ⟨0, 1, by omega, by omega, by omega, rfl, rfl⟩
    simpa using List.ne_nil_of_mem this)
  obtain ⟨w, -, rfl⟩ := List.mem_map.mp hmem
  rw [hsnr, hM]
  simp only [divX, if_true]
  rw [if_pos (mul_pos (prefactor_pos kind hmx hJ hdw ht) hn)]

/-- **C316.** One window with signal and exactly no background makes the limit zero, that is, every rate
is reported as excluded, whatever the exposure, the target and the other windows. -/
theorem unbinned_limit_no_background (kind : Kind) (mx J dw tObs n : ℝ) (iS iB : ℝ → ℝ → ℝ)
    (grid : List ℝ) (hlen : 2 ≤ grid.length) (hgrid : grid.Pairwise (· < ·))
    (h : ∃ (i j : ℕ) (hi : i < grid.length) (hj : j < grid.length), i < j ∧
      iB grid[i] grid[j] = 0 ∧ 0 < iS grid[i] grid[j]) :
    unbinnedLimit kind mx J dw tObs n iS iB grid = .ok (.num 0) := by
  rw [unbinned_eq kind mx J dw tObs n iS iB grid hlen hgrid]
  obtain ⟨i, j, hi, hj, hij, hb, hs⟩ := h
  rw [nanmax_pinf]
  · rfl
  · refine List.mem_map.mpr ⟨(grid[i], grid[j]), mem_windows.mpr ⟨i, j, hi, hj, hij, rfl, rfl⟩, ?_⟩
    simp [snr, hb, hs]

/-- **C316.** Neither signal nor background in any window gives NaN, not an error and not `+∞`. -/
theorem unbinned_limit_nothing (kind : Kind) (mx J dw tObs n : ℝ) (iS iB : ℝ → ℝ → ℝ)
    (grid : List ℝ) (hlen : 2 ≤ grid.length) (hgrid : grid.Pairwise (· < ·))
    (h : ∀ (i j : ℕ) (hi : i < grid.length) (hj : j < grid.length), i < j →
      iB grid[i] grid[j] = 0 ∧ iS grid[i] grid[j] = 0) :
    unbinnedLimit kind mx J dw tObs n iS iB grid = .ok .nan := by
  rw [unbinned_eq kind mx J dw tObs n iS iB grid hlen hgrid, nanmax_nan]
  · rfl
  · intro x hx
    obtain ⟨⟨a, b⟩, hab, rfl⟩ := List.mem_map.mp hx
    obtain ⟨i, j, hi, hj, hij, rfl, rfl⟩ := mem_windows.mp hab
    obtain ⟨h1, h2⟩ := h i j hi hj hij
    simp [snr, h1, h2]

/-- The three outcomes on the energies 1, 2, 4. -/
example : unbinnedLimit .dec 10 1 1 1 5 (fun _ _ => 0) (fun a b => b - a) [1, 2, 4] = .ok .pinf
    ∧ unbinnedLimit .dec 10 1 1 1 5 (fun _ _ => 1) (fun a b => if a = 1 then b - a else 0) [1, 2, 4]
        = .ok (.num 0)
    ∧ unbinnedLimit .dec 10 1 1 1 5 (fun _ _ => 0) (fun _ _ => 0) [1, 2, 4] = .ok .nan := by
  have hg : ([1, 2, 4] : List ℝ).Pairwise (· < ·) := by norm_num
  refine ⟨?_, ?_, ?_⟩
  · exact unbinned_limit_no_signal _ _ _ _ _ _ _ _ _ (by norm_num) (by norm_num) (by norm_num)
      (by norm_num) (by norm_num) (by simp) hg
      (fun i j hi hj hij => sub_pos.mpr (List.pairwise_iff_getElem.mp hg i j hi hj hij))
      (fun _ _ _ _ _ => rfl)
  · exact unbinned_limit_no_background _ _ _ _ _ _ _ _ _ (by simp) hg
      ⟨1, 2, by simp, by simp, by simp, by norm_num, by norm_num⟩
  · exact unbinned_limit_nothing _ _ _ _ _ _ _ _ _ (by simp) hg (fun _ _ _ _ _ => ⟨rfl, rfl⟩)

end Hazma.Limits

namespace Hazma.LimitsApi

open Hazma.Limits

/-- **C269.** What a telescope with default arguments does exclude: when its measurement has no flux, a
finite limit is the rate at which the chi-squared of the predicted fluxes reaches SciPy's critical value for two
standard deviations and as many degrees of freedom as there are bins. -/
theorem telescope_default_two_sigma (ppf : ℝ → ℕ → ℝ) (kind : Kind) (mx J D dw : ℝ)
    (integral : ℝ → ℝ → ℝ) (bins : List Bin) (L : ℝ) (hz : ∀ b ∈ bins, b.flux = 0)
    (hpos : ∀ b ∈ bins, 0 ≤ predictedFlux kind mx J D dw integral 1 b) (hcrit : 0 ≤ ppf 2 bins.length)
    (hL : telescopeConstrain (defaultTelescope bins)
      (some fun m n meth => binnedLimit kind mx ⟨some J, some D, some dw⟩ integral ppf m n meth) = .ok L) :
    chi2At dw (bins.map (predictedFlux kind mx J D dw integral 1)) bins L = ppf 2 bins.length := by
  have hpos' : ∀ p ∈ bins.map (predictedFlux kind mx J D dw integral 1), 0 ≤ p := by
    intro p hp
    obtain ⟨b, hb, rfl⟩ := List.mem_map.mp hp
    exact hpos b hb
  refine (chi2_limit_saturates_partial dw _ bins _ hcrit hz hpos').1 L ?_
  cases kind with
  | other =>
    simp [telescopeConstrain, defaultTelescope, binnedLimit, computeFluxes, dmFluxFactor, bind,
      Except.bind] at hL
  | ann =>
    have e : bins.map (predictedFlux .ann mx J D dw integral 1)
        = bins.map fun b => dw / (4 * Real.pi * mx) * (J / (2 * 2 * mx)) * integral b.eLow b.eHigh := by
      apply List.map_congr_left
      intro b _
      simp only [predictedFlux]
      rw [div_mul_div_comm, one_mul]
      ring_nf
    rw [e]
    simpa [telescopeConstrain, defaultTelescope, binnedLimit, computeFluxes, dmFluxFactor, bind,
      Except.bind, pure, Except.pure] using hL
  | dec =>
    have e : bins.map (predictedFlux .dec mx J D dw integral 1)
        = bins.map fun b => dw / (4 * Real.pi * mx) * D * integral b.eLow b.eHigh := by
      apply List.map_congr_left
      intro b _
      simp only [predictedFlux]
      ring
    rw [e]
    simpa [telescopeConstrain, defaultTelescope, binnedLimit, computeFluxes, dmFluxFactor, bind,
      Except.bind, pure, Except.pure] using hL

/-- One empty bin with unit error and unit flux: with the critical value 4 the limit is 2. -/
example : telescopeConstrain (defaultTelescope [⟨0, 1, 0, 1⟩])
      (some fun m n meth => binnedLimit .ann 1 ⟨some (16 * Real.pi), some 1, some 1⟩ (fun _ _ => 1)
        (fun n _ => n ^ 2) m n meth) = .ok ((2 : ℝ) : WithTop ℝ) := by
  have hpi := Real.pi_ne_zero
  have h1 : (1 : ℝ) / (4 * Real.pi * 1) * (16 * Real.pi / (2 * 2 * 1)) * 1 = 1 := by
    field_simp; norm_num
  have h2 : Real.sqrt (2 ^ 2) = 2 := Real.sqrt_sq (by norm_num)
  simp only [telescopeConstrain, defaultTelescope, binnedLimit, computeFluxes, dmFluxFactor, bind,
    Except.bind, pure, Except.pure, constrainChiSquared, chi2Term, List.map, List.zipWith, List.sum_cons,
    List.sum_nil, h1]
  norm_num [h2]

end Hazma.LimitsApi
