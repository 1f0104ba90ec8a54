import Verif.Model.Limits
import Mathlib.Tactic

/-!
# Limits from gamma-ray data (C09-C12)
-/

namespace Hazma.Limits

/-! ## C09 -/

/-- Specification: the flux predicted in a bin at rate `sv` (dark matter that is not
self-conjugate), `dΩ J/(16 π m²) ⟨σv⟩ ∫dN/dE` for annihilation, `dΩ D/(4 π m) Γ ∫dN/dE` for
decay. -/
noncomputable def predictedFlux (kind : Kind) (mx J D dw : ℝ) (integral : ℝ → ℝ → ℝ) (sv : ℝ)
    (b : Bin) : ℝ :=
  match kind with
  | .ann => sv * (dw * J / (16 * Real.pi * mx ^ 2)) * integral b.eLow b.eHigh
  | _ => sv * (dw * D / (4 * Real.pi * mx)) * integral b.eLow b.eHigh

/-- Specification: the largest flux tolerated in a bin at `n` standard deviations. -/
noncomputable def toleratedFlux (dw n : ℝ) (b : Bin) : ℝ :=
  dw * (b.eHigh - b.eLow) * (b.flux + n * b.upperErr)

theorem foldl_min_le (l : List (WithTop ℝ)) (x : WithTop ℝ) :
    l.foldl min x ≤ x ∧ (∀ y ∈ l, l.foldl min x ≤ y) ∧ (l.foldl min x = x ∨ l.foldl min x ∈ l) := by
  induction l generalizing x with
  | nil => simp
  | cons a l ih =>
    obtain ⟨h1, h2, h3⟩ := ih (min x a)
    simp only [List.foldl_cons]
    refine ⟨h1.trans (min_le_left _ _), ?_, ?_⟩
    · intro y hy
      rcases List.mem_cons.mp hy with rfl | hy
      · exact h1.trans (min_le_right _ _)
      · exact h2 y hy
    · rcases h3 with h3 | h3
      · rcases min_choice x a with hm | hm
        · left; rw [h3, hm]
        · right; rw [h3, hm]; exact List.mem_cons_self
      · right; exact List.mem_cons_of_mem _ h3

theorem npMin_spec (l : List (WithTop ℝ)) (hl : l ≠ []) :
    ∃ m, npMin l = .ok m ∧ m ∈ l ∧ ∀ y ∈ l, m ≤ y := by
  cases l with
  | nil => exact absurd rfl hl
  | cons x xs =>
    obtain ⟨h1, h2, h3⟩ := foldl_min_le xs x
    refine ⟨_, rfl, ?_, ?_⟩
    · rcases h3 with h | h
      · rw [h]; exact List.mem_cons_self
      · exact List.mem_cons_of_mem _ h
    · intro y hy
      rcases List.mem_cons.mp hy with rfl | hy
      · exact h1
      · exact h2 y hy

theorem dmFluxFactor_eq (kind : Kind) (hk : kind ≠ .other) (mx J D dw : ℝ)
    (integral : ℝ → ℝ → ℝ) :
    ∃ factor, dmFluxFactor kind mx ⟨some J, some D, some dw⟩ = .ok factor ∧
      ∀ sv b, predictedFlux kind mx J D dw integral sv b
        = sv * (factor * integral b.eLow b.eHigh) := by
  cases kind with
  | ann =>
    refine ⟨_, rfl, ?_⟩
    intro sv b
    simp only [predictedFlux]
    have : dw / (4 * Real.pi * mx) * (J / (2 * 2 * mx)) = dw * J / (16 * Real.pi * mx ^ 2) := by
      rw [div_mul_div_comm]; ring_nf
    rw [this]; ring
  | dec =>
    refine ⟨_, rfl, ?_⟩
    intro sv b
    simp only [predictedFlux]
    have : dw / (4 * Real.pi * mx) * D = dw * D / (4 * Real.pi * mx) := by ring
    rw [this]; ring
  | other => exact absurd rfl hk

theorem binnedLimit_oneBin_eq (kind : Kind) (mx : ℝ) (t : Target) (integral : ℝ → ℝ → ℝ)
    (ppf : ℝ → ℕ → ℝ) (bins : List Bin) (n dw factor : ℝ) (ht : t.dOmega = some dw)
    (hf : dmFluxFactor kind mx t = .ok factor) :
    binnedLimit kind mx t integral ppf bins n .oneBin
      = npMin (bins.map fun b => oneBinLimit dw n (factor * integral b.eLow b.eHigh) b) := by
  unfold binnedLimit computeFluxes
  rw [hf, ht]
  simp only [bind, Except.bind, pure, Except.pure, constrainOneBin]
  congr 1
  rw [List.zipWith_map_left]
  induction bins with
  | nil => rfl
  | cons b bs ih => simp

/-- **C09.** For any bins with non-negative tolerated flux, the `"1bin"` limit `L` is exactly the
largest allowed rate: a rate `sv ≥ 0` is at most `L` iff no bin's predicted flux exceeds its
tolerated flux; `L ≥ 0`; `L` is infinite iff no bin predicts a signal, and otherwise some bin is
saturated at `L`. -/
theorem one_bin_limit_is_largest_allowed_rate (kind : Kind) (hk : kind ≠ .other)
    (mx J D dw n : ℝ) (integral : ℝ → ℝ → ℝ) (ppf : ℝ → ℕ → ℝ) (bins : List Bin)
    (hne : bins ≠ []) (htol : ∀ b ∈ bins, 0 ≤ toleratedFlux dw n b) :
    ∃ L, binnedLimit kind mx ⟨some J, some D, some dw⟩ integral ppf bins n .oneBin = .ok L ∧
      (∀ sv : ℝ, 0 ≤ sv → ((sv : WithTop ℝ) ≤ L ↔
        ∀ b ∈ bins, predictedFlux kind mx J D dw integral sv b ≤ toleratedFlux dw n b)) ∧
      (0 ≤ L) ∧
      (L = ⊤ ↔ ∀ b ∈ bins, predictedFlux kind mx J D dw integral 1 b ≤ 0) ∧
      (∀ x : ℝ, L = x → ∃ b ∈ bins, 0 < predictedFlux kind mx J D dw integral 1 b ∧
        predictedFlux kind mx J D dw integral x b = toleratedFlux dw n b) := by
  obtain ⟨factor, hf, hp⟩ := dmFluxFactor_eq kind hk mx J D dw integral
  rw [binnedLimit_oneBin_eq kind mx _ integral ppf bins n dw factor rfl hf]
  obtain ⟨L, hL, hmem, hmin⟩ := npMin_spec
    (bins.map fun b => oneBinLimit dw n (factor * integral b.eLow b.eHigh) b) (by simpa using hne)
  have hval : ∀ b, oneBinLimit dw n (factor * integral b.eLow b.eHigh) b
      = if 0 < predictedFlux kind mx J D dw integral 1 b then
          ((toleratedFlux dw n b / predictedFlux kind mx J D dw integral 1 b : ℝ) : WithTop ℝ)
        else ⊤ := by
    intro b
    simp only [oneBinLimit, hp 1 b, one_mul, toleratedFlux]
  have hsv : ∀ sv b, predictedFlux kind mx J D dw integral sv b
      = sv * predictedFlux kind mx J D dw integral 1 b := by
    intro sv b; rw [hp sv b, hp 1 b, one_mul]
  have hbin : ∀ b ∈ bins, ∀ sv : ℝ, 0 ≤ sv →
      (((sv : ℝ) : WithTop ℝ) ≤ oneBinLimit dw n (factor * integral b.eLow b.eHigh) b ↔
        predictedFlux kind mx J D dw integral sv b ≤ toleratedFlux dw n b) := by
    intro b hb sv h0
    rw [hval b, hsv sv b]
    split_ifs with hpos
    · rw [WithTop.coe_le_coe, le_div_iff₀ hpos]
    · simp only [le_top, true_iff]
      exact (mul_nonpos_of_nonneg_of_nonpos h0 (not_lt.mp hpos)).trans (htol b hb)
  refine ⟨L, hL, ?_, ?_, ?_, ?_⟩
  · intro sv h0
    constructor
    · intro hle b hb
      exact (hbin b hb sv h0).mp (hle.trans (hmin _ (List.mem_map.mpr ⟨b, hb, rfl⟩)))
    · intro hall
      obtain ⟨b, hb, rfl⟩ := List.mem_map.mp hmem
      exact (hbin b hb sv h0).mpr (hall b hb)
  · obtain ⟨b, hb, rfl⟩ := List.mem_map.mp hmem
    rw [hval b]
    split_ifs with hpos
    · exact_mod_cast div_nonneg (htol b hb) hpos.le
    · exact le_top
  · constructor
    · rintro rfl b hb
      by_contra hcon
      have := hmin _ (List.mem_map.mpr ⟨b, hb, rfl⟩)
      rw [hval b, if_pos (not_le.mp hcon)] at this
      exact absurd this (by simp)
    · intro hall
      obtain ⟨b, hb, rfl⟩ := List.mem_map.mp hmem
      rw [hval b, if_neg (not_lt.mpr (hall b hb))]
  · intro x hx
    obtain ⟨b, hb, hbL⟩ := List.mem_map.mp hmem
    rw [hx, hval b] at hbL
    split_ifs at hbL with hpos
    · refine ⟨b, hb, hpos, ?_⟩
      have : toleratedFlux dw n b / predictedFlux kind mx J D dw integral 1 b = x := by
        exact_mod_cast hbL
      rw [hsv x b, ← this, div_mul_cancel₀ _ hpos.ne']
    · exact absurd hbL (by simp)

/-- Concrete case: two bins with 1 photon per decay between them. -/
example : ∃ L, binnedLimit .dec (1 / (4 * Real.pi)) ⟨some 1, some 1, some 1⟩
    (fun a b => b - a) (fun _ _ => 4) [⟨0, 1, 2, 1⟩, ⟨1, 3, 1, 1⟩] 2 .oneBin = .ok L ∧
    ((3 : ℝ) : WithTop ℝ) ≤ L := by
  obtain ⟨L, h, h1, -⟩ := one_bin_limit_is_largest_allowed_rate .dec (by decide)
    (1 / (4 * Real.pi)) 1 1 1 2 (fun a b => b - a) (fun _ _ => 4) [⟨0, 1, 2, 1⟩, ⟨1, 3, 1, 1⟩]
    (by simp) (by intro b hb; simp at hb; rcases hb with rfl | rfl <;> norm_num [toleratedFlux])
  refine ⟨L, h, (h1 3 (by norm_num)).mpr ?_⟩
  have hpi := Real.pi_pos.ne'
  intro b hb
  simp at hb
  rcases hb with rfl | rfl <;> simp only [predictedFlux, toleratedFlux] <;> field_simp <;> norm_num

/-! ## C10 -/

/-- Specification: the one-sided chi-squared of the signal at rate `sv`. -/
noncomputable def chi2At (dw : ℝ) (phi : List ℝ) (bins : List Bin) (sv : ℝ) : ℝ :=
  (List.zipWith (fun p b => (max (sv * p - dw * (b.eHigh - b.eLow) * b.flux) 0) ^ 2
    / (dw * (b.eHigh - b.eLow) * b.upperErr) ^ 2) phi bins).sum

theorem sum_zipWith_mono {f g : ℝ → Bin → ℝ} :
    ∀ (l : List ℝ) (bs : List Bin), (∀ p ∈ l, ∀ b ∈ bs, f p b ≤ g p b) →
      (List.zipWith f l bs).sum ≤ (List.zipWith g l bs).sum
  | [], _, _ => by simp
  | _ :: _, [], _ => by simp
  | p :: l, b :: bs, h => by
    simp only [List.zipWith_cons_cons, List.sum_cons]
    exact add_le_add (h p (by simp) b (by simp))
      (sum_zipWith_mono l bs fun p hp b hb => h p (by simp [hp]) b (by simp [hb]))

/-- **C10.** The chi-squared is monotone in the rate, so every rate above a rate that reaches the
critical value is excluded too. -/
theorem chi2_monotone (dw : ℝ) (phi : List ℝ) (bins : List Bin) (hphi : ∀ p ∈ phi, 0 ≤ p)
    {s t : ℝ} (hst : s ≤ t) : chi2At dw phi bins s ≤ chi2At dw phi bins t := by
  apply sum_zipWith_mono
  intro p hp b _
  have h := mul_le_mul_of_nonneg_right hst (hphi p hp)
  gcongr

theorem sum_zipWith_mul {f : ℝ → Bin → ℝ} {c : ℝ} {g : ℝ → Bin → ℝ} :
    ∀ (l : List ℝ) (bs : List Bin), (∀ p ∈ l, ∀ b ∈ bs, f p b = c * g p b) →
      (List.zipWith f l bs).sum = c * (List.zipWith g l bs).sum
  | [], _, _ => by simp
  | _ :: _, [], _ => by simp
  | p :: l, b :: bs, h => by
    simp only [List.zipWith_cons_cons, List.sum_cons, mul_add]
    rw [h p (by simp) b (by simp),
      sum_zipWith_mul l bs fun p hp b hb => h p (by simp [hp]) b (by simp [hb])]

/-- **C10 (partial).** If the observed flux is zero in every bin, the `"chi2"` limit, when finite,
is the rate at which the chi-squared equals the critical value, and it is infinite exactly when no
rate gives a positive chi-squared.  Missing: non-zero observed fluxes, for which the claim is false
(`chi2_limit_does_not_saturate`, `chi2_limit_infinite_but_excluded`). -/
theorem chi2_limit_saturates_partial (dw : ℝ) (phi : List ℝ) (bins : List Bin) (crit : ℝ)
    (hcrit : 0 ≤ crit) (hobs : ∀ b ∈ bins, b.flux = 0) (hphi : ∀ p ∈ phi, 0 ≤ p) :
    (∀ L : ℝ, constrainChiSquared dw phi bins crit = L → chi2At dw phi bins L = crit) ∧
    (constrainChiSquared dw phi bins crit = ⊤ ↔ ∀ s : ℝ, 0 ≤ s → chi2At dw phi bins s = 0) := by
  have h1 : (List.zipWith (chi2Term dw) phi bins).sum = chi2At dw phi bins 1 := by
    simp only [chi2At, one_mul]; rfl
  have hscale : ∀ s : ℝ, 0 ≤ s → chi2At dw phi bins s = s ^ 2 * chi2At dw phi bins 1 := by
    intro s hs
    apply sum_zipWith_mul
    intro p hp b hb
    rw [hobs b hb]
    have : 0 ≤ s * p := mul_nonneg hs (hphi p hp)
    simp only [mul_zero, sub_zero, one_mul, max_eq_left this, max_eq_left (hphi p hp)]
    ring
  have h0 : 0 ≤ chi2At dw phi bins 1 := by
    apply List.sum_nonneg
    intro x hx
    obtain ⟨i, hi, rfl⟩ := List.mem_iff_getElem.mp hx
    simp only [List.getElem_zipWith]
    positivity
  unfold constrainChiSquared
  simp only [h1]
  refine ⟨?_, ?_⟩
  · intro L hL
    split_ifs at hL with hz
    · exact absurd hL (by simp)
    have hLe : Real.sqrt (crit / chi2At dw phi bins 1) = L := by exact_mod_cast hL
    rw [← hLe, hscale _ (Real.sqrt_nonneg _), Real.sq_sqrt (div_nonneg hcrit h0),
      div_mul_cancel₀ _ hz]
  · constructor
    · intro hL s hs
      split_ifs at hL with hz
      · rw [hscale s hs, hz, mul_zero]
      · exact absurd hL (by simp)
    · intro hall
      rw [if_pos (hall 1 zero_le_one)]

example : constrainChiSquared 1 [3] [⟨0, 1, 0, 1⟩] 9 = ((1 : ℝ) : WithTop ℝ) ∧
    chi2At 1 [3] [⟨0, 1, 0, 1⟩] 1 = 9 := by
  constructor
  · simp only [constrainChiSquared, List.zipWith_cons_cons, List.zipWith_nil_left, chi2Term]
    norm_num
  · simp only [chi2At]; norm_num

/-- **C10 (violated).** One bin with observed flux 1, error 1 and a signal of 2 at unit rate, with
critical value 4: the code returns 2, at which the chi-squared is 9; the rate that reaches 4 is
3/2. -/
theorem chi2_limit_does_not_saturate :
    constrainChiSquared 1 [2] [⟨0, 1, 1, 1⟩] 4 = ((2 : ℝ) : WithTop ℝ) ∧
    chi2At 1 [2] [⟨0, 1, 1, 1⟩] 2 = 9 ∧ chi2At 1 [2] [⟨0, 1, 1, 1⟩] (3 / 2) = 4 := by
  refine ⟨?_, ?_, ?_⟩
  · have h4 : Real.sqrt 4 = 2 := by
      rw [show (4 : ℝ) = 2 ^ 2 by norm_num]; exact Real.sqrt_sq (by norm_num)
    simp only [constrainChiSquared, List.zipWith_cons_cons, List.zipWith_nil_left, chi2Term]
    norm_num [h4]
  · simp only [chi2At]; norm_num
  · simp only [chi2At]; norm_num

/-- **C10 (violated).** A signal that equals the observation at unit rate gives an infinite limit,
although rate 3 has chi-squared 4. -/
theorem chi2_limit_infinite_but_excluded :
    constrainChiSquared 1 [1] [⟨0, 1, 1, 1⟩] 4 = ⊤ ∧ chi2At 1 [1] [⟨0, 1, 1, 1⟩] 3 = 4 := by
  constructor
  · simp only [constrainChiSquared, List.zipWith_cons_cons, List.zipWith_nil_left, chi2Term]
    norm_num
  · simp only [chi2At]; norm_num

/-! ## C11 -/

/-- Specification: `N_S/√N_B` in a window, for effective exposure folded into the integrals
`iS`, `iB`, observation time `tObs` and target solid angle `dw`; the signal is
`σv J/(16 π m²)` (annihilation) or `Γ D/(4 π m)` (decay) times `iS`. -/
noncomputable def significance (kind : Kind) (mx J dw tObs : ℝ) (s b : ℝ) (sv : ℝ) : ℝ :=
  (tObs * dw * (match kind with
    | .ann => sv * J / (16 * Real.pi * mx ^ 2)
    | _ => sv * J / (4 * Real.pi * mx)) * s) / Real.sqrt (tObs * dw * b)

theorem mem_windows {grid : List ℝ} {a b : ℝ} :
    (a, b) ∈ windows grid ↔ ∃ i j, ∃ (hi : i < grid.length) (hj : j < grid.length),
      i < j ∧ grid[i] = a ∧ grid[j] = b := by
  induction grid with
  | nil => simp [windows]
  | cons e rest ih =>
    simp only [windows, List.mem_append, List.mem_map, Prod.mk.injEq, ih]
    constructor
    · rintro (⟨h, hh, rfl, rfl⟩ | ⟨i, j, hi, hj, hij, h1, h2⟩)
      · obtain ⟨j, hj, rfl⟩ := List.mem_iff_getElem.mp hh
        exact ⟨0, j + 1, by simp, by simp [hj], by omega, rfl, by simp⟩
      · exact ⟨i + 1, j + 1, by simp [hi], by simp [hj], by omega, by simpa, by simpa⟩
    · rintro ⟨i, j, hi, hj, hij, h1, h2⟩
      obtain ⟨j, rfl⟩ : ∃ k, j = k + 1 := ⟨j - 1, by omega⟩
      simp only [List.length_cons] at hi hj
      rcases i with _ | i
      · left
        simp only [List.getElem_cons_zero] at h1
        simp only [List.getElem_cons_succ] at h2
        exact ⟨b, h2 ▸ List.getElem_mem _, h1, rfl⟩
      · right
        simp only [List.getElem_cons_succ] at h1 h2
        exact ⟨i, j, by omega, by omega, by omega, h1, h2⟩

theorem nanmax_num (l : List ℝ) (hl : l ≠ []) :
    ∃ m, nanmax (l.map .num) = .num m ∧ m ∈ l ∧ ∀ x ∈ l, x ≤ m := by
  induction l with
  | nil => exact absurd rfl hl
  | cons a l ih =>
    by_cases hl' : l = []
    · subst hl'
      exact ⟨a, rfl, by simp, by simp⟩
    · obtain ⟨m, hm, hmem, hmax⟩ := ih hl'
      refine ⟨max a m, ?_, ?_, ?_⟩
      · simp only [nanmax, List.map_cons, List.foldr_cons] at hm ⊢
        rw [hm]; rfl
      · rcases max_choice a m with h | h <;> rw [h]
        · exact List.mem_cons_self
        · exact List.mem_cons_of_mem _ hmem
      · intro x hx
        rcases List.mem_cons.mp hx with rfl | hx
        · exact le_max_left _ _
        · exact (hmax x hx).trans (le_max_right _ _)

/-- **C11.** On a strictly increasing grid of at least two energies, with positive background in
every window and a signal in some window, the unbinned limit is positive, some window reaches
exactly `nSigma` at the limit, no window exceeds it, and hence no window reaches `nSigma` at any
smaller rate. -/
theorem unbinned_limit_best_window (kind : Kind) (mx J dw tObs n : ℝ) (iS iB : ℝ → ℝ → ℝ)
    (grid : List ℝ) (hmx : 0 < mx) (hJ : 0 < J) (hdw : 0 < dw) (ht : 0 < tObs) (hn : 0 < n)
    (hlen : 2 ≤ grid.length) (hgrid : grid.Pairwise (· < ·))
    (hB : ∀ (i j) (hi : i < grid.length) (hj : j < grid.length), i < j → 0 < iB grid[i] grid[j])
    (hS : ∃ (i j : ℕ) (hi : i < grid.length) (hj : j < grid.length), i < j ∧
      0 < iS grid[i] grid[j]) :
    ∃ sv : ℝ, unbinnedLimit kind mx J dw tObs n iS iB grid = .ok (.num sv) ∧ 0 < sv ∧
      (∃ (i j : ℕ) (hi : i < grid.length) (hj : j < grid.length), i < j ∧
        significance kind mx J dw tObs (iS grid[i] grid[j]) (iB grid[i] grid[j]) sv = n) ∧
      (∀ (i j : ℕ) (hi : i < grid.length) (hj : j < grid.length), i < j →
        significance kind mx J dw tObs (iS grid[i] grid[j]) (iB grid[i] grid[j]) sv ≤ n) ∧
      (∀ sv' : ℝ, 0 ≤ sv' → sv' < sv → ∀ (i j : ℕ) (hi : i < grid.length) (hj : j < grid.length),
        i < j →
        significance kind mx J dw tObs (iS grid[i] grid[j]) (iB grid[i] grid[j]) sv' < n) := by
  set ws := windows grid with hws
  have hwne : ws ≠ [] := by
    have : (grid[0], grid[1]) ∈ ws := mem_windows.mpr ⟨0, 1, by omega, by omega, by omega, rfl, rfl⟩
    exact List.ne_nil_of_mem this
  have hany : ws.any (fun w => decide (¬ w.1 < w.2)) = false := by
    rw [List.any_eq_false]
    rintro ⟨a, b⟩ hab
    obtain ⟨i, j, hi, hj, hij, rfl, rfl⟩ := mem_windows.mp hab
    simpa using List.pairwise_iff_getElem.mp hgrid i j hi hj hij
  have hsnr : (ws.map fun w => snr (iS w.1 w.2) (iB w.1 w.2))
      = (ws.map fun w => iS w.1 w.2 / Real.sqrt (iB w.1 w.2)).map XReal.num := by
    rw [List.map_map]
    apply List.map_congr_left
    rintro ⟨a, b⟩ hab
    obtain ⟨i, j, hi, hj, hij, rfl, rfl⟩ := mem_windows.mp hab
    have := hB i j hi hj hij
    simp only [snr, Function.comp_apply, if_neg (not_lt.mpr this.le), if_neg this.ne']
  obtain ⟨M, hM, hMmem, hMmax⟩ := nanmax_num (ws.map fun w => iS w.1 w.2 / Real.sqrt (iB w.1 w.2))
    (by simpa using hwne)
  have hMw : ∀ (i j : ℕ) (hi : i < grid.length) (hj : j < grid.length), i < j →
      iS grid[i] grid[j] / Real.sqrt (iB grid[i] grid[j]) ≤ M := by
    intro i j hi hj hij
    exact hMmax _ (List.mem_map.mpr ⟨(grid[i], grid[j]),
      mem_windows.mpr ⟨i, j, hi, hj, hij, rfl, rfl⟩, rfl⟩)
  have hMpos : 0 < M := by
    obtain ⟨i, j, hi, hj, hij, hs⟩ := hS
    exact (div_pos hs (Real.sqrt_pos.mpr (hB i j hi hj hij))).trans_le (hMw i j hi hj hij)
  have hpi := Real.pi_pos
  have hsq : 0 < Real.sqrt (tObs * dw) := Real.sqrt_pos.mpr (mul_pos ht hdw)
  have hpre : 0 < unbinnedPrefactor kind mx J dw tObs := by
    unfold unbinnedPrefactor
    cases kind <;> positivity
  -- significance in terms of the prefactor
  have hsig : ∀ s b sv, 0 < b → significance kind mx J dw tObs s b sv
      = sv / unbinnedPrefactor kind mx J dw tObs * (s / Real.sqrt b) := by
    intro s b sv hb
    have hsb : 0 < Real.sqrt b := Real.sqrt_pos.mpr hb
    have hss : Real.sqrt (tObs * dw) * Real.sqrt (tObs * dw) = tObs * dw :=
      Real.mul_self_sqrt (mul_pos ht hdw).le
    have hmain : tObs * dw / Real.sqrt (tObs * dw) = Real.sqrt (tObs * dw) := by
      rw [div_eq_iff hsq.ne', hss]
    unfold significance unbinnedPrefactor
    rw [Real.sqrt_mul (mul_pos ht hdw).le]
    cases kind <;> simp only <;> field_simp <;> rw [Real.sq_sqrt (mul_pos ht hdw).le] <;> ring
  refine ⟨unbinnedPrefactor kind mx J dw tObs * n / M, ?_, by positivity, ?_, ?_, ?_⟩
  · unfold unbinnedLimit
    simp only [← hws]
    rw [hany, hsnr, hM]
    have : ws.isEmpty = false := by simpa using hwne
    simp [this, divX, hMpos.ne']
  · obtain ⟨⟨a, b⟩, hab, hval⟩ := List.mem_map.mp hMmem
    obtain ⟨i, j, hi, hj, hij, rfl, rfl⟩ := mem_windows.mp hab
    refine ⟨i, j, hi, hj, hij, ?_⟩
    rw [hsig _ _ _ (hB i j hi hj hij), hval]
    field_simp
  · intro i j hi hj hij
    rw [hsig _ _ _ (hB i j hi hj hij)]
    have h := hMw i j hi hj hij
    calc unbinnedPrefactor kind mx J dw tObs * n / M / unbinnedPrefactor kind mx J dw tObs
          * (iS grid[i] grid[j] / Real.sqrt (iB grid[i] grid[j]))
        = n / M * (iS grid[i] grid[j] / Real.sqrt (iB grid[i] grid[j])) := by field_simp
      _ ≤ n / M * M := by gcongr
      _ = n := by field_simp
  · intro sv' h0 hlt i j hi hj hij
    rw [hsig _ _ _ (hB i j hi hj hij)]
    have h := hMw i j hi hj hij
    calc sv' / unbinnedPrefactor kind mx J dw tObs
          * (iS grid[i] grid[j] / Real.sqrt (iB grid[i] grid[j]))
        ≤ sv' / unbinnedPrefactor kind mx J dw tObs * M := by gcongr
      _ < unbinnedPrefactor kind mx J dw tObs * n / M / unbinnedPrefactor kind mx J dw tObs * M := by
          gcongr
      _ = n := by field_simp

/-- Concrete case: three grid energies, flat background, rising signal. -/
example : ∃ sv : ℝ, unbinnedLimit .ann 10 1 1 1 5 (fun a b => b ^ 2 - a ^ 2) (fun a b => b - a)
    [1, 2, 4] = .ok (.num sv) ∧ 0 < sv := by
  obtain ⟨sv, h, h0, -⟩ := unbinned_limit_best_window .ann 10 1 1 1 5
    (fun a b => b ^ 2 - a ^ 2) (fun a b => b - a) [1, 2, 4] (by norm_num) (by norm_num)
    (by norm_num) (by norm_num) (by norm_num) (by simp) (by norm_num)
    (by intro i j hi hj hij
        have h : ([1, 2, 4] : List ℝ).Pairwise (· < ·) := by norm_num
        exact sub_pos.mpr (List.pairwise_iff_getElem.mp h i j hi hj hij))
    ⟨0, 1, by simp, by simp, by simp, by norm_num⟩
  exact ⟨sv, h, h0⟩

/-! ## C12 -/

/-- **C12.** The prefactor of the differential signal flux: `dΩ J/(8π m²)` for self-conjugate
annihilating dark matter, half of that if it is not self-conjugate, `dΩ D/(4π m)` for decay
(whatever the self-conjugacy flag), and an error for a missing target factor or an unknown kind. -/
theorem signal_flux_prefactor_conventions (mx J D dw : ℝ) (oJ oD : Option ℝ) :
    signalFluxPrefactor .ann mx ⟨some J, oD, some dw⟩ true
      = .ok (dw * J / (8 * Real.pi * mx ^ 2)) ∧
    signalFluxPrefactor .ann mx ⟨some J, oD, some dw⟩ false
      = .ok (dw * J / (8 * Real.pi * mx ^ 2) / 2) ∧
    (∀ sc, signalFluxPrefactor .dec mx ⟨oJ, some D, some dw⟩ sc
      = .ok (dw * D / (4 * Real.pi * mx))) ∧
    (∀ k sc, signalFluxPrefactor k mx ⟨oJ, oD, none⟩ sc = .error .assertion) ∧
    (∀ sc, signalFluxPrefactor .ann mx ⟨none, oD, some dw⟩ sc = .error .assertion) ∧
    (∀ sc, signalFluxPrefactor .dec mx ⟨oJ, none, some dw⟩ sc = .error .assertion) ∧
    (∀ sc, signalFluxPrefactor .other mx ⟨oJ, oD, some dw⟩ sc = .error .valueError) := by
  refine ⟨?_, ?_, ?_, ?_, ?_, ?_, ?_⟩
  · simp only [signalFluxPrefactor, if_true]
    congr 1
    rw [div_mul_eq_mul_div, div_mul_div_comm]; ring_nf
  · simp only [signalFluxPrefactor, Bool.false_eq_true, if_false]
    congr 1
    rw [div_mul_eq_mul_div, div_mul_div_comm, div_div]; ring_nf
  · intro sc
    simp only [signalFluxPrefactor]
    congr 1
    ring
  · intro k sc; rfl
  · intro sc; rfl
  · intro sc; rfl
  · intro sc; rfl

/-- **C12.** The binned analysis and the Fisher analysis use the same prefactor: the flux factor of
`binned_limit` is the prefactor for dark matter that is not self-conjugate. -/
theorem binned_and_differential_prefactors_agree (kind : Kind) (mx J D dw : ℝ) :
    ∀ x, dmFluxFactor kind mx ⟨some J, some D, some dw⟩ = .ok x →
      signalFluxPrefactor kind mx ⟨some J, some D, some dw⟩ false = .ok x := by
  intro x hx
  cases kind with
  | ann =>
    simp only [dmFluxFactor, Except.ok.injEq] at hx
    simp only [signalFluxPrefactor, Bool.false_eq_true, if_false, Except.ok.injEq, ← hx]
    rw [div_mul_eq_mul_div, div_mul_div_comm, div_mul_div_comm]; ring_nf
  | dec =>
    simp only [dmFluxFactor, Except.ok.injEq] at hx
    simp only [signalFluxPrefactor, Except.ok.injEq, ← hx]
    ring
  | other => simp [dmFluxFactor] at hx

example : ∃ x, dmFluxFactor .ann 100 ⟨some 1e29, some 1e25, some 0.1⟩ = .ok x ∧
    signalFluxPrefactor .ann 100 ⟨some 1e29, some 1e25, some 0.1⟩ false = .ok x :=
  ⟨_, rfl, binned_and_differential_prefactors_agree _ _ _ _ _ _ rfl⟩

end Hazma.Limits
