import Verif.Model.PhaseSpace
import Verif.Props.Rambo
import Mathlib.Tactic

/-!
# Phase-space limits and distributions (C25, C26, C67)
-/

namespace Hazma.PhaseSpace

open Hazma.Rambo

/-! ### C25 -/

/-- The area under a histogram (specification): sum of height times bin width. -/
def area : List ℝ → List ℝ → ℝ
  | h :: hs, a :: b :: es => h * (b - a) + area hs (b :: es)
  | _, _ => 0

theorem binSum_eq_area (ps edges : List ℝ) : binSum ps edges = area ps edges := by
  unfold binSum
  induction ps generalizing edges with
  | nil => cases edges <;> simp [area]
  | cons p ps ih =>
    match edges with
    | [] => simp [area, widths]
    | [a] => simp [area, widths]
    | a :: b :: es =>
      have := ih (b :: es)
      simp only [widths, List.zipWith_cons_cons, List.sum_cons, area]
      rw [this]

theorem area_div (ps edges : List ℝ) (c : ℝ) :
    area (ps.map fun p => p / c) edges = area ps edges / c := by
  induction ps generalizing edges with
  | nil => cases edges <;> simp [area]
  | cons p ps ih =>
    match edges with
    | [] => simp [area]
    | [a] => simp [area]
    | a :: b :: es =>
      simp only [List.map_cons, area, ih]
      ring

theorem area_nonneg {ps edges : List ℝ} (hp : ∀ p ∈ ps, 0 ≤ p) (he : edges.Pairwise (· ≤ ·)) :
    0 ≤ area ps edges := by
  induction ps generalizing edges with
  | nil => cases edges <;> simp [area]
  | cons p ps ih =>
    match edges with
    | [] => simp [area]
    | [a] => simp [area]
    | a :: b :: es =>
      have h1 := hp p (by simp)
      rw [List.pairwise_cons] at he
      have h2 := he.1 b (by simp)
      have h3 := ih (edges := b :: es) (fun q hq => hp q (by simp [hq])) he.2
      simp only [area]
      have : 0 ≤ p * (b - a) := mul_nonneg h1 (by linarith)
      linarith

theorem area_zero_iff {ps edges : List ℝ} (hp : ∀ p ∈ ps, 0 ≤ p) (he : edges.Pairwise (· < ·))
    (hl : edges.length = ps.length + 1) (h : area ps edges ≤ 0) : ∀ p ∈ ps, p = 0 := by
  induction ps generalizing edges with
  | nil => simp
  | cons p ps ih =>
    match edges with
    | [] => simp at hl
    | [a] => simp at hl
    | a :: b :: es =>
      have h1 := hp p (by simp)
      have hq : ∀ q ∈ ps, 0 ≤ q := fun q hq => hp q (by simp [hq])
      rw [List.pairwise_cons] at he
      have h2 := he.1 b (by simp)
      have h3 := area_nonneg hq (he.2.imp le_of_lt)
      simp only [area] at h
      have h4 : 0 ≤ p * (b - a) := mul_nonneg h1 (by linarith)
      have h5 : p * (b - a) = 0 := by linarith
      have h6 : p = 0 := by
        rcases mul_eq_zero.mp h5 with h | h
        · exact h
        · linarith
      have h7 := ih hq he.2 (by simpa using hl) (by linarith)
      intro q hq'
      rcases List.mem_cons.mp hq' with rfl | hq'
      · exact h6
      · exact h7 q hq'

/-- **C25.** For any non-empty histogram: if its area is positive the result is the same shape
scaled to area one; if the area is not positive, the result is all NaN when some height is negative,
and the unchanged input otherwise. -/
theorem normalize_distribution_spec {ps edges : List ℝ} (hne : ps ≠ []) :
    (0 < area ps edges →
      ∃ qs, normalizeDistribution ps edges = .values qs ∧ area qs edges = 1 ∧
        ∃ c, 0 < c ∧ qs = ps.map fun p => c * p) ∧
    (area ps edges ≤ 0 → (∃ p ∈ ps, p < 0) → normalizeDistribution ps edges = .nans) ∧
    (area ps edges ≤ 0 → (∀ p ∈ ps, 0 ≤ p) → normalizeDistribution ps edges = .values ps) := by
  obtain ⟨p, ps', rfl⟩ := List.exists_cons_of_ne_nil hne
  refine ⟨?_, ?_, ?_⟩
  · intro h
    refine ⟨(p :: ps').map fun x => x / area (p :: ps') edges, ?_, ?_, 1 / area (p :: ps') edges,
      by positivity, ?_⟩
    · unfold normalizeDistribution
      simp only [binSum_eq_area]
      rw [if_neg (by linarith)]
    · rw [area_div]; exact div_self h.ne'
    · apply List.map_congr_left; intro x _; ring
  · intro h hn
    unfold normalizeDistribution
    simp only [binSum_eq_area]
    rw [if_pos h, if_pos hn]
  · intro h hn
    unfold normalizeDistribution
    simp only [binSum_eq_area]
    rw [if_pos h, if_neg]
    rintro ⟨q, hq, hlt⟩
    exact absurd (hn q hq) (by linarith)

/-- **C25, non-negative histograms.** With increasing edges, one more edge than heights and
non-negative heights, the only histogram not normalised to area one is the identically vanishing
one, which is returned unchanged; NaN never appears. -/
theorem normalize_distribution_nonneg {ps edges : List ℝ} (hne : ps ≠ []) (hp : ∀ p ∈ ps, 0 ≤ p)
    (he : edges.Pairwise (· < ·)) (hl : edges.length = ps.length + 1) :
    ∃ qs, normalizeDistribution ps edges = .values qs ∧ (∀ x ∈ qs, 0 ≤ x) ∧
      ((∃ p ∈ ps, p ≠ 0) → area qs edges = 1) ∧ ((∀ p ∈ ps, p = 0) → qs = ps) := by
  obtain ⟨h1, -, h3⟩ := normalize_distribution_spec (ps := ps) (edges := edges) hne
  rcases lt_or_ge 0 (area ps edges) with h | h
  · obtain ⟨qs, hq, ha, c, hc, hqs⟩ := h1 h
    refine ⟨qs, hq, ?_, fun _ => ha, ?_⟩
    · subst hqs
      intro x hx
      obtain ⟨p, hpm, rfl⟩ := List.mem_map.mp hx
      exact mul_nonneg hc.le (hp p hpm)
    · intro hz
      exfalso
      have : area ps edges = 0 := by
        have h0 : ps = ps.map fun p => p / 1 := by simp
        have : ∀ (ps edges : List ℝ), (∀ p ∈ ps, p = 0) → area ps edges = 0 := by
          intro ps
          induction ps with
          | nil => intro edges _; cases edges <;> simp [area]
          | cons p ps ih =>
            intro edges hz
            match edges with
            | [] => simp [area]
            | [a] => simp [area]
            | a :: b :: es =>
              simp only [area, hz p (by simp), ih (b :: es) (fun q hq => hz q (by simp [hq]))]
              ring
        exact this ps edges hz
      linarith
  · refine ⟨ps, h3 h hp, hp, ?_, fun _ => rfl⟩
    rintro ⟨p, hpm, hp0⟩
    exact absurd (area_zero_iff hp he hl h p hpm) hp0

/-! ### C67 -/

/-- Equally spaced edges `a, a + h, ..., a + n h`. -/
noncomputable def uniformEdges (a h : ℝ) : ℕ → List ℝ
  | 0 => [a]
  | n + 1 => a :: uniformEdges (a + h) h n

theorem uniformEdges_cons (a h : ℝ) (n : ℕ) : ∃ es, uniformEdges a h n = a :: es := by
  cases n <;> exact ⟨_, rfl⟩

theorem expect_uniform (a h p : ℝ) (ps : List ℝ) :
    expectTrapz (fun _ => 1) (uniformEdges a h (ps.length + 1)) (p :: ps)
      = area (p :: ps) (uniformEdges a h (ps.length + 1))
        - h * (p + (p :: ps).getLast (by simp)) / 2 := by
  induction ps generalizing a p with
  | nil =>
    simp only [expectTrapz, List.length_nil, zero_add, uniformEdges, binCenters, List.map_cons,
      List.map_nil, List.zipWith_cons_cons, List.zipWith_nil_left, trapezoid, area,
      List.getLast_singleton]
    ring
  | cons q ps ih =>
    have := ih (a := a + h) (p := q)
    obtain ⟨es, hes⟩ := uniformEdges_cons (a + h + h) h ps.length
    rw [List.getLast_cons (by simp)]
    simp only [expectTrapz, List.length_cons, uniformEdges, hes, binCenters, List.map_cons,
      List.zipWith_cons_cons, trapezoid, area] at this ⊢
    rw [this]
    ring

/-- **C67 fails.** For every distribution on at least one equally wide bin, normalised to area one,
the expectation value of the constant 1 (with the default method) is one minus half of the first and
half of the last bin; it is one only if the outermost bins are empty. -/
theorem expect_one_value {a h p : ℝ} {ps : List ℝ}
    (ha : area (p :: ps) (uniformEdges a h (ps.length + 1)) = 1) :
    expectTrapz (fun _ => 1) (uniformEdges a h (ps.length + 1)) (p :: ps)
      = 1 - h * (p + (p :: ps).getLast (by simp)) / 2 := by
  rw [expect_uniform, ha]

/-- **C67, what holds.** If the first and last bin are empty, the expectation of 1 is 1. -/
theorem expect_one_partial {a h : ℝ} {ps : List ℝ} (hlast : ((0 : ℝ) :: ps).getLast (by simp) = 0)
    (ha : area (0 :: ps) (uniformEdges a h (ps.length + 1)) = 1) :
    expectTrapz (fun _ => 1) (uniformEdges a h (ps.length + 1)) (0 :: ps) = 1 := by
  rw [expect_one_value ha, hlast]; ring

/-- **C67 fails, witness.** A flat normalised distribution on two bins has total probability 1/2. -/
theorem expect_one_flat_two_bins :
    area [1, 1] [0, 1 / 2, 1] = 1 ∧ expectTrapz (fun _ => 1) [0, 1 / 2, 1] [1, 1] = 1 / 2 := by
  constructor
  · norm_num [area]
  · norm_num [expectTrapz, binCenters, trapezoid]

/-! ### C26 -/

/-- A physical final state: every particle on its mass shell with non-negative mass and total
four-momentum `(q, 0, 0, 0)`. -/
structure Physical (q : ℝ) (ms : List ℝ) (ps : List P4) : Prop where
  nonneg : ∀ m ∈ ms, 0 ≤ m
  onShell : List.Forall₂ OnShell ps ms
  conserved : total ps = ⟨q, 0, 0, 0⟩

/-- Invariant mass of a pair. -/
noncomputable def pairMass (a b : P4) : ℝ :=
  Real.sqrt ((a.e + b.e) ^ 2 - (a.x + b.x) ^ 2 - (a.y + b.y) ^ 2 - (a.z + b.z) ^ 2)

/-- Euclidean length of a momentum together with a mass. -/
noncomputable def h4 (x y z m : ℝ) : ℝ := Real.sqrt (x ^ 2 + y ^ 2 + z ^ 2 + m ^ 2)

theorem h4_sq (x y z m : ℝ) : h4 x y z m ^ 2 = x ^ 2 + y ^ 2 + z ^ 2 + m ^ 2 :=
  Real.sq_sqrt (by positivity)

theorem h4_nonneg (x y z m : ℝ) : 0 ≤ h4 x y z m := Real.sqrt_nonneg _

theorem h4_triangle (x y z m x' y' z' m' : ℝ) :
    h4 (x + x') (y + y') (z + z') (m + m') ≤ h4 x y z m + h4 x' y' z' m' := by
  have h1 := h4_sq x y z m
  have h2 := h4_sq x' y' z' m'
  have n1 := h4_nonneg x y z m
  have n2 := h4_nonneg x' y' z' m'
  have hc : x * x' + y * y' + z * z' + m * m' ≤ h4 x y z m * h4 x' y' z' m' := by
    refine (abs_le_of_sq_le_sq' ?_ (mul_nonneg n1 n2)).2
    rw [mul_pow, h1, h2]
    nlinarith [sq_nonneg (x * y' - y * x'), sq_nonneg (x * z' - z * x'), sq_nonneg (x * m' - m * x'),
      sq_nonneg (y * z' - z * y'), sq_nonneg (y * m' - m * y'), sq_nonneg (z * m' - m * z')]
  refine (abs_le_of_sq_le_sq' ?_ (add_nonneg n1 n2)).2
  rw [h4_sq]
  nlinarith

theorem onShell_h4 {p : P4} {m : ℝ} (hm : 0 ≤ m) (h : OnShell p m) : h4 p.x p.y p.z m = p.e := by
  obtain ⟨h1, h2⟩ := h
  unfold h4
  rw [show p.x ^ 2 + p.y ^ 2 + p.z ^ 2 + m ^ 2 = p.e ^ 2 by linarith]
  exact Real.sqrt_sq (by linarith)

/-- Default four-momentum for reading past the end. -/
def zeroP : P4 := ⟨0, 0, 0, 0⟩

theorem sum_map_eq_range {α : Type} (l : List α) (d : α) (f : α → ℝ) :
    (l.map f).sum = ∑ k ∈ Finset.range l.length, f (l.getD k d) := by
  induction l with
  | nil => simp
  | cons a l ih =>
    rw [List.map_cons, List.sum_cons, List.length_cons, Finset.sum_range_succ', ih]
    simp [add_comm]

theorem getD_lt {α : Type} (l : List α) (d : α) {i : ℕ} (h : i < l.length) : l.getD i d = l[i] := by
  simp [h]

/-- Any subset of particles: energy dominates momentum and total mass. -/
theorem subset_bound {ms : List ℝ} {ps : List P4} (hm : ∀ m ∈ ms, 0 ≤ m)
    (h : List.Forall₂ OnShell ps ms) (S : Finset ℕ) (hS : ∀ k ∈ S, k < ms.length) :
    h4 (∑ k ∈ S, (ps.getD k zeroP).x) (∑ k ∈ S, (ps.getD k zeroP).y)
      (∑ k ∈ S, (ps.getD k zeroP).z) (∑ k ∈ S, ms.getD k 0) ≤ ∑ k ∈ S, (ps.getD k zeroP).e := by
  have hl := h.length_eq
  induction S using Finset.induction_on with
  | empty => simp [h4]
  | insert a S ha ih =>
    simp only [Finset.sum_insert ha]
    have h1 := ih fun k hk => hS k (Finset.mem_insert_of_mem hk)
    have hal : a < ms.length := hS a (Finset.mem_insert_self _ _)
    have hap : a < ps.length := by omega
    have hos : OnShell (ps.getD a zeroP) (ms.getD a 0) := by
      rw [getD_lt _ _ hap, getD_lt _ _ hal]
      exact (List.forall₂_iff_get.mp h).2 a hap hal
    have hm0 : 0 ≤ ms.getD a 0 := by
      rw [getD_lt _ _ hal]; exact hm _ (List.getElem_mem hal)
    have h2 := onShell_h4 hm0 hos
    refine (h4_triangle _ _ _ _ _ _ _ _).trans ?_
    rw [h2]
    linarith

theorem physical_sums {q : ℝ} {ms : List ℝ} {ps : List P4} (h : Physical q ms ps) :
    (∑ k ∈ Finset.range ms.length, (ps.getD k zeroP).e = q) ∧
    (∑ k ∈ Finset.range ms.length, (ps.getD k zeroP).x = 0) ∧
    (∑ k ∈ Finset.range ms.length, (ps.getD k zeroP).y = 0) ∧
    (∑ k ∈ Finset.range ms.length, (ps.getD k zeroP).z = 0) := by
  have hl := h.onShell.length_eq
  have hc := P4.ext_iff.mp h.conserved
  simp only [total] at hc
  rw [← hl]
  simp only [← sum_map_eq_range ps zeroP]
  exact hc

theorem getD_onShell {q : ℝ} {ms : List ℝ} {ps : List P4} (h : Physical q ms ps) {i : ℕ}
    (hi : i < ms.length) : OnShell (ps.getD i zeroP) (ms.getD i 0) ∧ 0 ≤ ms.getD i 0 := by
  have hl := h.onShell.length_eq
  have hap : i < ps.length := by omega
  rw [getD_lt _ _ hap, getD_lt _ _ hi]
  exact ⟨(List.forall₂_iff_get.mp h.onShell).2 i hap hi, h.nonneg _ (List.getElem_mem hi)⟩

/-- **C26, energies.** In every physical final state, of any multiplicity, the energy of particle `i`
lies within the `i`-th entry of `energy_limits`. -/
theorem energy_limits_contain {q : ℝ} {ms : List ℝ} {ps : List P4} (hq : 0 < q)
    (h : Physical q ms ps) {i : ℕ} (hi : i < ms.length) :
    ∃ lo hi', (energyLimits q ms)[i]? = some (lo, hi') ∧
      lo ≤ (ps.getD i zeroP).e ∧ (ps.getD i zeroP).e ≤ hi' := by
  refine ⟨ms.getD i 0, (q ^ 2 + ms.getD i 0 ^ 2 - (ms.sum - ms.getD i 0) ^ 2) / (2 * q), ?_, ?_, ?_⟩
  · simp [energyLimits, hi]
  · exact (getD_onShell h hi).1.2
  · obtain ⟨he, hx, hy, hz⟩ := physical_sums h
    have hmem : i ∈ Finset.range ms.length := Finset.mem_range.mpr hi
    have hb := subset_bound h.nonneg h.onShell ((Finset.range ms.length).erase i) (by
      intro k hk; exact Finset.mem_range.mp (Finset.mem_of_mem_erase hk))
    have hms : ms.sum = ∑ k ∈ Finset.range ms.length, ms.getD k 0 := by
      have := sum_map_eq_range ms 0 id
      simpa using this
    rw [← Finset.add_sum_erase _ _ hmem] at he hx hy hz hms
    set X := ∑ k ∈ (Finset.range ms.length).erase i, (ps.getD k zeroP).x
    set Y := ∑ k ∈ (Finset.range ms.length).erase i, (ps.getD k zeroP).y
    set Z := ∑ k ∈ (Finset.range ms.length).erase i, (ps.getD k zeroP).z
    set M := ∑ k ∈ (Finset.range ms.length).erase i, ms.getD k 0
    set E := ∑ k ∈ (Finset.range ms.length).erase i, (ps.getD k zeroP).e
    have hos := (getD_onShell h hi).1.1
    have hsq := h4_sq X Y Z M
    have hn := h4_nonneg X Y Z M
    have hM : ms.sum - ms.getD i 0 = M := by linarith
    have hE2 : X ^ 2 + Y ^ 2 + Z ^ 2 + M ^ 2 ≤ E ^ 2 := by nlinarith
    have hX : X = -(ps.getD i zeroP).x := by linarith
    have hY : Y = -(ps.getD i zeroP).y := by linarith
    have hZ : Z = -(ps.getD i zeroP).z := by linarith
    have hE : E = q - (ps.getD i zeroP).e := by linarith
    rw [hX, hY, hZ, hE] at hE2
    rw [hM, le_div_iff₀ (by positivity)]
    nlinarith

/-- **C26, invariant masses.** In every physical final state the invariant mass of a pair of distinct
particles lies within `invariant_mass_limits`. -/
theorem invariant_mass_limits_contain {q : ℝ} {ms : List ℝ} {ps : List P4}
    (h : Physical q ms ps) {i j : ℕ} (hi : i < ms.length) (hj : j < ms.length) (hij : i ≠ j) :
    (invariantMassLimits q ms i j).1 ≤ pairMass (ps.getD i zeroP) (ps.getD j zeroP) ∧
      pairMass (ps.getD i zeroP) (ps.getD j zeroP) ≤ (invariantMassLimits q ms i j).2 := by
  obtain ⟨he, hx, hy, hz⟩ := physical_sums h
  obtain ⟨hosi, hmi⟩ := getD_onShell h hi
  obtain ⟨hosj, hmj⟩ := getD_onShell h hj
  have hsub := h4_triangle (ps.getD i zeroP).x (ps.getD i zeroP).y (ps.getD i zeroP).z (ms.getD i 0)
    (ps.getD j zeroP).x (ps.getD j zeroP).y (ps.getD j zeroP).z (ms.getD j 0)
  rw [onShell_h4 hmi hosi, onShell_h4 hmj hosj] at hsub
  have hpn := h4_nonneg ((ps.getD i zeroP).x + (ps.getD j zeroP).x)
    ((ps.getD i zeroP).y + (ps.getD j zeroP).y) ((ps.getD i zeroP).z + (ps.getD j zeroP).z)
    (ms.getD i 0 + ms.getD j 0)
  have hpsq := h4_sq ((ps.getD i zeroP).x + (ps.getD j zeroP).x)
    ((ps.getD i zeroP).y + (ps.getD j zeroP).y) ((ps.getD i zeroP).z + (ps.getD j zeroP).z)
    (ms.getD i 0 + ms.getD j 0)
  have hM2 : (ms.getD i 0 + ms.getD j 0) ^ 2
      ≤ ((ps.getD i zeroP).e + (ps.getD j zeroP).e) ^ 2
        - ((ps.getD i zeroP).x + (ps.getD j zeroP).x) ^ 2
        - ((ps.getD i zeroP).y + (ps.getD j zeroP).y) ^ 2
        - ((ps.getD i zeroP).z + (ps.getD j zeroP).z) ^ 2 := by nlinarith
  have hle : ms.getD i 0 + ms.getD j 0 ≤ pairMass (ps.getD i zeroP) (ps.getD j zeroP) :=
    Real.le_sqrt_of_sq_le hM2
  refine ⟨hle, ?_⟩
  -- the recoiling system
  have hb := subset_bound h.nonneg h.onShell
    ((Finset.range ms.length).filter fun k => k ≠ i ∧ k ≠ j) (by
      intro k hk; exact Finset.mem_range.mp (Finset.mem_of_mem_filter k hk))
  have hsplit : ∀ f : ℕ → ℝ, ∑ k ∈ Finset.range ms.length, f k
      = f i + f j + ∑ k ∈ (Finset.range ms.length).filter (fun k => k ≠ i ∧ k ≠ j), f k := by
    intro f
    have hmi : i ∈ Finset.range ms.length := Finset.mem_range.mpr hi
    have hmj : j ∈ (Finset.range ms.length).erase i :=
      Finset.mem_erase.mpr ⟨hij.symm, Finset.mem_range.mpr hj⟩
    rw [← Finset.add_sum_erase _ _ hmi, ← Finset.add_sum_erase _ _ hmj, add_assoc]
    congr 2
    apply Finset.sum_congr _ fun _ _ => rfl
    ext k
    simp only [Finset.mem_erase, Finset.mem_range, Finset.mem_filter]
    tauto
  rw [hsplit] at he hx hy hz
  simp only [invariantMassLimits]
  set X := ∑ k ∈ (Finset.range ms.length).filter (fun k => k ≠ i ∧ k ≠ j), (ps.getD k zeroP).x
  set Y := ∑ k ∈ (Finset.range ms.length).filter (fun k => k ≠ i ∧ k ≠ j), (ps.getD k zeroP).y
  set Z := ∑ k ∈ (Finset.range ms.length).filter (fun k => k ≠ i ∧ k ≠ j), (ps.getD k zeroP).z
  set M := ∑ k ∈ (Finset.range ms.length).filter (fun k => k ≠ i ∧ k ≠ j), ms.getD k 0
  set E := ∑ k ∈ (Finset.range ms.length).filter (fun k => k ≠ i ∧ k ≠ j), (ps.getD k zeroP).e
  have hM2' : 0 ≤ ((ps.getD i zeroP).e + (ps.getD j zeroP).e) ^ 2
        - ((ps.getD i zeroP).x + (ps.getD j zeroP).x) ^ 2
        - ((ps.getD i zeroP).y + (ps.getD j zeroP).y) ^ 2
        - ((ps.getD i zeroP).z + (ps.getD j zeroP).z) ^ 2 := (sq_nonneg _).trans hM2
  set W := pairMass (ps.getD i zeroP) (ps.getD j zeroP) with hW
  have hWsq : W ^ 2 = ((ps.getD i zeroP).e + (ps.getD j zeroP).e) ^ 2
        - ((ps.getD i zeroP).x + (ps.getD j zeroP).x) ^ 2
        - ((ps.getD i zeroP).y + (ps.getD j zeroP).y) ^ 2
        - ((ps.getD i zeroP).z + (ps.getD j zeroP).z) ^ 2 := Real.sq_sqrt hM2'
  have hE12 : 0 ≤ (ps.getD i zeroP).e + (ps.getD j zeroP).e := hpn.trans hsub
  have hpair : h4 (-X) (-Y) (-Z) W = (ps.getD i zeroP).e + (ps.getD j zeroP).e := by
    unfold h4
    rw [hWsq, show -X = (ps.getD i zeroP).x + (ps.getD j zeroP).x by linarith,
      show -Y = (ps.getD i zeroP).y + (ps.getD j zeroP).y by linarith,
      show -Z = (ps.getD i zeroP).z + (ps.getD j zeroP).z by linarith]
    have hq := Real.sqrt_sq hE12
    refine Eq.trans (congrArg Real.sqrt ?_) hq
    ring
  have htri := h4_triangle (-X) (-Y) (-Z) W X Y Z M
  have hfin : W + M ≤ h4 (-X + X) (-Y + Y) (-Z + Z) (W + M) :=
    Real.le_sqrt_of_sq_le (by nlinarith [sq_nonneg (-X + X), sq_nonneg (-Y + Y), sq_nonneg (-Z + Z)])
  linarith

theorem exists_fractions {ms : List ℝ} (hm : ∀ m ∈ ms, 0 ≤ m) (hne : ms ≠ []) :
    ∃ ws : List ℝ, ws.length = ms.length ∧ ws.sum = 1 ∧ (∀ w ∈ ws, 0 ≤ w) ∧
      ms = ws.map fun w => w * ms.sum := by
  rcases (List.sum_nonneg hm).eq_or_lt with h | h
  · have hz : ∀ m ∈ ms, m = 0 := by
      intro m hmem
      have := List.single_le_sum hm m hmem
      linarith [hm m hmem]
    have hl : (ms.length : ℝ) ≠ 0 := by
      have := List.length_pos_of_ne_nil hne
      positivity
    refine ⟨List.replicate ms.length (1 / ms.length), by simp, ?_, ?_, ?_⟩
    · rw [List.sum_replicate, nsmul_eq_mul]; field_simp
    · intro w hw; rw [List.eq_of_mem_replicate hw]; positivity
    · rw [← h]
      apply List.ext_getElem
      · simp
      · intro i h1 h2
        simp [hz _ (List.getElem_mem h1)]
  · refine ⟨ms.map fun m => m * ms.sum⁻¹, by simp, ?_, ?_, ?_⟩
    · rw [List.sum_map_mul_right]; simp; field_simp
    · intro w hw; obtain ⟨m, hmem, rfl⟩ := List.mem_map.mp hw
      exact mul_nonneg (hm m hmem) (inv_nonneg.mpr h.le)
    · rw [List.map_map]
      nth_rw 1 [← List.map_id ms]
      apply List.map_congr_left
      intro m _
      simp only [Function.comp, id]
      field_simp

/-- **C26, tightness.** For every open process with at least two particles the upper energy limit of
the first particle is attained by a physical final state (and, the limits being symmetric, of any
particle). -/
theorem energy_limit_attained {q m : ℝ} {ms : List ℝ} (hm : 0 ≤ m) (hms : ∀ m ∈ ms, 0 ≤ m)
    (hne : ms ≠ []) (hlt : m + ms.sum ≤ q) (hq : 0 < q) :
    ∃ ps, Physical q (m :: ms) ps ∧
      ∀ lim ∈ (energyLimits q (m :: ms)).head?, (ps.getD 0 zeroP).e = lim.2 := by
  obtain ⟨ws, hlen, hsum, hw, hfrac⟩ := exists_fractions hms hne
  have hS : 0 ≤ ms.sum := List.sum_nonneg hms
  set S := ms.sum with hSdef
  set E1 := (q ^ 2 + m ^ 2 - S ^ 2) / (2 * q) with hE1
  have hk : 0 ≤ E1 ^ 2 - m ^ 2 := by
    have h1 : m ≤ E1 := by rw [hE1, le_div_iff₀ (by positivity)]; nlinarith
    nlinarith
  set k := Real.sqrt (E1 ^ 2 - m ^ 2) with hkdef
  have hk2 : k ^ 2 = E1 ^ 2 - m ^ 2 := Real.sq_sqrt hk
  have hE2 : (q - E1) ^ 2 - k ^ 2 = S ^ 2 := by
    rw [hk2, hE1]; field_simp; ring
  have hE2S : S ≤ q - E1 := by
    have : q - E1 = (q ^ 2 - m ^ 2 + S ^ 2) / (2 * q) := by rw [hE1]; field_simp; ring
    rw [this, le_div_iff₀ (by positivity)]
    nlinarith
  refine ⟨⟨E1, 0, 0, k⟩ :: ws.map (fun w => ⟨w * (q - E1), 0, 0, -(w * k)⟩), ⟨?_, ?_, ?_⟩, ?_⟩
  · intro x hx
    rcases List.mem_cons.mp hx with rfl | hx
    · exact hm
    · exact hms x hx
  · refine List.Forall₂.cons ⟨?_, ?_⟩ ?_
    · simp only; rw [hk2]; ring
    · simp only; rw [hE1, le_div_iff₀ (by positivity)]; nlinarith
    · rw [hfrac, List.forall₂_map_left_iff, List.forall₂_map_right_iff, List.forall₂_same]
      intro w hwm
      have := hw w hwm
      refine ⟨?_, ?_⟩
      · simp only
        linear_combination w ^ 2 * hE2
      · exact mul_le_mul_of_nonneg_left hE2S this
  · have hs : ∀ c : ℝ, (ws.map fun w => w * c).sum = c := by
      intro c; rw [List.sum_map_mul_right]; simp [hsum]
    simp only [total, List.map_cons, List.map_map, Function.comp_def, List.sum_cons]
    rw [hs]
    have h3 : (ws.map fun w => -(w * k)).sum = -k := by
      have := hs (-k)
      simpa [mul_neg] using this
    rw [h3]
    ext <;> simp
  · intro lim hlim
    simp only [energyLimits, List.map_cons, List.head?_cons, Option.mem_def, Option.some.injEq,
      List.sum_cons] at hlim
    rw [← hlim]
    simp only [List.getD_cons_zero, hE1]
    ring

/-! ### Non-vacuity -/

example : Physical 10 [3, 3] [⟨5, 0, 0, 4⟩, ⟨5, 0, 0, -4⟩] := by
  refine ⟨by simp, ?_, ?_⟩
  · refine List.Forall₂.cons ⟨by norm_num, by norm_num⟩ (List.Forall₂.cons ⟨by norm_num, by norm_num⟩ List.Forall₂.nil)
  · simp [total]; norm_num

example : area [1, 3] [0, 1, 2] = 4 := by norm_num [area]

end Hazma.PhaseSpace
