import Verif.Model.PhaseApi
import Verif.Props.PhaseSpace
import Verif.Props.Kinematics
import Mathlib.Analysis.SpecialFunctions.Integrals.Basic
import Mathlib.Tactic

/-!
# Arguments of the phase-space integrators and of the n-body spectra (C249 - C254)
-/

namespace Hazma.PhaseApi

open Hazma.PhaseSpace Hazma.Rambo Hazma.Kinematics MeasureTheory
open Hazma.ThreeBody hiding create State

/-! ### Lists -/

theorem mapE_ok {α β : Type} (f : α → β) (l : List α) : mapE (fun a => .ok (f a)) l = .ok (l.map f) := by
  induction l with
  | nil => rfl
  | cons a l ih => simp [mapE, ih]

theorem mapE_congr {α β : Type} {f g : α → Except Err β} {l : List α} (h : ∀ a ∈ l, f a = g a) :
    mapE f l = mapE g l := by
  induction l with
  | nil => rfl
  | cons a l ih =>
    simp only [mapE, h a (by simp), ih fun b hb => h b (by simp [hb])]

theorem mapE_error {α β : Type} {f : α → Except Err β} {a : α} {l : List α} {x : Err}
    (h : f a = .error x) : mapE f (a :: l) = .error x := by
  simp [mapE, h]

theorem range_succ_map {β : Type} (f : ℕ → β) (k : ℕ) :
    (List.range (k + 1)).map f = f 0 :: (List.range k).map fun i => f (i + 1) := by
  rw [List.range_succ_eq_map]; simp [Function.comp_def]

theorem binCenters_range (f : ℕ → ℝ) (k : ℕ) :
    binCenters ((List.range (k + 1)).map f) = (List.range k).map fun i => (f (i + 1) + f i) / 2 := by
  induction k generalizing f with
  | zero => simp [binCenters]
  | succ k ih =>
    have h := ih (fun i => f (i + 1))
    rw [range_succ_map f (k + 1), range_succ_map (fun i => f (i + 1)) k,
      range_succ_map (fun i => (f (i + 1) + f i) / 2) k, binCenters, ← h,
      range_succ_map (fun i => f (i + 1)) k]

theorem trapezoid_range (g f : ℕ → ℝ) (k : ℕ) :
    trapezoid ((List.range (k + 1)).map g) ((List.range (k + 1)).map f)
      = ∑ i ∈ Finset.range k, (g (i + 1) - g i) * (f i + f (i + 1)) / 2 := by
  induction k generalizing f g with
  | zero => simp [trapezoid]
  | succ k ih =>
    have h := ih (fun i => g (i + 1)) (fun i => f (i + 1))
    rw [Finset.sum_range_succ', ← h, range_succ_map f (k + 1), range_succ_map g (k + 1),
      range_succ_map (fun i => f (i + 1)) k, range_succ_map (fun i => g (i + 1)) k, trapezoid,
      zero_add, add_comm]

theorem linspace_centers (a b : ℝ) {n : ℕ} (hn : 2 ≤ n) :
    binCenters (linspace a b n)
      = (List.range (n - 1)).map fun i : ℕ => a + (i + 1 / 2) * ((b - a) / (n - 1)) := by
  obtain ⟨k, rfl⟩ : ∃ k, n = k + 1 := ⟨n - 1, by omega⟩
  unfold linspace
  rw [binCenters_range]
  apply List.map_congr_left
  intro i _
  push_cast
  ring

theorem centers_between {a b c : ℝ} (h : a < b) {n : ℕ} (hn : 2 ≤ n)
    (hc : c ∈ binCenters (linspace a b n)) : a < c ∧ c < b := by
  rw [linspace_centers a b hn] at hc
  obtain ⟨i, hi, rfl⟩ := List.mem_map.mp hc
  have hi' : i < n - 1 := List.mem_range.mp hi
  have h1 : (i : ℝ) + 1 ≤ (n : ℝ) - 1 := by
    have : ((i + 1 + 1 : ℕ) : ℝ) ≤ (n : ℝ) := by exact_mod_cast (by omega : i + 1 + 1 ≤ n)
    push_cast at this; linarith
  have hpos : (0 : ℝ) < (n : ℝ) - 1 := by
    have : (0 : ℝ) ≤ (i : ℝ) := Nat.cast_nonneg i
    linarith
  have hd : 0 < (b - a) / ((n : ℝ) - 1) := div_pos (by linarith) hpos
  have he : ((n : ℝ) - 1) * ((b - a) / ((n : ℝ) - 1)) = b - a := by field_simp
  have hi0 : (0 : ℝ) ≤ (i : ℝ) := Nat.cast_nonneg i
  constructor
  · have : 0 < ((i : ℝ) + 1 / 2) * ((b - a) / ((n : ℝ) - 1)) := by positivity
    linarith
  · nlinarith

theorem linspace_length (a b : ℝ) (n : ℕ) : (linspace a b n).length = n := by simp [linspace]

theorem linspace_sorted {a b : ℝ} (h : a < b) {n : ℕ} (hn : 2 ≤ n) :
    (linspace a b n).Pairwise (· < ·) := by
  unfold linspace
  rw [List.pairwise_map]
  refine List.Pairwise.imp ?_ List.pairwise_lt_range
  intro i j hij
  have hn' : (2 : ℝ) ≤ n := by exact_mod_cast hn
  have hd : 0 < (b - a) / ((n : ℝ) - 1) := div_pos (by linarith) (by linarith)
  have hij' : (i : ℝ) < j := by exact_mod_cast hij
  have := mul_lt_mul_of_pos_right hij' hd
  linarith

theorem linspace_centers_length (a b : ℝ) {n : ℕ} (hn : 2 ≤ n) :
    (binCenters (linspace a b n)).length = n - 1 := by
  rw [linspace_centers a b hn]; simp

/-! ### C249: three-body phase space below threshold -/

/-- The masses of the two particles other than `i`, in the order the code uses them. -/
def others (ms : ℝ × ℝ × ℝ) : Fin 3 → ℝ × ℝ
  | 0 => (ms.2.1, ms.2.2)
  | 1 => (ms.1, ms.2.2)
  | 2 => (ms.2.1, ms.1)

theorem inRange_iff (o : Obj) (e : ℝ) (i : Fin 3) :
    inRange o e i ↔
      (boundsX o.cme (massOf o.masses i) (others o.masses i).1 (others o.masses i).2).1 ≤ 2 * e / o.cme ∧
      2 * e / o.cme
        ≤ (boundsX o.cme (massOf o.masses i) (others o.masses i).1 (others o.masses i).2).2 := by
  fin_cases i <;> simp [inRange, massOf, others, not_or]

theorem partialIntegration_flat (q : ℝ) (ms : ℝ × ℝ × ℝ) (e : ℝ) (i : Fin 3)
    (h : inRange ⟨q, ms, .ok fun _ _ => 1⟩ e i) :
    partialIntegration ⟨q, ms, none, fun _ _ => 1⟩ e i
      = q / (64 * Real.pi ^ 3)
        * ((boundsY q (massOf ms i) (others ms i).1 (others ms i).2 (2 * e / q)).2
          - (boundsY q (massOf ms i) (others ms i).1 (others ms i).2 (2 * e / q)).1) := by
  unfold inRange at h
  unfold partialIntegration
  fin_cases i <;>
  · simp only [massOf, others] at h ⊢
    rw [if_neg h]
    simp

/-- No energy is allowed when the mass of particle `i` lies between threshold and its mirror image. -/
theorem not_inRange {o : Obj} {i : Fin 3} (hq : 0 < o.cme)
    (n2 : 0 ≤ (others o.masses i).1) (n3 : 0 ≤ (others o.masses i).2)
    (hlow : o.cme < massOf o.masses i + (others o.masses i).1 + (others o.masses i).2)
    (hup : massOf o.masses i < o.cme + (others o.masses i).1 + (others o.masses i).2) (e : ℝ) :
    ¬ inRange o e i := by
  rw [inRange_iff]
  rintro ⟨h1, h2⟩
  have h := h1.trans h2
  revert n2 n3 hlow hup h
  generalize massOf o.masses i = m1
  generalize (others o.masses i).1 = m2
  generalize (others o.masses i).2 = m3
  intro n2 n3 hlow hup h
  simp only [boundsX] at h
  have e1 : m1 = m1 / o.cme * o.cme := by field_simp
  have e2 : m2 = m2 / o.cme * o.cme := by field_simp
  have e3 : m3 = m3 / o.cme * o.cme := by field_simp
  have k2 : 0 ≤ m2 / o.cme := by positivity
  have k3 : 0 ≤ m3 / o.cme := by positivity
  generalize m1 / o.cme = u1 at *
  generalize m2 / o.cme = u2 at *
  generalize m3 / o.cme = u3 at *
  have l1 : 1 < u1 + u2 + u3 := by
    have : 1 * o.cme < (u1 + u2 + u3) * o.cme := by linarith
    exact lt_of_mul_lt_mul_right this hq.le
  have l2 : u1 < 1 + u2 + u3 := by
    have : u1 * o.cme < (1 + u2 + u3) * o.cme := by linarith
    exact lt_of_mul_lt_mul_right this hq.le
  nlinarith [mul_pos (sub_pos.mpr l1) (sub_pos.mpr l2)]

/-- **C249.** The integral over three-body phase space below threshold is zero, with zero error, for
every matrix element and every `method`, valid or not. -/
theorem integrate_below {mc : Monte} {err : ℝ} {o : Obj} (h : o.cme < o.msum) (method : String)
    (npts : ℕ) : integrate mc err o method npts = .ok (0, 0) := by
  simp [integrate, h]

/-- **C249.** Below threshold the invariant-mass distributions raise `ValueError`. -/
theorem mass_below {mc : Monte} {o : Obj} (h : o.cme < o.msum) (nbins npts : ℕ) (method : String) :
    massDistributions mc o nbins method npts = .error .valueError := by
  simp [massDistributions, h]

theorem msum_eq (o : Obj) (i : Fin 3) :
    o.msum = massOf o.masses i + (others o.masses i).1 + (others o.masses i).2 := by
  fin_cases i <;> simp [Obj.msum, massOf, others] <;> ring

theorem limits_eq (q m1 m2 m3 : ℝ) (i : Fin 3) :
    (energyLimits q [m1, m2, m3]).getD i (0, 0)
      = (massOf (m1, m2, m3) i, (q ^ 2 + massOf (m1, m2, m3) i ^ 2
          - ((others (m1, m2, m3) i).1 + (others (m1, m2, m3) i).2) ^ 2) / (2 * q)) := by
  fin_cases i <;> simp [energyLimits, massOf, others] <;> ring_nf

theorem mkDist_zero {x : List ℝ} {k : ℕ} (hk : 0 < k) (hx : x.length = k + 1) :
    mkDist x (List.replicate k 0) = .ok (x, .values (List.replicate k 0)) := by
  have hne : List.replicate k (0 : ℝ) ≠ [] := by simp; omega
  have h := (normalize_distribution_spec (edges := x) hne).2.2 (le_of_eq ?_) ?_
  · unfold mkDist
    rw [if_pos (by simpa using hx), h]
  · rw [← binSum_eq_area]
    unfold binSum
    have : ∀ k (ws : List ℝ), (List.zipWith (fun p w => p * w) (List.replicate k (0 : ℝ)) ws).sum = 0 := by
      intro k
      induction k with
      | zero => intro ws; simp
      | succ k ih =>
        intro ws
        cases ws with
        | nil => simp
        | cons w ws => simp [List.replicate_succ, ih]
    exact this _ _
  · intro p hp
    rw [List.eq_of_mem_replicate hp]

/-- **C249, what holds of the energy distributions.** Below threshold, if no particle is heavier than
the centre-of-mass energy plus the two other masses, all entries of the three energy distributions are
zero, whatever the matrix element. -/
theorem energy_below_partial {mc : Monte} {o : Obj} (hq : 0 < o.cme)
    (hm : ∀ i, 0 ≤ massOf o.masses i) (h : o.cme < o.msum)
    (hup : ∀ i, massOf o.masses i < o.cme + (others o.masses i).1 + (others o.masses i).2)
    {nbins : ℕ} (hn : 2 ≤ nbins) (npts : ℕ) :
    ∃ b0 b1 b2, energyDistributions mc o nbins "quad" npts
      = .ok [(b0, .values (List.replicate (nbins - 1) 0)), (b1, .values (List.replicate (nbins - 1) 0)),
          (b2, .values (List.replicate (nbins - 1) 0))] := by
  have hoth : ∀ i, 0 ≤ (others o.masses i).1 ∧ 0 ≤ (others o.masses i).2 := by
    have h0 := hm 0
    have h1 := hm 1
    have h2 := hm 2
    simp only [massOf] at h0 h1 h2
    intro i
    fin_cases i <;> simp only [others] <;> constructor <;> assumption
  have hone : ∀ i, ∃ b, energyQuad1 o nbins i = .ok (b, .values (List.replicate (nbins - 1) 0)) := by
    intro i
    refine ⟨linspace ((energyLimits o.cme [o.masses.1, o.masses.2.1, o.masses.2.2]).getD i (0, 0)).1
      ((energyLimits o.cme [o.masses.1, o.masses.2.1, o.masses.2.2]).getD i (0, 0)).2 nbins, ?_⟩
    unfold energyQuad1
    have hz : ∀ e, partialCall o e i = .ok 0 := by
      intro e
      unfold partialCall
      rw [if_neg (not_inRange hq (hoth i).1 (hoth i).2 (by rw [← msum_eq]; exact h) (hup i) e)]
    simp only [hz]
    rw [mapE_ok (fun _ => (0 : ℝ)), List.map_const', linspace_centers_length _ _ hn]
    exact mkDist_zero (by omega) (by rw [linspace_length]; omega)
  obtain ⟨b0, h0⟩ := hone 0
  obtain ⟨b1, h1⟩ := hone 1
  obtain ⟨b2, h2⟩ := hone 2
  refine ⟨b0, b1, b2, ?_⟩
  simp [energyDistributions, energyQuad, mapE, h0, h1, h2]

theorem forbidden_positive {q : ℝ} {ms : ℝ × ℝ × ℝ} {i : Fin 3} (hq : 0 < q)
    (n2 : 0 ≤ (others ms i).1) (n3 : 0 ≤ (others ms i).2)
    (hbig : q + (others ms i).1 + (others ms i).2 < massOf ms i) {e : ℝ} (he1 : massOf ms i < e)
    (he2 : e < (q ^ 2 + massOf ms i ^ 2 - ((others ms i).1 + (others ms i).2) ^ 2) / (2 * q)) :
    ∃ v, 0 < v ∧ partialCall ⟨q, ms, .ok fun _ _ => 1⟩ e i = .ok v := by
  have hr : inRange ⟨q, ms, .ok fun _ _ => 1⟩ e i := by
    rw [inRange_iff]
    simp only [boundsX]
    rw [lt_div_iff₀ (by linarith)] at he2
    constructor
    · rw [mul_div_assoc']
      gcongr
    · rw [div_le_iff₀ hq]
      have : ((massOf ms i / q) ^ 2 + (1 - ((others ms i).1 / q + (others ms i).2 / q) ^ 2)) * q
          = (q ^ 2 + massOf ms i ^ 2 - ((others ms i).1 + (others ms i).2) ^ 2) / q := by
        field_simp
        ring
      rw [this, le_div_iff₀ hq]
      linarith
  refine ⟨_, ?_, by unfold partialCall; rw [if_pos hr]⟩
  simp only [Obj.state]
  rw [partialIntegration_flat q ms e i hr]
  revert n2 n3 hbig he1 he2
  clear hr
  generalize massOf ms i = m1
  generalize (others ms i).1 = m2
  generalize (others ms i).2 = m3
  intro n2 n3 hbig he1 he2
  rw [lt_div_iff₀ (by linarith)] at he2
  have hpi := Real.pi_pos
  apply mul_pos (by positivity)
  simp only [boundsY]
  have e1 : m1 = m1 / q * q := by field_simp
  have e2 : m2 = m2 / q * q := by field_simp
  have e3 : m3 = m3 / q * q := by field_simp
  have ex : 2 * e = 2 * e / q * q := by field_simp
  have k2 : 0 ≤ m2 / q := by positivity
  have k3 : 0 ≤ m3 / q := by positivity
  generalize m1 / q = u1 at *
  generalize m2 / q = u2 at *
  generalize m3 / q = u3 at *
  generalize 2 * e / q = x at *
  have l1 : 1 + u2 + u3 < u1 := by
    have : (1 + u2 + u3) * q < u1 * q := by linarith
    exact lt_of_mul_lt_mul_right this hq.le
  have l2 : 2 * u1 < x := by
    have : 2 * u1 * q < x * q := by linarith
    exact lt_of_mul_lt_mul_right this hq.le
  have l3 : x < 1 + u1 ^ 2 - (u2 + u3) ^ 2 := by
    have h3 : x * q ^ 2 < (1 + u1 ^ 2 - (u2 + u3) ^ 2) * q ^ 2 := by
      rw [e1, e2, e3] at he2
      nlinarith
    exact lt_of_mul_lt_mul_right h3 (by positivity)
  obtain ⟨s, hs⟩ : ∃ s, s = 1 - x + u1 ^ 2 := ⟨_, rfl⟩
  rw [← hs]
  have s1 : (u2 + u3) ^ 2 < s := by linarith
  have s2 : s < (u1 - 1) ^ 2 := by nlinarith
  have s0 : 0 < s := lt_of_le_of_lt (sq_nonneg _) s1
  have L1 : 0 < kallenLambda 1 (u1 ^ 2) s := by
    have : kallenLambda 1 (u1 ^ 2) s = ((u1 - 1) ^ 2 - s) * ((u1 + 1) ^ 2 - s) := by
      unfold kallenLambda; ring
    rw [this]
    apply mul_pos
    · linarith
    · nlinarith
  have L2 : 0 < kallenLambda s (u2 ^ 2) (u3 ^ 2) := by
    have : kallenLambda s (u2 ^ 2) (u3 ^ 2) = (s - (u2 + u3) ^ 2) * (s - (u2 - u3) ^ 2) := by
      unfold kallenLambda; ring
    rw [this]
    apply mul_pos
    · linarith
    · nlinarith [mul_nonneg k2 k3]
  have hr := Real.sqrt_pos.mpr (mul_pos L1 L2)
  rw [← sub_div]
  apply div_pos _ s0
  linarith

/-- **C249 fails for the energy distributions.** If particle `i` is heavier than the centre-of-mass
energy plus the two other masses, so that the process is impossible, the energy distribution of that
particle is a positive density normalised to one, at energies above its mass. -/
theorem forbidden_distribution {q : ℝ} {m1 m2 m3 : ℝ} {i : Fin 3} (hq : 0 < q)
    (n2 : 0 ≤ (others (m1, m2, m3) i).1) (n3 : 0 ≤ (others (m1, m2, m3) i).2)
    (hbig : q + (others (m1, m2, m3) i).1 + (others (m1, m2, m3) i).2 < massOf (m1, m2, m3) i)
    {nbins : ℕ} (hn : 2 ≤ nbins) :
    ∃ o, create q [m1, m2, m3] none none = .ok o ∧
      ∃ bins ps, energyQuad1 o nbins i = .ok (bins, .values ps) ∧ area ps bins = 1 ∧
        ∀ p ∈ ps, 0 < p := by
  refine ⟨⟨q, (m1, m2, m3), .ok fun _ _ => 1⟩, by simp [create], ?_⟩
  unfold energyQuad1
  simp only [limits_eq]
  obtain ⟨M, hM⟩ : ∃ M, M = massOf (m1, m2, m3) i := ⟨_, rfl⟩
  obtain ⟨E, hE⟩ : ∃ E, E = (q ^ 2 + massOf (m1, m2, m3) i ^ 2
          - ((others (m1, m2, m3) i).1 + (others (m1, m2, m3) i).2) ^ 2) / (2 * q) := ⟨_, rfl⟩
  rw [← hE, ← hM]
  have hlt : M < E := by
    rw [hE, ← hM, lt_div_iff₀ (by linarith)]
    rw [← hM] at hbig
    nlinarith
  have hv : ∀ e ∈ binCenters (linspace M E nbins), ∃ v, 0 < v ∧
      partialCall ⟨q, (m1, m2, m3), .ok fun _ _ => 1⟩ e i = .ok v := by
    intro e he
    obtain ⟨h1, h2⟩ := centers_between hlt hn he
    exact forbidden_positive hq n2 n3 hbig (by rw [← hM]; exact h1) (by rw [← hE]; exact h2)
  choose! g hg using hv
  have hmap := mapE_congr (fun e he => (hg e he).2)
  rw [hmap, mapE_ok]
  have hlen : ((binCenters (linspace M E nbins)).map g).length = nbins - 1 := by
    rw [List.length_map, linspace_centers_length _ _ hn]
  have hne : (binCenters (linspace M E nbins)).map g ≠ [] := by
    intro h0; rw [h0] at hlen; simp at hlen; omega
  have hpos : ∀ p ∈ (binCenters (linspace M E nbins)).map g, 0 < p := by
    intro p hp
    obtain ⟨e, he, rfl⟩ := List.mem_map.mp hp
    exact (hg e he).1
  have harea : 0 < area ((binCenters (linspace M E nbins)).map g) (linspace M E nbins) := by
    rcases (area_nonneg (fun p hp => (hpos p hp).le)
      ((linspace_sorted hlt hn).imp fun h => le_of_lt h)).lt_or_eq with h | h
    · exact h
    · exfalso
      obtain ⟨p, l, hpl⟩ := List.exists_cons_of_ne_nil hne
      have := area_zero_iff (fun p hp => (hpos p hp).le) (linspace_sorted hlt hn)
        (by rw [hlen, linspace_length]; omega) h.symm.le p (by rw [hpl]; simp)
      exact absurd this (hpos p (by rw [hpl]; simp)).ne'
  obtain ⟨qs, hqs, ha, c, hc, hcq⟩ := (normalize_distribution_spec hne).1 harea
  refine ⟨linspace M E nbins, qs, ?_, ha, ?_⟩
  · simp only [mkDist]
    rw [if_pos (by rw [hlen, linspace_length]; omega), hqs]
  · subst hcq
    intro p hp
    obtain ⟨x, hx, rfl⟩ := List.mem_map.mp hp
    exact mul_pos hc (hpos x hx)

/-- Ten bins for a state of 1 MeV with a particle of 3 MeV. -/
example : ∃ o, create 1 [3, 0, 0] none none = .ok o ∧ o.cme < o.msum ∧
    ∃ bins ps, energyQuad1 o 11 0 = .ok (bins, .values ps) ∧ area ps bins = 1 ∧ ∀ p ∈ ps, 0 < p := by
  obtain ⟨o, ho, h⟩ := forbidden_distribution (q := 1) (m1 := 3) (m2 := 0) (m3 := 0) (i := 0)
    (by norm_num) (by norm_num [others]) (by norm_num [others]) (by norm_num [others, massOf])
    (nbins := 11) (by norm_num)
  refine ⟨o, ho, ?_, h⟩
  simp [create] at ho
  subst ho
  norm_num [Obj.msum]

/-! ### C250: the method argument of `ThreeBody` -/

/-- **C250.** At or above threshold, `integrate` accepts exactly `'quad'` and `'rambo'`, and
`energy_distributions` accepts exactly these at any energy; every other name raises `ValueError`. -/
theorem methods_accepted_partial {mc : Monte} {err : ℝ} {o : Obj} {f : ThreeBody.Msqrd}
    (hc : o.call = .ok f) (nbins npts : ℕ) :
    (o.msum ≤ o.cme → ∃ v, integrate mc err o "quad" npts = .ok v ∧ v.1 = integrateQuad (o.state f)) ∧
    (o.msum ≤ o.cme → integrate mc err o "rambo" npts = mc.integral o npts) ∧
    energyDistributions mc o nbins "rambo" npts = mc.energy o nbins npts ∧
    (o.msum ≤ o.cme → massDistributions mc o nbins "rambo" npts = mc.mass o nbins npts) ∧
    ∀ m, m ≠ "quad" → m ≠ "rambo" →
      (o.msum ≤ o.cme → integrate mc err o m npts = .error .valueError) ∧
      energyDistributions mc o nbins m npts = .error .valueError ∧
      massDistributions mc o nbins m npts = .error .valueError := by
  refine ⟨fun h => ?_, fun h => ?_, ?_, fun h => ?_, fun m h1 h2 => ⟨fun h => ?_, ?_, ?_⟩⟩
  · exact ⟨(integrateQuad (o.state f), o.cme ^ 2 / (128 * Real.pi ^ 3) * err),
      by simp only [integrate, if_neg (not_lt.mpr h), if_true, hc], rfl⟩
  · simp [integrate, not_lt.mpr h]
  · simp [energyDistributions]
  · simp [massDistributions, not_lt.mpr h]
  · simp [integrate, not_lt.mpr h, h1, h2]
  · simp [energyDistributions, h1, h2]
  · by_cases h : o.cme < o.msum <;> simp [massDistributions, h, h1, h2]

/-- **C250 fails.** The methods `'trapz'` and `'simps'` that `invariant_mass_distributions` documents
raise `ValueError` for every object. -/
theorem documented_methods_raise (mc : Monte) (o : Obj) (nbins npts : ℕ) :
    massDistributions mc o nbins "trapz" npts = .error .valueError ∧
    massDistributions mc o nbins "simps" npts = .error .valueError := by
  constructor <;> by_cases h : o.cme < o.msum <;> simp [massDistributions, h]

/-- **C250.** A request for `'quad'` distributions with fewer than two edges raises: an
`AssertionError` for none, a `ValueError` for one. -/
theorem too_few_bins (mc : Monte) (o : Obj) (npts : ℕ) :
    energyDistributions mc o 0 "quad" npts = .error .assertionError ∧
    energyDistributions mc o 1 "quad" npts = .error .valueError := by
  constructor
  · simp [energyDistributions, energyQuad, mapE, energyQuad1, linspace, binCenters, mkDist]
  · simp [energyDistributions, energyQuad, mapE, energyQuad1, linspace, binCenters, mkDist,
      normalizeDistribution, binSum]

/-! ### C251: `three_body_integrator` -/

/-- **C251 fails.** `'trapz'`, `'simps'`, `'quad'` and leaving out `three_body_integrator` all give
the same answer, for every final state, matrix element and centre-of-mass energy: the rule named is not
used. -/
theorem integrator_name_ignored (mc : Monte) (R : RamboDists) (A : Assemble) (radiate : Bool) (cme : ℝ)
    (fs : List String) (a : Args) :
    ∀ n ∈ [some "trapz", some "simps", some "quad"],
      dnde mc R A radiate cme fs { a with integrator := n }
        = dnde mc R A radiate cme fs { a with integrator := none } := by
  have hE : ∀ t ∈ ["trapz", "simps", "quad"],
      makeEnergy mc R cme fs a.msqrd a.npts a.nbins t a.signature
        = makeEnergy mc R cme fs a.msqrd a.npts a.nbins "quad" a.signature := by
    intro t ht
    simp only [List.mem_cons, List.not_mem_nil, or_false] at ht
    rcases ht with rfl | rfl | rfl <;> simp [makeEnergy, integrators, threeBodyNames]
  have hM : ∀ t ∈ ["trapz", "simps", "quad"],
      makeMass mc R cme fs a.msqrd a.npts a.nbins t a.signature
        = makeMass mc R cme fs a.msqrd a.npts a.nbins "quad" a.signature := by
    intro t ht
    simp only [List.mem_cons, List.not_mem_nil, or_false] at ht
    rcases ht with rfl | rfl | rfl <;> simp [makeMass, integrators, threeBodyNames]
  intro n hn
  simp only [List.mem_cons, List.not_mem_nil, or_false] at hn
  rcases hn with rfl | rfl | rfl
  · simp only [dnde, multi, Option.getD_some, Option.getD_none, hE "trapz" (by simp), hM "trapz" (by simp)]
  · simp only [dnde, multi, Option.getD_some, Option.getD_none, hE "simps" (by simp), hM "simps" (by simp)]
  · rfl

/-- **C251.** The rules are different: on `y ↦ y²` the trapezoid rule of `npts` points overshoots the
integral from 0 to 1 by `1 / (6 (npts - 1)²)`. -/
theorem trapz_is_not_quad {npts : ℕ} (hn : 2 ≤ npts) :
    integrateFn (fun y => y ^ 2) 0 1 "quad" npts = some (1 / 3) ∧
    integrateFn (fun y => y ^ 2) 0 1 "trapz" npts = some (1 / 3 + 1 / (6 * ((npts : ℝ) - 1) ^ 2)) := by
  constructor
  · simp [integrateFn, integral_pow]
    norm_num
  · obtain ⟨k, rfl⟩ : ∃ k, npts = k + 1 := ⟨npts - 1, by omega⟩
    have hk : (0 : ℝ) < k := by exact_mod_cast (by omega : 0 < k)
    simp only [integrateFn, if_true, linspace, List.map_map, Function.comp_def]
    rw [trapezoid_range]
    congr 1
    have hs : ∀ (h : ℝ) (k : ℕ), ∑ i ∈ Finset.range k,
        (0 + ((i + 1 : ℕ) : ℝ) * h - (0 + (i : ℝ) * h))
          * ((0 + (i : ℝ) * h) ^ 2 + (0 + ((i + 1 : ℕ) : ℝ) * h) ^ 2) / 2
        = h ^ 3 * ((k : ℝ) ^ 3 / 3 + (k : ℝ) / 6) := by
      intro h k
      induction k with
      | zero => simp
      | succ k ih =>
        rw [Finset.sum_range_succ, ih]
        push_cast
        ring
    rw [hs]
    push_cast
    have : ((k : ℝ) + 1 - 1) = k := by ring
    rw [this, sub_zero]
    field_simp

/-- **C251, what holds.** For final states of other than three particles all four names give the same
answer. -/
theorem integrator_other_partial (mc : Monte) (R : RamboDists) (A : Assemble) (radiate : Bool) (cme : ℝ)
    (fs : List String) (hf : fs.length ≠ 3) (a : Args) {t : String} (ht : t ∈ integrators) :
    dnde mc R A radiate cme fs { a with integrator := some t }
      = dnde mc R A radiate cme fs { a with integrator := none } := by
  have hE : makeEnergy mc R cme fs a.msqrd a.npts a.nbins t a.signature
        = makeEnergy mc R cme fs a.msqrd a.npts a.nbins "quad" a.signature := by
    simp only [makeEnergy, ht, hf, false_and, not_true_eq_false, if_false]
    simp [integrators]
  have hM : makeMass mc R cme fs a.msqrd a.npts a.nbins t a.signature
        = makeMass mc R cme fs a.msqrd a.npts a.nbins "quad" a.signature := by
    simp only [makeMass, ht, hf, false_and, not_true_eq_false, if_false]
    simp [integrators]
  simp only [dnde, multi, Option.getD_some, Option.getD_none, hE, hM]

/-- **C251.** An unknown name raises `AssertionError` for three or more allowed particles and is
ignored for one or two. -/
theorem integrator_unknown (mc : Monte) (R : RamboDists) (A : Assemble) (radiate : Bool) {cme : ℝ}
    {fs : List String} {ms : List ℝ} (hm : masses fs = .ok ms) (hc : ms.sum ≤ cme) (a : Args)
    {t : String} (ht : t ∉ integrators) :
    (3 ≤ fs.length →
      dnde mc R A radiate cme fs { a with integrator := some t } = .error .assertionError) ∧
    (fs.length = 1 ∨ fs.length = 2 →
      dnde mc R A radiate cme fs { a with integrator := some t }
        = dnde mc R A radiate cme fs { a with integrator := none }) := by
  constructor
  · intro h
    match fs, h with
    | s1 :: s2 :: s3 :: l, _ =>
      simp only [dnde, multi, hm, if_neg (not_lt.mpr hc), Option.getD_some, makeEnergy, ht]
      simp
  · intro h
    match fs, h with
    | [s], _ => simp [dnde]
    | [s1, s2], _ => simp [dnde]
    | [], h => simp at h
    | _ :: _ :: _ :: _, h => simp at h

/-! ### C252: the signature of the matrix element -/

theorem masses_length {fs : List String} {ms : List ℝ} (h : masses fs = .ok ms) :
    ms.length = fs.length := by
  have key : ∀ (fs : List String) (ms : List ℝ), NBody.getMasses fs = .ok ms → ms.length = fs.length := by
    intro fs
    induction fs with
    | nil => intro ms h; simp [NBody.getMasses] at h; simp [← h]
    | cons s l ih =>
      intro ms h
      simp only [NBody.getMasses] at h
      split at h
      · cases h
      · split at h
        · cases h
        · rename_i m' _ ms' hms
          cases h
          simp [ih ms' hms]
  unfold masses at h
  split at h
  · rename_i ms' h'
    cases h
    exact key _ _ h'
  · cases h

/-- **C252, what holds.** With the default quadrature, a matrix element of the momenta passed with
`msqrd_signature='momenta'` gives the same spectrum of a three-body state as the same matrix element
written in `s` and `t`, passed with `'st'` or with the default. -/
theorem signatures_agree_partial (mc : Monte) (R : RamboDists) (A : Assemble) (radiate : Bool)
    {cme : ℝ} {fs : List String} {m1 m2 m3 : ℝ} (hm : masses fs = .ok [m1, m2, m3]) (a : Args)
    (hi : a.integrator ≠ some "rambo") (f : List P4 → ℝ) {sig : Option String}
    (hs : sig = some "st" ∨ sig = none) :
    dnde mc R A radiate cme fs { a with msqrd := some (.unary f), signature := some "momenta" }
      = dnde mc R A radiate cme fs
        { a with msqrd := some (.binary (convert f cme (m1, m2, m3))), signature := sig } := by
  have hf : fs.length = 3 := by rw [← masses_length hm]; rfl
  have ht : a.integrator.getD "quad" ≠ "rambo" := by
    cases h : a.integrator with
    | none => simp
    | some t => rw [h] at hi; simpa using hi
  have hc : create cme [m1, m2, m3] (some (.unary f)) (some "momenta")
      = create cme [m1, m2, m3] (some (.binary (convert f cme (m1, m2, m3)))) sig := by
    rcases hs with rfl | rfl <;> simp [create]
  generalize htt : a.integrator.getD "quad" = t at ht
  have hE : makeEnergy mc R cme fs (some (.unary f)) a.npts a.nbins t (some "momenta")
      = makeEnergy mc R cme fs (some (.binary (convert f cme (m1, m2, m3)))) a.npts a.nbins t sig := by
    unfold makeEnergy
    by_cases h1 : t ∉ integrators
    · rw [if_pos h1, if_pos h1]
    · rw [if_neg h1, if_neg h1, hm]
      have h2 : fs.length = 3 ∧ t ∈ threeBodyNames := by
        refine ⟨hf, ?_⟩
        simp only [integrators, threeBodyNames, List.mem_cons, List.not_mem_nil, or_false,
          not_not] at h1 ⊢
        tauto
      simp only [if_pos h2, hc]
  have hM : makeMass mc R cme fs (some (.unary f)) a.npts a.nbins t (some "momenta")
      = makeMass mc R cme fs (some (.binary (convert f cme (m1, m2, m3)))) a.npts a.nbins t sig := by
    unfold makeMass
    by_cases h1 : t ∉ integrators
    · rw [if_pos h1, if_pos h1]
    · rw [if_neg h1, if_neg h1, hm]
      have h2 : fs.length = 3 ∧ t ∈ threeBodyNames := by
        refine ⟨hf, ?_⟩
        simp only [integrators, threeBodyNames, List.mem_cons, List.not_mem_nil, or_false,
          not_not] at h1 ⊢
        tauto
      simp only [if_pos h2, hc]
  simp only [dnde, multi, htt, hE, hM]

/-- **C252 fails.** A matrix element of `s` and `t` raises `TypeError` with the Monte-Carlo integrator,
whatever signature is declared, and for every state of four or more particles. -/
theorem st_raises_with_rambo (mc : Monte) (R : RamboDists) (A : Assemble) (radiate : Bool)
    {cme : ℝ} {fs : List String} {ms : List ℝ} (hm : masses fs = .ok ms) (hc : ms.sum ≤ cme)
    (a : Args) (g : ThreeBody.Msqrd)
    (h : (fs.length = 3 ∧ a.integrator = some "rambo")
      ∨ (4 ≤ fs.length ∧ a.integrator.getD "quad" ∈ integrators)) :
    dnde mc R A radiate cme fs { a with msqrd := some (.binary g) } = .error .typeError := by
  have hE : makeEnergy mc R cme fs (some (.binary g)) a.npts a.nbins (a.integrator.getD "quad") a.signature
      = .error .typeError := by
    unfold makeEnergy
    rcases h with ⟨h1, h2⟩ | ⟨h1, h2⟩
    · rw [h2]
      simp [integrators, hm, threeBodyNames, ramboMsqrd, Except.map]
    · rw [if_neg (by simpa using h2), hm]
      simp only
      rw [if_neg (by omega)]
      simp [ramboMsqrd, Except.map]
  have hl : 3 ≤ fs.length := by omega
  match fs, hl with
  | s1 :: s2 :: s3 :: l, _ =>
    simp only [dnde, multi, hm, if_neg (not_lt.mpr hc), hE]

/-- **C252.** The Monte-Carlo integrator does not look at the signature: with it, and for four or more
particles, any string is accepted and changes nothing. -/
theorem signature_ignored_by_rambo (mc : Monte) (R : RamboDists) (A : Assemble) (radiate : Bool)
    (cme : ℝ) (fs : List String) (a : Args) (sig : Option String)
    (h : fs.length ≠ 3 ∨ a.integrator = some "rambo") :
    dnde mc R A radiate cme fs { a with signature := sig } = dnde mc R A radiate cme fs a := by
  have h' : ¬ (fs.length = 3 ∧ a.integrator.getD "quad" ∈ threeBodyNames) := by
    rintro ⟨h1, h2⟩
    rcases h with h | h
    · exact h h1
    · rw [h] at h2; simp [threeBodyNames] at h2
  simp only [dnde, multi, makeEnergy, makeMass, if_neg h']

/-- **C252.** For a three-body state with the default integrator: an unknown signature raises
`AssertionError`; a matrix element of the momenta without a signature (or with `'st'`) raises
`TypeError`, as does one of `s`, `t` declared `'momenta'`. -/
theorem signature_mismatch (mc : Monte) (R : RamboDists) (A : Assemble) (radiate : Bool)
    {cme : ℝ} {fs : List String} {m1 m2 m3 : ℝ} (hm : masses fs = .ok [m1, m2, m3])
    (k2 : 0 ≤ m2) (k3 : 0 ≤ m3) (hq : 0 < cme) (hc : m1 + m2 + m3 < cme)
    (a : Args) (hi : a.integrator = none) (hn : 2 ≤ a.nbins) :
    (∀ s, s ≠ "momenta" → s ≠ "st" →
      dnde mc R A radiate cme fs { a with signature := some s } = .error .assertionError) ∧
    (∀ f, ∀ sig, sig = none ∨ sig = some "st" →
      dnde mc R A radiate cme fs { a with msqrd := some (.unary f), signature := sig }
        = .error .typeError) ∧
    (∀ g, dnde mc R A radiate cme fs { a with msqrd := some (.binary g), signature := some "momenta" }
        = .error .typeError) := by
  have hf : fs.length = 3 := by rw [← masses_length hm]; rfl
  have hsum : ¬ cme < ([m1, m2, m3] : List ℝ).sum := by simp; linarith
  -- the first bin centre of the first particle is in the allowed range
  have herr : ∀ x : Err, energyDistributions mc ⟨cme, (m1, m2, m3), .error x⟩ a.nbins "quad" 10000
      = .error x := by
    intro x
    have hlim := limits_eq cme m1 m2 m3 0
    have h1 : energyQuad1 ⟨cme, (m1, m2, m3), .error x⟩ a.nbins 0 = .error x := by
      unfold energyQuad1
      simp only [hlim]
      have hlt : massOf (m1, m2, m3) 0 < (cme ^ 2 + massOf (m1, m2, m3) 0 ^ 2
          - ((others (m1, m2, m3) 0).1 + (others (m1, m2, m3) 0).2) ^ 2) / (2 * cme) := by
        rw [lt_div_iff₀ (by linarith)]
        simp only [massOf, others]
        nlinarith
      obtain ⟨c, l, hcl⟩ : ∃ c l, binCenters (linspace (massOf (m1, m2, m3) 0)
          ((cme ^ 2 + massOf (m1, m2, m3) 0 ^ 2
            - ((others (m1, m2, m3) 0).1 + (others (m1, m2, m3) 0).2) ^ 2) / (2 * cme)) a.nbins)
          = c :: l := by
        apply List.exists_cons_of_ne_nil
        intro h0
        have := linspace_centers_length (massOf (m1, m2, m3) 0)
          ((cme ^ 2 + massOf (m1, m2, m3) 0 ^ 2
            - ((others (m1, m2, m3) 0).1 + (others (m1, m2, m3) 0).2) ^ 2) / (2 * cme)) hn
        rw [h0] at this
        simp at this
        omega
      obtain ⟨b1, b2⟩ := centers_between hlt hn (c := c) (by rw [hcl]; simp)
      rw [hcl, mapE_error (x := x)]
      unfold partialCall
      rw [if_pos]
      rw [inRange_iff]
      simp only [boundsX, massOf, others] at b1 b2 ⊢
      rw [lt_div_iff₀ (by linarith)] at b2
      constructor
      · rw [mul_div_assoc']
        gcongr
      · rw [div_le_iff₀ hq]
        have : ((m1 / cme) ^ 2 + (1 - (m2 / cme + m3 / cme) ^ 2)) * cme
            = (cme ^ 2 + m1 ^ 2 - (m2 + m3) ^ 2) / cme := by
          field_simp
          ring
        rw [this, le_div_iff₀ hq]
        linarith
    simp [energyDistributions, energyQuad, mapE, h1]
  have hq3 : fs.length = 3 ∧ "quad" ∈ threeBodyNames := ⟨hf, by simp [threeBodyNames]⟩
  have hdn : ∀ (msq : Option Callable) (sig : Option String) (x : Err),
      makeEnergy mc R cme fs msq a.npts a.nbins "quad" sig = .error x →
      dnde mc R A radiate cme fs { a with msqrd := msq, signature := sig } = .error x := by
    intro msq sig x hx
    match fs, hf with
    | [s1, s2, s3], _ =>
      simp only [dnde, multi, hm, if_neg hsum, hi, Option.getD_none, hx]
  refine ⟨?_, ?_, ?_⟩
  · intro s h1 h2
    have := hdn a.msqrd (some s) .assertionError ?_
    · exact this
    · unfold makeEnergy
      rw [if_neg (by simp [integrators]), hm]
      simp only [if_pos hq3]
      simp [create, h1, h2]
  · intro f sig hsig
    refine hdn _ _ _ ?_
    unfold makeEnergy
    rw [if_neg (by simp [integrators]), hm]
    simp only [if_pos hq3]
    rcases hsig with rfl | rfl
    · simpa [create] using herr .typeError
    · simpa [create] using herr .typeError
  · intro g
    refine hdn _ _ _ ?_
    unfold makeEnergy
    rw [if_neg (by simp [integrators]), hm]
    simp only [if_pos hq3]
    simpa [create] using herr .typeError

/-! ### C253: two-body integrals of a matrix element of the momenta -/

/-- **C253.** At or above threshold: the momenta handed to the matrix element are on shell, add up to
the total momentum at rest and make the angle with cosine `z`, and the result is the integral of the
matrix element over the cosine times `|p| / (8 π q)`: the same as for the matrix element written in the
cosine. -/
theorem two_body_momenta {q m1 m2 : ℝ} (hq : 0 < q) (n1 : 0 ≤ m1) (n2 : 0 ≤ m2) (hthr : m1 + m2 ≤ q)
    (f : List P4 → ℝ) :
    ∃ p, 0 ≤ p ∧ ∃ P1 P2 : ℝ → P4,
      (∀ z ∈ Set.Icc (-1 : ℝ) 1,
        (P1 z).e ^ 2 - ((P1 z).x ^ 2 + (P1 z).y ^ 2 + (P1 z).z ^ 2) = m1 ^ 2 ∧ 0 ≤ (P1 z).e ∧
        (P2 z).e ^ 2 - ((P2 z).x ^ 2 + (P2 z).y ^ 2 + (P2 z).z ^ 2) = m2 ^ 2 ∧ 0 ≤ (P2 z).e ∧
        (P1 z).e + (P2 z).e = q ∧ (P1 z).x + (P2 z).x = 0 ∧ (P1 z).y + (P2 z).y = 0 ∧
        (P1 z).z + (P2 z).z = 0 ∧ (P1 z).z = z * p ∧
        (P1 z).x ^ 2 + (P1 z).y ^ 2 + (P1 z).z ^ 2 = p ^ 2) ∧
      twoBody q [m1, m2] (some (.momenta f)) (some "momenta")
        = .ok (some (.num ((∫ z in (-1 : ℝ)..1, f [P1 z, P2 z]) * (p / (8 * Real.pi * q))))) ∧
      twoBody q [m1, m2] (some (.angle fun z => f [P1 z, P2 z])) none
        = twoBody q [m1, m2] (some (.momenta f)) (some "momenta") := by
  obtain ⟨p, h1, h2, h3, -, -⟩ := two_body_momentum_physical q m1 m2 n1 n2 hq hthr
  have hpre : 1 / (8 * Real.pi) * p / q = p / (8 * Real.pi * q) := by
    have := Real.pi_pos
    field_simp
  refine ⟨p, h2,
    fun z => ⟨Real.sqrt (m1 ^ 2 + p ^ 2), Real.sqrt (1 - z ^ 2) * p, 0, z * p⟩,
    fun z => ⟨Real.sqrt (m2 ^ 2 + p ^ 2), -Real.sqrt (1 - z ^ 2) * p, 0, -z * p⟩, ?_, ?_, ?_⟩
  · rintro z ⟨hz1, hz2⟩
    have hs : Real.sqrt (1 - z ^ 2) ^ 2 = 1 - z ^ 2 := Real.sq_sqrt (by nlinarith)
    have e1 : Real.sqrt (m1 ^ 2 + p ^ 2) ^ 2 = m1 ^ 2 + p ^ 2 := Real.sq_sqrt (by positivity)
    have e2 : Real.sqrt (m2 ^ 2 + p ^ 2) ^ 2 = m2 ^ 2 + p ^ 2 := Real.sq_sqrt (by positivity)
    refine ⟨?_, Real.sqrt_nonneg _, ?_, Real.sqrt_nonneg _, ?_, ?_, ?_, ?_, rfl, ?_⟩
    · simp only [e1, mul_pow, hs]; ring
    · simp only [e2, mul_pow, neg_sq, hs]; ring
    · simp only
      rw [add_comm (m1 ^ 2), add_comm (m2 ^ 2)]
      exact h3
    · simp only; ring
    · simp
    · simp only; ring
    · simp only [mul_pow, hs]; ring
  · rw [← hpre]
    simp [twoBody, integrateMomenta, h1, twoMomenta]
  · simp [twoBody, integrateMomenta, twoBodyIntegrate, h1, twoMomenta]

/-- **C253.** A matrix element that takes one value `c` on all kinematically allowed pairs gives
`c |p| / (4 π q)` in both signatures. -/
theorem two_body_invariant {q m1 m2 : ℝ} (hq : 0 < q) (n1 : 0 ≤ m1) (n2 : 0 ≤ m2) (hthr : m1 + m2 ≤ q)
    {f : List P4 → ℝ} {c : ℝ}
    (hf : ∀ a b : P4, a.e ^ 2 - (a.x ^ 2 + a.y ^ 2 + a.z ^ 2) = m1 ^ 2 →
      b.e ^ 2 - (b.x ^ 2 + b.y ^ 2 + b.z ^ 2) = m2 ^ 2 → a.e + b.e = q → a.x + b.x = 0 →
      a.y + b.y = 0 → a.z + b.z = 0 → f [a, b] = c) :
    ∃ p, 0 ≤ p ∧ Real.sqrt (p ^ 2 + m1 ^ 2) + Real.sqrt (p ^ 2 + m2 ^ 2) = q ∧
      twoBody q [m1, m2] (some (.momenta f)) (some "momenta")
        = .ok (some (.num (c * (p / (4 * Real.pi * q))))) := by
  obtain ⟨p, hp, P1, P2, hP, hv, -⟩ := two_body_momenta hq n1 n2 hthr f
  refine ⟨p, hp, ?_, ?_⟩
  · obtain ⟨h1, h1', h2, h2', h3, hx, hy, hz, -, h4⟩ := hP 0 (by norm_num)
    have k1 : (P1 0).e = Real.sqrt (p ^ 2 + m1 ^ 2) := by
      rw [eq_comm, Real.sqrt_eq_iff_mul_self_eq (by positivity) h1']; nlinarith
    have k2 : (P2 0).e = Real.sqrt (p ^ 2 + m2 ^ 2) := by
      have ax : (P2 0).x = -(P1 0).x := by linarith
      have ay : (P2 0).y = -(P1 0).y := by linarith
      have az : (P2 0).z = -(P1 0).z := by linarith
      rw [ax, ay, az] at h2
      rw [eq_comm, Real.sqrt_eq_iff_mul_self_eq (by positivity) h2']; nlinarith
    rw [← k1, ← k2, h3]
  · rw [hv]
    have : ∫ z in (-1 : ℝ)..1, f [P1 z, P2 z] = ∫ _ in (-1 : ℝ)..1, c := by
      apply intervalIntegral.integral_congr
      intro z hz
      rw [Set.uIcc_of_le (by norm_num)] at hz
      obtain ⟨h1, -, h2, -, h3, hx, hy, hz, -, -⟩ := hP z hz
      exact hf _ _ h1 h2 h3 hx hy hz
    rw [this]
    simp only [intervalIntegral.integral_const, smul_eq_mul]
    have hpi := Real.pi_pos
    have : (1 - -1) * c * (p / (8 * Real.pi * q)) = c * (p / (4 * Real.pi * q)) := by
      field_simp
      ring
    rw [this]

/-- **C253 fails without a matrix element.** The default flat matrix element with
`msqrd_signature='momenta'` raises `TypeError`, for all energies and masses; with the other signatures it
is 1. -/
theorem two_body_default (q m1 m2 : ℝ) :
    twoBody q [m1, m2] none (some "momenta") = .error .typeError ∧
    ∀ sig, sig = none ∨ sig = some "z" →
      twoBody q [m1, m2] none sig = twoBody q [m1, m2] (some (.angle fun _ => 1)) sig := by
  refine ⟨by simp [twoBody], ?_⟩
  rintro sig (rfl | rfl) <;> simp [twoBody]

/-- **C253.** Below threshold the result is NaN for every matrix element of the momenta. -/
theorem two_body_momenta_below {q m1 m2 : ℝ} (hq : 0 < q) (hthr : q < m1 + m2) (f : List P4 → ℝ) :
    twoBody q [m1, m2] (some (.momenta f)) (some "momenta") = .ok (some .nan) := by
  simp [twoBody, integrateMomenta, two_body_momentum_nan_below q m1 m2 hq hthr]

/-- The energy of the first of two massless particles as a matrix element. -/
example : twoBody 2 [0, 0] (some (.momenta fun ps => (ps.headD ⟨0, 0, 0, 0⟩).e)) (some "momenta")
    = .ok (some (.num (1 / (8 * Real.pi)))) := by
  obtain ⟨p, hp, hs, h⟩ := two_body_invariant (q := 2) (m1 := 0) (m2 := 0)
    (f := fun ps => (ps.headD ⟨0, 0, 0, 0⟩).e) (c := 1) (by norm_num) le_rfl le_rfl (by norm_num) (by
      intro a b h1 h2 h3 hx hy hz
      have bx : b.x = -a.x := by linarith
      have b_y : b.y = -a.y := by linarith
      have bz : b.z = -a.z := by linarith
      have be : b.e = 2 - a.e := by linarith
      rw [bx, b_y, bz, be] at h2
      simp only [List.headD_cons]
      nlinarith)
  simp [Real.sqrt_sq hp] at hs
  have : p = 1 := by linarith
  rw [h, this]
  congr 3
  have := Real.pi_pos
  field_simp
  norm_num

/-! ### C254: expectation values by quadrature -/

theorem interp0_left {a : ℝ} {xs ys : List ℝ} {x : ℝ} (h : x < a) : interp0 (a :: xs) ys x = 0 := by
  match xs, ys with
  | [], [] => rfl
  | [], [y] => simp [interp0, h.ne]
  | [], _ :: _ :: _ => rfl
  | _ :: _, [] => rfl
  | _ :: _, [_] => rfl
  | _ :: _, _ :: _ :: _ => simp [interp0, h]

theorem interp0_right {xs ys : List ℝ} (hs : xs.Pairwise (· < ·)) {x : ℝ} (h : ∀ a ∈ xs, a < x) :
    interp0 xs ys x = 0 := by
  induction xs generalizing ys with
  | nil => rfl
  | cons a l ih =>
    have ha := h a (by simp)
    match l, ys with
    | [], [] => rfl
    | [], [y] => simp [interp0, ha.ne']
    | [], _ :: _ :: _ => rfl
    | _ :: _, [] => rfl
    | _ :: _, [_] => rfl
    | b :: l', y :: y' :: ys' =>
      have hb := h b (by simp)
      simp only [interp0, if_neg (not_lt.mpr ha.le), if_neg (not_lt.mpr hb.le)]
      exact ih hs.tail fun c hc => h c (by simp [hc])

theorem head_le_last {a : ℝ} {l : List ℝ} (hs : (a :: l).Pairwise (· < ·)) :
    a ≤ (a :: l).getLast (by simp) := by
  cases l with
  | nil => simp
  | cons b l =>
    have := List.rel_of_pairwise_cons hs (List.getLast_mem (l := b :: l) (by simp))
    simpa using this.le

theorem interp0_integral {a : ℝ} {l ys : List ℝ} (hs : (a :: l).Pairwise (· < ·))
    (hl : (a :: l).length = ys.length) :
    IntervalIntegrable (interp0 (a :: l) ys) volume a ((a :: l).getLast (by simp)) ∧
    ∫ x in a..((a :: l).getLast (by simp)), interp0 (a :: l) ys x = trapezoid (a :: l) ys := by
  induction l generalizing a ys with
  | nil =>
    match ys, hl with
    | [y], _ => simp [trapezoid]
  | cons b l ih =>
    match ys, hl with
    | y :: y' :: ys, hl =>
      have hab : a < b := List.rel_of_pairwise_cons hs (by simp)
      obtain ⟨i2, e2⟩ := ih (ys := y' :: ys) hs.tail (by simpa using hl)
      have hlast : (a :: b :: l).getLast (by simp) = (b :: l).getLast (by simp) := by simp
      have hbl := head_le_last hs.tail
      have c1 : Set.EqOn (interp0 (a :: b :: l) (y :: y' :: ys))
          (fun x => (y' - y) / (b - a) * (x - a) + y) (Set.uIoo a b) := by
        intro x hx
        rw [Set.uIoo_of_le hab.le] at hx
        simp [interp0, not_lt.mpr hx.1.le, hx.2]
      have c2 : Set.EqOn (interp0 (a :: b :: l) (y :: y' :: ys)) (interp0 (b :: l) (y' :: ys))
          (Set.uIoo b ((b :: l).getLast (by simp))) := by
        intro x hx
        rw [Set.uIoo_of_le hbl] at hx
        simp only [interp0, if_neg (not_lt.mpr (hab.le.trans hx.1.le)), if_neg (not_lt.mpr hx.1.le)]
      have i1 : IntervalIntegrable (interp0 (a :: b :: l) (y :: y' :: ys)) volume a b :=
        (intervalIntegrable_congr_uIoo c1).mpr (Continuous.intervalIntegrable (by fun_prop) _ _)
      have i2' := (intervalIntegrable_congr_uIoo c2).mpr i2
      refine ⟨by rw [hlast]; exact i1.trans i2', ?_⟩
      rw [hlast, ← intervalIntegral.integral_add_adjacent_intervals i1 i2',
        intervalIntegral.integral_congr_uIoo c2, e2, intervalIntegral.integral_congr_uIoo c1, trapezoid]
      congr 1
      have hd : b - a ≠ 0 := by linarith
      rw [intervalIntegral.integral_add (Continuous.intervalIntegrable (by fun_prop) _ _)
        (Continuous.intervalIntegrable (by fun_prop) _ _), intervalIntegral.integral_const_mul,
        intervalIntegral.integral_sub (Continuous.intervalIntegrable (by fun_prop) _ _)
        (Continuous.intervalIntegrable (by fun_prop) _ _)]
      simp only [integral_id, intervalIntegral.integral_const, smul_eq_mul]
      field_simp
      ring

theorem centers_sorted {a b : ℝ} {l : List ℝ} (hs : (a :: b :: l).Pairwise (· < ·)) :
    (binCenters (a :: b :: l)).Pairwise (· < ·) ∧ a < (b + a) / 2 ∧
    (∀ c ∈ binCenters (a :: b :: l), (b + a) / 2 ≤ c ∧ c < (a :: b :: l).getLast (by simp)) ∧
    (binCenters (a :: b :: l)).length = l.length + 1 := by
  have hab : a < b := List.rel_of_pairwise_cons hs (by simp)
  induction l generalizing a b with
  | nil => simp [binCenters]; constructor <;> linarith
  | cons c l ih =>
    have hbc : b < c := List.rel_of_pairwise_cons hs.tail (by simp)
    obtain ⟨h1, h2, h3, h4⟩ := ih hs.tail hbc
    have hle := head_le_last hs.tail
    refine ⟨?_, by linarith, ?_, ?_⟩
    · rw [binCenters, List.pairwise_cons]
      refine ⟨fun d hd => ?_, h1⟩
      have := (h3 d hd).1
      linarith
    · intro d hd
      rw [binCenters, List.mem_cons] at hd
      have hlast : (a :: b :: c :: l).getLast (by simp) = (b :: c :: l).getLast (by simp) := by simp
      rw [hlast]
      rcases hd with rfl | hd
      · exact ⟨le_rfl, by linarith⟩
      · obtain ⟨k1, k2⟩ := h3 d hd
        exact ⟨by linarith, k2⟩
    · rw [binCenters, List.length_cons, h4]; simp

theorem trapezoid_scale (c : ℝ) (xs ys : List ℝ) :
    trapezoid xs (List.zipWith (fun p f => p * f) ys (xs.map fun _ => c)) = c * trapezoid xs ys := by
  induction xs generalizing ys with
  | nil => simp [trapezoid]
  | cons x xs ih =>
    match xs, ys with
    | [], [] => simp [trapezoid]
    | [], [_] => simp [trapezoid]
    | [], _ :: _ :: _ => simp [trapezoid]
    | _ :: _, [] => simp [trapezoid]
    | _ :: _, [_] => simp [trapezoid]
    | x' :: xs', y :: y' :: ys' =>
      have := ih (y' :: ys')
      simp only [List.map_cons, List.zipWith_cons_cons, trapezoid] at this ⊢
      rw [this]
      ring

/-- **C254, what holds.** For increasing bin edges the methods `'quad'` and `'trapz'` give the same
expectation value of every constant: the area of the interpolated density between the first and the last
bin centre. -/
theorem expect_quad_constant_partial {a b : ℝ} {l ps : List ℝ} (hs : (a :: b :: l).Pairwise (· < ·))
    (hl : (a :: b :: l).length = ps.length + 1) (c : ℝ) :
    expectQuad (fun _ => c) (a :: b :: l) ps = expectTrapz (fun _ => c) (a :: b :: l) ps := by
  obtain ⟨h1, h2, h3, h4⟩ := centers_sorted hs
  unfold expectQuad expectTrapz
  simp only []
  rw [trapezoid_scale, intervalIntegral.integral_mul_const, mul_comm]
  congr 1
  obtain ⟨x0, xs, hx⟩ : ∃ x0 xs, binCenters (a :: b :: l) = x0 :: xs :=
    List.exists_cons_of_ne_nil (by intro h; rw [h] at h4; simp at h4)
  have hx0 : x0 = (b + a) / 2 := by
    rw [binCenters] at hx
    exact ((List.cons.inj hx).1).symm
  have hlen : (x0 :: xs).length = ps.length := by
    rw [← hx, h4]; simpa using hl
  have hmem := List.getLast_mem (l := x0 :: xs) (by simp)
  have hlt : (x0 :: xs).getLast (by simp) < (a :: b :: l).getLast (by simp) :=
    (h3 _ (by rw [hx]; exact hmem)).2
  rw [hx] at h1 ⊢
  obtain ⟨i2, e2⟩ := interp0_integral h1 hlen
  have hle := head_le_last h1
  have c1 : Set.EqOn (interp0 (x0 :: xs) ps) (fun _ => (0 : ℝ)) (Set.uIoo a x0) := by
    intro x hx'
    rw [Set.uIoo_of_le (by rw [hx0]; exact h2.le)] at hx'
    exact interp0_left hx'.2
  have c3 : Set.EqOn (interp0 (x0 :: xs) ps) (fun _ => (0 : ℝ))
      (Set.uIoo ((x0 :: xs).getLast (by simp)) ((a :: b :: l).getLast (by simp))) := by
    intro x hx'
    rw [Set.uIoo_of_le hlt.le] at hx'
    refine interp0_right h1 fun d hd => lt_of_le_of_lt ?_ hx'.1
    rcases List.mem_iff_append.mp hd with ⟨p, q, hpq⟩
    by_cases hq : q = []
    · subst hq
      have : (x0 :: xs).getLast (by simp) = d := by simp [hpq]
      rw [this]
    · have hg : (x0 :: xs).getLast (by simp) = q.getLast hq := by
        simp only [hpq]
        have hdq : d :: q ≠ [] := by simp
        rw [List.getLast_append_of_ne_nil (by simp) hdq, List.getLast_cons hq]
      rw [hg]
      rw [hpq] at h1
      have := (List.pairwise_append.mp h1).2.1
      exact (List.rel_of_pairwise_cons this (List.getLast_mem hq)).le
  have i1 := (intervalIntegrable_congr_uIoo (μ := volume) c1).mpr
    (Continuous.intervalIntegrable (by fun_prop) _ _)
  have i3 := (intervalIntegrable_congr_uIoo (μ := volume) c3).mpr
    (Continuous.intervalIntegrable (by fun_prop) _ _)
  have hd : (a :: b :: l).headD 0 = a := rfl
  have hg : (a :: b :: l).getLastD 0 = (a :: b :: l).getLast (by simp) := by
    simp [List.getLastD_eq_getLast?, List.getLast?_eq_getLast_of_ne_nil]
  rw [hd, hg, ← intervalIntegral.integral_add_adjacent_intervals (i1.trans i2) i3,
    ← intervalIntegral.integral_add_adjacent_intervals i1 i2, e2,
    intervalIntegral.integral_congr_uIoo c1, intervalIntegral.integral_congr_uIoo c3]
  simp

/-- **C254 fails.** For the mean of a density falling over two bins the two methods differ. -/
theorem expect_methods_differ :
    expectTrapz (fun x => x) [0, 1, 2] [1, 0] = 1 / 4 ∧
    expectQuad (fun x => x) [0, 1, 2] [1, 0] = 5 / 12 := by
  constructor
  · norm_num [expectTrapz, binCenters, trapezoid]
  · unfold expectQuad
    have hc : binCenters ([0, 1, 2] : List ℝ) = [1 / 2, 3 / 2] := by norm_num [binCenters]
    rw [hc]
    simp only [List.headD_cons, List.getLastD_cons, List.getLastD_nil]
    have c1 : Set.EqOn (fun x => interp0 [1 / 2, 3 / 2] [1, 0] x * x) (fun _ => (0 : ℝ))
        (Set.uIoo 0 (1 / 2)) := by
      intro x hx
      rw [Set.uIoo_of_le (by norm_num)] at hx
      simp only [interp0_left hx.2, zero_mul]
    have c2 : Set.EqOn (fun x => interp0 [1 / 2, 3 / 2] [1, 0] x * x) (fun x => 3 / 2 * x - x ^ 2)
        (Set.uIoo (1 / 2) (3 / 2)) := by
      intro x hx
      rw [Set.uIoo_of_le (by norm_num)] at hx
      simp only [interp0, if_neg (not_lt.mpr hx.1.le), if_pos hx.2]
      ring
    have c3 : Set.EqOn (fun x => interp0 [1 / 2, 3 / 2] [1, 0] x * x) (fun _ => (0 : ℝ))
        (Set.uIoo (3 / 2) 2) := by
      intro x hx
      rw [Set.uIoo_of_le (by norm_num)] at hx
      have := interp0_right (xs := [1 / 2, 3 / 2]) (ys := [1, 0]) (x := x) (by norm_num) (by
        intro a ha
        simp only [List.mem_cons, List.not_mem_nil, or_false] at ha
        rcases ha with rfl | rfl
        · linarith [hx.1]
        · exact hx.1)
      simp only [this, zero_mul]
    have i1 := (intervalIntegrable_congr_uIoo (μ := volume) c1).mpr
      (Continuous.intervalIntegrable (by fun_prop) _ _)
    have i2 := (intervalIntegrable_congr_uIoo (μ := volume) c2).mpr
      (Continuous.intervalIntegrable (by fun_prop) _ _)
    have i3 := (intervalIntegrable_congr_uIoo (μ := volume) c3).mpr
      (Continuous.intervalIntegrable (by fun_prop) _ _)
    rw [← intervalIntegral.integral_add_adjacent_intervals (i1.trans i2) i3,
      ← intervalIntegral.integral_add_adjacent_intervals i1 i2,
      intervalIntegral.integral_congr_uIoo c1, intervalIntegral.integral_congr_uIoo c2,
      intervalIntegral.integral_congr_uIoo c3,
      intervalIntegral.integral_sub (Continuous.intervalIntegrable (by fun_prop) _ _)
        (Continuous.intervalIntegrable (by fun_prop) _ _), intervalIntegral.integral_const_mul,
      integral_id, integral_pow]
    norm_num

example : expectQuad (fun _ => 1) [0, 1, 2, 4] [1 / 4, 1 / 4, 1 / 4] = 5 / 8 := by
  rw [expect_quad_constant_partial (by norm_num) (by simp)]
  norm_num [expectTrapz, binCenters, trapezoid]

end Hazma.PhaseApi
