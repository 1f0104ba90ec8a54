import Verif.Model.PhotonTables
import Verif.Props.Boost
import Verif.Props.BoostTable
import Verif.Props.Interp
import Mathlib.Tactic

/-!
# Tabulated photon spectra (C189-C193)
-/

namespace Hazma.PhotonTables

open Hazma.BoostTable MeasureTheory

/-! ## Specifications -/

/-- Specification: a table that can be read: as many values as energies, energies positive and
increasing, values non-negative. -/
structure Sound (t : Table) : Prop where
  paired : t.energies.length = t.dnde.length
  nonempty : t.energies ≠ []
  positive : 0 < at' t.energies 0
  ascending : Ascending t.energies
  values : ∀ v ∈ t.dnde, 0 ≤ v

/-- Specification: lines at positive energies with non-negative weights. -/
def SoundLines (s : Spectrum) : Prop := ∀ l ∈ s.lines, 0 < l.energy ∧ 0 ≤ l.weight

/-! ## The branch -/

theorem eps_pos : (0 : ℝ) < (2 : ℝ)⁻¹ ^ 52 := by positivity

theorem beta_range {parentEnergy mass : ℝ} (hm : 0 < mass) (h : mass < parentEnergy) :
    0 < Boost.boostBeta parentEnergy mass ∧ Boost.boostBeta parentEnergy mass < 1 := by
  obtain ⟨-, h0, h1, -, h2, -⟩ := Boost.boost_kinematics parentEnergy mass hm h.le
  exact ⟨lt_of_le_of_ne h0 fun he => h.ne' (h2.mp he.symm), h1⟩

/-- **C189.** For a positive mass and a real parent energy the branch always exists. -/
theorem branch_total (parentEnergy mass : ℝ) (hm : 0 < mass) :
    branch parentEnergy mass =
      .ok (if parentEnergy < mass then .belowThreshold
        else if parentEnergy - mass < (2 : ℝ)⁻¹ ^ 52 then .restFrame
        else .inFlight (Boost.boostBeta parentEnergy mass)) := by
  unfold branch
  by_cases h1 : parentEnergy < mass
  · simp only [if_pos h1]
  by_cases h2 : parentEnergy - mass < (2 : ℝ)⁻¹ ^ 52
  · simp only [if_neg h1, if_pos h2]
  have hb := beta_range (parentEnergy := parentEnergy) hm
    (by have := eps_pos; linarith [not_lt.mp h2])
  simp only [if_neg h1, if_neg h2]
  rw [if_neg (not_not.mpr hb)]

/-! ## Sums over lines -/

theorem addLines_eq (e beta : ℝ) (lines : List Line) : ∀ r : ℝ, addLines e beta r lines
    = r + (lines.map fun l => Boost.boostDeltaPy e l.energy 0 beta * l.weight).sum := by
  induction lines with
  | nil => intro r; simp [addLines]
  | cons l ls ih =>
    intro r
    have := ih (Boost.boostDeltaRust l.energy e 0 beta * l.weight + r)
    unfold addLines at this ⊢
    rw [List.foldl_cons, this, Boost.boost_delta_implementations_agree, List.map_cons,
      List.sum_cons]
    ring

theorem lines_nonneg {beta : ℝ} (h0 : 0 < beta) (h1 : beta < 1) {lines : List Line}
    (hl : ∀ l ∈ lines, 0 < l.energy ∧ 0 ≤ l.weight) (e : ℝ) :
    0 ≤ (lines.map fun l => Boost.boostDeltaPy e l.energy 0 beta * l.weight).sum := by
  apply List.sum_nonneg
  intro v hv
  obtain ⟨l, hm, rfl⟩ := List.mem_map.mp hv
  exact mul_nonneg ((Boost.boost_delta_normalised_box l.energy 0 beta h0 h1 le_rfl
    (hl l hm).1).1 e) (hl l hm).2

theorem box_integrable {beta e0 : ℝ} (h0 : 0 < beta) (h1 : beta < 1) (he : 0 < e0) :
    Integrable fun e => Boost.boostDeltaPy e e0 0 beta := by
  by_contra h
  have := (Boost.boost_delta_normalised_box e0 0 beta h0 h1 le_rfl he).2.2.1
  rw [integral_undef h] at this
  exact zero_ne_one this

theorem lines_integral {beta : ℝ} (h0 : 0 < beta) (h1 : beta < 1) (lines : List Line)
    (hl : ∀ l ∈ lines, 0 < l.energy) :
    Integrable (fun e =>
      (lines.map fun l => Boost.boostDeltaPy e l.energy 0 beta * l.weight).sum) ∧
    ∫ e, (lines.map fun l => Boost.boostDeltaPy e l.energy 0 beta * l.weight).sum
      = (lines.map Line.weight).sum := by
  induction lines with
  | nil => simp
  | cons l ls ih =>
    obtain ⟨hi, hs⟩ := ih fun k hk => hl k (List.mem_cons_of_mem _ hk)
    have hb := (box_integrable h0 h1 (hl l (List.mem_cons_self ..))).mul_const l.weight
    have h1' := (Boost.boost_delta_normalised_box l.energy 0 beta h0 h1 le_rfl
      (hl l (List.mem_cons_self ..))).2.2.1
    simp only [List.map_cons, List.sum_cons]
    refine ⟨hb.add hi, ?_⟩
    rw [integral_add hb hi, hs, integral_mul_const, h1', one_mul]

/-! ## C189: what the function returns -/

theorem boost_ok {t : Table} (ht : Sound t) {beta : ℝ} (h0 : 0 < beta) (h1 : beta < 1) (e : ℝ) :
    ∃ v, boostIntegrate e beta t.energies t.dnde = .ok v :=
  (boost_integrate_validation e beta t.energies t.dnde).2.2.2 ⟨h0, h1⟩ ht.paired ht.nonempty

/-- **C189.** The spectrum of a parent in flight is the boosted table plus, for each line, a box: at
every photon energy the value is the boost integral of the table plus the lines, and the lines
together hold exactly the sum of their weights, with their energy multiplied by the parent's Lorentz
factor. -/
theorem in_flight_spectrum (s : Spectrum) (ht : Sound s.table) (hl : SoundLines s)
    (hm : 0 < s.mass) (parentEnergy : ℝ) (hp : (2 : ℝ)⁻¹ ^ 52 ≤ parentEnergy - s.mass) :
    ∃ continuum lineTerm : ℝ → ℝ,
      (∀ e, boostIntegrate e (Boost.boostBeta parentEnergy s.mass) s.table.energies s.table.dnde
        = .ok (continuum e)) ∧
      (∀ e, dndeTabulated e parentEnergy s = .ok (continuum e + lineTerm e)) ∧
      (∀ e, 0 ≤ lineTerm e) ∧
      Integrable lineTerm ∧
      ∫ e, lineTerm e = (s.lines.map Line.weight).sum := by
  have hgt : s.mass < parentEnergy := by have := eps_pos; linarith
  obtain ⟨h0, h1⟩ := beta_range hm hgt
  choose f hf using fun e => boost_ok ht h0 h1 e
  refine ⟨f, fun e => (s.lines.map fun l =>
    Boost.boostDeltaPy e l.energy 0 (Boost.boostBeta parentEnergy s.mass) * l.weight).sum,
    hf, ?_, lines_nonneg h0 h1 hl, ?_⟩
  · intro e
    unfold dndeTabulated
    rw [branch_total _ _ hm, if_neg (not_lt.mpr hgt.le), if_neg (not_lt.mpr hp)]
    simp only [dnde, hf e, addLines_eq]
  · exact lines_integral h0 h1 s.lines fun l h => (hl l h).1

/-- **C189.** Below threshold the spectrum vanishes; within one `f64::EPSILON` of rest it is the
rest-frame table: zero above it, the tail `1/E` below it, and the chord between neighbouring rows
inside. -/
theorem at_rest_spectrum (s : Spectrum) (ht : Sound s.table) (hm : 0 < s.mass)
    (parentEnergy e : ℝ) :
    (parentEnergy < s.mass → dndeTabulated e parentEnergy s = .ok 0) ∧
    (s.mass ≤ parentEnergy → parentEnergy - s.mass < (2 : ℝ)⁻¹ ^ 52 →
      (emax s.table < e → dndeTabulated e parentEnergy s = .ok 0) ∧
      (e < emin s.table →
        dndeTabulated e parentEnergy s = .ok (at' s.table.dnde 0 * emin s.table / e)) ∧
      (∀ j, j + 1 < s.table.energies.length → at' s.table.energies j ≤ e →
        e < at' s.table.energies (j + 1) →
        dndeTabulated e parentEnergy s = .ok (at' s.table.dnde j
          + (at' s.table.dnde (j + 1) - at' s.table.dnde j)
            / (at' s.table.energies (j + 1) - at' s.table.energies j)
            * (e - at' s.table.energies j)))) := by
  have hpos : 0 < s.table.energies.length := List.length_pos_iff.mpr ht.nonempty
  have hat : ∀ (l : List ℝ) (i : ℕ) (h : i < l.length), at' l i = l[i] := by
    intro l i h
    unfold at'
    rw [List.getD_eq_getElem?_getD, List.getElem?_eq_getElem h]
    rfl
  have hmono : ∀ i j, i ≤ j → j < s.table.energies.length →
      at' s.table.energies i ≤ at' s.table.energies j := by
    intro i j hij hj
    rcases hij.eq_or_lt with h | h
    · rw [h]
    · exact (ht.ascending i j h hj).le
  constructor
  · intro h
    unfold dndeTabulated
    rw [branch_total _ _ hm, if_pos h]
    rfl
  · intro h h'
    have hred : dndeTabulated e parentEnergy s = restFrame s.table e := by
      unfold dndeTabulated
      rw [branch_total _ _ hm, if_neg (not_lt.mpr h), if_pos h']
      rfl
    rw [hred]
    refine ⟨fun h1 => ?_, fun h1 => ?_, fun j hj h1 h2 => ?_⟩
    · unfold restFrame; rw [if_pos h1]
    · unfold restFrame
      have : emin s.table ≤ emax s.table := hmono 0 _ (by omega) (by omega)
      rw [if_neg (not_lt.mpr (by linarith)), if_pos h1]
    · unfold restFrame
      have hmin : emin s.table ≤ e := (hmono 0 j (by omega) (by omega)).trans h1
      have hmax : e ≤ emax s.table :=
        h2.le.trans (hmono (j + 1) _ (by omega) (by omega))
      rw [if_neg (not_lt.mpr hmax), if_neg (not_lt.mpr hmin)]
      have hs : s.table.energies.Pairwise (· ≤ ·) := by
        rw [List.pairwise_iff_getElem]
        intro i k hi hk hik
        have := (ht.ascending i k hik hk).le
        rwa [hat _ _ hi, hat _ _ hk] at this
      have hp := ht.paired
      have := ((Interp.interp_spec e s.table.energies s.table.dnde hs hpos ht.paired).2.2.2 j hj
        (by rw [← hat _ _ (by omega)]; exact h1) (by rw [← hat _ _ hj]; exact h2)).1
      rw [this]
      simp only
      congr 1
      rw [hat _ j (by omega), hat _ (j + 1) (by omega), hat _ j (by omega), hat _ (j + 1) hj]
      have hd : s.table.energies[j + 1] - s.table.energies[j] ≠ 0 := by
        have := ht.ascending j (j + 1) (by omega) hj
        rw [hat _ j (by omega), hat _ (j + 1) hj] at this
        linarith
      unfold Interp.chord
      generalize s.table.energies[j + 1] = x2 at hd ⊢
      generalize s.table.energies[j] = x1 at hd ⊢
      field_simp
      ring

/-! ## C190: non-negativity -/

theorem at'_nonneg {l : List ℝ} (h : ∀ v ∈ l, 0 ≤ v) (i : ℕ) : 0 ≤ at' l i := by
  unfold at'
  rw [List.getD_eq_getElem?_getD]
  cases hi : l[i]? with
  | none => simp
  | some v => exact h v (List.mem_of_getElem? hi)

theorem at'_pos {x : List ℝ} (hx0 : 0 < at' x 0) (hx : Ascending x) {i : ℕ} (hi : i < x.length) :
    0 < at' x i := by
  rcases Nat.eq_zero_or_pos i with rfl | h
  · exact hx0
  · exact hx0.trans (hx 0 i h hi)

theorem segment_nonneg {x1 x2 s t r1 r2 : ℝ} (h12 : x1 < x2) (hs1 : x1 ≤ s) (hst : s ≤ t)
    (ht2 : t ≤ x2) (hr1 : 0 ≤ r1) (hr2 : 0 ≤ r2) :
    0 ≤ (t - s) * (0.5 * ((r2 - r1) / (x2 - x1)) * (t + s) + (-((r2 - r1) / (x2 - x1)) * x1 + r1))
    := by
  have hd : 0 < x2 - x1 := by linarith
  apply mul_nonneg (by linarith)
  have : 0.5 * ((r2 - r1) / (x2 - x1)) * (t + s) + (-((r2 - r1) / (x2 - x1)) * x1 + r1)
      = (r1 * ((x2 - s) + (x2 - t)) + r2 * ((s - x1) + (t - x1))) / (2 * (x2 - x1)) := by
    field_simp
    ring
  rw [this]
  apply div_nonneg _ (by linarith)
  have h1 : 0 ≤ r1 * ((x2 - s) + (x2 - t)) := mul_nonneg hr1 (by linarith)
  have h2 : 0 ≤ r2 * ((s - x1) + (t - x1)) := mul_nonneg hr2 (by linarith)
  linarith

theorem trapezoid_nonneg {x y : List ℝ} (hx : Ascending x)
    (hr : ∀ i, i < x.length → 0 ≤ ratio x y i) {a b : ℕ} (hb : b < x.length) :
    0 ≤ trapezoid x (ratio x y) a b := by
  rw [trapezoid_eq]
  apply List.sum_nonneg
  intro v hv
  obtain ⟨i, hi, rfl⟩ := List.mem_map.mp hv
  have hi := List.mem_range.mp hi
  unfold cell
  have h1 := hx (a + i) (a + i + 1) (by omega) (by omega)
  have h2 := hr (a + i) (by omega)
  have h3 := hr (a + i + 1) (by omega)
  have : 0 ≤ (at' x (a + i + 1) - at' x (a + i)) * (ratio x y (a + i + 1) + ratio x y (a + i)) :=
    mul_nonneg (by linarith) (by linarith)
  linarith

theorem lowerPartial_nonneg {x y : List ℝ} (hr : ∀ i, i < x.length → 0 ≤ ratio x y i) {lb : ℝ}
    {a : ℕ} (ha : a < x.length) (hle : lb ≤ at' x a) (hbelow : ∀ j < a, at' x j < lb) :
    0 ≤ lowerPartial x y lb a := by
  unfold lowerPartial
  split_ifs with h
  · have h1 := hbelow (a - 1) (by omega)
    exact segment_nonneg (h1.trans_le hle) h1.le hle le_rfl (hr _ (by omega)) (hr _ ha)
  · exact le_rfl

theorem upperPartial_nonneg {x y : List ℝ} (hr : ∀ i, i < x.length → 0 ≤ ratio x y i) {ub : ℝ}
    {b : ℕ} (hcase : b = x.length - 1 ∨ |ub - at' x b| ≤ 1e-6 ∨
      (b + 1 < x.length ∧ at' x b < ub ∧ ub ≤ at' x (b + 1))) :
    0 ≤ upperPartial x y ub b := by
  unfold upperPartial
  split_ifs with h
  · rcases hcase with h1 | h1 | ⟨h1, h2, h3⟩
    · omega
    · exact absurd h.2 (not_lt.mpr h1)
    · exact segment_nonneg (h2.trans_le h3) le_rfl h2.le h3 (hr _ (by omega)) (hr _ h1)
  · exact le_rfl

/-- The boost integral of a sound table is non-negative at every positive energy, whichever cells
the code leaves out or counts twice. -/
theorem boost_integrate_nonneg (energy beta : ℝ) (x y : List ℝ) (h0 : 0 < beta) (h1 : beta < 1)
    (hE : 0 < energy) (hlen : x.length = y.length) (hne : x ≠ []) (hx0 : 0 < at' x 0)
    (hx : Ascending x) (hy : ∀ v ∈ y, 0 ≤ v) :
    ∃ v, boostIntegrate energy beta x y = .ok v ∧ 0 ≤ v := by
  have hg := lorentz_pos h0 h1
  have hpos : 0 < x.length := List.length_pos_iff.mpr hne
  have hr : ∀ i, i < x.length → 0 ≤ ratio x y i := fun i hi =>
    div_nonneg (at'_nonneg hy i) (at'_pos hx0 hx hi).le
  have hlo0 : 0 < energy * lorentz beta * (1 - beta) := by
    have : 0 < 1 - beta := by linarith
    positivity
  unfold boostIntegrate
  rw [if_neg (not_not.mpr ⟨h0, h1⟩), if_neg (not_not.mpr hlen), if_neg hpos.ne']
  simp only [gamma_eq]
  obtain ⟨lb, hlb⟩ : ∃ lb, lb = energy * lorentz beta * (1 - beta) := ⟨_, rfl⟩
  obtain ⟨ub, hub⟩ : ∃ ub, ub = energy * lorentz beta * (1 + beta) := ⟨_, rfl⟩
  rw [← hlb] at hlo0 ⊢
  rw [← hub]
  rw [show (1 - beta) * energy * lorentz beta = lb by rw [hlb]; ring]
  by_cases c1 : lb > at' x (x.length - 1)
  · rw [if_pos c1]; exact ⟨0, rfl, le_rfl⟩
  rw [if_neg c1]
  by_cases c2 : ub < at' x 0
  · rw [if_pos c2]
    exact ⟨_, rfl, div_nonneg (mul_nonneg (at'_nonneg hy 0) hx0.le) hE.le⟩
  rw [if_neg c2]
  have hA : ∃ a, (if lb < at' x 0 then (.ok 0 : Except BoostError ℕ)
      else lowIndex x (if lb < at' x 0 then at' x 0 else lb)) = .ok a ∧ a < x.length ∧
      (if lb < at' x 0 then at' x 0 else lb) ≤ at' x a ∧
      ∀ j < a, at' x j < (if lb < at' x 0 then at' x 0 else lb) := by
    by_cases c3 : lb < at' x 0
    · simp only [if_pos c3]
      exact ⟨0, rfl, hpos, le_rfl, by intro j hj; omega⟩
    · simp only [if_neg c3]
      obtain ⟨i, hi, hil, hib, hij⟩ := firstAtOrAbove_some (bound := lb) (x := x)
        (k := x.length - 1) (by omega) (not_lt.mp c1)
      exact ⟨i, by unfold lowIndex; rw [hi], hil, hib, hij⟩
  have hB : ∃ b, (if ub > at' x (x.length - 1) then (.ok (x.length - 1) : Except BoostError ℕ)
      else highIndex x (if ub > at' x (x.length - 1) then at' x (x.length - 1) else ub)) = .ok b ∧
      b < x.length ∧ (b = x.length - 1 ∨
        |(if ub > at' x (x.length - 1) then at' x (x.length - 1) else ub) - at' x b| ≤ 1e-6 ∨
        (b + 1 < x.length ∧
          at' x b < (if ub > at' x (x.length - 1) then at' x (x.length - 1) else ub) ∧
          (if ub > at' x (x.length - 1) then at' x (x.length - 1) else ub) ≤ at' x (b + 1))) := by
    by_cases c4 : ub > at' x (x.length - 1)
    · simp only [if_pos c4]
      exact ⟨_, rfl, by omega, Or.inl rfl⟩
    · simp only [if_neg c4]
      obtain ⟨i, hi, hil, hib, hij⟩ := firstAtOrAbove_some (bound := ub) (x := x)
        (k := x.length - 1) (by omega) (not_lt.mp c4)
      unfold highIndex
      rw [hi]
      by_cases ht : |at' x i - ub| > 1e-6
      · have hi0 : i ≠ 0 := by
          rintro rfl
          have : at' x 0 = ub := le_antisymm (not_lt.mp c2) hib
          rw [this] at ht
          norm_num at ht
        simp only [if_pos ht, if_neg hi0]
        refine ⟨i - 1, rfl, by omega, Or.inr (Or.inr ⟨by omega, hij _ (by omega), ?_⟩)⟩
        rw [Nat.sub_add_cancel (by omega)]
        exact hib
      · simp only [if_neg ht]
        exact ⟨i, rfl, hil, Or.inr (Or.inl (by rw [abs_sub_comm]; exact not_lt.mp ht))⟩
  obtain ⟨a, ha, hal, hab, haj⟩ := hA
  obtain ⟨b, hb, hbl, hbc⟩ := hB
  rw [ha, hb]
  simp only
  rw [if_pos ⟨hbl, hal⟩]
  refine ⟨_, rfl, ?_⟩
  apply div_nonneg _ (by positivity)
  have t1 : 0 ≤ (if lb < at' x 0 then at' y 0 * (1 - lb / at' x 0) / (lb / at' x 0) else 0) := by
    split_ifs with h
    · have : lb / at' x 0 < 1 := (div_lt_one hx0).mpr h
      exact div_nonneg (mul_nonneg (at'_nonneg hy 0) (by linarith)) (div_pos hlo0 hx0).le
    · exact le_rfl
  have t2 : 0 ≤ (if a < b then trapezoid x (ratio x y) a b else 0) := by
    split_ifs
    · exact trapezoid_nonneg hx hr hbl
    · exact le_rfl
  have t3 := lowerPartial_nonneg hr hal hab haj
  have t4 := upperPartial_nonneg hr hbc
  linarith

/-- **C190.** For every sound table, every set of lines and every parent energy - below threshold,
at rest or in flight - the spectrum is a non-negative number at every positive photon energy: no
exception, no panic, no negative value. -/
theorem spectrum_nonneg (s : Spectrum) (ht : Sound s.table) (hl : SoundLines s)
    (hm : 0 < s.mass) (parentEnergy e : ℝ) (he : 0 < e) :
    ∃ v, dndeTabulated e parentEnergy s = .ok v ∧ 0 ≤ v := by
  have hpos : 0 < s.table.energies.length := List.length_pos_iff.mpr ht.nonempty
  unfold dndeTabulated
  rw [branch_total _ _ hm]
  simp only
  split_ifs with h1 h2
  · exact ⟨0, rfl, le_rfl⟩
  · simp only [dnde, restFrame]
    split_ifs with h3 h4
    · exact ⟨0, rfl, le_rfl⟩
    · exact ⟨_, rfl, div_nonneg (mul_nonneg (at'_nonneg ht.values 0) ht.positive.le) he.le⟩
    · have hs : s.table.energies.Pairwise (· ≤ ·) := by
        rw [List.pairwise_iff_getElem]
        intro i k hi hk hik
        have := (ht.ascending i k hik hk).le
        unfold at' at this
        rwa [List.getD_eq_getElem?_getD, List.getD_eq_getElem?_getD, List.getElem?_eq_getElem hi,
          List.getElem?_eq_getElem hk] at this
      obtain ⟨v, hv, hv0⟩ := Interp.interp_nonneg e s.table.energies s.table.dnde hs hpos ht.paired
        ht.values
      rw [hv]
      exact ⟨v, rfl, hv0⟩
  · obtain ⟨h0, h1'⟩ := beta_range hm (show s.mass < parentEnergy by
      have := eps_pos; linarith [not_lt.mp h2])
    obtain ⟨v, hv, hv0⟩ := boost_integrate_nonneg e _ s.table.energies s.table.dnde h0 h1' he
      ht.paired ht.nonempty ht.positive ht.ascending ht.values
    simp only [dnde, hv, addLines_eq]
    refine ⟨_, rfl, ?_⟩
    have := lines_nonneg h0 h1' hl e
    linarith

/-- **C190.** At a negative photon energy - which no guard excludes - a parent at or above threshold
gives `y₀ x₀/E`, which is negative whenever the first row of the table is positive. -/
theorem negative_energy_value (s : Spectrum) (ht : Sound s.table) (hl : SoundLines s)
    (hm : 0 < s.mass) (parentEnergy e : ℝ) (hp : s.mass ≤ parentEnergy) (he : e < 0) :
    dndeTabulated e parentEnergy s = .ok (at' s.table.dnde 0 * at' s.table.energies 0 / e) := by
  have hpos : 0 < s.table.energies.length := List.length_pos_iff.mpr ht.nonempty
  have hlast : 0 < at' s.table.energies (s.table.energies.length - 1) :=
    at'_pos ht.positive ht.ascending (by omega)
  unfold dndeTabulated
  rw [branch_total _ _ hm, if_neg (not_lt.mpr hp)]
  simp only
  split_ifs with h2
  · simp only [dnde, restFrame, emin, emax]
    refine (if_neg (not_lt.mpr ?_)).trans (if_pos (he.trans ht.positive))
    linarith
  · obtain ⟨h0, h1'⟩ := beta_range hm (show s.mass < parentEnergy by
      have := eps_pos; linarith [not_lt.mp h2])
    obtain ⟨beta, hbeta⟩ : ∃ b, b = Boost.boostBeta parentEnergy s.mass := ⟨_, rfl⟩
    rw [← hbeta] at h0 h1' ⊢
    have hg := lorentz_pos h0 h1'
    have hneg : e * lorentz beta < 0 := mul_neg_of_neg_of_pos he hg
    have hI : boostIntegrate e beta s.table.energies s.table.dnde
        = .ok (at' s.table.dnde 0 * at' s.table.energies 0 / e) := by
      unfold boostIntegrate
      rw [if_neg (not_not.mpr ⟨h0, h1'⟩), if_neg (not_not.mpr ht.paired), if_neg hpos.ne']
      simp only [gamma_eq]
      have hx0 := ht.positive
      rw [if_neg (not_lt.mpr (by nlinarith)), if_pos (by nlinarith)]
    simp only [dnde, hI, addLines_eq]
    have hz : (s.lines.map fun l => Boost.boostDeltaPy e l.energy 0 beta * l.weight)
        = s.lines.map fun _ => (0 : ℝ) := by
      apply List.map_congr_left
      intro l hl'
      have : Boost.boostDeltaPy e l.energy 0 beta = 0 := by
        unfold Boost.boostDeltaPy
        rw [if_pos ⟨h0, h1'⟩]
        simp only
        rw [if_neg (by rintro ⟨h, -⟩; linarith)]
      rw [this, zero_mul]
    rw [hz]
    simp

/-! ## C191-C193: the lines -/

theorem lines_named (p : Parent) (t : Table) :
    (spectrumOf p t).lines = (lineModes p).map Prod.snd := by
  cases p <;> rfl

theorem sound_lines (p : Parent) (t : Table) : SoundLines (spectrumOf p t) := by
  intro l hl
  rw [lines_named] at hl
  cases p <;>
    simp only [lineModes, List.map_cons, List.map_nil, List.mem_cons, List.not_mem_nil, or_false]
      at hl
  · rw [hl]; unfold klLine massK0 brKlAA; norm_num
  · rw [hl]; unfold ksLine massK0 brKsAA; norm_num
  · rw [hl]; unfold etaLine massEta brEtaAA; norm_num
  · rw [hl]; unfold etapLine massEtap brEtapAA; norm_num
  · rcases hl with rfl | rfl
    · unfold omegaPi0Line massOmega massPi0 brOmegaPi0A; norm_num
    · unfold omegaEtaLine massOmega massEta brOmegaEtaA; norm_num
  · rcases hl with rfl | rfl
    · unfold phiEtaLine massPhi massEta brPhiEtaA; norm_num
    · unfold phiEtapLine massPhi massEtap brPhiEtapA; norm_num

theorem mass_pos (p : Parent) (t : Table) : 0 < (spectrumOf p t).mass := by
  cases p <;> simp only [spectrumOf, chargedKaon, longKaon, shortKaon, eta, etaPrime, omega, phi,
    massK, massK0, massEta, massEtap, massOmega, massPhi] <;> norm_num

/-- Specification: `E` is the photon energy of the decay `M → (mass m) + γ` at rest: photon and
recoiling daughter share the parent's mass and carry opposite momenta. -/
def TwoBodyPhoton (M m E : ℝ) : Prop := 0 ≤ E ∧ E + Real.sqrt (E ^ 2 + m ^ 2) = M

theorem two_body_unique {M m E : ℝ} (hM : 0 < M) (h : TwoBodyPhoton M m E) :
    E = (M ^ 2 - m ^ 2) / (2 * M) := by
  obtain ⟨-, h⟩ := h
  have hs : Real.sqrt (E ^ 2 + m ^ 2) = M - E := by linarith
  have hsq := Real.sq_sqrt (show 0 ≤ E ^ 2 + m ^ 2 by positivity)
  rw [hs] at hsq
  rw [eq_div_iff (by linarith)]
  linarith

theorem two_body_of {M m : ℝ} (hM : 0 < M) (hm : |m| ≤ M) :
    TwoBodyPhoton M m ((M ^ 2 - m ^ 2) / (2 * M)) := by
  have hm2 : m ^ 2 ≤ M ^ 2 := sq_le_sq.mpr (by rwa [abs_of_pos hM])
  refine ⟨div_nonneg (by linarith) (by linarith), ?_⟩
  have : ((M ^ 2 - m ^ 2) / (2 * M)) ^ 2 + m ^ 2 = ((M ^ 2 + m ^ 2) / (2 * M)) ^ 2 := by
    field_simp
    ring
  rw [this, Real.sqrt_sq (by positivity)]
  field_simp
  ring

/-- **C191 (partial).** The lines of the kaons, the η, the η′ and the ω lie at the photon energy of
their two-body decay.  Missing: the φ, see `phi_line_is_daughter_energy`. -/
theorem line_energies_partial (p : Parent) (hp : p ≠ .phi) (t : Table) :
    ∀ dl ∈ lineModes p, TwoBodyPhoton (spectrumOf p t).mass (daughterMass dl.1) dl.2.energy := by
  intro dl hdl
  cases p <;> simp only [lineModes, List.mem_cons, List.not_mem_nil, or_false] at hdl
  · rw [hdl]
    have := two_body_of (M := massK0) (m := 0) (by norm_num [massK0]) (by norm_num [massK0])
    simp only [spectrumOf, longKaon, daughterMass, klLine]
    convert this using 1
    norm_num [massK0]
  · rw [hdl]
    have := two_body_of (M := massK0) (m := 0) (by norm_num [massK0]) (by norm_num [massK0])
    simp only [spectrumOf, shortKaon, daughterMass, ksLine]
    convert this using 1
    norm_num [massK0]
  · rw [hdl]
    have := two_body_of (M := massEta) (m := 0) (by norm_num [massEta]) (by norm_num [massEta])
    simp only [spectrumOf, eta, daughterMass, etaLine]
    convert this using 1
    norm_num [massEta]
  · rw [hdl]
    have := two_body_of (M := massEtap) (m := 0) (by norm_num [massEtap]) (by norm_num [massEtap])
    simp only [spectrumOf, etaPrime, daughterMass, etapLine]
    convert this using 1
    norm_num [massEtap]
  · rcases hdl with rfl | rfl
    · have := two_body_of (M := massOmega) (m := massPi0) (by norm_num [massOmega])
        (by rw [abs_of_pos] <;> norm_num [massOmega, massPi0])
      simp only [spectrumOf, omega, daughterMass, omegaPi0Line]
      convert this using 1
      ring
    · have := two_body_of (M := massOmega) (m := massEta) (by norm_num [massOmega])
        (by rw [abs_of_pos] <;> norm_num [massOmega, massEta])
      simp only [spectrumOf, omega, daughterMass, omegaEtaLine]
      convert this using 1
      ring
  · exact absurd rfl hp

/-- **C191 (violated).** Both lines of the φ lie at the energy of the recoiling meson: photon and
recoil would together carry more than the φ's mass. -/
theorem phi_line_is_daughter_energy (t : Table) :
    ∀ dl ∈ lineModes .phi,
      ¬ TwoBodyPhoton (spectrumOf .phi t).mass (daughterMass dl.1) dl.2.energy ∧
      (∀ E, TwoBodyPhoton (spectrumOf .phi t).mass (daughterMass dl.1) E →
        dl.2.energy = Real.sqrt (E ^ 2 + daughterMass dl.1 ^ 2)) := by
  intro dl hdl
  have key : ∀ m : ℝ, 0 < m → ¬ TwoBodyPhoton massPhi m
      ((massPhi * massPhi + m * m) / (2 * massPhi)) ∧ (∀ E, TwoBodyPhoton massPhi m E →
        (massPhi * massPhi + m * m) / (2 * massPhi) = Real.sqrt (E ^ 2 + m ^ 2)) := by
    intro m hm
    have hM : 0 < massPhi := by norm_num [massPhi]
    constructor
    · intro h
      have := two_body_unique hM h
      rw [div_left_inj' (by positivity)] at this
      nlinarith
    · intro E hE
      have h1 := two_body_unique hM hE
      have h2 := hE.2
      rw [show Real.sqrt (E ^ 2 + m ^ 2) = massPhi - E by linarith, h1]
      field_simp
      ring
  simp only [lineModes, List.mem_cons, List.not_mem_nil, or_false] at hdl
  rcases hdl with rfl | rfl
  · exact key massEta (by norm_num [massEta])
  · exact key massEtap (by norm_num [massEtap])

theorem labEnergy_massless (e0 beta c : ℝ) (h : 0 ≤ e0) :
    Boost.labEnergy e0 0 beta c = Boost.lorentz beta * (1 + beta * c) * e0 := by
  unfold Boost.labEnergy Boost.momentum
  rw [show e0 ^ 2 - 0 ^ 2 = e0 ^ 2 by ring, Real.sqrt_sq h]
  ring

/-- **C191 (violated).** No decay product can carry more than half of its parent's mass as a photon,
so a φ of velocity β emits none above `γ (1 + β) m_φ/2`.  For every φ in flight and every photon
energy from there up to `γ (1 + β)` times 959 MeV (and above the box's lower end) the spectrum is
positive. -/
theorem phi_photons_beyond_endpoint (t : Table) (ht : Sound t) (parentEnergy e : ℝ)
    (hp : (2 : ℝ)⁻¹ ^ 52 ≤ parentEnergy - massPhi)
    (hlo : Boost.lorentz (Boost.boostBeta parentEnergy massPhi)
      * (1 + Boost.boostBeta parentEnergy massPhi) * (massPhi / 2) < e)
    (hlo' : Boost.lorentz (Boost.boostBeta parentEnergy massPhi)
      * (1 - Boost.boostBeta parentEnergy massPhi) * 960 < e)
    (hhi : e < Boost.lorentz (Boost.boostBeta parentEnergy massPhi)
      * (1 + Boost.boostBeta parentEnergy massPhi) * 959) :
    ∃ v, dndeTabulated e parentEnergy (spectrumOf .phi t) = .ok v ∧ 0 < v := by
  have hM : 0 < massPhi := by norm_num [massPhi]
  have hgt : massPhi < parentEnergy := by have := eps_pos; linarith
  obtain ⟨h0, h1⟩ := beta_range hM hgt
  obtain ⟨beta, hbeta⟩ : ∃ b, b = Boost.boostBeta parentEnergy massPhi := ⟨_, rfl⟩
  rw [← hbeta] at h0 h1 hlo hlo' hhi
  have hg := Boost.lorentz_pos h0 h1
  have he : 0 < e := lt_trans (by positivity) hlo
  obtain ⟨v, hv, hv0⟩ := boost_integrate_nonneg e beta t.energies t.dnde h0 h1 he
    ht.paired ht.nonempty ht.positive ht.ascending ht.values
  have hbox := Boost.boost_delta_normalised_box phiEtapLine.energy 0 beta h0 h1 le_rfl
    (sound_lines .phi t _ (by simp [spectrumOf, phi])).1
  have hbox2 := Boost.boost_delta_normalised_box phiEtaLine.energy 0 beta h0 h1 le_rfl
    (sound_lines .phi t _ (by simp [spectrumOf, phi])).1
  have hE1 : 959 < phiEtapLine.energy := by
    unfold phiEtapLine massPhi massEtap; norm_num
  have hE2 : phiEtapLine.energy < 960 := by
    unfold phiEtapLine massPhi massEtap; norm_num
  have hne : Boost.boostDeltaPy e phiEtapLine.energy 0 beta ≠ 0 := by
    rw [hbox.2.1, labEnergy_massless _ _ _ (by linarith), labEnergy_massless _ _ _ (by linarith)]
    have hb1 : 0 < Boost.lorentz beta * (1 - beta) := mul_pos hg (by linarith)
    have hb2 : 0 < Boost.lorentz beta * (1 + beta) := mul_pos hg (by linarith)
    constructor <;> nlinarith
  have hpos : 0 < Boost.boostDeltaPy e phiEtapLine.energy 0 beta :=
    lt_of_le_of_ne (hbox.1 e) hne.symm
  refine ⟨v + (Boost.boostDeltaPy e phiEtaLine.energy 0 beta * phiEtaLine.weight
    + Boost.boostDeltaPy e phiEtapLine.energy 0 beta * phiEtapLine.weight), ?_, ?_⟩
  · unfold dndeTabulated
    rw [show (spectrumOf .phi t).mass = massPhi from rfl, branch_total _ _ hM,
      if_neg (not_lt.mpr hgt.le), if_neg (not_lt.mpr hp), ← hbeta]
    simp only [dnde, spectrumOf, phi, hv, addLines_eq, List.map_cons, List.map_nil, List.sum_cons,
      List.sum_nil, add_zero]
  · have w1 : 0 ≤ phiEtaLine.weight := by unfold phiEtaLine brPhiEtaA; norm_num
    have w2 : 0 < phiEtapLine.weight := by unfold phiEtapLine brPhiEtapA; norm_num
    have := mul_nonneg (hbox2.1 e) w1
    have := mul_pos hpos w2
    linarith

/-- Specification: photons per decay of a two-body mode. -/
def photonsIn : Daughter → ℝ
  | .photon => 2
  | _ => 1

/-- **C192 (partial).** Except for the η′, every line carries its branching ratio times the number
of photons of the mode.  Missing: the η′, see `etap_line_half`. -/
theorem line_weights_partial (p : Parent) (hp : p ≠ .etaPrime) :
    ∀ dl ∈ lineModes p, dl.2.weight = photonsIn dl.1 * branchingRatio p dl.1 := by
  intro dl hdl
  cases p <;> simp only [lineModes, List.mem_cons, List.not_mem_nil, or_false] at hdl
  · rw [hdl]; rfl
  · rw [hdl]; rfl
  · rw [hdl]; rfl
  · exact absurd rfl hp
  · rcases hdl with rfl | rfl <;> simp [photonsIn, branchingRatio, omegaPi0Line, omegaEtaLine]
  · rcases hdl with rfl | rfl <;> simp [photonsIn, branchingRatio, phiEtaLine, phiEtapLine]

/-- **C192 (violated).** The line of `η′ → γγ` carries half of the photons of the decay: the
spectrum of an η′ in flight is short of exactly one photon per such decay. -/
theorem etap_line_half (t : Table) (ht : Sound t) (parentEnergy : ℝ)
    (hp : (2 : ℝ)⁻¹ ^ 52 ≤ parentEnergy - massEtap) :
    ∃ continuum lineTerm : ℝ → ℝ,
      (∀ e, boostIntegrate e (Boost.boostBeta parentEnergy massEtap) t.energies t.dnde
        = .ok (continuum e)) ∧
      (∀ e, dndeTabulated e parentEnergy (spectrumOf .etaPrime t)
        = .ok (continuum e + lineTerm e)) ∧
      photonsIn .photon * branchingRatio .etaPrime .photon - ∫ e, lineTerm e = 0.02307 := by
  obtain ⟨f, g, h1, h2, -, -, h3⟩ := in_flight_spectrum (spectrumOf .etaPrime t) ht
    (sound_lines .etaPrime t) (mass_pos .etaPrime t) parentEnergy hp
  refine ⟨f, g, h1, h2, ?_⟩
  rw [h3]
  norm_num [spectrumOf, etaPrime, etapLine, photonsIn, branchingRatio, brEtapAA]

/-- **C193 (partial).** Kaons, η and ω have a line for every two-body mode with a photon among the
columns of their table.  Missing: η′ and φ, see `missing_lines`. -/
theorem lines_complete_partial (p : Parent) (h1 : p ≠ .etaPrime) (h2 : p ≠ .phi) :
    ∀ d ∈ photonModes p, d ∈ (lineModes p).map Prod.fst := by
  cases p <;> first | exact absurd rfl h1 | exact absurd rfl h2 | (simp [photonModes, lineModes])

/-- **C193 (violated).** `η′ → ρ⁰γ`, `η′ → ωγ` and `φ → π⁰γ`, all of them columns of the tables, have
no line: these are exactly the missing ones. -/
theorem missing_lines (p : Parent) (d : Daughter) :
    (d ∈ photonModes p ∧ d ∉ (lineModes p).map Prod.fst) ↔
      (p = .etaPrime ∧ (d = .rho ∨ d = .omega)) ∨ (p = .phi ∧ d = .pi0) := by
  cases p <;> cases d <;> simp [photonModes, lineModes]

/-- **C193 (violated).** At rest all lines are left out: whatever the lines, the spectrum of a parent
within `f64::EPSILON` of rest is that of the table alone - while in flight
(`in_flight_spectrum`) they hold the sum of their weights. -/
theorem lines_lost_at_rest (s : Spectrum) (hm : 0 < s.mass) (lines : List Line)
    (parentEnergy e : ℝ) (h : s.mass ≤ parentEnergy)
    (h' : parentEnergy - s.mass < (2 : ℝ)⁻¹ ^ 52) :
    dndeTabulated e parentEnergy { s with lines := lines }
      = dndeTabulated e parentEnergy { s with lines := [] } := by
  unfold dndeTabulated
  simp only
  rw [branch_total _ _ hm, if_neg (not_lt.mpr h), if_pos h']
  rfl

/-! ## Parsing -/

/-- **C189.** A table is rejected exactly if it has no rows, an empty row, or a row without a mode;
otherwise its energies are the first column and its values the sums of the others. -/
theorem parse_spec (rows : List (List ℝ)) :
    (rows ≠ [] ∧ (∀ r ∈ rows, 2 ≤ r.length) →
      parse rows = .ok ⟨rows.map fun r => r.headD 0, rows.map fun r => r.tail.sum⟩) ∧
    (¬ (rows ≠ [] ∧ ∀ r ∈ rows, 2 ≤ r.length) → parse rows = .error .panic) := by
  have hok : ∀ rows : List (List ℝ), (∀ r ∈ rows, 2 ≤ r.length) →
      parseRows rows = .ok ⟨rows.map fun r => r.headD 0, rows.map fun r => r.tail.sum⟩ := by
    intro rows
    induction rows with
    | nil => intro _; rfl
    | cons r rs ih =>
      intro h
      have hr := h r (List.mem_cons_self ..)
      cases r with
      | nil => simp at hr
      | cons a as =>
        have hne : as ≠ [] := by rintro rfl; simp at hr
        simp only [parseRows, if_neg hne, ih fun q hq => h q (List.mem_cons_of_mem _ hq),
          PairwiseSum.pairwise_sum_eq_sum]
        rfl
  have herr : ∀ rows : List (List ℝ), ¬ (∀ r ∈ rows, 2 ≤ r.length) →
      parseRows rows = .error .panic := by
    intro rows
    induction rows with
    | nil => intro h; exact absurd (by simp) h
    | cons r rs ih =>
      intro h
      cases r with
      | nil => rfl
      | cons a as =>
        by_cases hne : as = []
        · subst hne; simp [parseRows]
        · have hlen : 2 ≤ (a :: as).length := by
            have := List.length_pos_iff.mpr hne
            simp; omega
          have : ¬ ∀ q ∈ rs, 2 ≤ q.length := by
            intro hq
            apply h
            intro q hq'
            rcases List.mem_cons.mp hq' with rfl | h1
            · exact hlen
            · exact hq q h1
          simp only [parseRows, if_neg hne, ih this]
  constructor
  · rintro ⟨hne, h⟩
    unfold parse
    rw [hok rows h]
    simp only
    rw [if_neg (by simpa using hne)]
  · intro h
    unfold parse
    by_cases hr : ∀ r ∈ rows, 2 ≤ r.length
    · have : rows = [] := by
        by_contra hne
        exact h ⟨hne, hr⟩
      subst this
      rw [hok [] (by simp)]
      simp
    · rw [herr rows hr]

/-! ## Concrete cases -/

/-- A sound table with three rows of two modes. -/
theorem sample_sound : Sound ⟨[1, 2, 4], [3, 1, 0]⟩ where
  paired := rfl
  nonempty := by simp
  positive := by norm_num [at']
  ascending := by
    intro i j hij hj
    simp only [List.length_cons, List.length_nil] at hj
    interval_cases j <;> interval_cases i <;> norm_num [at']
  values := by intro v hv; simp at hv; rcases hv with rfl | rfl | rfl <;> norm_num

example : parse [[1, 1, 2], [2, 1, 0], [4, 0, 0]] = .ok ⟨[1, 2, 4], [3, 1, 0]⟩ := by
  rw [(parse_spec _).1 ⟨by simp, by simp⟩]
  norm_num

example : ∃ v, dndeTabulated 700 1274.32625 (spectrumOf .phi ⟨[1, 2, 4], [3, 1, 0]⟩) = .ok v ∧
    0 ≤ v :=
  spectrum_nonneg _ sample_sound (sound_lines .phi _) (mass_pos .phi _) _ _ (by norm_num)

/-- A φ of velocity 3/5: its spectrum is positive at 1500 MeV, although no photon above
`2 m_φ/2 = 1019.461` MeV can be emitted. -/
example : ∃ v, dndeTabulated 1500 1274.32625 (spectrumOf .phi ⟨[1, 2, 4], [3, 1, 0]⟩) = .ok v ∧
    0 < v := by
  have hb : Boost.boostBeta 1274.32625 massPhi = 3 / 5 := by
    unfold Boost.boostBeta massPhi
    simp only
    rw [show (1 : ℝ) - 1019.461 / 1274.32625 * (1019.461 / 1274.32625) = (3 / 5) ^ 2 by norm_num,
      Real.sqrt_sq (by norm_num)]
  have hl : Boost.lorentz (3 / 5) = 5 / 4 := by
    unfold Boost.lorentz
    rw [show (1 : ℝ) - (3 / 5) ^ 2 = (4 / 5) ^ 2 by norm_num, Real.sqrt_sq (by norm_num)]
    norm_num
  apply phi_photons_beyond_endpoint _ sample_sound
  · norm_num [massPhi]
  · rw [hb, hl]; norm_num [massPhi]
  · rw [hb, hl]; norm_num
  · rw [hb, hl]; norm_num

example : dndeTabulated (-2) massEta (spectrumOf .eta ⟨[1, 2, 4], [3, 1, 0]⟩) = .ok (-3 / 2) := by
  rw [negative_energy_value _ sample_sound (sound_lines .eta _) (mass_pos .eta _) massEta _ le_rfl
    (by norm_num)]
  norm_num [spectrumOf, eta, at']

end Hazma.PhotonTables
