import Verif.Model.Interp
import Mathlib.Tactic

/-!
# Table lookup and interpolation (C15, C16)
-/

namespace Hazma.Interp

/-- Invariant of the bisection: below `imin` everything read was `≤ x`, from `imax` on `> x`. -/
theorem searchLoop_spec (x : ℝ) (xp : List ℝ) (hs : xp.Pairwise (· ≤ ·)) :
    ∀ (imin imax : ℕ), imin ≤ imax → imax ≤ xp.length →
      (∀ i (hi : i < xp.length), i < imin → xp[i] ≤ x) →
      (∀ i (hi : i < xp.length), imax ≤ i → x < xp[i]) →
      ∃ r, searchLoop x xp imin imax = some r ∧ r ≤ xp.length ∧
        (∀ i (hi : i < xp.length), i < r → xp[i] ≤ x) ∧
        (∀ i (hi : i < xp.length), r ≤ i → x < xp[i]) := by
  intro imin imax
  induction h : imax - imin using Nat.strong_induction_on generalizing imin imax with
  | _ d ih =>
    intro hle hlen hlo hhi
    rw [searchLoop]
    split_ifs with hlt
    · simp only
      have hmid : imin + (imax - imin) / 2 < xp.length := by omega
      rw [List.getElem?_eq_getElem hmid]
      simp only
      split_ifs with hx
      · refine ih (imax - (imin + (imax - imin) / 2 + 1)) (by omega) _ _ rfl (by omega) hlen ?_ hhi
        intro i hi hilt
        rcases Nat.lt_or_ge i (imin + (imax - imin) / 2) with hc | hc
        · exact (List.pairwise_iff_getElem.mp hs i _ hi hmid hc).trans hx
        · have : i = imin + (imax - imin) / 2 := by omega
          subst this; exact hx
      · refine ih (imin + (imax - imin) / 2 - imin) (by omega) _ _ rfl (by omega) (by omega) hlo ?_
        intro i hi hige
        rcases Nat.lt_or_ge (imin + (imax - imin) / 2) i with hc | hc
        · exact (not_le.mp hx).trans_le (List.pairwise_iff_getElem.mp hs _ i hmid hi hc)
        · have : i = imin + (imax - imin) / 2 := by omega
          subst this; exact not_le.mp hx
    · exact ⟨imin, rfl, by omega, hlo, fun i hi h' => hhi i hi (by omega)⟩

/-- For any list at all, the loop stays in bounds and its result stays in range. -/
theorem searchLoop_total (x : ℝ) (xp : List ℝ) :
    ∀ (imin imax : ℕ), imin ≤ imax → imax ≤ xp.length →
      ∃ r, searchLoop x xp imin imax = some r ∧ imin ≤ r ∧ r ≤ imax ∧
        (r = imin → imin < imax → ∃ h : imin < xp.length, x < xp[imin]) := by
  intro imin imax
  induction h : imax - imin using Nat.strong_induction_on generalizing imin imax with
  | _ d ih =>
    intro hle hlen
    rw [searchLoop]
    split_ifs with hlt
    · simp only
      have hmid : imin + (imax - imin) / 2 < xp.length := by omega
      rw [List.getElem?_eq_getElem hmid]
      simp only
      split_ifs with hx
      · obtain ⟨r, h1, h2, h3, -⟩ :=
          ih (imax - (imin + (imax - imin) / 2 + 1)) (by omega) _ _ rfl (by omega) hlen
        exact ⟨r, h1, by omega, h3, fun hr => by omega⟩
      · obtain ⟨r, h1, h2, h3, h4⟩ :=
          ih (imin + (imax - imin) / 2 - imin) (by omega) _ _ rfl (by omega) (by omega)
        refine ⟨r, h1, h2, by omega, fun hr hlt' => ?_⟩
        by_cases hc : imin < imin + (imax - imin) / 2
        · exact h4 hr hc
        · have heq : imin + (imax - imin) / 2 = imin := by omega
          refine ⟨by omega, ?_⟩
          have := not_le.mp hx
          simpa only [heq] using this
    · exact ⟨imin, rfl, le_rfl, by omega, fun _ h' => absurd h' hlt⟩

/-- **C15.** On any non-empty grid, sorted or not, the search terminates, reads only inside the
grid, and a returned cell is an index of the grid. -/
theorem search_total (x : ℝ) (xp : List ℝ) (hne : xp ≠ []) :
    ∃ slot, search x xp = some slot ∧ ∀ j, slot = .cell j → j < xp.length := by
  have hpos : 0 < xp.length := List.length_pos_iff.mpr hne
  unfold search
  have h1 : xp[xp.length - 1]? = some xp[xp.length - 1] := List.getElem?_eq_getElem (by omega)
  have h2 : xp[0]? = some xp[0] := List.getElem?_eq_getElem hpos
  simp only [guard, if_pos (show 1 ≤ xp.length from hpos), h1, h2, pure, bind, Option.bind]
  split_ifs with ha hb
  · exact ⟨_, rfl, by simp⟩
  · exact ⟨_, rfl, by simp⟩
  · obtain ⟨r, hr, -, hr2, hr3⟩ := searchLoop_total x xp 0 xp.length (by omega) le_rfl
    have hr1 : 1 ≤ r := by
      by_contra hcon
      obtain ⟨_, hlt⟩ := hr3 (by omega) hpos
      exact hb hlt
    simp only [hr, if_pos hr1]
    refine ⟨_, rfl, ?_⟩
    intro j hj
    injection hj with hj
    omega

/-- **C15.** On a non-decreasing grid: `below`/`above` are returned exactly outside the range, and
inside it the result is the last index whose node is `≤ x`. -/
theorem search_spec (x : ℝ) (xp : List ℝ) (hs : xp.Pairwise (· ≤ ·)) (hn : 0 < xp.length) :
    (x < xp[0] → search x xp = some .below) ∧
    (xp[xp.length - 1] < x → search x xp = some .above) ∧
    (xp[0] ≤ x → x ≤ xp[xp.length - 1] → ∃ j, ∃ hj : j < xp.length,
      search x xp = some (.cell j) ∧ xp[j] ≤ x ∧
      ∀ k (hk : k < xp.length), j < k → x < xp[k]) := by
  have h1 : xp[xp.length - 1]? = some xp[xp.length - 1] := List.getElem?_eq_getElem (by omega)
  have h2 : xp[0]? = some xp[0] := List.getElem?_eq_getElem hn
  have hmono : xp[0] ≤ xp[xp.length - 1] := by
    rcases Nat.lt_or_ge 0 (xp.length - 1) with h | h
    · exact List.pairwise_iff_getElem.mp hs 0 _ hn (by omega) h
    · have : xp.length - 1 = 0 := by omega
      simp only [this]; exact le_rfl
  unfold search
  simp only [guard, if_pos (show 1 ≤ xp.length from hn), h1, h2, pure, bind, Option.bind]
  refine ⟨?_, ?_, ?_⟩
  · intro hx
    rw [if_neg (not_lt.mpr (hx.le.trans hmono)), if_pos hx]
  · intro hx
    rw [if_pos hx]
  · intro hx0 hxn
    rw [if_neg (not_lt.mpr hxn), if_neg (not_lt.mpr hx0)]
    obtain ⟨r, hr, hrl, hlo, hhi⟩ := searchLoop_spec x xp hs 0 xp.length (by omega) le_rfl
      (by intro i _ h; omega) (by intro i hi h; omega)
    have hr1 : 1 ≤ r := by
      by_contra hcon
      exact absurd (hhi 0 hn (by omega)) (not_lt.mpr hx0)
    simp only [hr, if_pos hr1]
    refine ⟨r - 1, by omega, rfl, hlo _ _ (by omega), ?_⟩
    intro k hk hlt
    exact hhi k hk (by omega)

/-- Concrete case with a repeated node: the last of the tied indices is returned. -/
example : ∃ j, search 2 [1, 2, 2, 3] = some (.cell j) ∧ j = 2 := by
  obtain ⟨j, hj, h, hle, hgt⟩ := (search_spec 2 [1, 2, 2, 3] (by norm_num) (by simp)).2.2
    (by norm_num) (by norm_num)
  refine ⟨j, h, ?_⟩
  have hj4 : j < 4 := hj
  interval_cases j
  · have := hgt 1 (by simp) (by norm_num); norm_num at this
  · have := hgt 2 (by simp) (by norm_num); norm_num at this
  · rfl
  · norm_num at hle

/-- Specification: the straight line through `(x1, f1)` and `(x2, f2)`. -/
noncomputable def chord (x1 f1 x2 f2 x : ℝ) : ℝ :=
  (f1 * (x2 - x) + f2 * (x - x1)) / (x2 - x1)

theorem chord_between {x1 f1 x2 f2 x : ℝ} (h1 : x1 ≤ x) (h2 : x < x2) :
    min f1 f2 ≤ chord x1 f1 x2 f2 x ∧ chord x1 f1 x2 f2 x ≤ max f1 f2 := by
  have hp : 0 < x2 - x1 := by linarith
  unfold chord
  constructor
  · rw [le_div_iff₀ hp]
    nlinarith [mul_le_mul_of_nonneg_right (min_le_left f1 f2) (by linarith : 0 ≤ x2 - x),
      mul_le_mul_of_nonneg_right (min_le_right f1 f2) (by linarith : 0 ≤ x - x1)]
  · rw [div_le_iff₀ hp]
    nlinarith [mul_le_mul_of_nonneg_right (le_max_left f1 f2) (by linarith : 0 ≤ x2 - x),
      mul_le_mul_of_nonneg_right (le_max_right f1 f2) (by linarith : 0 ≤ x - x1)]

theorem interp_reduce (x : ℝ) (xp fp : List ℝ) (hn : 0 < xp.length)
    (hlen : xp.length = fp.length) :
    interp x xp fp = if xp.length = 1 then fp[0]? else
      match search x xp with
      | none => none
      | some .below => fp[0]?
      | some .above => fp[xp.length - 1]?
      | some (.cell j) =>
        if j = xp.length - 1 then fp[j]?
        else (xp[j]?).bind fun xj =>
          if xj = x then fp[j]?
          else (fp[j]?).bind fun fj => (fp[j + 1]?).bind fun fj1 => (xp[j + 1]?).bind fun xj1 =>
            some ((fj1 - fj) / (xj1 - xj) * (x - xj) + fj) := by
  have hne : xp ≠ [] := List.length_pos_iff.mp hn
  unfold interp
  simp only [guard, if_pos hne, if_pos hlen, pure, bind, Option.bind]
  split_ifs
  · rfl
  · cases search x xp with
    | none => rfl
    | some s => cases s <;> rfl

/-- **C16.** Linear interpolation on a non-decreasing grid with a value for every node: clamped
outside the grid, equal to the node value at a node (the last one when nodes coincide), equal to
the chord strictly inside a cell - hence between the two neighbouring table values. -/
theorem interp_spec (x : ℝ) (xp fp : List ℝ) (hs : xp.Pairwise (· ≤ ·)) (hn : 0 < xp.length)
    (hlen : xp.length = fp.length) :
    (x < xp[0] → interp x xp fp = some fp[0]) ∧
    (xp[xp.length - 1] < x → interp x xp fp = some fp[xp.length - 1]) ∧
    (∀ j (hj : j < xp.length), xp[j] = x → (∀ k (hk : k < xp.length), j < k → x < xp[k]) →
      interp x xp fp = some fp[j]) ∧
    (∀ j (hj : j + 1 < xp.length), xp[j] ≤ x → x < xp[j + 1] →
      interp x xp fp = some (chord xp[j] fp[j] xp[j + 1] fp[j + 1] x) ∧
      min fp[j] fp[j + 1] ≤ chord xp[j] fp[j] xp[j + 1] fp[j + 1] x ∧
      chord xp[j] fp[j] xp[j + 1] fp[j + 1] x ≤ max fp[j] fp[j + 1]) := by
  obtain ⟨hb, ha, hc⟩ := search_spec x xp hs hn
  have hf0 : fp[0]? = some fp[0] := List.getElem?_eq_getElem (by omega)
  have hfn : fp[xp.length - 1]? = some fp[xp.length - 1] := List.getElem?_eq_getElem (by omega)
  have hle : ∀ i j (hi : i < xp.length) (hj : j < xp.length), i ≤ j → xp[i] ≤ xp[j] := by
    intro i j hi hj hij
    rcases hij.eq_or_lt with h | h
    · subst h; exact le_rfl
    · exact List.pairwise_iff_getElem.mp hs i j hi hj h
  rw [interp_reduce x xp fp hn hlen]
  refine ⟨?_, ?_, ?_, ?_⟩
  · intro hx
    rw [hb hx]; simp only; split_ifs <;> exact hf0
  · intro hx
    rw [ha hx]; simp only
    split_ifs with h1
    · rw [hf0]; simp only [h1]
    · exact hfn
  · intro j hj hxj hk
    split_ifs with h1
    · have : j = 0 := by omega
      subst this; exact hf0
    · obtain ⟨j', hj', hsr, hlej, hgt⟩ := hc (by rw [← hxj]; exact hle 0 j hn hj (by omega))
        (by rw [← hxj]; exact hle j _ hj (by omega) (by omega))
      have hjj : j' = j := by
        rcases lt_trichotomy j' j with h | h | h
        · exact absurd (hgt j hj h) (by rw [hxj]; exact lt_irrefl _)
        · exact h
        · exact absurd (hk j' hj' h) (not_lt.mpr hlej)
      subst hjj
      rw [hsr]; simp only
      have hfj : fp[j']? = some fp[j'] := List.getElem?_eq_getElem (by omega)
      have hxj? : xp[j']? = some xp[j'] := List.getElem?_eq_getElem hj
      simp only [hxj?, Option.bind_some, hxj, if_true, hfj]
      split_ifs <;> rfl
  · intro j hj hx1 hx2
    refine ⟨?_, chord_between hx1 hx2⟩
    rw [if_neg (by omega)]
    obtain ⟨j', hj', hsr, hlej, hgt⟩ := hc ((hle 0 j hn (by omega) (by omega)).trans hx1)
      (hx2.le.trans (hle (j + 1) _ hj (by omega) (by omega)))
    have hjj : j' = j := by
      rcases lt_trichotomy j' j with h | h | h
      · exact absurd (hgt j (by omega) h) (not_lt.mpr hx1)
      · exact h
      · exact absurd (hlej) (not_le.mpr (hx2.trans_le (hle (j + 1) j' hj hj' h)))
    subst hjj
    rw [hsr]; simp only
    rw [if_neg (by omega)]
    have hfj : fp[j']? = some fp[j'] := List.getElem?_eq_getElem (by omega)
    have hfj1 : fp[j' + 1]? = some fp[j' + 1] := List.getElem?_eq_getElem (by omega)
    have hxj? : xp[j']? = some xp[j'] := List.getElem?_eq_getElem (by omega)
    have hxj1? : xp[j' + 1]? = some xp[j' + 1] := List.getElem?_eq_getElem hj
    have hne : xp[j' + 1] - xp[j'] ≠ 0 := by linarith
    simp only [hxj?, hxj1?, hfj, hfj1, Option.bind_some, chord]
    split_ifs with hxe
    · rw [← hxe]; congr 1; field_simp; ring
    · congr 1; field_simp; ring

/-- **C16.** Interpolation never fails on a non-empty grid with matching lengths, and panics
otherwise. -/
theorem interp_defined_iff (x : ℝ) (xp fp : List ℝ) :
    (interp x xp fp).isSome ↔ xp ≠ [] ∧ xp.length = fp.length := by
  constructor
  · intro h
    by_contra hcon
    have : interp x xp fp = none := by
      unfold interp
      by_cases h1 : xp = []
      · simp [guard, h1]
      · have h2 : ¬ xp.length = fp.length := fun h2 => hcon ⟨h1, h2⟩
        simp only [guard, if_pos h1, if_neg h2]; rfl
    rw [this] at h; simp at h
  · rintro ⟨hne, hlen⟩
    have hn : 0 < xp.length := List.length_pos_iff.mpr hne
    rw [interp_reduce x xp fp hn hlen]
    obtain ⟨slot, hslot, hcell⟩ := search_total x xp hne
    have hg : ∀ i, i < xp.length → fp[i]? = some (fp.getD i 0) := by
      intro i hi
      rw [List.getElem?_eq_getElem (by omega)]
      simp [List.getD_eq_getElem?_getD, List.getElem?_eq_getElem (show i < fp.length by omega)]
    split_ifs with h1
    · rw [hg 0 hn]; rfl
    · rw [hslot]
      cases slot with
      | below => simp only; rw [hg 0 hn]; rfl
      | above => simp only; rw [hg _ (by omega)]; rfl
      | cell j =>
        have hj := hcell j rfl
        simp only
        split_ifs with h2
        · rw [hg j hj]; rfl
        · rw [List.getElem?_eq_getElem hj, hg j hj]
          simp only [Option.bind_some]
          split_ifs
          · rfl
          · rw [hg (j + 1) (by omega), List.getElem?_eq_getElem (show j + 1 < xp.length by omega)]
            simp

/-- **C16.** A non-negative table has a non-negative interpolant everywhere. -/
theorem interp_nonneg (x : ℝ) (xp fp : List ℝ) (hs : xp.Pairwise (· ≤ ·)) (hn : 0 < xp.length)
    (hlen : xp.length = fp.length) (hfp : ∀ y ∈ fp, 0 ≤ y) :
    ∃ v, interp x xp fp = some v ∧ 0 ≤ v := by
  obtain ⟨h1, h2, h3, h4⟩ := interp_spec x xp fp hs hn hlen
  by_cases hx0 : x < xp[0]
  · exact ⟨_, h1 hx0, hfp _ (List.getElem_mem _)⟩
  by_cases hxn : xp[xp.length - 1] < x
  · exact ⟨_, h2 hxn, hfp _ (List.getElem_mem _)⟩
  obtain ⟨j, hj, -, hle, hgt⟩ := (search_spec x xp hs hn).2.2 (not_lt.mp hx0) (not_lt.mp hxn)
  by_cases hlast : j + 1 < xp.length
  · obtain ⟨hv, hlo, -⟩ := h4 j hlast hle (hgt (j + 1) hlast (by omega))
    refine ⟨_, hv, le_trans (le_min (hfp _ (List.getElem_mem _)) (hfp _ (List.getElem_mem _))) hlo⟩
  · have hjn : j = xp.length - 1 := by omega
    subst hjn
    refine ⟨_, h3 _ hj (le_antisymm hle (not_lt.mp hxn)) hgt, hfp _ (List.getElem_mem _)⟩

example : interp 2.5 [1, 2, 3] [10, 20, 40] = some 30 := by
  have h := ((interp_spec 2.5 [1, 2, 3] [10, 20, 40] (by norm_num) (by simp) (by simp)).2.2.2 1
    (by simp) (by norm_num) (by norm_num)).1
  rw [h]; norm_num [chord]

end Hazma.Interp
