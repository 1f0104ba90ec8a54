import Verif.Lemmas.QuadLoop
import Verif.Model.QuadPoints

/-!
# The initial partition of the integrator with break points
-/

namespace Hazma.Quad

open Finset

/-! ## The selection sort -/

/-- `b'` arises from `b` by exchanging entries in `lo..hi`. -/
def Shuffled (lo hi : ℕ) (b b' : Buf ℝ) : Prop :=
  b'.len = b.len ∧ ∃ σ : Equiv.Perm ℕ, (∀ i, i < lo ∨ hi < i → σ i = i) ∧ ∀ i, b'.get i = b.get (σ i)

theorem Shuffled.refl (lo hi : ℕ) (b : Buf ℝ) : Shuffled lo hi b b := ⟨rfl, 1, by simp, by simp⟩

theorem Shuffled.trans {lo hi : ℕ} {a b c : Buf ℝ} (h1 : Shuffled lo hi a b) (h2 : Shuffled lo hi b c) :
    Shuffled lo hi a c := by
  obtain ⟨l1, σ, s1, s2⟩ := h1
  obtain ⟨l2, τ, t1, t2⟩ := h2
  refine ⟨l2.trans l1, τ.trans σ, ?_, ?_⟩
  · intro i hi; simp [t1 i hi, s1 i hi]
  · intro i; simp [t2, s2]

theorem Shuffled.mono {lo hi lo' : ℕ} {a b : Buf ℝ} (h : Shuffled lo hi a b) (hl : lo' ≤ lo) :
    Shuffled lo' hi a b := by
  obtain ⟨l1, σ, s1, s2⟩ := h
  exact ⟨l1, σ, fun i hi => s1 i (by omega), s2⟩

/-- Entries outside the range stay. -/
theorem Shuffled.outside {lo hi : ℕ} {a b : Buf ℝ} (h : Shuffled lo hi a b) (i : ℕ) (hi' : i < lo ∨ hi < i) :
    b.get i = a.get i := by
  obtain ⟨-, σ, s1, s2⟩ := h
  rw [s2, s1 i hi']

theorem perm_range {lo hi : ℕ} (σ : Equiv.Perm ℕ) (h : ∀ i, i < lo ∨ hi < i → σ i = i) (i : ℕ)
    (h1 : lo ≤ i) (h2 : i ≤ hi) : lo ≤ σ i ∧ σ i ≤ hi := by
  by_contra hc
  have : σ (σ i) = σ i := h _ (by omega)
  have := σ.injective this
  omega

/-- Entries inside the range come from inside the range. -/
theorem Shuffled.inside {lo hi : ℕ} {a b : Buf ℝ} (h : Shuffled lo hi a b) (i : ℕ) (h1 : lo ≤ i)
    (h2 : i ≤ hi) : ∃ j, lo ≤ j ∧ j ≤ hi ∧ b.get i = a.get j := by
  obtain ⟨-, σ, s1, s2⟩ := h
  have := perm_range σ s1 i h1 h2
  exact ⟨σ i, this.1, this.2, s2 i⟩

theorem Shuffled.back {lo hi : ℕ} {a b : Buf ℝ} (h : Shuffled lo hi a b) (i : ℕ) (h1 : lo ≤ i)
    (h2 : i ≤ hi) : ∃ j, lo ≤ j ∧ j ≤ hi ∧ b.get j = a.get i := by
  obtain ⟨-, σ, s1, s2⟩ := h
  have hs : ∀ i, i < lo ∨ hi < i → σ.symm i = i := fun i hi => by
    rw [Equiv.symm_apply_eq]; exact (s1 i hi).symm
  have := perm_range σ.symm hs i h1 h2
  exact ⟨σ.symm i, this.1, this.2, by simp [s2]⟩

/-- Distinct entries stay distinct. -/
theorem Shuffled.inj {lo hi : ℕ} {a b : Buf ℝ} (h : Shuffled lo hi a b)
    (ha : ∀ i j, lo ≤ i → i ≤ hi → lo ≤ j → j ≤ hi → a.get i = a.get j → i = j) (i j : ℕ)
    (h1 : lo ≤ i) (h2 : i ≤ hi) (h3 : lo ≤ j) (h4 : j ≤ hi) (he : b.get i = b.get j) : i = j := by
  obtain ⟨-, σ, s1, s2⟩ := h
  rw [s2, s2] at he
  have p := perm_range σ s1 i h1 h2
  have q := perm_range σ s1 j h3 h4
  exact σ.injective (ha _ _ p.1 p.2 q.1 q.2 he)

theorem swapIf_spec (b : Buf ℝ) (i j hi : ℕ) (hij : i < j) (hj : j ≤ hi) (hlen : hi < b.len) :
    ∃ b', swapIf b i j = some b' ∧ Shuffled i hi b b' ∧ b'.get i ≤ b'.get j ∧ b'.get i ≤ b.get i ∧
      (∀ k, k ≠ i → k ≠ j → b'.get k = b.get k) := by
  unfold swapIf
  rw [Option.bind_eq_bind, Buf.rd_of_lt (by omega), Option.bind_some, Option.bind_eq_bind,
    Buf.rd_of_lt (by omega), Option.bind_some]
  split_ifs with h
  · rw [Buf.wr_of_lt (by omega), Option.bind_some, Buf.wr_of_lt (by simp only; omega)]
    have hne : i ≠ j := by omega
    have hg : ∀ k, (Function.update (Function.update b.get i (b.get j)) j (b.get i)) k =
        b.get (Equiv.swap i j k) := by
      intro k
      rw [Equiv.swap_apply_def]
      by_cases k1 : k = i
      · subst k1; simp [Function.update_apply, hne]
      · by_cases k2 : k = j
        · subst k2; simp [k1]
        · simp [Function.update_apply, k1, k2]
    refine ⟨_, rfl, ⟨rfl, Equiv.swap i j, ?_, hg⟩, ?_, ?_, ?_⟩
    · intro k hk
      exact Equiv.swap_apply_of_ne_of_ne (by omega) (by omega)
    · simp only [hg, Equiv.swap_apply_left, Equiv.swap_apply_right]; exact le_of_lt h
    · simp only [hg, Equiv.swap_apply_left]; exact le_of_lt h
    · intro k k1 k2; simp only [hg, Equiv.swap_apply_of_ne_of_ne k1 k2]
  · exact ⟨b, rfl, Shuffled.refl _ _ _, not_lt.mp h, le_refl _, fun _ _ _ => rfl⟩

theorem sortInner_spec (N i cnt j : ℕ) (b : Buf ℝ) (hij : i < j) (hcnt : j + cnt = N + 1) (hlen : N < b.len)
    (hb : ∀ k, i < k → k < j → b.get i ≤ b.get k) :
    ∃ b', sortInner i cnt j b = some b' ∧ Shuffled i N b b' ∧ ∀ k, i < k → k ≤ N → b'.get i ≤ b'.get k := by
  induction cnt generalizing j b with
  | zero => exact ⟨b, rfl, Shuffled.refl _ _ _, fun k h1 h2 => hb k h1 (by omega)⟩
  | succ cnt ih =>
    obtain ⟨b1, h1, h2, h3, h4, h5⟩ := swapIf_spec b i j N hij (by omega) hlen
    obtain ⟨b2, k1, k2, k3⟩ := ih (j + 1) b1 (by omega) (by omega) (by rw [h2.1]; exact hlen) (by
      intro k hk hk'
      by_cases hkj : k = j
      · rw [hkj]; exact h3
      · rw [h5 k (by omega) hkj]; exact h4.trans (hb k hk (by omega)))
    refine ⟨b2, ?_, h2.trans k2, k3⟩
    unfold sortInner
    rw [Option.bind_eq_bind, h1, Option.bind_some, k1]

theorem sortOuter_spec (nint cnt i : ℕ) (b : Buf ℝ) (hi : 1 ≤ i) (hcnt : i + cnt = nint + 1)
    (hlen : nint + 1 < b.len) (hb : ∀ u v, 1 ≤ u → u < i → u < v → v ≤ nint + 1 → b.get u ≤ b.get v) :
    ∃ b', sortOuter nint cnt i b = some b' ∧ Shuffled 1 (nint + 1) b b' ∧
      ∀ u v, 1 ≤ u → u ≤ v → v ≤ nint + 1 → b'.get u ≤ b'.get v := by
  induction cnt generalizing i b with
  | zero =>
    refine ⟨b, rfl, Shuffled.refl _ _ _, fun u v h1 h2 h3 => ?_⟩
    rcases eq_or_lt_of_le h2 with h | h
    · rw [h]
    · exact hb u v h1 (by omega) h h3
  | succ cnt ih =>
    obtain ⟨b1, h1, h2, h3⟩ := sortInner_spec (nint + 1) i (nint + 1 - i) (i + 1) b (by omega) (by omega) hlen
      (fun k _ _ => by omega)
    obtain ⟨b2, k1, k2, k3⟩ := ih (i + 1) b1 (by omega) (by omega) (by rw [h2.1]; exact hlen) (by
      intro u v hu hu' huv hv
      by_cases hui : u = i
      · rw [hui]; exact h3 v (by omega) hv
      · rw [h2.outside u (by omega)]
        by_cases hvi : v < i
        · rw [h2.outside v (by omega)]; exact hb u v hu (by omega) huv hv
        · obtain ⟨j, j1, j2, j3⟩ := h2.inside v (by omega) hv
          rw [j3]; exact hb u j hu (by omega) (by omega) j2)
    refine ⟨b2, ?_, (h2.mono hi).trans k2, k3⟩
    unfold sortOuter
    rw [Option.bind_eq_bind, h1, Option.bind_some, k1]

/-! ## The partition -/

theorem storePts_spec (l : List ℝ) (i : ℕ) (b : Buf ℝ) (h : i + l.length + 2 < b.len) :
    ∃ b', storePts i l b = some b' ∧ b'.len = b.len ∧ (∀ k, k < i + 2 → b'.get k = b.get k) ∧
      ∀ k (hk : k < l.length), b'.get (i + k + 2) = l[k] := by
  induction l generalizing i b with
  | nil => exact ⟨b, rfl, rfl, fun _ _ => rfl, by simp⟩
  | cons x l ih =>
    simp only [List.length_cons] at h
    obtain ⟨b', h1, h2, h3, h4⟩ := ih (i + 1) ⟨b.len, Function.update b.get (i + 2) x⟩ (by simp only; omega)
    refine ⟨b', ?_, h2, ?_, ?_⟩
    · unfold storePts
      rw [Option.bind_eq_bind, Buf.wr_of_lt (by omega), Option.bind_some, h1]
    · intro k hk
      rw [h3 k (by omega)]
      simp only [Function.update_apply]
      rw [if_neg (by omega)]
    · intro k hk
      cases k with
      | zero =>
        rw [h3 _ (by omega)]
        simp
      | succ k =>
        have := h4 k (by simp at hk; omega)
        rw [show i + (k + 1) + 2 = i + 1 + k + 2 by omega, this]
        simp

theorem rawPts_spec (a b : ℝ) (l : List ℝ) :
    ∃ v, rawPts a b l = some v ∧ v.len = l.length + 3 ∧ v.get 1 = min a b ∧
      v.get (l.length + 2) = max a b ∧ ∀ k (hk : k < l.length), v.get (k + 2) = l[k] := by
  obtain ⟨c, h1, h2, h3, h4⟩ := storePts_spec l 0
    ⟨l.length + 3, Function.update (fun _ => 0) 1 (min a b)⟩ (by simp)
  refine ⟨⟨l.length + 3, Function.update c.get (l.length + 2) (max a b)⟩, ?_, rfl, ?_, by simp, ?_⟩
  · unfold rawPts
    rw [Option.bind_eq_bind, Buf.wr_of_lt (by simp [Buf.new]), Option.bind_some]
    simp only [Buf.new]
    rw [h1, Option.bind_some, Buf.wr_of_lt (by rw [h2]; simp only; omega)]
    simp [h2]
  · simp only [Function.update_apply]
    rw [if_neg (by omega), h3 1 (by omega)]
    simp
  · intro k hk
    simp only [Function.update_apply]
    rw [if_neg (by omega), ← h4 k hk]
    simp

/-- The partition: either some point lies outside the closed range, or the ends and the points come out in
non-decreasing order, each of them once. -/
theorem partition_spec (a b : ℝ) (l : List ℝ) :
    ((∃ x ∈ l, x < min a b ∨ max a b < x) → partition a b l = some (.error .breakpointOutside)) ∧
    ((∀ x ∈ l, min a b ≤ x ∧ x ≤ max a b) → ∃ v, partition a b l = some (.ok v) ∧ v.len = l.length + 3 ∧
      v.get 1 = min a b ∧ v.get (l.length + 2) = max a b ∧
      (∀ u w, 1 ≤ u → u ≤ w → w ≤ l.length + 2 → v.get u ≤ v.get w) ∧
      (∀ x ∈ l, ∃ i, 1 ≤ i ∧ i ≤ l.length + 2 ∧ v.get i = x) ∧
      (∀ i, 1 ≤ i → i ≤ l.length + 2 → v.get i = min a b ∨ v.get i = max a b ∨ v.get i ∈ l) ∧
      (a ≠ b → l.Nodup → (∀ x ∈ l, min a b < x ∧ x < max a b) →
        ∀ i, 1 ≤ i → i ≤ l.length + 1 → v.get i < v.get (i + 1))) := by
  obtain ⟨r, hr, hlen, hr1, hr2, hrk⟩ := rawPts_spec a b l
  have hr3 : ∀ i, 1 ≤ i → i ≤ l.length + 2 → r.get i = min a b ∨ r.get i = max a b ∨ r.get i ∈ l := by
    intro i h1 h2
    by_cases h3 : i = 1
    · left; rw [h3]; exact hr1
    · by_cases h4 : i = l.length + 2
      · right; left; rw [h4]; exact hr2
      · right; right
        obtain ⟨k, rfl⟩ : ∃ k, i = k + 2 := ⟨i - 2, by omega⟩
        rw [hrk k (by omega)]; exact List.getElem_mem _
  have hr4 : ∀ x ∈ l, ∃ i, 1 ≤ i ∧ i ≤ l.length + 2 ∧ r.get i = x := by
    intro x hx
    obtain ⟨k, hk, rfl⟩ := List.getElem_of_mem hx
    exact ⟨k + 2, by omega, by omega, hrk k hk⟩
  unfold partition
  rw [Option.bind_eq_bind, hr, Option.bind_some]
  by_cases h0 : l.length = 0
  · have hl : l = [] := List.length_eq_zero_iff.mp h0
    subst hl
    simp only [List.length_nil, ne_eq, not_true_eq_false, if_false, List.not_mem_nil, false_and, exists_false,
      false_imp_iff, true_and, implies_true, forall_true_left]
    refine ⟨r, rfl, hlen, hr1, hr2, ?_, ?_, ?_⟩
    · intro u w h1 h2 h3
      simp only [List.length_nil, zero_add] at h3 hr2
      have : min a b ≤ max a b := min_le_max
      have hu : u = 1 ∨ u = 2 := by omega
      have hw : w = 1 ∨ w = 2 := by omega
      rcases hu with rfl | rfl <;> rcases hw with rfl | rfl <;> first | rfl | (rw [hr1, hr2]; exact this) | omega
    · intro i h1 h2; simpa using hr3 i h1 h2
    · intro hab _ i h1 h2
      simp only [List.length_nil, zero_add] at h2 hr2
      have : i = 1 := by omega
      subst this
      rw [hr1, hr2]
      exact lt_of_le_of_ne min_le_max (fun h => hab (by rcases le_total a b with h' | h' <;> simp [h'] at h <;> linarith))
  · rw [if_pos h0]
    obtain ⟨v, hv, hsh, hso⟩ := sortOuter_spec (l.length + 1) (l.length + 1) 1 r (le_refl _) (by omega)
      (by omega) (fun u v h1 h2 => by omega)
    have hvl : v.len = l.length + 3 := hsh.1.trans hlen
    rw [Option.bind_eq_bind, hv, Option.bind_some, Buf.rd_of_lt (by omega),
      Option.bind_some, Buf.rd_of_lt (by omega), Option.bind_some]
    have hback : ∀ i, 1 ≤ i → i ≤ l.length + 2 → ∃ j, 1 ≤ j ∧ j ≤ l.length + 2 ∧ v.get j = r.get i :=
      fun i h1 h2 => hsh.back i h1 h2
    have hin : ∀ i, 1 ≤ i → i ≤ l.length + 2 → ∃ j, 1 ≤ j ∧ j ≤ l.length + 2 ∧ v.get i = r.get j :=
      fun i h1 h2 => hsh.inside i h1 h2
    have hlo : v.get 1 ≤ min a b := by
      obtain ⟨j, j1, j2, j3⟩ := hback 1 (le_refl _) (by omega)
      rw [hr1] at j3
      rw [← j3]; exact hso 1 j (le_refl _) j1 j2
    have hhi : max a b ≤ v.get (l.length + 2) := by
      obtain ⟨j, j1, j2, j3⟩ := hback (l.length + 2) (by omega) (le_refl _)
      rw [hr2] at j3
      rw [← j3]; exact hso j _ j1 j2 (le_refl _)
    have hall : ∀ x ∈ l, v.get 1 ≤ x ∧ x ≤ v.get (l.length + 2) := by
      intro x hx
      obtain ⟨i, i1, i2, i3⟩ := hr4 x hx
      obtain ⟨j, j1, j2, j3⟩ := hback i i1 i2
      rw [← i3, ← j3]
      exact ⟨hso 1 j (le_refl _) j1 j2, hso j _ j1 j2 (le_refl _)⟩
    have hmm : min a b ≤ max a b := min_le_max
    constructor
    · rintro ⟨x, hx, h⟩
      rw [if_pos]
      · rfl
      · have := hall x hx
        rcases h with h | h
        · left; intro he; linarith
        · right; intro he; linarith
    · intro hall'
      have e1 : v.get 1 = min a b := by
        obtain ⟨j, j1, j2, j3⟩ := hin 1 (le_refl _) (by omega)
        refine le_antisymm hlo ?_
        rw [j3]
        rcases hr3 j j1 j2 with h | h | h
        · rw [h]
        · rw [h]; exact hmm
        · exact (hall' _ h).1
      have e2 : v.get (l.length + 2) = max a b := by
        obtain ⟨j, j1, j2, j3⟩ := hin (l.length + 2) (by omega) (le_refl _)
        refine le_antisymm ?_ hhi
        rw [j3]
        rcases hr3 j j1 j2 with h | h | h
        · rw [h]; exact hmm
        · rw [h]
        · exact (hall' _ h).2
      rw [if_neg (by simp [e1, e2])]
      refine ⟨v, rfl, hvl, e1, e2, hso, ?_, ?_, ?_⟩
      · intro x hx
        obtain ⟨i, i1, i2, i3⟩ := hr4 x hx
        obtain ⟨j, j1, j2, j3⟩ := hback i i1 i2
        exact ⟨j, j1, j2, j3.trans i3⟩
      · intro i h1 h2
        obtain ⟨j, j1, j2, j3⟩ := hin i h1 h2
        rw [j3]; exact hr3 j j1 j2
      · intro hab hnd hint i h1 h2
        have hlt : min a b < max a b := lt_of_le_of_ne hmm
          (fun h => hab (by rcases le_total a b with h' | h' <;> simp [h'] at h <;> linarith))
        refine lt_of_le_of_ne (hso i (i + 1) h1 (by omega) (by omega)) ?_
        intro he
        have hinj := hsh.inj (by
          intro i j h1 h2 h3 h4 he
          have key : ∀ i, 1 ≤ i → i ≤ l.length + 2 → (i = 1 ∧ r.get i = min a b) ∨
              (i = l.length + 2 ∧ r.get i = max a b) ∨
              ∃ k, ∃ hk : k < l.length, i = k + 2 ∧ r.get i = l[k] := by
            intro i h1 h2
            by_cases h3 : i = 1
            · left; exact ⟨h3, by rw [h3]; exact hr1⟩
            · by_cases h4 : i = l.length + 2
              · right; left; exact ⟨h4, by rw [h4]; exact hr2⟩
              · right; right
                obtain ⟨k, rfl⟩ : ∃ k, i = k + 2 := ⟨i - 2, by omega⟩
                exact ⟨k, by omega, rfl, hrk k (by omega)⟩
          rcases key i h1 h2 with ⟨a1, a2⟩ | ⟨a1, a2⟩ | ⟨k, hk, a1, a2⟩ <;>
            rcases key j h3 h4 with ⟨b1, b2⟩ | ⟨b1, b2⟩ | ⟨m, hm, b1, b2⟩ <;>
            rw [a2, b2] at he
          · omega
          · linarith
          · have := hint _ (List.getElem_mem hm); linarith [this.1]
          · linarith
          · omega
          · have := hint _ (List.getElem_mem hm); linarith [this.2]
          · have := hint _ (List.getElem_mem hk); linarith [this.1]
          · have := hint _ (List.getElem_mem hk); linarith [this.2]
          · have := (List.Nodup.getElem_inj_iff hnd).mp he
            omega) i (i + 1) h1 (by omega) (by omega) (by omega) he
        omega

/-! ## The first rules -/

/-- What holds of the vectors after `m` panels. -/
structure Pass (M : Mach) (f : ℝ → ℝ) (pts : Buf ℝ) (c m : ℕ) (w : FirstPass) : Prop where
  lens : w.P.alist.len = c ∧ w.P.blist.len = c ∧ w.P.rlist.len = c ∧ w.P.elist.len = c ∧
    w.iord.len = c ∧ w.level.len = c
  ends : ∀ i, 1 ≤ i → i ≤ m → w.P.alist.get i = pts.get i ∧ w.P.blist.get i = pts.get (i + 1) ∧
    w.P.rlist.get i = (qk21 M f (pts.get i) (pts.get (i + 1))).result ∧
    w.P.elist.get i = (qk21 M f (pts.get i) (pts.get (i + 1))).abserr ∧ w.iord.get i = i ∧
    (w.ndin.get i = true ↔ (qk21 M f (pts.get i) (pts.get (i + 1))).abserr =
      (qk21 M f (pts.get i) (pts.get (i + 1))).resasc ∧
      (qk21 M f (pts.get i) (pts.get (i + 1))).abserr ≠ 0)
  result : w.result = ∑ i ∈ Icc 1 m, (qk21 M f (pts.get i) (pts.get (i + 1))).result
  abserr : w.abserr = ∑ i ∈ Icc 1 m, (qk21 M f (pts.get i) (pts.get (i + 1))).abserr
  resabs : w.resabs = ∑ i ∈ Icc 1 m, (qk21 M f (pts.get i) (pts.get (i + 1))).resabs
  evals : w.trace.length = 21 * m
  pts : ∀ x ∈ w.trace, ∃ i, 1 ≤ i ∧ i ≤ m ∧ x ∈ (qk21 M f (pts.get i) (pts.get (i + 1))).pts

theorem firstTurn_spec (M : Mach) (f : ℝ → ℝ) (pts : Buf ℝ) (c m : ℕ) (w : FirstPass)
    (h : Pass M f pts c m w) (hm : m + 1 < c) (hn : m + 1 < w.ndin.len) (hp : m + 2 < pts.len) :
    ∃ w', firstTurn M f pts (m + 1) (pts.get (m + 1)) w = some (w', pts.get (m + 2)) ∧
      Pass M f pts c (m + 1) w' ∧ w'.ndin.len = w.ndin.len := by
  obtain ⟨⟨l1, l2, l3, l4, l5, l6⟩, he, hr, ha, hra, hv, hx⟩ := h
  unfold firstTurn
  rw [Option.bind_eq_bind, Buf.rd_of_lt (by omega), Option.bind_some]
  simp only
  rw [Option.bind_eq_bind, Buf.wr_of_lt (by omega), Option.bind_some, Option.bind_eq_bind,
    Buf.wr_of_lt (by omega), Option.bind_some, Option.bind_eq_bind, Buf.wr_of_lt (by omega), Option.bind_some,
    Buf.wr_of_lt (by omega), Option.bind_some,
    Buf.wr_of_lt (by omega), Option.bind_some,
    Buf.wr_of_lt (by omega), Option.bind_some, Buf.wr_of_lt (by omega), Option.bind_some]
  refine ⟨_, rfl, ⟨⟨l1, l2, l3, l4, l5, l6⟩, ?_, ?_, ?_, ?_, ?_, ?_⟩, rfl⟩
  · intro i h1 h2
    by_cases hi : i = m + 1
    · subst hi
      simp
    · simpa [Function.update_apply, hi] using he i h1 (by omega)
  · rw [Finset.sum_Icc_succ_top (by omega), ← hr]
  · rw [Finset.sum_Icc_succ_top (by omega), ← ha]
  · rw [Finset.sum_Icc_succ_top (by omega), ← hra]
  · simp only [List.length_append, hv, qk21_pts_length]; omega
  · intro x hx'
    simp only [List.mem_append] at hx'
    rcases hx' with hx' | hx'
    · obtain ⟨i, i1, i2, i3⟩ := hx x hx'
      exact ⟨i, i1, by omega, i3⟩
    · exact ⟨m + 1, by omega, le_refl _, hx'⟩

theorem firstLoop_spec (M : Mach) (f : ℝ → ℝ) (pts : Buf ℝ) (c n cnt m : ℕ) (w : FirstPass)
    (h : Pass M f pts c m w) (hcnt : m + cnt = n) (hn : n < c) (hd : n < w.ndin.len) (hp : n + 1 < pts.len) :
    ∃ w', firstLoop M f pts cnt (m + 1) (pts.get (m + 1)) w = some w' ∧ Pass M f pts c n w' ∧
      w'.ndin.len = w.ndin.len := by
  induction cnt generalizing m w with
  | zero =>
    have : m = n := by omega
    subst this
    exact ⟨w, rfl, h, rfl⟩
  | succ cnt ih =>
    obtain ⟨w1, a1, a2, a3⟩ := firstTurn_spec M f pts c m w h (by omega) (by omega) (by omega)
    obtain ⟨w2, b1, b2, b3⟩ := ih (m + 1) w1 a2 (by omega) (by omega)
    refine ⟨w2, ?_, b2, b3.trans a3⟩
    unfold firstLoop
    rw [Option.bind_eq_bind, a1, Option.bind_some, b1]

theorem emptyPass_spec (M : Mach) (f : ℝ → ℝ) (pts : Buf ℝ) (c npts : ℕ) :
    Pass M f pts c 0 (emptyPass c npts) := by
  refine ⟨by simp [emptyPass, Buf.new], fun i h1 h2 => by omega, by simp [emptyPass], by simp [emptyPass],
    by simp [emptyPass], by simp [emptyPass], by simp [emptyPass]⟩

theorem inflate_spec (nd : Buf Bool) (x : ℝ) (n cnt i : ℕ) (e : Buf ℝ) (sum : ℝ) (hi : 1 ≤ i)
    (hcnt : i + cnt = n + 1) (hn : n < nd.len) (he : n < e.len) :
    ∃ e', inflate nd x cnt i e sum = some (e', sum + ∑ k ∈ Ico i (n + 1), e'.get k) ∧ e'.len = e.len ∧
      ∀ k, e'.get k = if i ≤ k ∧ k ≤ n ∧ nd.get k = true then x else e.get k := by
  induction cnt generalizing i e sum with
  | zero =>
    have : i = n + 1 := by omega
    subst this
    refine ⟨e, by simp [inflate], rfl, fun k => ?_⟩
    rw [if_neg (by omega)]
  | succ cnt ih =>
    unfold inflate
    rw [Option.bind_eq_bind, Buf.rd_of_lt (by omega), Option.bind_some]
    obtain ⟨g, hg, hgl, hgk⟩ : ∃ g : Buf ℝ, putIf (nd.get i) e i x = some g ∧
        g.len = e.len ∧ ∀ k, g.get k = if k = i ∧ nd.get k = true then x else e.get k := by
      unfold putIf
      split_ifs with hf
      · rw [Buf.wr_of_lt (by omega)]
        refine ⟨_, rfl, rfl, fun k => ?_⟩
        by_cases hk : k = i
        · subst hk; simp [hf]
        · simp [Function.update_apply, hk]
      · refine ⟨e, rfl, rfl, fun k => ?_⟩
        by_cases hk : k = i
        · subst hk; simp [hf]
        · simp [hk]
    rw [Option.bind_eq_bind, hg, Option.bind_some, Option.bind_eq_bind, Buf.rd_of_lt (by omega),
      Option.bind_some]
    obtain ⟨e', h1, h2, h3⟩ := ih (i + 1) g (sum + g.get i) (by omega) (by omega) (by omega)
    refine ⟨e', ?_, h2.trans hgl, ?_⟩
    · rw [h1, Finset.sum_eq_sum_Ico_succ_bot (show i < n + 1 by omega)]
      have : e'.get i = g.get i := by rw [h3, if_neg (by omega)]
      rw [this]; congr 2; ring
    · intro k
      rw [h3, hgk]
      by_cases hk : k = i
      · subst hk
        rw [if_neg (by omega)]
        by_cases hf : nd.get k = true <;> simp [hf]
        omega
      · by_cases hf : nd.get k = true
        · simp only [hf, hk, and_true, false_and, if_false]
          by_cases h' : i + 1 ≤ k ∧ k ≤ n
          · rw [if_pos h', if_pos (by omega)]
          · rw [if_neg h', if_neg (by omega)]
        · simp [hf]

/-! ## Sorting the panels by error -/

theorem largest_spec (e : Buf ℝ) (io : Buf ℕ) (i n cnt j ind k : ℕ) (hij : i < j) (hcnt : j + cnt = n + 1)
    (hio : ∀ v, 1 ≤ v → v ≤ n → io.get v < e.len) (hi : 1 ≤ i) (hn : n < io.len)
    (hk : (k = 0 ∧ ind = io.get i) ∨ (i < k ∧ k < j ∧ ind = io.get k))
    (hmax : ∀ v, i ≤ v → v < j → e.get (io.get v) ≤ e.get ind) :
    ∃ r, largest e io cnt j ind k = some r ∧
      ((r.2 = 0 ∧ r.1 = io.get i) ∨ (i < r.2 ∧ r.2 ≤ n ∧ r.1 = io.get r.2)) ∧
      ∀ v, i ≤ v → v ≤ n → e.get (io.get v) ≤ e.get r.1 := by
  induction cnt generalizing j ind k with
  | zero =>
    refine ⟨_, rfl, ?_, fun v h1 h2 => hmax v h1 (by omega)⟩
    rcases hk with hk | hk
    · exact Or.inl hk
    · exact Or.inr ⟨hk.1, by omega, hk.2.2⟩
  | succ cnt ih =>
    have hind : ind < e.len := by
      rcases hk with hk | hk
      · rw [hk.2]; exact hio i hi (by omega)
      · rw [hk.2.2]; exact hio k (by omega) (by omega)
    unfold largest
    rw [Option.bind_eq_bind, Buf.rd_of_lt (by omega), Option.bind_some, Option.bind_eq_bind,
      Buf.rd_of_lt hind, Option.bind_some, Buf.rd_of_lt (hio j (by omega) (by omega)),
      Option.bind_some]
    split_ifs with hle
    · refine ih (j + 1) (io.get j) j (by omega) (by omega) (Or.inr ⟨hij, by omega, rfl⟩) ?_
      intro v h1 h2
      by_cases hv : v = j
      · rw [hv]
      · exact (hmax v h1 (by omega)).trans hle
    · refine ih (j + 1) ind k (by omega) (by omega) ?_ ?_
      · rcases hk with hk | hk
        · exact Or.inl hk
        · exact Or.inr ⟨hk.1, by omega, hk.2.2⟩
      · intro v h1 h2
        by_cases hv : v = j
        · rw [hv]; exact le_of_lt (not_le.mp hle)
        · exact hmax v h1 (by omega)

/-- The list holds each of `1..n` once, and its first `i - 1` entries are the largest in order. -/
structure Sel (e : Buf ℝ) (n i : ℕ) (io : Buf ℕ) : Prop where
  range : ∀ j, 1 ≤ j → j ≤ n → 1 ≤ io.get j ∧ io.get j ≤ n
  inj : ∀ u v, 1 ≤ u → u < v → v ≤ n → io.get u ≠ io.get v
  sorted : ∀ u v, 1 ≤ u → u < i → u < v → v ≤ n → e.get (io.get v) ≤ e.get (io.get u)

theorem selectTurn_spec (e : Buf ℝ) (n i : ℕ) (io : Buf ℕ) (hi : 1 ≤ i) (hin : i ≤ n) (hn : n < io.len)
    (hne : n < e.len) (h : Sel e n i io) :
    ∃ io', selectTurn e n i io = some io' ∧ io'.len = io.len ∧ Sel e n (i + 1) io' := by
  unfold selectTurn
  rw [Option.bind_eq_bind, Buf.rd_of_lt (by omega), Option.bind_some]
  obtain ⟨r, hr, hcase, hmax⟩ := largest_spec e io i n (n - i) (i + 1) (io.get i) 0 (by omega) (by omega)
    (fun v h1 h2 => by have := h.range v h1 h2; omega) hi hn (Or.inl ⟨rfl, rfl⟩)
    (fun v h1 h2 => by have : v = i := by omega
                       rw [this])
  rw [Option.bind_eq_bind, hr, Option.bind_some]
  split_ifs with hx
  · rcases hcase with hc | ⟨c1, c2, c3⟩
    · exact absurd hc.2 hx
    rw [Option.bind_eq_bind, Buf.wr_of_lt (by omega), Option.bind_some, Buf.wr_of_lt (by simp only; omega)]
    have hg : ∀ k, (Function.update (Function.update io.get r.2 (io.get i)) i r.1) k =
        io.get (Equiv.swap i r.2 k) := by
      intro k
      rw [Equiv.swap_apply_def]
      by_cases k1 : k = i
      · subst k1; simp [c3]
      · by_cases k2 : k = r.2
        · subst k2; simp [Function.update_apply, k1]
        · simp [Function.update_apply, k1, k2]
    have hsw : ∀ k, 1 ≤ k → k ≤ n → 1 ≤ Equiv.swap i r.2 k ∧ Equiv.swap i r.2 k ≤ n := by
      intro k h1 h2
      rw [Equiv.swap_apply_def]
      split_ifs <;> omega
    refine ⟨_, rfl, rfl, ⟨?_, ?_, ?_⟩⟩
    · intro j h1 h2
      simp only [hg]
      have := hsw j h1 h2
      exact h.range _ this.1 this.2
    · intro u v h1 h2 h3
      simp only [hg]
      have a := hsw u h1 (by omega)
      have b := hsw v (by omega) h3
      have hne : Equiv.swap i r.2 u ≠ Equiv.swap i r.2 v := fun he => by
        have := (Equiv.swap i r.2).injective he; omega
      rcases lt_or_gt_of_ne hne with hl | hl
      · exact h.inj _ _ a.1 hl b.2
      · exact (h.inj _ _ b.1 hl a.2).symm
    · intro u v h1 h2 h3 h4
      simp only [hg]
      by_cases hu : u = i
      · subst hu
        rw [Equiv.swap_apply_left, ← c3]
        refine hmax _ ?_ (hsw v (by omega) h4).2
        rw [Equiv.swap_apply_def]; split_ifs <;> omega
      · rw [Equiv.swap_apply_of_ne_of_ne hu (by omega)]
        refine h.sorted u _ h1 (by omega) ?_ (hsw v (by omega) h4).2
        rw [Equiv.swap_apply_def]; split_ifs <;> omega
  · refine ⟨io, rfl, rfl, ⟨h.range, h.inj, ?_⟩⟩
    intro u v h1 h2 h3 h4
    by_cases hu : u = i
    · subst hu
      push Not at hx
      rw [← hx]; exact hmax v (by omega) h4
    · exact h.sorted u v h1 (by omega) h3 h4

theorem selectLoop_spec (e : Buf ℝ) (n cnt i : ℕ) (io : Buf ℕ) (hi : 1 ≤ i) (hcnt : i + cnt = n)
    (hn : n < io.len) (hne : n < e.len) (h : Sel e n i io) :
    ∃ io', selectLoop e n cnt i io = some io' ∧ io'.len = io.len ∧ Listed e.get io'.get n n := by
  induction cnt generalizing i io with
  | zero =>
    refine ⟨io, rfl, rfl, ⟨h.range, h.inj, ?_⟩⟩
    intro u v h1 h2 h3
    rcases eq_or_lt_of_le h2 with h' | h'
    · rw [h']
    · exact h.sorted u v h1 (by omega) h' h3
  | succ cnt ih =>
    obtain ⟨io1, h1, h2, h3⟩ := selectTurn_spec e n i io hi (by omega) hn hne h
    obtain ⟨io2, k1, k2, k3⟩ := ih (i + 1) io1 (by omega) (by omega) (by omega) h3
    refine ⟨io2, ?_, k2.trans h2, k3⟩
    unfold selectLoop
    rw [Option.bind_eq_bind, h1, Option.bind_some, k1]

end Hazma.Quad
