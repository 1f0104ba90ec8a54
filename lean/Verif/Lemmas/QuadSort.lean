import Verif.Model.Quad
import Mathlib.Tactic

/-!
# The ordering routine of the adaptive integrator

`qpsrt` is described by what its three loops do to the list of indices; from that follow sortedness,
distinctness and which panels are listed.
-/

namespace Hazma.Quad

namespace Buf
variable {α : Type}

theorem rd_of_lt {b : Buf α} {i : ℕ} (h : i < b.len) : b.rd i = some (b.get i) := by simp [rd, h]
theorem wr_of_lt {b : Buf α} {i : ℕ} (h : i < b.len) (x : α) :
    b.wr i x = some ⟨b.len, Function.update b.get i x⟩ := by simp [wr, h]

end Buf

theorem csub_of_le {x y : ℕ} (h : y ≤ x) : csub x y = some (x - y) := by simp [csub, h]

variable {α : Type} [LinearOrder α]

/-- What the climbing loop does. -/
theorem climb_spec (elist : Buf α) (errmax : α) (cnt nrmax : ℕ) (io : Buf ℕ)
    (hc : nrmax = cnt + 1) (hlen : nrmax < io.len)
    (hin : ∀ j, 1 ≤ j → j < nrmax → io.get j < elist.len) :
    ∃ n1 io1, climb elist errmax cnt nrmax io = some (n1, io1) ∧ io1.len = io.len ∧
      1 ≤ n1 ∧ n1 ≤ nrmax ∧ (∀ j, j < n1 → io1.get j = io.get j) ∧
      (∀ j, n1 < j → j ≤ nrmax → io1.get j = io.get (j - 1)) ∧
      (∀ j, nrmax < j → io1.get j = io.get j) ∧
      (n1 = nrmax → io1.get n1 = io.get n1) ∧ (io1.get n1 = io.get n1) ∧
      (∀ j, n1 ≤ j → j < nrmax → elist.get (io.get j) < errmax) ∧
      (n1 = 1 ∨ errmax ≤ elist.get (io.get (n1 - 1))) := by
  induction cnt generalizing nrmax io with
  | zero =>
    refine ⟨nrmax, io, rfl, rfl, by omega, le_refl _, fun _ _ => rfl, ?_, fun _ _ => rfl,
      fun _ => rfl, rfl, ?_, Or.inl (by omega)⟩
    · intro j h1 h2; omega
    · intro j h1 h2; omega
  | succ cnt ih =>
    have h1 : io.get (nrmax - 1) < elist.len := hin _ (by omega) (by omega)
    simp only [climb, csub_of_le (show 1 ≤ nrmax by omega), Option.bind_eq_bind, Option.bind_some,
      Buf.rd_of_lt (show nrmax - 1 < io.len by omega), Buf.rd_of_lt h1, Buf.wr_of_lt hlen]
    split_ifs with hle
    · refine ⟨nrmax, io, rfl, rfl, by omega, le_refl _, fun _ _ => rfl, ?_, fun _ _ => rfl,
        fun _ => rfl, rfl, ?_, Or.inr hle⟩
      · intro j h1 h2; omega
      · intro j h1 h2; omega
    · obtain ⟨n1, io1, he, hl, hn1, hn2, hlow, hmid, hhigh, hstay, hst, hbig, hstop⟩ :=
        ih (nrmax - 1) ⟨io.len, Function.update io.get nrmax (io.get (nrmax - 1))⟩ (by omega)
          (by simp; omega) (by
            intro j h2 h3
            simp only [Function.update_apply]
            rw [if_neg (by omega)]
            exact hin j h2 (by omega))
      refine ⟨n1, io1, he, hl, hn1, by omega, ?_, ?_, ?_, ?_, ?_, ?_, ?_⟩
      · intro j hj
        rw [hlow j hj]; simp only [Function.update_apply]; rw [if_neg (by omega)]
      · intro j h2 h3
        rcases eq_or_lt_of_le h3 with rfl | h4
        · rw [hhigh j (by omega)]; simp [Function.update_apply]
        · rw [hmid j h2 (by omega)]; simp only [Function.update_apply]; rw [if_neg (by omega)]
      · intro j h2
        rw [hhigh j (by omega)]; simp only [Function.update_apply]; rw [if_neg (by omega)]
      · intro h2; omega
      · rw [hst]; simp only [Function.update_apply]; rw [if_neg (by omega)]
      · intro j h2 h3
        rcases eq_or_lt_of_le (show j ≤ nrmax - 1 by omega) with rfl | h4
        · exact not_le.mp hle
        · have := hbig j h2 h4
          simp only [Function.update_apply] at this
          rwa [if_neg (by omega)] at this
      · rcases hstop with h2 | h2
        · exact Or.inl h2
        · right
          simp only [Function.update_apply] at h2
          rwa [if_neg (by omega)] at h2

/-- What the top-down loop does. -/
theorem sift_spec (elist : Buf α) (errmax : α) (cnt i : ℕ) (io : Buf ℕ) (hi : 1 ≤ i)
    (hlen : i + cnt ≤ io.len) (hin : ∀ j, i ≤ j → j < i + cnt → io.get j < elist.len) :
    ∃ r io1, sift elist errmax cnt i io = some (r, io1) ∧ io1.len = io.len ∧
      (r = none → (∀ j, i ≤ j → j < i + cnt → errmax < elist.get (io.get j) ∧
          io1.get (j - 1) = io.get j) ∧ (∀ j, j < i - 1 → io1.get j = io.get j) ∧
          (∀ j, i + cnt ≤ j + 1 → io1.get j = io.get j)) ∧
      (∀ t, r = some t → i ≤ t ∧ t < i + cnt ∧ elist.get (io.get t) ≤ errmax ∧
        (∀ j, i ≤ j → j < t → errmax < elist.get (io.get j) ∧ io1.get (j - 1) = io.get j) ∧
        (∀ j, j < i - 1 → io1.get j = io.get j) ∧ (∀ j, t ≤ j + 1 → io1.get j = io.get j)) := by
  induction cnt generalizing i io with
  | zero =>
    refine ⟨none, io, rfl, rfl, ?_, by simp⟩
    intro _
    refine ⟨?_, fun _ _ => rfl, fun _ _ => rfl⟩
    intro j h1 h2; omega
  | succ cnt ih =>
    have h1 : io.get i < elist.len := hin i (le_refl _) (by omega)
    simp only [sift, csub_of_le hi, Option.bind_eq_bind, Option.bind_some,
      Buf.rd_of_lt (show i < io.len by omega), Buf.rd_of_lt h1,
      Buf.wr_of_lt (show i - 1 < io.len by omega)]
    split_ifs with hle
    · refine ⟨some i, io, rfl, rfl, by simp, ?_⟩
      intro t ht
      simp only [Option.some.injEq] at ht
      subst ht
      refine ⟨le_refl _, by omega, hle, ?_, fun _ _ => rfl, fun _ _ => rfl⟩
      intro j h2 h3; omega
    · have hup : ∀ j, j ≠ i - 1 → (Function.update io.get (i - 1) (io.get i)) j = io.get j := by
        intro j hj; simp [Function.update_apply, hj]
      obtain ⟨r, io1, he, hl, hnone, hsome⟩ :=
        ih (i + 1) ⟨io.len, Function.update io.get (i - 1) (io.get i)⟩ (by omega) (by simp; omega) (by
            intro j h2 h3
            simp only
            rw [hup j (by omega)]
            exact hin j (by omega) (by omega))
      have hfirst : (Function.update io.get (i - 1) (io.get i)) (i - 1) = io.get i := by simp
      refine ⟨r, io1, he, hl, ?_, ?_⟩
      · intro hr
        obtain ⟨ha, hb, hd⟩ := hnone hr
        refine ⟨?_, ?_, ?_⟩
        · intro j h2 h3
          rcases eq_or_lt_of_le h2 with rfl | h4
          · refine ⟨not_le.mp hle, ?_⟩
            rw [hb (i - 1) (by omega)]
            exact hfirst
          · have := ha j (by omega) (by omega)
            simp only [hup j (by omega)] at this
            exact this
        · intro j hj
          rw [hb j (by omega)]
          exact hup j (by omega)
        · intro j hj
          rw [hd j (by omega)]
          exact hup j (by omega)
      · intro t ht
        obtain ⟨ht1, ht2, ht3, ha, hb, hd⟩ := hsome t ht
        simp only [hup t (by omega)] at ht3
        refine ⟨by omega, by omega, ht3, ?_, ?_, ?_⟩
        · intro j h2 h3
          rcases eq_or_lt_of_le h2 with rfl | h4
          · refine ⟨not_le.mp hle, ?_⟩
            rw [hb (i - 1) (by omega)]
            exact hfirst
          · have := ha j (by omega) (by omega)
            simp only [hup j (by omega)] at this
            exact this
        · intro j hj
          rw [hb j (by omega)]
          exact hup j (by omega)
        · intro j hj
          rw [hd j (by omega)]
          exact hup j (by omega)

/-- What the bottom-up loop does, together with the write that follows it when the loop ran through. -/
theorem place_spec (elist : Buf α) (errmin : α) (last cnt k : ℕ) (io : Buf ℕ) (hcnt : cnt ≤ k)
    (hlen : k + 1 < io.len) (hin : ∀ j, k < j + cnt → j ≤ k → io.get j < elist.len) :
    ∃ p io2 s, place elist errmin last cnt k io = some p ∧
      (if p.1 then some p.2 else p.2.wr (k + 1 - cnt) last) = some io2 ∧ io2.len = io.len ∧
      k + 1 ≤ s + cnt ∧ s ≤ k + 1 ∧ io2.get s = last ∧
      (∀ j, s ≤ j → j ≤ k → elist.get (io.get j) ≤ errmin ∧ io2.get (j + 1) = io.get j) ∧
      (∀ j, j < s → io2.get j = io.get j) ∧ (∀ j, k + 1 < j → io2.get j = io.get j) ∧
      (s + cnt = k + 1 ∨ errmin < elist.get (io.get (s - 1))) := by
  induction cnt generalizing k io with
  | zero =>
    refine ⟨(false, io), ⟨io.len, Function.update io.get (k + 1) last⟩, k + 1, rfl, ?_, rfl, by omega,
      by omega, by simp, ?_, ?_, ?_, Or.inl (by omega)⟩
    · simp [Buf.wr_of_lt hlen]
    · intro j h1 h2; omega
    · intro j h1; simp [Function.update_apply, show j ≠ k + 1 by omega]
    · intro j h1; simp [Function.update_apply, show j ≠ k + 1 by omega]
  | succ cnt ih =>
    have h1 : io.get k < elist.len := hin k (by omega) (le_refl _)
    simp only [place, Option.bind_eq_bind, Option.bind_some, Buf.rd_of_lt (show k < io.len by omega),
      Buf.rd_of_lt h1, Buf.wr_of_lt hlen, csub_of_le (show 1 ≤ k by omega)]
    split_ifs with hlt
    · refine ⟨_, ⟨io.len, Function.update io.get (k + 1) last⟩, k + 1, rfl, by simp, rfl, by omega,
        by omega, by simp, ?_, ?_, ?_, Or.inr (by simpa using hlt)⟩
      · intro j h1 h2; omega
      · intro j h1; simp [Function.update_apply, show j ≠ k + 1 by omega]
      · intro j h1; simp [Function.update_apply, show j ≠ k + 1 by omega]
    · have hup : ∀ j, j ≠ k + 1 → (Function.update io.get (k + 1) (io.get k)) j = io.get j := by
        intro j hj; simp [Function.update_apply, hj]
      obtain ⟨p, io2, s, he, hw, hl, hs1, hs2, hs, ha, hb, hd, hstop⟩ :=
        ih (k - 1) ⟨io.len, Function.update io.get (k + 1) (io.get k)⟩ (by omega) (by simp; omega) (by
          intro j h2 h3
          simp only
          rw [hup j (by omega)]
          exact hin j (by omega) (by omega))
      rw [show k - 1 + 1 - cnt = k + 1 - (cnt + 1) by omega] at hw
      refine ⟨p, io2, s, he, hw, hl, by omega, by omega, hs, ?_, ?_, ?_, ?_⟩
      · intro j h2 h3
        rcases eq_or_lt_of_le h3 with rfl | h4
        · refine ⟨not_lt.mp hlt, ?_⟩
          rw [hd (j + 1) (by omega)]
          simp [Function.update_apply]
        · have := ha j h2 (by omega)
          simp only [hup j (by omega)] at this
          exact this
      · intro j hj
        rw [hb j hj]
        exact hup j (by omega)
      · intro j hj
        rw [hd j (by omega)]
        exact hup j (by omega)
      · rcases hstop with h2 | h2
        · exact Or.inl (by omega)
        · right
          simp only [hup (s - 1) (by omega)] at h2
          exact h2

/-! ## Properties of a list of indices -/

/-- `io[1..J]` lists distinct panels among `1..N` by non-increasing error. -/
structure Listed (e : ℕ → α) (io : ℕ → ℕ) (J N : ℕ) : Prop where
  range : ∀ j, 1 ≤ j → j ≤ J → 1 ≤ io j ∧ io j ≤ N
  inj : ∀ i j, 1 ≤ i → i < j → j ≤ J → io i ≠ io j
  sorted : ∀ i j, 1 ≤ i → i ≤ j → j ≤ J → e (io j) ≤ e (io i)

/-- No panel outside `io[1..K]` has a larger error than one inside. -/
def Top (e : ℕ → α) (io : ℕ → ℕ) (K N : ℕ) : Prop :=
  ∀ q, 1 ≤ q → q ≤ N → (∀ i, 1 ≤ i → i ≤ K → io i ≠ q) → ∀ i, 1 ≤ i → i ≤ K → e q ≤ e (io i)

/-- The list after the climb, with the bisected panel put at its position `n1`. -/
structure Climbed (e : ℕ → α) (L : ℕ → ℕ) (J0 K0 N n1 m : ℕ) : Prop where
  pos : 1 ≤ n1 ∧ n1 ≤ J0 ∧ L n1 = m
  range : ∀ j, 1 ≤ j → j ≤ J0 → 1 ≤ L j ∧ L j ≤ N
  inj : ∀ i j, 1 ≤ i → i < j → j ≤ J0 → L i ≠ L j
  sorted : ∀ i j, 1 ≤ i → i ≤ j → j ≤ J0 → i ≠ n1 → j ≠ n1 → e (L j) ≤ e (L i)
  above : ∀ i, 1 ≤ i → i < n1 → e m ≤ e (L i)
  top : ∀ q, 1 ≤ q → q ≤ N → q ≠ m → (∀ i, 1 ≤ i → i ≤ K0 → L i ≠ q) →
    ∀ i, 1 ≤ i → i ≤ K0 → i ≠ n1 → e q ≤ e (L i)

/-- The climb turns a listed state whose entry `nrmax` is the bisected panel into a climbed one. -/
theorem climbed_of_listed (e0 e : ℕ → α) (io : ℕ → ℕ) (J0 K0 N nrmax m : ℕ)
    (hL : Listed e0 io J0 N) (hT : Top e0 io K0 N) (hK : K0 ≤ J0) (hn : 1 ≤ nrmax ∧ nrmax ≤ J0)
    (hm : io nrmax = m) (he : ∀ q, 1 ≤ q → q ≤ N → q ≠ m → e q = e0 q)
    (n1 : ℕ) (L : ℕ → ℕ) (hn1 : 1 ≤ n1 ∧ n1 ≤ nrmax) (hlow : ∀ j, j < n1 → L j = io j)
    (hmid : ∀ j, n1 < j → j ≤ nrmax → L j = io (j - 1)) (hhigh : ∀ j, nrmax < j → L j = io j)
    (hat : L n1 = m) (hstop : n1 = 1 ∨ e m ≤ e (io (n1 - 1))) :
    Climbed e L J0 K0 N n1 m := by
  have hne : ∀ j, 1 ≤ j → j ≤ J0 → j ≠ nrmax → io j ≠ m := by
    intro j h1 h2 h3 h4
    rcases lt_or_gt_of_ne h3 with h | h
    · exact hL.inj j nrmax h1 h hn.2 (h4.trans hm.symm)
    · exact hL.inj nrmax j hn.1 h h2 (hm.trans h4.symm)
  -- position of the entry `L j` in the old list
  have hidx : ∀ j, 1 ≤ j → j ≤ J0 → j ≠ n1 → ∃ k, 1 ≤ k ∧ k ≤ J0 ∧ k ≠ nrmax ∧ L j = io k ∧
      ((j < n1 ∧ k = j) ∨ (n1 < j ∧ j ≤ nrmax ∧ k = j - 1) ∨ (nrmax < j ∧ k = j)) := by
    intro j h1 h2 h3
    rcases lt_or_gt_of_ne h3 with h | h
    · exact ⟨j, h1, h2, by omega, hlow j h, Or.inl ⟨h, rfl⟩⟩
    · rcases le_or_gt j nrmax with h4 | h4
      · exact ⟨j - 1, by omega, by omega, by omega, hmid j h h4, Or.inr (Or.inl ⟨h, h4, rfl⟩)⟩
      · exact ⟨j, h1, h2, by omega, hhigh j h4, Or.inr (Or.inr ⟨h4, rfl⟩)⟩
  have heq : ∀ k, 1 ≤ k → k ≤ J0 → k ≠ nrmax → e (io k) = e0 (io k) := by
    intro k h1 h2 h3
    exact he _ (hL.range k h1 h2).1 (hL.range k h1 h2).2 (hne k h1 h2 h3)
  refine ⟨⟨hn1.1, by omega, hat⟩, ?_, ?_, ?_, ?_, ?_⟩
  · intro j h1 h2
    by_cases h3 : j = n1
    · rw [h3, hat, ← hm]; exact hL.range nrmax hn.1 hn.2
    · obtain ⟨k, hk1, hk2, _, hk, _⟩ := hidx j h1 h2 h3
      rw [hk]; exact hL.range k hk1 hk2
  · intro i j h1 h2 h3 h4
    by_cases hi : i = n1
    · obtain ⟨k, hk1, hk2, hk3, hk, _⟩ := hidx j (by omega) h3 (by omega)
      rw [hi, hat, hk] at h4
      exact hne k hk1 hk2 hk3 h4.symm
    · obtain ⟨k, hk1, hk2, hk3, hk, hkc⟩ := hidx i h1 (by omega) hi
      by_cases hj : j = n1
      · rw [hj, hat, hk] at h4
        exact hne k hk1 hk2 hk3 h4
      · obtain ⟨k', hk1', hk2', hk3', hk', hkc'⟩ := hidx j (by omega) h3 hj
        rw [hk, hk'] at h4
        exact hL.inj k k' hk1 (by omega) hk2' h4
  · intro i j h1 h2 h3 hi hj
    obtain ⟨k, hk1, hk2, hk3, hk, hkc⟩ := hidx i h1 (by omega) hi
    obtain ⟨k', hk1', hk2', hk3', hk', hkc'⟩ := hidx j (by omega) h3 hj
    rw [hk, hk', heq k hk1 hk2 hk3, heq k' hk1' hk2' hk3']
    exact hL.sorted k k' hk1 (by omega) hk2'
  · intro i h1 h2
    rcases hstop with h3 | h3
    · omega
    · refine h3.trans ?_
      rw [hlow i h2, heq i h1 (by omega) (by omega), heq (n1 - 1) (by omega) (by omega) (by omega)]
      exact hL.sorted i (n1 - 1) h1 (by omega) (by omega)
  · intro q h1 h2 h3 h4 i h5 h6 h7
    obtain ⟨k, hk1, hk2, hk3, hk, hkc⟩ := hidx i h5 (by omega) h7
    rw [hk, heq k hk1 hk2 hk3, he q h1 h2 h3]
    by_cases hq : ∃ k', 1 ≤ k' ∧ k' ≤ K0 ∧ io k' = q
    · -- then q left the first K0 entries because the climb pushed it down
      obtain ⟨k', hk1', hk2', rfl⟩ := hq
      by_cases hk' : k' < n1
      · exact absurd (hlow k' hk') (h4 k' hk1' hk2')
      · by_cases hk'' : nrmax ≤ k'
        · rcases eq_or_lt_of_le hk'' with rfl | h8
          · exact absurd hm h3
          · exact absurd (hhigh k' h8) (h4 k' hk1' hk2')
        · by_cases hK : k' + 1 ≤ K0
          · exact absurd (by rw [hmid (k' + 1) (by omega) (by omega)]; simp) (h4 (k' + 1) (by omega) hK)
          · exact hL.sorted k k' hk1 (by omega) (by omega)
    · push Not at hq
      exact hT q h1 h2 (fun i h8 h9 => hq i h8 h9) k hk1 (by omega)

/-- Neighbours in order give order. -/
theorem sorted_of_step (e : ℕ → α) (io : ℕ → ℕ) (J : ℕ)
    (h : ∀ j, 1 ≤ j → j + 1 ≤ J → e (io (j + 1)) ≤ e (io j)) :
    ∀ i j, 1 ≤ i → i ≤ j → j ≤ J → e (io j) ≤ e (io i) := by
  intro i j hi hij hj
  induction j, hij using Nat.le_induction with
  | base => exact le_refl _
  | succ j hij ih => exact (h j (by omega) hj).trans (ih (by omega))

/-- The list when `errmax` was not placed: `errmax` and `errmin` go to the bottom. -/
theorem listed_bottom (e : ℕ → α) (L N : ℕ → ℕ) (J0 K0 K1 last n1 m jb : ℕ)
    (hC : Climbed e L J0 K0 (last - 1) n1 m) (hlast : 2 ≤ last) (hjb : 1 ≤ jb) (hjJ : jb ≤ J0)
    (hK : K1 + 1 ≤ jb) (hK' : K1 + 1 ≤ K0) (hK0 : K0 ≤ J0) (hmin : e last ≤ e m)
    (hsift : ∀ j, n1 < j → j ≤ jb → e m < e (L j))
    (hN : ∀ j, j < jb → N j = if j < n1 then L j else L (j + 1))
    (hNm : N jb = m) (hNl : N (jb + 1) = last) :
    Listed e N (jb + 1) last ∧ Top e N K1 last := by
  have hr := hC.range
  have hp1 := hC.pos.1
  have hidx : ∀ j, 1 ≤ j → j < jb → ∃ k, 1 ≤ k ∧ k ≤ jb ∧ k ≠ n1 ∧ N j = L k ∧
      ((j < n1 ∧ k = j) ∨ (n1 ≤ j ∧ k = j + 1)) := by
    intro j h1 h2
    rw [hN j h2]
    by_cases h : j < n1
    · exact ⟨j, h1, by omega, by omega, by rw [if_pos h], Or.inl ⟨h, rfl⟩⟩
    · exact ⟨j + 1, by omega, by omega, by omega, by rw [if_neg h], Or.inr ⟨by omega, rfl⟩⟩
  have hmle : ∀ k, 1 ≤ k → k ≤ jb → k ≠ n1 → e m ≤ e (L k) := by
    intro k h1 h2 h3
    rcases lt_or_gt_of_ne h3 with h | h
    · exact hC.above k h1 h
    · exact (hsift k h h2).le
  have hLm : ∀ k, 1 ≤ k → k ≤ J0 → k ≠ n1 → L k ≠ m := by
    intro k h1 h2 h3 h4
    rcases lt_or_gt_of_ne h3 with h | h
    · exact hC.inj k n1 h1 h hC.pos.2.1 (h4.trans hC.pos.2.2.symm)
    · exact hC.inj n1 k hC.pos.1 h h2 (hC.pos.2.2.trans h4.symm)
  have hml : m ≤ last - 1 := by rw [← hC.pos.2.2]; exact (hr n1 hC.pos.1 hC.pos.2.1).2
  have hm1 : 1 ≤ m := by rw [← hC.pos.2.2]; exact (hr n1 hC.pos.1 hC.pos.2.1).1
  have hsorted : ∀ i j, 1 ≤ i → i ≤ j → j ≤ jb + 1 → e (N j) ≤ e (N i) := by
    apply sorted_of_step
    intro j h1 h2
    rcases lt_trichotomy (j + 1) jb with h | h | h
    · obtain ⟨k, hk1, hk2, hk3, hk, hkc⟩ := hidx j h1 (by omega)
      obtain ⟨k', hk1', hk2', hk3', hk', hkc'⟩ := hidx (j + 1) (by omega) h
      rw [hk, hk']
      exact hC.sorted k k' hk1 (by omega) (by omega) hk3 hk3'
    · obtain ⟨k, hk1, hk2, hk3, hk, hkc⟩ := hidx j h1 (by omega)
      rw [h, hNm, hk]
      exact hmle k hk1 hk2 hk3
    · have : j = jb := by omega
      rw [this, hNl, hNm]
      exact hmin
  refine ⟨⟨?_, ?_, hsorted⟩, ?_⟩
  · intro j h1 h2
    rcases lt_trichotomy j jb with h | h | h
    · obtain ⟨k, hk1, hk2, hk3, hk, _⟩ := hidx j h1 h
      rw [hk]
      have := hr k hk1 (by omega)
      exact ⟨this.1, by omega⟩
    · rw [h, hNm]; omega
    · rw [show j = jb + 1 by omega, hNl]; omega
  · intro i j h1 h2 h3 h4
    rcases lt_trichotomy j jb with h | h | h
    · obtain ⟨k, hk1, hk2, hk3, hk, hkc⟩ := hidx i h1 (by omega)
      obtain ⟨k', hk1', hk2', hk3', hk', hkc'⟩ := hidx j (by omega) h
      rw [hk, hk'] at h4
      exact hC.inj k k' hk1 (by omega) (by omega) h4
    · obtain ⟨k, hk1, hk2, hk3, hk, hkc⟩ := hidx i h1 (by omega)
      rw [h, hNm, hk] at h4
      exact hLm k hk1 (by omega) hk3 h4
    · have hj : j = jb + 1 := by omega
      rw [hj, hNl] at h4
      by_cases hi : i = jb
      · rw [hi, hNm] at h4; omega
      · obtain ⟨k, hk1, hk2, hk3, hk, hkc⟩ := hidx i h1 (by omega)
        rw [hk] at h4
        have := hr k hk1 (by omega)
        omega
  · intro q h1 h2 h3 i h4 h5
    obtain ⟨k, hk1, hk2, hk3, hk, hkc⟩ := hidx i h4 (by omega)
    by_cases hql : q = last
    · rw [hql, ← hNl]; exact hsorted i (jb + 1) h4 (by omega) (le_refl _)
    · by_cases hqm : q = m
      · rw [hqm, ← hNm]; exact hsorted i jb h4 (by omega) (by omega)
      · by_cases hin : ∃ k', 1 ≤ k' ∧ k' ≤ J0 ∧ L k' = q
        · obtain ⟨k', hk1', hk2', rfl⟩ := hin
          have hk'n : k' ≠ n1 := by rintro rfl; exact hqm hC.pos.2.2
          have hkk : k ≤ k' := by
            by_contra hlt
            rcases lt_or_gt_of_ne hk'n with h | h
            · exact h3 k' hk1' (by omega) (by rw [hN k' (by omega), if_pos h])
            · exact h3 (k' - 1) (by omega) (by omega) (by
                rw [hN (k' - 1) (by omega), if_neg (by omega), Nat.sub_add_cancel (by omega)])
          rw [hk]
          exact hC.sorted k k' hk1 hkk hk2' hk3 hk'n
        · push Not at hin
          rw [hk]
          exact hC.top q h1 (by omega) hqm (fun i h6 h7 => hin i h6 (by omega)) k hk1 (by omega) hk3

/-- The list when `errmax` was placed before entry `t` and `errmin` at position `s`. -/
theorem listed_insert (e : ℕ → α) (L N : ℕ → ℕ) (J0 K0 K1 last n1 m jb t s : ℕ)
    (hC : Climbed e L J0 K0 (last - 1) n1 m) (hlast : 2 ≤ last) (hjJ : jb ≤ J0)
    (hK : K1 + 1 ≤ jb) (hK' : K1 + 1 ≤ K0) (hK0 : K0 ≤ J0) (hmin : e last ≤ e m)
    (ht : n1 < t ∧ t ≤ jb) (hte : e (L t) ≤ e m) (hsift : ∀ j, n1 < j → j < t → e m < e (L j))
    (hs : t ≤ s ∧ s ≤ jb + 1) (hse : ∀ j, s ≤ j → j ≤ jb → e (L j) ≤ e last)
    (hss : s = t ∨ e last < e (L (s - 1)))
    (hN1 : ∀ j, j < n1 → N j = L j) (hN2 : ∀ j, n1 ≤ j → j < t - 1 → N j = L (j + 1))
    (hN3 : N (t - 1) = m) (hN4 : ∀ j, t ≤ j → j < s → N j = L j) (hN5 : N s = last)
    (hN6 : ∀ j, s < j → j ≤ jb + 1 → N j = L (j - 1)) :
    Listed e N (jb + 1) last ∧ Top e N K1 last := by
  have hr := hC.range
  have hp1 := hC.pos.1
  have hml : m ≤ last - 1 := by rw [← hC.pos.2.2]; exact (hr n1 hC.pos.1 hC.pos.2.1).2
  have hm1 : 1 ≤ m := by rw [← hC.pos.2.2]; exact (hr n1 hC.pos.1 hC.pos.2.1).1
  have hLm : ∀ k, 1 ≤ k → k ≤ J0 → k ≠ n1 → L k ≠ m := by
    intro k h1 h2 h3 h4
    rcases lt_or_gt_of_ne h3 with h | h
    · exact hC.inj k n1 h1 h hC.pos.2.1 (h4.trans hC.pos.2.2.symm)
    · exact hC.inj n1 k hC.pos.1 h h2 (hC.pos.2.2.trans h4.symm)
  have hidx : ∀ j, 1 ≤ j → j ≤ jb + 1 → j ≠ t - 1 → j ≠ s → ∃ k, 1 ≤ k ∧ k ≤ jb ∧ k ≠ n1 ∧ N j = L k ∧
      ((j < n1 ∧ k = j) ∨ (n1 ≤ j ∧ j < t - 1 ∧ k = j + 1) ∨ (t ≤ j ∧ j < s ∧ k = j) ∨
        (s < j ∧ k = j - 1)) := by
    intro j h1 h2 h3 h4
    by_cases h5 : j < n1
    · exact ⟨j, h1, by omega, by omega, hN1 j h5, Or.inl ⟨h5, rfl⟩⟩
    · by_cases h6 : j < t - 1
      · exact ⟨j + 1, by omega, by omega, by omega, hN2 j (by omega) h6,
          Or.inr (Or.inl ⟨by omega, h6, rfl⟩)⟩
      · by_cases h7 : j < s
        · exact ⟨j, h1, by omega, by omega, hN4 j (by omega) h7,
            Or.inr (Or.inr (Or.inl ⟨by omega, h7, rfl⟩))⟩
        · exact ⟨j - 1, by omega, by omega, by omega, hN6 j (by omega) h2,
            Or.inr (Or.inr (Or.inr ⟨by omega, rfl⟩))⟩
  have hbefore : ∀ k, 1 ≤ k → k < t → k ≠ n1 → e m ≤ e (L k) := by
    intro k h1 h2 h3
    rcases lt_or_gt_of_ne h3 with h | h
    · exact hC.above k h1 h
    · exact (hsift k h h2).le
  have hafter : ∀ k, t ≤ k → k ≤ J0 → e (L k) ≤ e m := by
    intro k h1 h2
    exact (hC.sorted t k (by omega) h1 h2 (by omega) (by omega)).trans hte
  have hsorted : ∀ i j, 1 ≤ i → i ≤ j → j ≤ jb + 1 → e (N j) ≤ e (N i) := by
    apply sorted_of_step
    intro j h1 h2
    by_cases hj1 : j = t - 1
    · by_cases hj2 : j + 1 = s
      · rw [hj2, hN5, hj1, hN3]; exact hmin
      · obtain ⟨k, hk1, hk2, hk3, hk, hkc⟩ := hidx (j + 1) (by omega) h2 (by omega) hj2
        rw [hk, hj1, hN3]
        exact hafter k (by omega) (by omega)
    · by_cases hj2 : j = s
      · obtain ⟨k, hk1, hk2, hk3, hk, hkc⟩ := hidx (j + 1) (by omega) h2 (by omega) (by omega)
        rw [hk, hj2, hN5]
        exact hse k (by omega) hk2
      · obtain ⟨k, hk1, hk2, hk3, hk, hkc⟩ := hidx j h1 (by omega) hj1 hj2
        by_cases hj3 : j + 1 = t - 1
        · rw [hj3, hN3, hk]
          exact hbefore k hk1 (by omega) hk3
        · by_cases hj4 : j + 1 = s
          · rw [hj4, hN5, hk]
            rcases hss with h | h
            · omega
            · rw [show k = s - 1 by omega]; exact h.le
          · obtain ⟨k', hk1', hk2', hk3', hk', hkc'⟩ := hidx (j + 1) (by omega) h2 hj3 hj4
            rw [hk, hk']
            exact hC.sorted k k' hk1 (by omega) (by omega) hk3 hk3'
  refine ⟨⟨?_, ?_, hsorted⟩, ?_⟩
  · intro j h1 h2
    by_cases hj1 : j = t - 1
    · rw [hj1, hN3]; omega
    · by_cases hj2 : j = s
      · rw [hj2, hN5]; omega
      · obtain ⟨k, hk1, hk2, hk3, hk, hkc⟩ := hidx j h1 h2 hj1 hj2
        rw [hk]
        have := hr k hk1 (by omega)
        omega
  · intro i j h1 h2 h3 h4
    have hlastne : ∀ i, 1 ≤ i → i ≤ jb + 1 → i ≠ s → N i ≠ last := by
      intro i hi1 hi2 hi3 hi4
      by_cases hi5 : i = t - 1
      · rw [hi5, hN3] at hi4; omega
      · obtain ⟨k, hk1, hk2, hk3, hk, hkc⟩ := hidx i hi1 hi2 hi5 hi3
        rw [hk] at hi4
        have := hr k hk1 (by omega)
        omega
    by_cases hj2 : j = s
    · rw [hj2, hN5] at h4; exact hlastne i h1 (by omega) (by omega) h4
    · by_cases hi2 : i = s
      · rw [hi2, hN5] at h4; exact hlastne j (by omega) h3 hj2 h4.symm
      · by_cases hj1 : j = t - 1
        · obtain ⟨k, hk1, hk2, hk3, hk, hkc⟩ := hidx i h1 (by omega) (by omega) hi2
          rw [hj1, hN3, hk] at h4
          exact hLm k hk1 (by omega) hk3 h4
        · obtain ⟨k', hk1', hk2', hk3', hk', hkc'⟩ := hidx j (by omega) h3 hj1 hj2
          by_cases hi1 : i = t - 1
          · rw [hi1, hN3, hk'] at h4
            exact hLm k' hk1' (by omega) hk3' h4.symm
          · obtain ⟨k, hk1, hk2, hk3, hk, hkc⟩ := hidx i h1 (by omega) hi1 hi2
            rw [hk, hk'] at h4
            exact hC.inj k k' hk1 (by omega) (by omega) h4
  · intro q h1 h2 h3 i h4 h5
    by_cases hql : q = last
    · have : K1 < s := by
        by_contra hlt
        exact h3 s (by omega) (by omega) (by rw [hN5, hql])
      rw [hql, ← hN5]; exact hsorted i s h4 (by omega) hs.2
    · by_cases hqm : q = m
      · have : K1 < t - 1 := by
          by_contra hlt
          exact h3 (t - 1) (by omega) (by omega) (by rw [hN3, hqm])
        rw [hqm, ← hN3]; exact hsorted i (t - 1) h4 (by omega) (by omega)
      · -- an entry of the old list at or below the place of `N i`, within the first `K0`
        have hlow : ∃ k, 1 ≤ k ∧ k ≤ K1 + 1 ∧ k ≠ n1 ∧ e (L k) ≤ e (N i) ∧
            (∀ k', 1 ≤ k' → k' < k → k' ≠ n1 → ∃ j, 1 ≤ j ∧ j ≤ K1 ∧ N j = L k') := by
          by_cases hi1 : i = t - 1
          · refine ⟨t, by omega, by omega, by omega, by rw [hi1, hN3]; exact hte, ?_⟩
            intro k' hk1 hk2 hk3
            rcases lt_or_gt_of_ne hk3 with h | h
            · exact ⟨k', hk1, by omega, hN1 k' h⟩
            · exact ⟨k' - 1, by omega, by omega, by
                rw [hN2 (k' - 1) (by omega) (by omega), Nat.sub_add_cancel (by omega)]⟩
          · by_cases hi2 : i = s
            · refine ⟨s, by omega, by omega, by omega, by rw [hi2, hN5]; exact hse s (le_refl _) (by omega), ?_⟩
              intro k' hk1 hk2 hk3
              rcases lt_or_gt_of_ne hk3 with h | h
              · exact ⟨k', hk1, by omega, hN1 k' h⟩
              · by_cases hk4 : k' < t
                · exact ⟨k' - 1, by omega, by omega, by
                    rw [hN2 (k' - 1) (by omega) (by omega), Nat.sub_add_cancel (by omega)]⟩
                · exact ⟨k', hk1, by omega, hN4 k' (by omega) (by omega)⟩
            · obtain ⟨k, hk1, hk2, hk3, hk, hkc⟩ := hidx i h4 (by omega) hi1 hi2
              refine ⟨k, hk1, by omega, hk3, by rw [hk], ?_⟩
              intro k' hk1' hk2' hk3'
              rcases lt_or_gt_of_ne hk3' with h | h
              · exact ⟨k', hk1', by omega, hN1 k' h⟩
              · by_cases hk4 : k' < t
                · exact ⟨k' - 1, by omega, by omega, by
                    rw [hN2 (k' - 1) (by omega) (by omega), Nat.sub_add_cancel (by omega)]⟩
                · by_cases hk5 : k' < s
                  · exact ⟨k', hk1', by omega, hN4 k' (by omega) hk5⟩
                  · exact ⟨k' + 1, by omega, by omega, by
                      rw [hN6 (k' + 1) (by omega) (by omega)]; simp⟩
        obtain ⟨k, hk1, hk2, hk3, hke, hkb⟩ := hlow
        refine le_trans ?_ hke
        by_cases hin : ∃ k', 1 ≤ k' ∧ k' ≤ J0 ∧ L k' = q
        · obtain ⟨k', hk1', hk2', rfl⟩ := hin
          have hk'n : k' ≠ n1 := by rintro rfl; exact hqm hC.pos.2.2
          have hkk : k ≤ k' := by
            by_contra hlt
            obtain ⟨j, hj1, hj2, hj3⟩ := hkb k' hk1' (by omega) hk'n
            exact h3 j hj1 hj2 hj3
          exact hC.sorted k k' hk1 hkk hk2' hk3 hk'n
        · push Not at hin
          exact hC.top q h1 (by omega) hqm (fun i h6 h7 => hin i h6 (by omega)) k hk1 (by omega) hk3

/-- When as many panels are listed as there are, every panel is listed. -/
theorem Listed.surj {e : ℕ → α} {io : ℕ → ℕ} {N : ℕ} (h : Listed e io N N) (q : ℕ) (h1 : 1 ≤ q)
    (h2 : q ≤ N) : ∃ i, 1 ≤ i ∧ i ≤ N ∧ io i = q := by
  have hinj : Set.InjOn io (Finset.Icc 1 N : Finset ℕ) := by
    intro i hi j hj hij
    simp only [Finset.coe_Icc, Set.mem_Icc] at hi hj
    by_contra hne
    rcases lt_or_gt_of_ne hne with hl | hl
    · exact h.inj i j hi.1 hl hj.2 hij
    · exact h.inj j i hj.1 hl hi.2 hij.symm
  have hmap : Set.MapsTo io (Finset.Icc 1 N : Finset ℕ) (Finset.Icc 1 N : Finset ℕ) := by
    intro i hi
    simp only [Finset.coe_Icc, Set.mem_Icc] at hi ⊢
    exact h.range i hi.1 hi.2
  have hsurj := Finset.surjOn_of_injOn_of_card_le io hmap hinj (le_refl _)
  obtain ⟨i, hi, hiq⟩ := hsurj (show q ∈ ((Finset.Icc 1 N : Finset ℕ) : Set ℕ) by simp [h1, h2])
  simp only [Finset.coe_Icc, Set.mem_Icc] at hi
  exact ⟨i, hi.1, hi.2, hiq⟩

theorem Listed.top_full {e : ℕ → α} {io : ℕ → ℕ} {N : ℕ} (h : Listed e io N N) : Top e io N N := by
  intro q h1 h2 h3
  obtain ⟨i, hi1, hi2, hi3⟩ := h.surj q h1 h2
  exact absurd hi3 (h3 i hi1 hi2)

theorem Top.mono {e : ℕ → α} {io : ℕ → ℕ} {J K K' N : ℕ} (h : Top e io K N) (hL : Listed e io J N)
    (hK : K' ≤ K) (hJ : K ≤ J) : Top e io K' N := by
  intro q h1 h2 h3 i h4 h5
  by_cases hin : ∃ k, 1 ≤ k ∧ k ≤ K ∧ io k = q
  · obtain ⟨k, hk1, hk2, rfl⟩ := hin
    have : K' < k := by
      by_contra hlt
      exact h3 k hk1 (by omega) rfl
    exact hL.sorted i k h4 (by omega) (by omega)
  · push Not at hin
    exact h q h1 h2 hin i h4 (by omega)

/-- `qpsrt` from the third panel on: it does not panic, keeps the list in order and selects an entry. -/
theorem qpsrt_spec (limit last m : ℕ) (elist : Buf α) (io : Buf ℕ) (nrmax : ℕ) (e0 : ℕ → α)
    (J0 J1 K0 K1 : ℕ) (hlast : 3 ≤ last) (hjup : jupbn limit last = some J1)
    (hL : Listed e0 io.get J0 (last - 1)) (hT : Top e0 io.get K0 (last - 1)) (hK0 : K0 ≤ J0)
    (hn : 1 ≤ nrmax ∧ nrmax ≤ J0) (hm : io.get nrmax = m)
    (he : ∀ q, 1 ≤ q → q ≤ last - 1 → q ≠ m → elist.get q = e0 q)
    (hmin : elist.get last ≤ elist.get m) (hJ1 : 2 ≤ J1) (hJ : J1 ≤ J0 + 1)
    (hK1 : K1 + 2 ≤ J1) (hK1' : K1 + 1 ≤ K0) (hlen : J0 + 1 < io.len) (hlene : last < elist.len) :
    ∃ q, qpsrt limit last m elist io nrmax = some q ∧ q.iord.len = io.len ∧
      Listed elist.get q.iord.get J1 last ∧ Top elist.get q.iord.get K1 last ∧
      1 ≤ q.nrmax ∧ q.nrmax ≤ nrmax ∧ q.maxerr = q.iord.get q.nrmax ∧
      1 ≤ q.maxerr ∧ q.maxerr ≤ last ∧ q.errmax = elist.get q.maxerr := by
  have hrng := hL.range
  have hm' := hrng nrmax hn.1 hn.2
  rw [hm] at hm'
  obtain ⟨n1, io1, hcl, hlen1, hn1, hn2, hlow, hmid, hhigh, -, hst, hbig, hstop⟩ :=
    climb_spec elist (elist.get m) (nrmax - 1) nrmax io (by omega) (by omega) (by
      intro j h1 h2; have := hrng j h1 (by omega); omega)
  have hC : Climbed elist.get (Function.update io1.get n1 m) J0 K0 (last - 1) n1 m := by
    refine climbed_of_listed e0 elist.get io.get J0 K0 (last - 1) nrmax m hL hT hK0 hn hm he n1 _
      ⟨hn1, hn2⟩ ?_ ?_ ?_ (by simp) hstop
    · intro j hj; simp only [Function.update_apply]; rw [if_neg (by omega)]; exact hlow j hj
    · intro j h1 h2; simp only [Function.update_apply]; rw [if_neg (by omega)]; exact hmid j h1 h2
    · intro j h1; simp only [Function.update_apply]; rw [if_neg (by omega)]; exact hhigh j h1
  have hLL : ∀ j, j ≠ n1 → Function.update io1.get n1 m j = io1.get j := by
    intro j hj; simp [Function.update_apply, hj]
  have hrange1 : ∀ j, 1 ≤ j → j ≤ J0 → j ≠ n1 → 1 ≤ io1.get j ∧ io1.get j ≤ last - 1 := by
    intro j h1 h2 h3
    have := hC.range j h1 h2
    rwa [hLL j h3] at this
  obtain ⟨r, io2, hsi, hlen2, hnone, hsome⟩ :=
    sift_spec elist (elist.get m) (J1 - 1 + 1 - (n1 + 1)) (n1 + 1) io1 (by omega) (by omega) (by
      intro j h1 h2; have := hrange1 j (by omega) (by omega) (by omega); omega)
  have hqn : r = none → qpsrt limit last m elist io nrmax =
      (io2.wr (J1 - 1) m).bind fun iord => (iord.wr J1 last).bind fun iord =>
            psrtPick elist iord n1 := by
    intro hr
    simp only [qpsrt, show ¬ last ≤ 2 by omega, if_false, Buf.rd_of_lt (show m < elist.len by omega),
      csub_of_le hn.1, Option.bind_eq_bind, Option.bind_some, hcl, hjup, Buf.rd_of_lt hlene,
      csub_of_le (show 1 ≤ J1 by omega), hsi, hr]
  have hqs : ∀ i, r = some i → qpsrt limit last m elist io nrmax =
      (csub i 1).bind fun im1 => (io2.wr im1 m).bind fun iord =>
            (place elist (elist.get last) last (J1 - 1 + 1 - i) (J1 - 1) iord).bind fun p =>
              (if p.1 then some p.2 else p.2.wr i last).bind fun iord => psrtPick elist iord n1 := by
    intro i hr
    simp only [qpsrt, show ¬ last ≤ 2 by omega, if_false, Buf.rd_of_lt (show m < elist.len by omega),
      csub_of_le hn.1, Option.bind_eq_bind, Option.bind_some, hcl, hjup, Buf.rd_of_lt hlene,
      csub_of_le (show 1 ≤ J1 by omega), hsi, hr]
    congr 1; funext im1; congr 1; funext iord; congr 1; funext p
    split_ifs <;> rfl
  have pick : ∀ iord : Buf ℕ, iord.len = io.len → (1 ≤ iord.get n1 ∧ iord.get n1 ≤ last) →
      psrtPick elist iord n1 = some ⟨iord.get n1, elist.get (iord.get n1), iord, n1⟩ := by
    intro iord h1 h2
    simp [psrtPick, Buf.rd_of_lt (show n1 < iord.len by omega),
      Buf.rd_of_lt (show iord.get n1 < elist.len by omega)]
  cases r with
  | none =>
    obtain ⟨ha, hb, hd⟩ := hnone rfl
    obtain ⟨N, hNdef⟩ : ∃ N : Buf ℕ, N = ⟨io2.len, Function.update (Function.update io2.get (J1 - 1) m)
      J1 last⟩ := ⟨_, rfl⟩
    have hNget : ∀ j, j ≠ J1 → j ≠ J1 - 1 → N.get j = io2.get j := by
      intro j h1 h2; simp [hNdef, Function.update_apply, h1, h2]
    have hw : (io2.wr (J1 - 1) m).bind (fun iord => (iord.wr J1 last).bind fun iord =>
        psrtPick elist iord n1) = psrtPick elist N n1 := by
      rw [Buf.wr_of_lt (by omega), Option.bind_some, Buf.wr_of_lt (by simp; omega), Option.bind_some,
        hNdef]
    obtain ⟨hLi, hTo⟩ := listed_bottom elist.get (Function.update io1.get n1 m) N.get J0 K0 K1 last n1 m
      (J1 - 1) hC (by omega) (by omega) (by omega) (by omega) hK1' hK0 hmin
      (by intro j h1 h2; rw [hLL j (by omega)]; exact (ha j (by omega) (by omega)).1)
      (by
        intro j hj
        rw [hNget j (by omega) (by omega)]
        split_ifs with hlt
        · rw [hLL j (by omega)]; exact hb j (by omega)
        · rw [hLL (j + 1) (by omega)]
          have := (ha (j + 1) (by omega) (by omega)).2
          simpa using this)
      (by simp [hNdef, Function.update_apply, show J1 - 1 ≠ J1 by omega])
      (by rw [show J1 - 1 + 1 = J1 by omega]; simp [hNdef])
    rw [show J1 - 1 + 1 = J1 by omega] at hLi
    have hpick : 1 ≤ N.get n1 ∧ N.get n1 ≤ last := by
      by_cases h : n1 ≤ J1
      · exact hLi.range n1 hn1 h
      · rw [hNget n1 (by omega) (by omega), hd n1 (by omega), hst]
        have := hrng n1 hn1 (by omega)
        omega
    refine ⟨⟨N.get n1, elist.get (N.get n1), N, n1⟩, ?_, ?_, hLi, hTo, hn1, hn2, rfl, hpick.1, hpick.2, rfl⟩
    · rw [hqn rfl, hw, pick N (by simp [hNdef]; omega) hpick]
    · simp [hNdef]; omega
  | some t =>
    obtain ⟨ht1, ht2, ht3, ha, hb, hd⟩ := hsome t rfl
    obtain ⟨io3, hio3⟩ : ∃ io3 : Buf ℕ, io3 = ⟨io2.len, Function.update io2.get (t - 1) m⟩ := ⟨_, rfl⟩
    have h3get : ∀ j, j ≠ t - 1 → io3.get j = io2.get j := by
      intro j h1; simp [hio3, Function.update_apply, h1]
    have h3t : ∀ j, t ≤ j → io3.get j = io1.get j := by
      intro j h1; rw [h3get j (by omega), hd j (by omega)]
    obtain ⟨p, N, s, hp, hw, hlenN, hs1, hs2, hNs, hpa, hpb, hpd, hpstop⟩ :=
      place_spec elist (elist.get last) last (J1 - 1 + 1 - t) (J1 - 1) io3 (by omega)
        (by simp [hio3]; omega) (by
          intro j h1 h2
          rw [h3t j (by omega)]
          have := hrange1 j (by omega) (by omega) (by omega)
          omega)
    rw [show J1 - 1 + 1 - (J1 - 1 + 1 - t) = t by omega] at hw
    obtain ⟨hLi, hTo⟩ := listed_insert elist.get (Function.update io1.get n1 m) N.get J0 K0 K1 last n1 m
      (J1 - 1) t s hC (by omega) (by omega) (by omega) hK1' hK0 hmin ⟨by omega, by omega⟩
      (by rw [hLL t (by omega)]; exact ht3)
      (by intro j h1 h2; rw [hLL j (by omega)]; exact (ha j (by omega) (by omega)).1)
      ⟨by omega, by omega⟩
      (by
        intro j h1 h2
        rw [hLL j (by omega), ← h3t j (by omega)]
        exact (hpa j h1 h2).1)
      (by
        by_cases h : s = t
        · exact Or.inl h
        · right
          rw [hLL (s - 1) (by omega), ← h3t (s - 1) (by omega)]
          exact hpstop.resolve_left (by omega))
      (by
        intro j hj
        rw [hpb j (by omega), h3get j (by omega), hb j (by omega), hLL j (by omega)])
      (by
        intro j h1 h2
        rw [hpb j (by omega), h3get j (by omega), hLL (j + 1) (by omega)]
        have := (ha (j + 1) (by omega) (by omega)).2
        simpa using this)
      (by rw [hpb (t - 1) (by omega)]; simp [hio3])
      (by intro j h1 h2; rw [hpb j h2, h3t j h1, hLL j (by omega)])
      hNs
      (by
        intro j h1 h2
        have := (hpa (j - 1) (by omega) (by omega)).2
        rw [Nat.sub_add_cancel (by omega)] at this
        rw [this, h3t (j - 1) (by omega), hLL (j - 1) (by omega)])
    rw [show J1 - 1 + 1 = J1 by omega] at hLi
    have hpick : 1 ≤ N.get n1 ∧ N.get n1 ≤ last := hLi.range n1 hn1 (by omega)
    have hlenN' : N.len = io.len := by rw [hlenN, hio3]; simp; omega
    refine ⟨⟨N.get n1, elist.get (N.get n1), N, n1⟩, ?_, hlenN', hLi, hTo, hn1, hn2, rfl,
      hpick.1, hpick.2, rfl⟩
    rw [hqs t rfl, csub_of_le (by omega), Option.bind_some, Buf.wr_of_lt (by omega), Option.bind_some, ← hio3, hp,
      Option.bind_some, hw, Option.bind_some, pick N hlenN' hpick]

end Hazma.Quad
