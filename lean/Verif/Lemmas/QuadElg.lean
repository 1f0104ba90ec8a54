import Verif.Lemmas.QuadSort

/-!
# The ε-algorithm stays inside its table
-/

namespace Hazma.Quad

theorem elgLoop_safe (M : Mach) (cnt i k1 : ℕ) (s : ElgLoop) (hi : 1 ≤ i) (hk : 2 * cnt + 1 ≤ k1)
    (hk' : k1 ≤ 50) (hl : s.tab.len = 53) :
    ∃ r, elgLoop M cnt i k1 s = some r ∧ r.tab.len = 53 ∧
      (r.n = s.n ∨ (1 ≤ r.n ∧ r.n + 3 ≤ 2 * (i + cnt))) := by
  induction cnt generalizing i k1 s with
  | zero => exact ⟨s, rfl, hl, Or.inl rfl⟩
  | succ cnt ih =>
    unfold elgLoop
    simp only [Option.bind_eq_bind, csub_of_le (show 1 ≤ k1 by omega), csub_of_le (show 2 ≤ k1 by omega),
      Option.bind_some, Buf.rd_of_lt (show k1 + 2 < s.tab.len by omega),
      Buf.rd_of_lt (show k1 - 2 < s.tab.len by omega), Buf.rd_of_lt (show k1 - 1 < s.tab.len by omega),
      Buf.rd_of_lt (show k1 < s.tab.len by omega), Buf.wr_of_lt (show k1 < s.tab.len by omega)]
    have cont : ∀ s' : ElgLoop, s'.tab.len = 53 → s'.n = s.n →
        ∃ r, elgLoop M cnt (i + 1) (k1 - 2) s' = some r ∧ r.tab.len = 53 ∧
          (r.n = s.n ∨ (1 ≤ r.n ∧ r.n + 3 ≤ 2 * (i + (cnt + 1)))) := by
      intro s' h1 h2
      obtain ⟨r, hr, hr1, hr2⟩ := ih (i + 1) (k1 - 2) s' (by omega) (by omega) (by omega) h1
      refine ⟨r, hr, hr1, ?_⟩
      rcases hr2 with h | h
      · exact Or.inl (h.trans h2)
      · exact Or.inr ⟨h.1, by omega⟩
    split_ifs with h1 h2 h3
    · rw [csub_of_le (by omega)]
      exact ⟨_, rfl, hl, Or.inr ⟨by simp only; omega, by simp only; omega⟩⟩
    · rw [Buf.wr_of_lt (by simp only; omega)]
      exact cont _ hl rfl
    · rw [Buf.wr_of_lt (by simp only; omega)]
      exact cont _ hl rfl
    · exact ⟨_, rfl, hl, Or.inl rfl⟩

theorem elgShift_safe (cnt ib : ℕ) (t : Buf ℝ) (h : ib + 2 * cnt < t.len) :
    ∃ t', elgShift cnt ib t = some t' ∧ t'.len = t.len := by
  induction cnt generalizing ib t with
  | zero => exact ⟨t, rfl, rfl⟩
  | succ cnt ih =>
    unfold elgShift
    simp only [Option.bind_eq_bind, Buf.rd_of_lt (show ib + 2 < t.len by omega), Option.bind_some,
      Buf.wr_of_lt (show ib < t.len by omega)]
    obtain ⟨t', h1, h2⟩ := ih (ib + 2) ⟨t.len, Function.update t.get ib (t.get (ib + 2))⟩
      (by simp only; omega)
    exact ⟨t', h1, h2⟩

theorem elgCompact_safe (cnt i indx : ℕ) (t : Buf ℝ) (h : i + cnt ≤ t.len) (h' : indx + cnt ≤ t.len) :
    ∃ t', elgCompact cnt i indx t = some t' ∧ t'.len = t.len := by
  induction cnt generalizing i indx t with
  | zero => exact ⟨t, rfl, rfl⟩
  | succ cnt ih =>
    unfold elgCompact
    simp only [Option.bind_eq_bind, Buf.rd_of_lt (show indx < t.len by omega), Option.bind_some,
      Buf.wr_of_lt (show i < t.len by omega)]
    obtain ⟨t', h1, h2⟩ := ih (i + 1) (indx + 1) ⟨t.len, Function.update t.get i (t.get indx)⟩
      (by simp only; omega) (by simp only; omega)
    exact ⟨t', h1, h2⟩

theorem elgEstimate_safe (M : Mach) (n nres : ℕ) (tab res3 : Buf ℝ) (x : ℝ) (hr : res3.len = 4) :
    ∃ r, elgEstimate M n nres tab res3 x = some r ∧ r.1.n = n ∧ r.1.tab = tab ∧ r.1.res3.len = 4 := by
  unfold elgEstimate
  split_ifs with h6
  · rw [Buf.wr_of_lt (by omega)]
    exact ⟨_, rfl, rfl, rfl, hr⟩
  · rw [Buf.rd_of_lt (by omega), Buf.rd_of_lt (by omega), Buf.rd_of_lt (by omega)]
    simp only [Option.bind_some, Option.bind_eq_bind]
    rw [Buf.wr_of_lt (by omega)]
    simp only [Option.bind_some]
    rw [Buf.wr_of_lt (by simp only; omega)]
    simp only [Option.bind_some]
    rw [Buf.wr_of_lt (by simp only; omega)]
    exact ⟨_, rfl, rfl, rfl, hr⟩

theorem elgTail_safe (M : Mach) (num nres : ℕ) (res3 : Buf ℝ) (r : ElgLoop) (h1 : 3 ≤ num)
    (h2 : num ≤ 50) (hn : 1 ≤ r.n ∧ r.n ≤ num) (ht : r.tab.len = 53) (hr : res3.len = 4) :
    ∃ o, elgTail M num ((num - 1) / 2) nres res3 r = some o ∧ 1 ≤ o.1.n ∧ o.1.n ≤ num ∧
      o.1.tab.len = 53 ∧ o.1.res3.len = 4 := by
  unfold elgTail
  by_cases h4 : r.converged = true
  · rw [if_pos h4]
    exact ⟨_, rfl, hn.1, hn.2, ht, hr⟩
  · rw [if_neg h4]
    have hn1 : 1 ≤ elgLen r.n ∧ elgLen r.n ≤ num := by
      unfold elgLen; split_ifs <;> omega
    generalize elgLen r.n = n at *
    obtain ⟨t, hs1, hs2⟩ := elgShift_safe ((num - 1) / 2 + 1) (if num / 2 * 2 = num then 2 else 1) r.tab
      (by rw [ht]; split_ifs <;> omega)
    obtain ⟨t', hc1, hc2⟩ : ∃ t', elgDrop num n t = some t' ∧ t'.len = 53 := by
      unfold elgDrop
      split_ifs with h5
      · obtain ⟨t', ha, hb⟩ := elgCompact_safe n 1 (num - n + 1) t (by omega) (by omega)
        exact ⟨t', by rw [csub_of_le hn1.2, Option.bind_some, ha], by omega⟩
      · exact ⟨t, rfl, by omega⟩
    obtain ⟨o, ho, ho1, ho2, ho3⟩ := elgEstimate_safe M n nres t' res3 r.result hr
    refine ⟨o, ?_, by omega, by omega, by rw [ho2, hc2], ho3⟩
    rw [Option.bind_eq_bind, hs1, Option.bind_some, hc1, Option.bind_some, ho]

/-- With at most 50 elements `qelg` does not panic and does not lengthen the table. -/
theorem qelg_safe (M : Mach) (g : Elg) (h1 : 1 ≤ g.n) (h2 : g.n ≤ 50) (ht : g.tab.len = 53)
    (hr : g.res3.len = 4) :
    ∃ r, qelg M g = some r ∧ 1 ≤ r.1.n ∧ r.1.n ≤ g.n ∧ r.1.tab.len = 53 ∧ r.1.res3.len = 4 := by
  unfold qelg
  rw [Option.bind_eq_bind, Buf.rd_of_lt (show g.n < g.tab.len by omega), Option.bind_some]
  split_ifs with h3
  · exact ⟨_, rfl, h1, le_refl _, ht, hr⟩
  · rw [Option.bind_eq_bind, Buf.wr_of_lt (by omega), Option.bind_some, Option.bind_eq_bind, csub_of_le h1,
      Option.bind_some, Option.bind_eq_bind, Buf.wr_of_lt (by simp only; omega), Option.bind_some]
    obtain ⟨r, hL, hlen, hn⟩ := elgLoop_safe M ((g.n - 1) / 2) 1 g.n
      ⟨⟨g.tab.len, Function.update (Function.update g.tab.get (g.n + 2) (g.tab.get g.n)) g.n M.oflow⟩,
        g.n, g.tab.get g.n, M.oflow, false⟩ (le_refl _) (by omega) h2 ht
    simp only at hn
    obtain ⟨o, ho, ho'⟩ := elgTail_safe M g.n (g.nres + 1) g.res3 r (by omega) h2 (by omega) hlen hr
    refine ⟨o, ?_, ho'⟩
    rw [hL, Option.bind_some, ho]

end Hazma.Quad
