import Verif.Lemmas.QuadPartition

/-!
# The main loop of the integrator with break points
-/

namespace Hazma.Quad

open Finset

/-- The initial panels are those between neighbouring entries of `pts`. -/
def Ctx.pieces (M : Mach) (f : ℝ → ℝ) (n : ℕ) (pts : ℕ → ℝ) (total : ℝ) : Ctx :=
  ⟨n, fun u v => ∃ i, 1 ≤ i ∧ i ≤ n ∧ u = pts i ∧ v = pts (i + 1), ∀ i, 1 ≤ i → i ≤ n → pts i < pts (i + 1),
    fun u v e => e = total ∧ (∃ i, 1 ≤ i ∧ i ≤ n ∧ u = pts i ∧ v = pts (i + 1)) ∧
      (qk21 M f u v).abserr = (qk21 M f u v).resasc ∧ (qk21 M f u v).abserr ≠ 0⟩

/-- What holds at the head of an iteration of `qagpe`. -/
structure HeadP (M : Mach) (f : ℝ → ℝ) (p : Args) (k : Ctx) (q : PSt) : Prop where
  ready : Ready M f p k q.s
  level : q.level.len = q.s.cap
  ext : q.s.extrap = false → q.s.nrmax = 1
  noext : q.s.noext = true → q.s.extrap = false
  elg : 1 ≤ q.s.elg.n ∧ q.s.elg.n ≤ 50 ∧ q.s.elg.n + k.n0 ≤ q.s.last + 1
  tab : q.s.elg.tab.len = 53 ∧ q.s.elg.res3.len = 4
  abserr : q.s.abserr ≤ M.oflow
  ier : q.s.ier = 0

/-- What a turn of the loop may end with. -/
structure EndsP (M : Mach) (f : ℝ → ℝ) (p : Args) (k : Ctx) (t : PSt) (c : Ctl) : Prop where
  core : Core M f p k t.s
  next : c = .next → HeadP M f p k t
  to115 : c = .to115 → t.s.errsum ≤ max p.epsabs (p.epsrel * |t.s.area|)
  to100 : c = .to100 → t.s.ier ≠ 0 ∨
    (t.s.abserr < M.oflow ∧ t.s.abserr ≤ max p.epsabs (p.epsrel * |t.s.result|))

theorem growLevel_len (limit : ℕ) (q : PSt) (h : q.level.len = q.s.cap) :
    (growLevel limit q).len = (growSt limit q.s).cap := by
  unfold growLevel growSt
  simp only
  split_ifs
  · rfl
  · exact h

theorem bisectP_spec (M : Mach) (f : ℝ → ℝ) (p : Args) (k : Ctx) (q : PSt) (h : Ready M f p k q.s)
    (hl : q.level.len = q.s.cap) :
    ∃ t w lev, bisectP M f p q = some (t, w, lev) ∧ bisect M f p q.s = some (t.s, w) ∧
      t.level.len = t.s.cap ∧ t.levmax = q.levmax := by
  obtain ⟨t, w, hb, hc, hlast, -, -, -, -, -, -, -, -, -, -, -, -, hcap⟩ := bisect_spec M f p k q.s h
  have hg := growLevel_len p.limit q hl
  rw [← hcap] at hg
  have hm : q.s.maxerr ≤ q.s.last := by
    rw [h.maxerr]; exact (h.core.listed.range _ h.nr.1 h.nr.2).2
  have hcc := hc.cap
  unfold bisectP
  simp only
  rw [Option.bind_eq_bind, Buf.rd_of_lt (by omega), Option.bind_some, Option.bind_eq_bind, hb,
    Option.bind_some, Option.bind_eq_bind, Buf.wr_of_lt (by omega), Option.bind_some,
    Buf.wr_of_lt (by simp only; omega), Option.bind_some]
  exact ⟨_, _, _, rfl, rfl, hg, rfl⟩

theorem seekP_spec (P : Panels) (io level : Buf ℕ) (levmax J N c : ℕ)
    (hL : ∀ j, 1 ≤ j → j ≤ J → io.get j ≤ N) (hN : N < c) (hJ : J < c)
    (hl : P.elist.len = c ∧ io.len = c ∧ level.len = c)
    (cnt nr m : ℕ) (e : ℝ) (h1 : 1 ≤ nr) (hcnt : cnt = 0 ∨ nr + cnt = J + 1) :
    ∃ r, seekP P io level levmax cnt nr m e = some r ∧
      (r.1 = true → 1 ≤ r.2.1 ∧ r.2.1 ≤ J ∧ r.2.2.1 = io.get r.2.1 ∧ r.2.2.2 = P.elist.get r.2.2.1) := by
  obtain ⟨hl1, hl2, hl3⟩ := hl
  induction cnt generalizing nr m e with
  | zero => exact ⟨_, rfl, by simp⟩
  | succ cnt ih =>
    have hj : nr ≤ J := by omega
    have := hL nr h1 hj
    unfold seekP
    simp only [Option.bind_eq_bind, Buf.rd_of_lt (show nr < io.len by omega), Option.bind_some,
      Buf.rd_of_lt (show io.get nr < P.elist.len by omega),
      Buf.rd_of_lt (show io.get nr < level.len by omega)]
    split_ifs with hw
    · exact ⟨_, rfl, fun _ => ⟨h1, hj, rfl, rfl⟩⟩
    · exact ih (nr + 1) _ _ (by omega) (by omega)

theorem restartP_spec (M : Mach) (f : ℝ → ℝ) (p : Args) (k : Ctx) (q : PSt) (hc : Core M f p k q.s)
    (hlt : q.s.last < p.limit) (hlev : q.level.len = q.s.cap)
    (helg : 1 ≤ q.s.elg.n ∧ q.s.elg.n ≤ 50 ∧ q.s.elg.n + k.n0 ≤ q.s.last + 1)
    (htab : q.s.elg.tab.len = 53 ∧ q.s.elg.res3.len = 4) (habs : q.s.abserr ≤ M.oflow) (hier : q.s.ier = 0) :
    ∃ t, restartP q = some (t, .next) ∧ HeadP M f p k t ∧ t.s.last = q.s.last := by
  have hlen := hc.lens
  have hcap := hc.cap
  have hone := hc.one
  have hk : 1 ≤ kept p.limit q.s.last := by
    unfold kept; split_ifs <;> omega
  have hio := hc.listed.range 1 (le_refl _) hk
  unfold restartP
  rw [Option.bind_eq_bind, Buf.rd_of_lt (by omega), Option.bind_some, Option.bind_eq_bind,
    Buf.rd_of_lt (by omega), Option.bind_some]
  have hc3 : Core M f p k { q.s with
      maxerr := q.s.iord.get 1, errmax := q.s.P.elist.get (q.s.iord.get 1), nrmax := 1, extrap := false,
      erlarg := q.s.errsum } := hc.congr rfl rfl rfl rfl rfl rfl rfl
  exact ⟨_, rfl, ⟨⟨hc3, hlt, ⟨le_refl _, hk⟩, rfl, rfl⟩, hlev, fun _ => rfl, fun _ => rfl, helg, htab, habs,
    hier⟩, rfl⟩

theorem afterElgP_spec (M : Mach) (f : ℝ → ℝ) (p : Args) (k : Ctx) (q : PSt) (r : Elg × ℝ × ℝ)
    (hc : Core M f p k q.s) (hlt : q.s.last < p.limit) (hlev : q.level.len = q.s.cap)
    (helg : 1 ≤ r.1.n ∧ r.1.n ≤ 50 ∧ r.1.n + k.n0 ≤ q.s.last + 1)
    (htab : r.1.tab.len = 53 ∧ r.1.res3.len = 4) (habs : q.s.abserr ≤ M.oflow) (hier : q.s.ier = 0) :
    ∃ t c, afterElgP p q r = some (t, c) ∧ EndsP M f p k t c ∧ t.s.last = q.s.last := by
  obtain ⟨s, level, levmax⟩ := q
  simp only at hc hlt hlev helg habs hier ⊢
  have hf : (accept p s r).cap = s.cap ∧ (accept p s r).P = s.P ∧ (accept p s r).iord = s.iord ∧
      (accept p s r).last = s.last ∧ (accept p s r).area = s.area ∧ (accept p s r).errsum = s.errsum ∧
      (accept p s r).trace = s.trace ∧ (accept p s r).elg = r.1 ∧
      ((accept p s r).ier = 0 ∨ (accept p s r).ier = 5) ∧ (accept p s r).abserr ≤ s.abserr ∧
      (r.2.2 < s.abserr → (accept p s r).abserr < s.abserr ∧
        (accept p s r).ertest = max p.epsabs (p.epsrel * |(accept p s r).result|)) := by
    unfold accept
    have hi : (if s.ktmin + 1 > 5 ∧ s.abserr < 0.1e-2 * s.errsum then 5 else s.ier) = 0 ∨
        (if s.ktmin + 1 > 5 ∧ s.abserr < 0.1e-2 * s.errsum then 5 else s.ier) = 5 := by
      rw [hier]; split_ifs <;> simp
    simp only
    generalize (if s.ktmin + 1 > 5 ∧ s.abserr < 0.1e-2 * s.errsum then 5 else s.ier) = ier at hi ⊢
    by_cases h : r.2.2 < s.abserr
    · rw [if_pos h]; simp [h, le_of_lt h, hi]
    · rw [if_neg h]; simp [h, hi]
  unfold afterElgP
  simp only
  generalize accept p s r = s1 at hf ⊢
  obtain ⟨g1, g2, g3, g4, g5, g6, g7, g8, g9, g10, g11⟩ := hf
  have core1 : Core M f p k s1 := hc.congr g1 g2 g3 g4 g5 g6 g7
  have hf2 : (noMore s1).cap = s1.cap ∧ (noMore s1).P = s1.P ∧ (noMore s1).iord = s1.iord ∧
      (noMore s1).last = s1.last ∧ (noMore s1).area = s1.area ∧ (noMore s1).errsum = s1.errsum ∧
      (noMore s1).trace = s1.trace ∧ (noMore s1).elg = s1.elg ∧ (noMore s1).ier = s1.ier ∧
      (noMore s1).abserr = s1.abserr := by
    unfold noMore; split_ifs <;> simp
  by_cases hstop : r.2.2 < s.abserr ∧ s1.abserr < s1.ertest
  · rw [if_pos hstop]
    obtain ⟨g12, g13⟩ := g11 hstop.1
    refine ⟨_, _, rfl, ⟨core1, by simp, by simp, fun _ => Or.inr ⟨by simp only; linarith, ?_⟩⟩, g4⟩
    rw [← g13]; exact hstop.2.le
  · rw [if_neg hstop]
    generalize noMore s1 = s2 at hf2 ⊢
    obtain ⟨k1, k2, k3, k4, k5, k6, k7, k8, k9, k10⟩ := hf2
    have core2 : Core M f p k s2 := core1.congr k1 k2 k3 k4 k5 k6 k7
    by_cases h5 : s2.ier ≥ 5
    · rw [if_pos h5]
      exact ⟨_, _, rfl, ⟨core2, by simp, by simp, fun _ => Or.inl (by simp only; omega)⟩, by simp only; omega⟩
    · rw [if_neg h5]
      obtain ⟨t, ht, hh, hl⟩ := restartP_spec M f p k ⟨s2, level, levmax⟩ core2 (by simp only; omega)
        (by simp only; omega) (by simp only; rw [k8, g8, k4, g4]; exact helg)
        (by simp only; rw [k8, g8]; exact htab) (by simp only; rw [k10]; linarith) (by simp only; omega)
      exact ⟨t, _, ht, ⟨hh.ready.core, fun _ => hh, by simp, by simp⟩, by simp only at hl; omega⟩

theorem extrapolateP_spec (M : Mach) (f : ℝ → ℝ) (p : Args) (k : Ctx) (q : PSt) (hc : Core M f p k q.s)
    (hlt : q.s.last < p.limit) (hlev : q.level.len = q.s.cap)
    (helg : 1 ≤ q.s.elg.n ∧ q.s.elg.n ≤ 50 ∧ q.s.elg.n + k.n0 ≤ q.s.last)
    (htab : q.s.elg.tab.len = 53 ∧ q.s.elg.res3.len = 4) (habs : q.s.abserr ≤ M.oflow) (hier : q.s.ier = 0) :
    (extrapolateP M p q = none → q.s.elg.n = 50 ∧ k.n0 + 51 ≤ p.limit) ∧
      ∀ t c, extrapolateP M p q = some (t, c) → EndsP M f p k t c ∧ t.s.last = q.s.last := by
  unfold extrapolateP
  rw [Option.bind_eq_bind, Buf.wr_of_lt (by omega), Option.bind_some]
  split_ifs with h2
  · by_cases h50 : q.s.elg.n = 50
    · refine ⟨fun _ => ⟨h50, by omega⟩, ?_⟩
      intro t c he
      exfalso
      have : qelg M ⟨q.s.elg.n + 1, ⟨q.s.elg.tab.len, Function.update q.s.elg.tab.get (q.s.elg.n + 1) q.s.area⟩,
          q.s.elg.res3, q.s.elg.nres⟩ = none := by
        unfold qelg
        rw [Option.bind_eq_bind, Buf.rd_of_lt (by simp only; omega), Option.bind_some,
          if_neg (by simp only; omega)]
        have hw : ∀ x, Buf.wr (⟨q.s.elg.tab.len, Function.update q.s.elg.tab.get (q.s.elg.n + 1) q.s.area⟩ :
            Buf ℝ) (q.s.elg.n + 1 + 2) x = none := by
          intro x; simp [Buf.wr, htab.1, h50]
        simp only [hw]
        rfl
      rw [Option.bind_eq_bind, this] at he
      simp at he
    · obtain ⟨r, hr, hr1, hr2, hr3, hr4⟩ := qelg_safe M ⟨q.s.elg.n + 1,
          ⟨q.s.elg.tab.len, Function.update q.s.elg.tab.get (q.s.elg.n + 1) q.s.area⟩, q.s.elg.res3,
          q.s.elg.nres⟩ (by simp only; omega) (by simp only; omega) htab.1 htab.2
      simp only at hr2
      rw [Option.bind_eq_bind, hr, Option.bind_some]
      obtain ⟨t, c, h1, h2, h3⟩ := afterElgP_spec M f p k q r hc hlt hlev (by omega) ⟨hr3, hr4⟩ habs hier
      rw [h1]
      refine ⟨by simp, ?_⟩
      intro t' c' he
      simp only [Option.some.injEq, Prod.mk.injEq] at he
      obtain ⟨rfl, rfl⟩ := he
      exact ⟨h2, h3⟩
  · obtain ⟨t, ht, hh, hl⟩ := restartP_spec M f p k
      { q with s := { q.s with elg := { q.s.elg with n := q.s.elg.n + 1, tab := ⟨q.s.elg.tab.len,
        Function.update q.s.elg.tab.get (q.s.elg.n + 1) q.s.area⟩ } } }
      (hc.congr rfl rfl rfl rfl rfl rfl rfl) hlt hlev (by simp only; omega) htab habs hier
    rw [ht]
    refine ⟨by simp, ?_⟩
    intro t' c' he
    simp only [Option.some.injEq, Prod.mk.injEq] at he
    obtain ⟨rfl, rfl⟩ := he
    exact ⟨⟨hh.ready.core, fun _ => hh, by simp, by simp⟩, hl⟩

theorem label120_spec (M : Mach) (f : ℝ → ℝ) (p : Args) (k : Ctx) (q : PSt) (hc : Core M f p k q.s)
    (hlt : q.s.last < p.limit) (hlev : q.level.len = q.s.cap) (hnr : 1 ≤ q.s.nrmax)
    (hext : q.s.extrap = true) (hno : q.s.noext = false)
    (helg : 1 ≤ q.s.elg.n ∧ q.s.elg.n ≤ 50 ∧ q.s.elg.n + k.n0 ≤ q.s.last)
    (htab : q.s.elg.tab.len = 53 ∧ q.s.elg.res3.len = 4) (habs : q.s.abserr ≤ M.oflow) (hier : q.s.ier = 0) :
    (label120 M p q = none → q.s.elg.n = 50 ∧ k.n0 + 51 ≤ p.limit) ∧
      ∀ t c, label120 M p q = some (t, c) → EndsP M f p k t c ∧ t.s.last = q.s.last := by
  unfold label120
  split_ifs with hcond
  · exact extrapolateP_spec M f p k q hc hlt hlev helg htab habs hier
  · have hlen := hc.lens
    have hcap := hc.cap
    have hkl := kept_le p.limit q.s.last hc.le
    obtain ⟨r, hr, hr'⟩ := seekP_spec q.s.P q.s.iord q.level q.levmax (kept p.limit q.s.last) q.s.last q.s.cap
      (fun j h1 h2 => (hc.listed.range j h1 h2).2) (by omega) (by omega)
      ⟨hlen.2.2.2.1, hlen.2.2.2.2, hlev⟩ (kept p.limit q.s.last + 1 - q.s.nrmax) q.s.nrmax q.s.maxerr
      q.s.errmax hnr (by omega)
    rw [Option.bind_eq_bind, jupbn_kept _ _ hc.le, Option.bind_some, Option.bind_eq_bind, hr, Option.bind_some]
    have hc1 : Core M f p k { q.s with nrmax := r.2.1, maxerr := r.2.2.1, errmax := r.2.2.2 } :=
      hc.congr rfl rfl rfl rfl rfl rfl rfl
    simp only
    split_ifs with hfound
    · refine ⟨fun h => (by simp at h), ?_⟩
      intro t c he
      simp only [Option.pure_def, Option.some.injEq, Prod.mk.injEq] at he
      obtain ⟨rfl, rfl⟩ := he
      obtain ⟨a1, a2, a3, a4⟩ := hr' hfound
      refine ⟨⟨hc1, fun _ => ?_, by simp, by simp⟩, rfl⟩
      refine ⟨⟨hc1, hlt, ⟨a1, a2⟩, a3, a4⟩, hlev, ?_, ?_, ?_, htab, habs, hier⟩
      · simp [hext]
      · simp [hno]
      · simp only; omega
    · exact extrapolateP_spec M f p k _ hc1 hlt hlev helg htab habs hier

theorem chooseP_spec (M : Mach) (f : ℝ → ℝ) (p : Args) (k : Ctx) (q : PSt) (hc : Core M f p k q.s)
    (hlt : q.s.last < p.limit) (hlev : q.level.len = q.s.cap) (hnr : 1 ≤ q.s.nrmax)
    (hm : q.s.maxerr = q.s.iord.get q.s.nrmax)
    (hm2 : q.s.maxerr ≤ q.s.last) (he : q.s.errmax = q.s.P.elist.get q.s.maxerr)
    (hext : q.s.extrap = false → q.s.nrmax = 1)
    (hno : q.s.noext = false) (helg : 1 ≤ q.s.elg.n ∧ q.s.elg.n ≤ 50 ∧ q.s.elg.n + k.n0 ≤ q.s.last)
    (htab : q.s.elg.tab.len = 53 ∧ q.s.elg.res3.len = 4) (habs : q.s.abserr ≤ M.oflow) (hier : q.s.ier = 0) :
    (chooseP M p q = none → q.s.elg.n = 50 ∧ k.n0 + 51 ≤ p.limit) ∧
      ∀ t c, chooseP M p q = some (t, c) → EndsP M f p k t c ∧ t.s.last = q.s.last := by
  have hlen := hc.lens
  have hcap := hc.cap
  have hone := hc.one
  unfold chooseP
  split_ifs with hx
  · exact label120_spec M f p k q hc hlt hlev hnr hx hno helg htab habs hier
  · rw [Option.bind_eq_bind, Buf.rd_of_lt (by omega), Option.bind_some]
    have hx' : q.s.extrap = false := by simpa using hx
    have hn1 := hext hx'
    have hk : 1 ≤ kept p.limit q.s.last := by unfold kept; split_ifs <;> omega
    split_ifs with hw
    · refine ⟨by simp, ?_⟩
      intro t c ht
      simp only [Option.some.injEq, Prod.mk.injEq] at ht
      obtain ⟨rfl, rfl⟩ := ht
      refine ⟨⟨hc, fun _ => ?_, by simp, by simp⟩, rfl⟩
      exact ⟨⟨hc, hlt, ⟨hnr, by omega⟩, hm, he⟩, hlev, hext, fun _ => hx', by omega, htab, habs, hier⟩
    · exact label120_spec M f p k { q with s := { q.s with extrap := true, nrmax := 2 } }
        (hc.congr rfl rfl rfl rfl rfl rfl rfl) hlt hlev (by simp) rfl hno helg htab habs hier

/-- One turn of the loop from the head of an iteration. -/
theorem stepP_spec (M : Mach) (f : ℝ → ℝ) (p : Args) (k : Ctx) (q : PSt) (h : HeadP M f p k q) :
    (stepP M f p q = none → q.s.elg.n = 50 ∧ k.n0 + 51 ≤ p.limit) ∧
      ∀ t c, stepP M f p q = some (t, c) → EndsP M f p k t c ∧ t.s.last = q.s.last + 1 := by
  obtain ⟨u, w, lev, hbP, hbu, hulev, -⟩ := bisectP_spec M f p k q h.ready h.level
  obtain ⟨t, w', hb, hc, hlast, hn1, hn2, hm, hm1, hm2, he, hext, hno, helg, habs, hbnd, hlim, -⟩ :=
    bisect_spec M f p k q.s h.ready
  rw [hb] at hbu
  simp only [Option.some.injEq, Prod.mk.injEq] at hbu
  obtain ⟨rfl, rfl⟩ := hbu
  obtain ⟨t, level, levmax⟩ := u
  simp only at hulev hc hlast hn1 hn2 hm hm1 hm2 he hext hno helg habs hbnd hlim
  unfold stepP
  rw [Option.bind_eq_bind, hbP, Option.bind_some]
  simp only
  have hone := h.ready.core.one
  have hlt := h.ready.lt
  have hE := h.elg
  have hT := h.tab
  have hA := h.abserr
  have hlen := hc.lens
  have hcap := hc.cap
  rw [← hlast]
  unfold steerP
  simp only
  split_ifs with c1 c2 c4
  · refine ⟨fun h => (by simp at h), ?_⟩
    intro t' c ht
    simp only [Option.some.injEq, Prod.mk.injEq] at ht
    obtain ⟨rfl, rfl⟩ := ht
    exact ⟨⟨hc, by simp, fun _ => by rw [← hbnd]; exact c1, by simp⟩, rfl⟩
  · refine ⟨fun h => (by simp at h), ?_⟩
    intro t' c ht
    simp only [Option.some.injEq, Prod.mk.injEq] at ht
    obtain ⟨rfl, rfl⟩ := ht
    exact ⟨⟨hc, by simp, by simp, fun _ => Or.inl c2⟩, rfl⟩
  all_goals
    have hlt' : t.last < p.limit := by
      rcases lt_or_eq_of_le hc.le with h' | h'
      · exact h'
      · exact absurd (hlim h') c2
    have hier : t.ier = 0 := by push Not at c2; exact c2
    have hk2 : 1 ≤ kept p.limit t.last := by unfold kept; split_ifs <;> omega
  · have hx := h.noext (hno ▸ c4)
    have hnr1 := h.ext hx
    refine ⟨fun h => (by simp at h), ?_⟩
    intro t' c ht
    simp only [Option.some.injEq, Prod.mk.injEq] at ht
    obtain ⟨rfl, rfl⟩ := ht
    refine ⟨⟨hc, fun _ => ?_, by simp, by simp⟩, rfl⟩
    refine ⟨⟨hc, hlt', ⟨hn1, by simp only; omega⟩, hm, he⟩, hulev, fun _ => by simp only; omega,
      fun _ => by simp only; rw [hext, hx], ?_, ?_, ?_, hier⟩
    · simp only [helg]; omega
    · simp only [helg]; exact hT
    · simp only [habs]; exact hA
  · have hno' : t.noext = false := by simpa using c4
    have := chooseP_spec M f p k ⟨{ t with
        erlarg := wideErrorP q.s.errmax ⟨t, level, levmax⟩ w' lev }, level, levmax⟩
      (hc.congr rfl rfl rfl rfl rfl rfl rfl) hlt' hulev hn1 hm hm2 he
      (fun hx => by have := h.ext (hext ▸ hx); simp only; omega) hno' (by simp only [helg]; omega)
      (by simp only [helg]; exact hT) (by simp only [habs]; exact hA) hier
    refine ⟨fun hn => ?_, this.2⟩
    have := this.1 hn
    simpa [helg] using this

/-- The loop from a head; there is always at least one turn left. -/
theorem mainLoopP_spec (M : Mach) (f : ℝ → ℝ) (p : Args) (k : Ctx) (cnt : ℕ) (q : PSt)
    (h : HeadP M f p k q) (hcnt : cnt + q.s.last = p.limit) :
    (mainLoopP M f p cnt q = none → k.n0 + 51 ≤ p.limit) ∧
      ∀ t b, mainLoopP M f p cnt q = some (t, b) → EndsP M f p k t (if b then .to115 else .to100) := by
  induction cnt generalizing q with
  | zero =>
    have := h.ready.lt
    omega
  | succ cnt ih =>
    have hst := stepP_spec M f p k q h
    unfold mainLoopP
    cases hs : stepP M f p q with
    | none =>
      refine ⟨fun _ => (hst.1 hs).2, ?_⟩
      intro t b hb
      simp at hb
    | some r =>
      obtain ⟨t, c⟩ := r
      obtain ⟨hv, hl⟩ := hst.2 t c hs
      cases c with
      | next =>
        simp only [Option.bind_eq_bind, Option.bind_some]
        exact ih t (hv.next rfl) (by omega)
      | to100 =>
        simp only [Option.bind_eq_bind, Option.bind_some]
        refine ⟨by simp, ?_⟩
        intro t' b hb
        simp only [Option.pure_def, Option.some.injEq, Prod.mk.injEq] at hb
        obtain ⟨rfl, rfl⟩ := hb
        exact hv
      | to115 =>
        simp only [Option.bind_eq_bind, Option.bind_some]
        refine ⟨by simp, ?_⟩
        intro t' b hb
        simp only [Option.pure_def, Option.some.injEq, Prod.mk.injEq] at hb
        obtain ⟨rfl, rfl⟩ := hb
        exact hv

end Hazma.Quad
