import Verif.Props.QuadPoints

/-!
# Levels of the panels and reversed limits of the integrator with break points (C187, C126)
-/

namespace Hazma.Quad

open Finset

/-- Panel `[a, b]` is one of the `2 ^ lev` equal parts of one of the `n` initial panels `[v j, v (j + 1)]`. -/
def DyadicPart (n : ℕ) (v : ℕ → ℝ) (lev : ℕ) (a b : ℝ) : Prop :=
  ∃ j m : ℕ, (1 ≤ j ∧ j ≤ n) ∧ m < 2 ^ lev ∧ a = v j + m * ((v (j + 1) - v j) / 2 ^ lev) ∧
    b = v j + (m + 1) * ((v (j + 1) - v j) / 2 ^ lev)

theorem DyadicPart.halves {n : ℕ} {v : ℕ → ℝ} {lev : ℕ} {a b : ℝ} (h : DyadicPart n v lev a b) :
    DyadicPart n v (lev + 1) a (0.5 * (a + b)) ∧ DyadicPart n v (lev + 1) (0.5 * (a + b)) b := by
  obtain ⟨j, m, hj, hm, rfl, rfl⟩ := h
  have h2 : (2 : ℝ) ^ lev ≠ 0 := by positivity
  have hp : 2 ^ (lev + 1) = 2 * 2 ^ lev := by rw [pow_succ]; ring
  refine ⟨⟨j, 2 * m, hj, by omega, ?_, ?_⟩, ⟨j, 2 * m + 1, hj, by omega, ?_, ?_⟩⟩ <;>
  · push_cast
    rw [pow_succ]
    generalize (2 : ℝ) ^ lev = z at h2
    generalize v (j + 1) - v j = d
    have h3 : d / (z * 2) = d / z / 2 := by rw [div_mul_eq_div_div]
    rw [h3]
    ring

/-- Every panel's level says how it arose. -/
def LevelsOk (n : ℕ) (v : ℕ → ℝ) (q : PSt) : Prop :=
  ∀ i, 1 ≤ i → i ≤ q.s.last → DyadicPart n v (q.level.get i) (q.s.P.alist.get i) (q.s.P.blist.get i)

theorem restartP_same {q t : PSt} {c : Ctl} (h : restartP q = some (t, c)) :
    t.level = q.level ∧ t.s.P = q.s.P ∧ t.s.last = q.s.last := by
  unfold restartP at h
  rcases h1 : q.s.iord.rd 1 with _ | m
  · rw [h1] at h; simp at h
  rcases h2 : q.s.P.elist.rd m with _ | e
  · rw [h1, Option.bind_eq_bind, Option.bind_some, h2] at h; simp at h
  rw [h1, Option.bind_eq_bind, Option.bind_some, h2, Option.bind_eq_bind, Option.bind_some] at h
  simp only [Option.pure_def, Option.some.injEq, Prod.mk.injEq] at h
  obtain ⟨rfl, -⟩ := h
  exact ⟨rfl, rfl, rfl⟩

theorem accept_same (p : Args) (s : St) (r : Elg × ℝ × ℝ) :
    (accept p s r).P = s.P ∧ (accept p s r).last = s.last := by
  unfold accept
  simp only
  split_ifs <;> exact ⟨rfl, rfl⟩

theorem noMore_same (s : St) : (noMore s).P = s.P ∧ (noMore s).last = s.last := by
  unfold noMore; split_ifs <;> exact ⟨rfl, rfl⟩

theorem afterElgP_same {p : Args} {q t : PSt} {r : Elg × ℝ × ℝ} {c : Ctl} (h : afterElgP p q r = some (t, c)) :
    t.level = q.level ∧ t.s.P = q.s.P ∧ t.s.last = q.s.last := by
  have h1 := accept_same p q.s r
  have h2 := noMore_same (accept p q.s r)
  unfold afterElgP at h
  split_ifs at h
  · simp only [Option.some.injEq, Prod.mk.injEq] at h
    obtain ⟨rfl, -⟩ := h
    exact ⟨rfl, h1⟩
  · simp only [Option.some.injEq, Prod.mk.injEq] at h
    obtain ⟨rfl, -⟩ := h
    exact ⟨rfl, h2.1.trans h1.1, h2.2.trans h1.2⟩
  · obtain ⟨a, b, d⟩ := restartP_same h
    exact ⟨a, b.trans (h2.1.trans h1.1), d.trans (h2.2.trans h1.2)⟩

theorem extrapolateP_same {M : Mach} {p : Args} {q t : PSt} {c : Ctl} (h : extrapolateP M p q = some (t, c)) :
    t.level = q.level ∧ t.s.P = q.s.P ∧ t.s.last = q.s.last := by
  unfold extrapolateP at h
  rcases h1 : q.s.elg.tab.wr (q.s.elg.n + 1) q.s.area with _ | tab
  · rw [h1] at h; simp at h
  rw [h1, Option.bind_eq_bind, Option.bind_some] at h
  split_ifs at h
  · rcases h2 : qelg M ⟨q.s.elg.n + 1, tab, q.s.elg.res3, q.s.elg.nres⟩ with _ | r
    · rw [h2] at h; simp at h
    rw [h2, Option.bind_eq_bind, Option.bind_some] at h
    exact afterElgP_same h
  · have := restartP_same h
    exact this

theorem label120_same {M : Mach} {p : Args} {q t : PSt} {c : Ctl} (h : label120 M p q = some (t, c)) :
    t.level = q.level ∧ t.s.P = q.s.P ∧ t.s.last = q.s.last := by
  unfold label120 at h
  split_ifs at h
  · exact extrapolateP_same h
  · rcases h1 : jupbn p.limit q.s.last with _ | jup
    · rw [h1] at h; simp at h
    rw [h1, Option.bind_eq_bind, Option.bind_some] at h
    rcases h2 : seekP q.s.P q.s.iord q.level q.levmax (jup + 1 - q.s.nrmax) q.s.nrmax q.s.maxerr q.s.errmax with _ | r
    · rw [h2] at h; simp at h
    rw [h2, Option.bind_eq_bind, Option.bind_some] at h
    simp only at h
    split_ifs at h
    · simp only [Option.pure_def, Option.some.injEq, Prod.mk.injEq] at h
      obtain ⟨rfl, -⟩ := h
      exact ⟨rfl, rfl, rfl⟩
    · have := extrapolateP_same h
      exact this

theorem steerP_same {M : Mach} {p : Args} {e : ℝ} {q t : PSt} {w : Halves} {lev : ℕ} {c : Ctl}
    (h : steerP M p e q w lev = some (t, c)) :
    t.level = q.level ∧ t.s.P = q.s.P ∧ t.s.last = q.s.last := by
  unfold steerP at h
  split_ifs at h
  · simp only [Option.some.injEq, Prod.mk.injEq] at h
    obtain ⟨rfl, -⟩ := h
    exact ⟨rfl, rfl, rfl⟩
  · simp only [Option.some.injEq, Prod.mk.injEq] at h
    obtain ⟨rfl, -⟩ := h
    exact ⟨rfl, rfl, rfl⟩
  · simp only [Option.some.injEq, Prod.mk.injEq] at h
    obtain ⟨rfl, -⟩ := h
    exact ⟨rfl, rfl, rfl⟩
  · unfold chooseP at h
    simp only at h
    split_ifs at h
    · have := label120_same h
      exact this
    · rcases h1 : q.level.rd q.s.maxerr with _ | l
      · rw [h1] at h; simp at h
      rw [h1, Option.bind_eq_bind, Option.bind_some] at h
      split_ifs at h
      · simp only [Option.some.injEq, Prod.mk.injEq] at h
        obtain ⟨rfl, -⟩ := h
        exact ⟨rfl, rfl, rfl⟩
      · have := label120_same h
        exact this

theorem bisect_panels (M : Mach) (f : ℝ → ℝ) (p : Args) (k : Ctx) (s t : St) (w : Halves) (h : Ready M f p k s)
    (hb : bisect M f p s = some (t, w)) :
    t.last = s.last + 1 ∧ (1 ≤ s.maxerr ∧ s.maxerr ≤ s.last) ∧
    (∀ i, i ≤ s.last → i ≠ s.maxerr →
      t.P.alist.get i = s.P.alist.get i ∧ t.P.blist.get i = s.P.blist.get i) ∧
    ∃ a b, a = s.P.alist.get s.maxerr ∧ b = s.P.blist.get s.maxerr ∧
      ((t.P.alist.get s.maxerr = a ∧ t.P.blist.get s.maxerr = 0.5 * (a + b) ∧
          t.P.alist.get (s.last + 1) = 0.5 * (a + b) ∧ t.P.blist.get (s.last + 1) = b) ∨
        (t.P.alist.get (s.last + 1) = a ∧ t.P.blist.get (s.last + 1) = 0.5 * (a + b) ∧
          t.P.alist.get s.maxerr = 0.5 * (a + b) ∧ t.P.blist.get s.maxerr = b)) := by
  have hc := h.core
  obtain ⟨t', w', hb', -, hlast, -⟩ := bisect_spec M f p k s h
  rw [hb] at hb'
  cases hb'
  obtain ⟨c, Q, io, hg, hc1, hc2, hlens, hsame⟩ := growSt_spec p.limit s h.lt hc.cap hc.lens
  obtain ⟨hl1, hl2, hl3, hl4, hl5⟩ := hlens
  have hkl := kept_le p.limit s.last hc.le
  have hm : 1 ≤ s.maxerr ∧ s.maxerr ≤ s.last := by
    rw [h.maxerr]; exact hc.listed.range _ h.nr.1 h.nr.2
  obtain ⟨w2, hw, hwa, hwb, hwm, -⟩ := halves_spec M f Q s.maxerr c (by omega) hl1 hl2 hl3
  obtain ⟨R, hR, -, hRsame, -, hRcase⟩ := append_spec Q s.maxerr (s.last + 1) c w2 (by omega)
    (by omega) (by omega) ⟨hl1, hl2, hl3, hl4⟩ hwa.symm hwb.symm
  obtain ⟨hsa, hsb, -⟩ := hsame s.maxerr hm.2
  have hP : t.P = R := by
    unfold bisect at hb
    rw [hg] at hb
    simp only [Option.bind_eq_bind, hw, Option.bind_some, hR] at hb
    obtain ⟨x, -, hx⟩ := Option.bind_eq_some_iff.mp hb
    simp only [Option.pure_def, Option.some.injEq, Prod.mk.injEq] at hx
    rw [← hx.1]
  rw [hP]
  refine ⟨hlast, hm, ?_, _, _, rfl, rfl, ?_⟩
  · intro i hi hne
    obtain ⟨a1, a2, -⟩ := hRsame i hne (by omega)
    obtain ⟨b1, b2, -⟩ := hsame i hi
    exact ⟨a1.trans b1, a2.trans b2⟩
  · rw [hsa] at hwa
    rw [hsb] at hwb
    rw [hwa, hwb] at hwm
    rcases hRcase with ⟨a1, a2, -, -, a5, a6, -, -⟩ | ⟨a1, a2, -, -, a5, a6, -, -⟩
    · exact Or.inl ⟨a1.trans hwa, a2.trans hwm, a5.trans hwm, a6.trans hwb⟩
    · exact Or.inr ⟨a1.trans hwa, a2.trans hwm, a5.trans hwm, a6.trans hwb⟩

theorem stepP_levels (M : Mach) (f : ℝ → ℝ) (p : Args) (k : Ctx) (q t : PSt) (c : Ctl) (n : ℕ) (v : ℕ → ℝ)
    (h : HeadP M f p k q) (hs : stepP M f p q = some (t, c)) (hok : LevelsOk n v q) : LevelsOk n v t := by
  obtain ⟨u, w, lev, hbP, hbu, -, -⟩ := bisectP_spec M f p k q h.ready h.level
  unfold stepP at hs
  rw [hbP, Option.bind_eq_bind, Option.bind_some] at hs
  obtain ⟨s1, s2, s3⟩ := steerP_same hs
  obtain ⟨hlast, hm, hold, a, b, ha, hb, hcase⟩ := bisect_panels M f p k q.s u.s w h.ready hbu
  have hL : ∃ l, l = q.level.get q.s.maxerr ∧ (∀ i, i ≤ q.s.last → i ≠ q.s.maxerr → u.level.get i = q.level.get i) ∧
      u.level.get q.s.maxerr = l + 1 ∧ u.level.get (q.s.last + 1) = l + 1 := by
    have hcap := h.ready.core.cap
    have hll := h.level
    have hgrow : ∀ i, i ≤ q.s.last → (growLevel p.limit q).get i = q.level.get i := by
      intro i hi
      unfold growLevel
      split_ifs
      · simp only [Buf.resize]
        rw [if_pos (by omega)]
      · rfl
    unfold bisectP at hbP
    simp only [Option.bind_eq_bind] at hbP
    obtain ⟨l, h1, hbP⟩ := Option.bind_eq_some_iff.mp hbP
    obtain ⟨r, h2, hbP⟩ := Option.bind_eq_some_iff.mp hbP
    obtain ⟨l1, h3, hbP⟩ := Option.bind_eq_some_iff.mp hbP
    obtain ⟨l2, h4, hbP⟩ := Option.bind_eq_some_iff.mp hbP
    simp only [Option.pure_def, Option.some.injEq, Prod.mk.injEq] at hbP
    obtain ⟨rfl, -⟩ := hbP
    have e1 : l = q.level.get q.s.maxerr := by
      rw [← hgrow _ hm.2]
      unfold Buf.rd at h1
      split_ifs at h1
      exact (Option.some.inj h1).symm
    have e3 : l1.get = Function.update (growLevel p.limit q).get q.s.maxerr (l + 1) := by
      unfold Buf.wr at h3
      split_ifs at h3
      rw [← Option.some.inj h3]
    have e4 : l2.get = Function.update l1.get (q.s.last + 1) (l + 1) := by
      unfold Buf.wr at h4
      split_ifs at h4
      rw [← Option.some.inj h4]
    refine ⟨l, e1, ?_, ?_, ?_⟩
    · intro i hi hne
      simp only [e4, e3]
      rw [Function.update_of_ne (by omega), Function.update_of_ne hne, hgrow i hi]
    · simp only [e4, e3]
      rw [Function.update_of_ne (by omega), Function.update_self]
    · simp only [e4]
      rw [Function.update_self]
  obtain ⟨l, hl, l1, l2, l3⟩ := hL
  intro i h1 h2
  rw [s1, s2]
  rw [s3, hlast] at h2
  have hd := (hok q.s.maxerr hm.1 hm.2).halves
  rw [← hl, ← ha, ← hb] at hd
  by_cases e1 : i = q.s.maxerr
  · subst e1
    rw [l2]
    rcases hcase with ⟨c1, c2, -, -⟩ | ⟨-, -, c1, c2⟩
    · rw [c1, c2]; exact hd.1
    · rw [c1, c2]; exact hd.2
  by_cases e2 : i = q.s.last + 1
  · subst e2
    rw [l3]
    rcases hcase with ⟨-, -, c1, c2⟩ | ⟨c1, c2, -, -⟩
    · rw [c1, c2]; exact hd.2
    · rw [c1, c2]; exact hd.1
  rw [(hold i (by omega) e1).1, (hold i (by omega) e1).2, l1 i (by omega) e1]
  exact hok i h1 (by omega)

theorem firstLoop_levels (M : Mach) (f : ℝ → ℝ) (pts : Buf ℝ) (cnt i : ℕ) (a : ℝ) (w w' : FirstPass)
    (h : firstLoop M f pts cnt i a w = some w') (h0 : ∀ j, w.level.get j = 0) : ∀ j, w'.level.get j = 0 := by
  induction cnt generalizing i a w with
  | zero => cases h; exact h0
  | succ cnt ih =>
    unfold firstLoop at h
    simp only [Option.bind_eq_bind] at h
    obtain ⟨r, h1, h2⟩ := Option.bind_eq_some_iff.mp h
    refine ih _ _ _ h2 ?_
    unfold firstTurn at h1
    simp only [Option.bind_eq_bind] at h1
    obtain ⟨b1, -, h1⟩ := Option.bind_eq_some_iff.mp h1
    obtain ⟨nd, -, h1⟩ := Option.bind_eq_some_iff.mp h1
    obtain ⟨lv, hlv, h1⟩ := Option.bind_eq_some_iff.mp h1
    obtain ⟨x1, -, h1⟩ := Option.bind_eq_some_iff.mp h1
    obtain ⟨x2, -, h1⟩ := Option.bind_eq_some_iff.mp h1
    obtain ⟨x3, -, h1⟩ := Option.bind_eq_some_iff.mp h1
    obtain ⟨x4, -, h1⟩ := Option.bind_eq_some_iff.mp h1
    obtain ⟨x5, -, h1⟩ := Option.bind_eq_some_iff.mp h1
    simp only [Option.pure_def, Option.some.injEq] at h1
    rw [← h1]
    intro j
    simp only
    unfold Buf.wr at hlv
    split_ifs at hlv
    rw [← Option.some.inj hlv]
    simp only [Function.update_apply, h0]
    split_ifs <;> rfl

/-- C187: in every state the integrator with break points goes through, the panel with level `k` is one of the
`2 ^ k` equal parts of one of the initial panels, whose ends are neighbours in the sorted list of limits and
break points: the level counts the bisections that made the panel. -/
theorem levels_count_bisections (M : Mach) (f : ℝ → ℝ) (p : Args) (l : List ℝ) (v : Buf ℝ) (g : Prepared) (q : PSt)
    (c : Ctl) (h : VisitedP M f p l v g q c) (i : ℕ) (h1 : 1 ≤ i) (h2 : i ≤ q.s.last) :
    ∃ j m : ℕ, (1 ≤ j ∧ j ≤ l.length + 1) ∧ m < 2 ^ q.level.get i ∧
      q.s.P.alist.get i = v.get j + m * ((v.get (j + 1) - v.get j) / 2 ^ q.level.get i) ∧
      q.s.P.blist.get i = v.get j + (m + 1) * ((v.get (j + 1) - v.get j) / 2 ^ q.level.get i) := by
  have key : LevelsOk (l.length + 1) v.get q := by
    clear h1 h2 i
    induction h with
    | start q h1 h2 h3 h4 h5 =>
      obtain ⟨hp1, hp2⟩ := partition_spec p.a p.b l
      have hall : ∀ x ∈ l, min p.a p.b ≤ x ∧ x ≤ max p.a p.b := by
        by_contra hc
        push Not at hc
        obtain ⟨x, hx, hx'⟩ := hc
        have := hp1 ⟨x, hx, by
          by_cases hlo : x < min p.a p.b
          · exact Or.inl hlo
          · exact Or.inr (hx' (not_lt.mp hlo))⟩
        rw [h1] at this
        simp at this
      obtain ⟨v', hv', hlen, -⟩ := hp2 hall
      rw [h1] at hv'
      cases hv'
      obtain ⟨g', cc, hg, -, -, -, hP, -⟩ := prepare_spec M f p l.length v (by omega) hlen
      rw [h3] at hg
      cases hg
      have hlev : ∀ j, g.w.level.get j = 0 := by
        unfold prepare at h3
        simp only [Option.bind_eq_bind] at h3
        obtain ⟨a1, -, h3⟩ := Option.bind_eq_some_iff.mp h3
        obtain ⟨w, hw, h3⟩ := Option.bind_eq_some_iff.mp h3
        obtain ⟨e, -, h3⟩ := Option.bind_eq_some_iff.mp h3
        obtain ⟨io, -, h3⟩ := Option.bind_eq_some_iff.mp h3
        simp only [Option.pure_def, Option.some.injEq] at h3
        rw [← h3]
        exact firstLoop_levels M f v _ _ _ _ _ hw (fun _ => rfl)
      unfold initP at h5
      simp only [Option.bind_eq_bind] at h5
      obtain ⟨tab, -, h5⟩ := Option.bind_eq_some_iff.mp h5
      obtain ⟨m, -, h5⟩ := Option.bind_eq_some_iff.mp h5
      obtain ⟨e, -, h5⟩ := Option.bind_eq_some_iff.mp h5
      simp only [Option.pure_def, Option.some.injEq] at h5
      subst h5
      intro i i1 i2
      simp only at i2 ⊢
      obtain ⟨b1, b2, -⟩ := hP.ends i i1 i2
      rw [hlev, b1, b2]
      exact ⟨i, 0, ⟨i1, i2⟩, by simp, by simp, by simp⟩
    | turn q t c hv hs ih =>
      exact stepP_levels M f { p with a := min p.a p.b, b := max p.a p.b } _ q t c _ _ (hv.ends.1.next rfl) hs ih
  exact key i h1 h2

/-- The second quarter of `[1, 2]` is a panel of level 2 of the partition `0, 1, 2`. -/
example : DyadicPart 2 (fun i => (i : ℝ) - 1) 2 1.25 1.5 :=
  ⟨2, 1, by norm_num, by norm_num, by norm_num, by norm_num⟩

/-! ## Reversed limits -/

theorem partition_swap (a b : ℝ) (l : List ℝ) : partition b a l = partition a b l := by
  unfold partition rawPts
  rw [min_comm, max_comm]

theorem runP_neg (M : Mach) (f : ℝ → ℝ) (p : Args) (n : ℕ) (s : ℝ) (v : Buf ℝ) :
    runP M f p n (-s) v = (runP M f p n s v).map (fun o => { o with value := -o.value }) := by
  unfold runP
  simp only [Option.bind_eq_bind]
  rcases prepare M f p n v with _ | g
  · rfl
  simp only [Option.bind_some]
  by_cases h : stopsAtOnceP M p n g.w
  · simp [if_pos h]
  · rw [if_neg h, if_neg h]
    rcases initP M p n g with _ | q
    · rfl
    simp only [Option.bind_some]
    rcases mainLoopP M f p (p.limit - (n + 1)) q with _ | r
    · rfl
    simp only [Option.bind_some]
    unfold finishP
    simp only [Option.bind_eq_bind]
    generalize (if r.2 = true then _ else _ : Bool × ℝ × ℕ) = x
    rcases settle r.1.s x.1 x.2.1 with _ | out
    · rfl
    simp only [Option.bind_some]
    rcases csub r.1.s.last (n + 1) with _ | turns
    · rfl
    simp

/-- C126: the routine with break points called directly with exchanged limits negates the value and changes
nothing else. -/
theorem points_reversed (M : Mach) (f : ℝ → ℝ) (p : Args) (l : List ℝ) (hab : p.a ≠ p.b) :
    qagpe M f { p with a := p.b, b := p.a } l =
      (qagpe M f p l).map (fun e => e.map (fun o => { o with value := -o.value })) := by
  unfold qagpe
  simp only
  by_cases h1 : p.limit ≤ l.length
  · simp [if_pos h1, Except.map]
  rw [if_neg h1, if_neg h1]
  have hu : unachievable M { p with a := p.b, b := p.a } = unachievable M p := rfl
  rw [hu]
  by_cases h2 : unachievable M p
  · simp [if_pos h2, Except.map]
  rw [if_neg h2, if_neg h2, partition_swap]
  rcases partition p.a p.b l with _ | r
  · rfl
  rcases r with e | v
  · rfl
  simp only [Option.bind_eq_bind, Option.bind_some]
  rw [runP_ends]
  have hs : (if p.b > p.a then (-1 : ℝ) else 1) = -(if p.a > p.b then (-1 : ℝ) else 1) := by
    rcases lt_or_gt_of_ne hab with h | h
    · rw [if_pos h, if_neg (not_lt.mpr h.le)]
    · rw [if_neg (not_lt.mpr h.le), if_pos h]; norm_num
  rw [hs, runP_neg]
  rcases runP M f p l.length (if p.a > p.b then (-1 : ℝ) else 1) v with _ | o <;> rfl

/-- The integral of any `f` from 3 to 1 with a break point at 2 is minus that from 1 to 3. -/
example (M : Mach) (f : ℝ → ℝ) (p : Args) (h1 : p.a = 1) (h3 : p.b = 3) (o : Outcome)
    (h : qagpe M f p [2] = some (.ok o)) :
    qagpe M f { p with a := 3, b := 1 } [2] = some (.ok { o with value := -o.value }) := by
  have := points_reversed M f p [2] (by rw [h1, h3]; norm_num)
  rw [h, h1, h3] at this
  exact this

end Hazma.Quad
