import Verif.Lemmas.QuadPointsLoop
import Verif.Props.Quad

/-!
# C123–C126: break points and the driver
-/

namespace Hazma.Quad

open Finset

/-! ## Initialisation -/

theorem prepare_spec (M : Mach) (f : ℝ → ℝ) (p : Args) (npts : ℕ) (pts : Buf ℝ) (hlim : npts < p.limit)
    (hlen : pts.len = npts + 3) :
    ∃ g c, prepare M f p npts pts = some g ∧ c = workspaceLen p.limit (npts + 1) ∧ npts + 3 ≤ c ∧
      c ≤ p.limit + 2 ∧ Pass M f pts c (npts + 1) g.w ∧ g.elist.len = c ∧ g.iord.len = c ∧
      g.errsum = ∑ i ∈ Icc 1 (npts + 1), g.elist.get i ∧
      (∀ i, 1 ≤ i → i ≤ npts + 1 → g.elist.get i = if g.w.ndin.get i = true then g.w.abserr
        else g.w.P.elist.get i) ∧
      Listed g.elist.get g.iord.get (npts + 1) (npts + 1) := by
  obtain ⟨c, hc⟩ : ∃ c, c = workspaceLen p.limit (npts + 1) := ⟨_, rfl⟩
  have hc3 : npts + 3 ≤ c ∧ c ≤ p.limit + 2 := by rw [hc]; unfold workspaceLen; omega
  obtain ⟨w, w1, w2, w3⟩ := firstLoop_spec M f pts c (npts + 1) (npts + 1) 0 _ (emptyPass_spec M f pts c npts)
    (by omega) (by omega) (by simp [emptyPass, Buf.new]) (by omega)
  have hnd : w.ndin.len = npts + 3 := w3
  obtain ⟨l1, l2, l3, l4, l5, l6⟩ := w2.lens
  obtain ⟨e, e1, e2, e3⟩ := inflate_spec w.ndin w.abserr (npts + 1) (npts + 1) 1 w.P.elist 0 (le_refl _)
    (by omega) (by omega) (by omega)
  have hsel : Sel e (npts + 1) 1 w.iord := by
    refine ⟨?_, ?_, fun u v h1 h2 => by omega⟩
    · intro j h1 h2; rw [(w2.ends j h1 h2).2.2.2.2.1]; omega
    · intro u v h1 h2 h3
      rw [(w2.ends u h1 (by omega)).2.2.2.2.1, (w2.ends v (by omega) h3).2.2.2.2.1]; omega
  obtain ⟨io, i1, i2, i3⟩ := selectLoop_spec e (npts + 1) npts 1 w.iord (le_refl _) (by omega) (by omega)
    (by omega) hsel
  refine ⟨⟨w, e, 0 + ∑ i ∈ Icc 1 (npts + 1), e.get i, io⟩, c, ?_, hc, hc3.1, hc3.2, w2, by simp only; omega, by simp only; omega, ?_, ?_, i3⟩
  · unfold prepare
    rw [Option.bind_eq_bind, Buf.rd_of_lt (by omega), Option.bind_some, Option.bind_eq_bind, ← hc, w1,
      Option.bind_some, Option.bind_eq_bind, e1, Option.bind_some, Option.bind_eq_bind, i1, Option.bind_some]
    rfl
  · simp only [zero_add]
  · intro i h1 h2
    simp only
    rw [e3]
    by_cases hf : w.ndin.get i = true
    · rw [if_pos ⟨h1, h2, hf⟩, if_pos hf]
    · rw [if_neg (fun h => hf h.2.2), if_neg hf]

theorem tele (F : ℝ → ℝ) (v : ℕ → ℝ) (n : ℕ) :
    ∑ i ∈ Icc 1 n, (F (v (i + 1)) - F (v i)) = F (v (n + 1)) - F (v 1) := by
  induction n with
  | zero => simp
  | succ n ih => rw [Finset.sum_Icc_succ_top (by omega), ih]; ring

theorem initP_spec (M : Mach) (f : ℝ → ℝ) (p : Args) (npts : ℕ) (pts : Buf ℝ) (hlim : npts < p.limit)
    (hlen : pts.len = npts + 3) (ha : pts.get 1 = p.a) (hb : pts.get (npts + 2) = p.b) :
    ∃ g q, prepare M f p npts pts = some g ∧ initP M p npts g = some q ∧
      Core M f p (.pieces M f (npts + 1) pts.get g.w.abserr) q.s ∧ q.s.last = npts + 1 ∧
      g.w.trace = q.s.trace ∧ q.s.ier = 0 ∧
      (q.s.abserr = M.oflow ∧ q.s.area = g.w.result ∧ (npts = 0 → q.s.errsum = g.w.abserr)) ∧
      g.w.result = ∑ i ∈ Icc 1 (npts + 1), (qk21 M f (pts.get i) (pts.get (i + 1))).result ∧
      g.w.abserr = ∑ i ∈ Icc 1 (npts + 1), (qk21 M f (pts.get i) (pts.get (i + 1))).abserr ∧
      g.w.resabs = ∑ i ∈ Icc 1 (npts + 1), (qk21 M f (pts.get i) (pts.get (i + 1))).resabs ∧
      (npts + 1 < p.limit → HeadP M f p (.pieces M f (npts + 1) pts.get g.w.abserr) q) := by
  obtain ⟨g, c, hg, hc, hc1, hc2, hP, hel, hil, hsum, hele, hL⟩ := prepare_spec M f p npts pts hlim hlen
  obtain ⟨l1, l2, l3, l4, l5, l6⟩ := hP.lens
  have hr1 := hL.range 1 (le_refl _) (by omega)
  have hk : kept p.limit (npts + 1) ≤ npts + 1 := kept_le _ _ (by omega)
  have hk1 : 1 ≤ kept p.limit (npts + 1) := by unfold kept; split_ifs <;> omega
  have hsk := sure_le_kept p.limit (npts + 1)
  have hLk : Listed g.elist.get g.iord.get (kept p.limit (npts + 1)) (npts + 1) :=
    ⟨fun j h1 h2 => hL.range j h1 (by omega), fun i j h1 h2 h3 => hL.inj i j h1 h2 (by omega),
      fun i j h1 h2 h3 => hL.sorted i j h1 h2 (by omega)⟩
  have hTk : Top g.elist.get g.iord.get (sure p.limit (npts + 1)) (npts + 1) := by
    intro q h1 h2 h3 i h4 h5
    obtain ⟨j, j1, j2, j3⟩ := hL.surj q h1 h2
    rw [← j3]
    refine hL.sorted i j h4 ?_ j2
    by_contra hlt
    exact h3 j j1 (by omega) j3
  have hini : initP M p npts g = some ⟨{
      cap := c, P := { g.w.P with elist := g.elist }, iord := g.iord
      last := npts + 1, maxerr := g.iord.get 1, errmax := g.elist.get (g.iord.get 1), nrmax := 1
      area := g.w.result, errsum := g.errsum
      errbnd := max p.epsabs (p.epsrel * |g.w.result|), result := g.w.result, abserr := M.oflow
      elg := ⟨1, ⟨53, Function.update (fun _ => 0) 1 g.w.result⟩, Buf.new 4 0, 0⟩, ktmin := 0
      extrap := false, noext := false, iroff1 := 0
      iroff2 := 0, iroff3 := 0, ier := 0, ierro := 0, small := 0, erlarg := g.errsum
      ertest := max p.epsabs (p.epsrel * |g.w.result|), correc := 0, trace := g.w.trace },
      g.w.level, 1⟩ := by
    unfold initP
    rw [Option.bind_eq_bind, Buf.wr_of_lt (by simp [Buf.new]), Option.bind_some, Option.bind_eq_bind,
      Buf.rd_of_lt (by omega), Option.bind_some, Option.bind_eq_bind, Buf.rd_of_lt (by omega),
      Option.bind_some, ← hc]
    rfl
  have hcore : Core M f p (.pieces M f (npts + 1) pts.get g.w.abserr) {
      cap := c, P := { g.w.P with elist := g.elist }, iord := g.iord
      last := npts + 1, maxerr := g.iord.get 1, errmax := g.elist.get (g.iord.get 1), nrmax := 1
      area := g.w.result, errsum := g.errsum
      errbnd := max p.epsabs (p.epsrel * |g.w.result|), result := g.w.result, abserr := M.oflow
      elg := ⟨1, ⟨53, Function.update (fun _ => 0) 1 g.w.result⟩, Buf.new 4 0, 0⟩, ktmin := 0
      extrap := false, noext := false, iroff1 := 0
      iroff2 := 0, iroff3 := 0, ier := 0, ierro := 0, small := 0, erlarg := g.errsum
      ertest := max p.epsabs (p.epsrel * |g.w.result|), correc := 0, trace := g.w.trace } := by
    constructor
    · simp
    · simp [Ctx.pieces]
    · simp only; omega
    · simp only; omega
    · exact ⟨l1, l2, l3, hel, hil⟩
    · intro F
      simp only
      rw [← ha, ← hb, ← tele F pts.get (npts + 1)]
      refine Finset.sum_congr rfl ?_
      intro i hi
      simp only [mem_Icc] at hi
      rw [(hP.ends i hi.1 hi.2).1, (hP.ends i hi.1 hi.2).2.1]
    · intro i h1 h2
      simp only at h2 ⊢
      obtain ⟨a1, a2, a3, a4, -, a6⟩ := hP.ends i h1 h2
      rw [a1, a2]
      refine ⟨a3, ?_⟩
      rw [hele i h1 h2]
      split_ifs with hf
      · right
        have := a6.mp hf
        exact ⟨rfl, ⟨i, h1, h2, rfl, rfl⟩, this⟩
      · left; exact a4
    · simp only
      rw [hP.result]
      refine Finset.sum_congr rfl ?_
      intro i hi
      simp only [mem_Icc] at hi
      exact (hP.ends i hi.1 hi.2).2.2.1.symm
    · exact hsum
    · intro hgood i h1 h2
      simp only at h2 ⊢
      obtain ⟨a1, a2, -⟩ := hP.ends i h1 h2
      rw [a1, a2]
      exact ⟨_, _, ⟨i, h1, h2, rfl, rfl⟩, le_refl _, hgood i h1 h2, le_refl _⟩
    · simp only [hP.evals, Ctx.pieces]; omega
    · intro hgood x hx
      obtain ⟨i, h1, h2, h3⟩ := hP.pts x hx
      exact ⟨_, _, ⟨i, h1, h2, rfl, rfl⟩, kronrod_inside _ rule21_good M f _ _ (hgood i h1 h2) x h3⟩
    · exact hLk
    · exact hTk
  refine ⟨g, _, hg, hini, hcore, rfl, rfl, rfl, ⟨rfl, rfl, ?_⟩, hP.result, hP.abserr, hP.resabs, fun hlt => ?_⟩
  · intro h0
    subst h0
    simp only
    rw [hsum, hP.abserr]
    simp only [zero_add, Icc_self, sum_singleton]
    rw [hele 1 (le_refl _) (le_refl _), (hP.ends 1 (le_refl _) (le_refl _)).2.2.2.1, hP.abserr]
    simp
  exact ⟨⟨hcore, hlt, ⟨le_refl _, hk1⟩, rfl, rfl⟩, by simp only; omega, fun _ => rfl, fun _ => rfl,
    by simp [Ctx.pieces]; omega, by simp [Buf.new], le_refl _, rfl⟩

/-! ## The result -/

theorem finishP_core (M : Mach) (f : ℝ → ℝ) (p : Args) (k : Ctx) (ksgn : Bool) (d sign : ℝ) (n : ℕ) (s : St)
    (b : Bool) (hc : Core M f p k s) (hn : k.n0 = n) :
    ∃ o, finishP M ksgn d sign n s b = some o ∧ o.last = s.last ∧ o.neval + 21 * n = 42 * s.last ∧
      o.trace = s.trace := by
  have hlen := hc.lens
  have hcap := hc.cap
  have hm := hc.more
  have hsum : sumList s.P.rlist s.last 1 0 = some s.area := by
    rw [sumList_eq _ _ _ _ (by omega), zero_add, hc.area]
    congr 2; ext i; simp; omega
  have hset : ∀ x y, ∃ r, settle s x y = some r := by
    intro x y
    unfold settle
    rw [hsum]
    split_ifs
    · exact ⟨_, rfl⟩
    · exact ⟨_, rfl⟩
  unfold finishP
  simp only
  obtain ⟨r, hr⟩ := hset (if b = true then (true, s.abserr, s.ier) else label100 M ksgn d s).1
    (if b = true then (true, s.abserr, s.ier) else label100 M ksgn d s).2.1
  rw [Option.bind_eq_bind, hr, Option.bind_some, Option.bind_eq_bind, csub_of_le (by omega), Option.bind_some]
  exact ⟨_, rfl, rfl, by simp only; omega, rfl⟩

theorem label100_zero (M : Mach) (ksgn : Bool) (d : ℝ) (s : St) (hz : (label100 M ksgn d s).2.2 = 0) :
    s.ier = 0 ∧ (s.abserr < M.oflow →
      (label100 M ksgn d s).1 = false ∧ (label100 M ksgn d s).2.1 = s.abserr) := by
  by_cases c0 : s.abserr = M.oflow
  · unfold label100 at hz
    simp only [c0, if_true] at hz
    exact ⟨hz, fun h => absurd h (by rw [c0]; exact lt_irrefl _)⟩
  by_cases c1 : s.ier + s.ierro = 0
  · unfold label100
    simp only [c0, if_false, c1, if_true]
    exact ⟨by omega, fun _ => ⟨trivial, trivial⟩⟩
  exfalso
  unfold label100 at hz
  simp only [c0, if_false, c1] at hz
  split_ifs at hz <;> simp only at hz <;> omega

theorem finishP_tol (M : Mach) (f : ℝ → ℝ) (p : Args) (k : Ctx) (ksgn : Bool) (d sign : ℝ) (n : ℕ) (q : PSt)
    (b : Bool) (h : EndsP M f p k q (if b then .to115 else .to100)) (hs : |sign| = 1) (o : Outcome)
    (ho : finishP M ksgn d sign n q.s b = some o) (hz : o.ier = 0) :
    o.abserr ≤ max p.epsabs (p.epsrel * |o.value|) := by
  obtain ⟨s, level, levmax⟩ := q
  have hc := h.core
  simp only at hc ho
  have hlen := hc.lens
  have hcap := hc.cap
  have hsum : sumList s.P.rlist s.last 1 0 = some s.area := by
    rw [sumList_eq _ _ _ _ (by omega), zero_add, hc.area]
    congr 2; ext i; simp; omega
  unfold finishP at ho
  cases b with
  | true =>
    have h115 := h.to115 rfl
    have hset : settle s true s.abserr = some (s.area, s.errsum) := by
      unfold settle; rw [if_pos rfl, hsum]; rfl
    simp only [if_true] at ho
    rw [hset, Option.bind_eq_bind, Option.bind_some] at ho
    cases ht : csub s.last n with
    | none => rw [ht] at ho; simp at ho
    | some m =>
      rw [ht] at ho
      simp only [Option.bind_eq_bind, Option.bind_some, Option.pure_def, Option.some.injEq] at ho
      subst ho
      simp only [abs_mul, hs, mul_one]
      exact h115
  | false =>
    have h100 := h.to100 rfl
    simp only [Bool.false_eq_true, if_false] at ho
    simp only at h100
    have key := label100_zero M ksgn d s
    generalize label100 M ksgn d s = r at key ho
    cases ht : csub s.last n with
    | none =>
      rw [ht] at ho
      cases hset : settle s r.1 r.2.1 with
      | none => rw [hset] at ho; simp at ho
      | some x => rw [hset] at ho; simp at ho
    | some m =>
      rw [ht] at ho
      cases hset : settle s r.1 r.2.1 with
      | none => rw [hset] at ho; simp at ho
      | some x =>
        rw [hset] at ho
        simp only [Option.bind_eq_bind, Option.bind_some, Option.pure_def, Option.some.injEq] at ho
        subst ho
        simp only at hz
        obtain ⟨k1, k2⟩ := key (by split_ifs at hz <;> omega)
        rcases h100 with h' | ⟨h1, h2⟩
        · exact absurd k1 h'
        · obtain ⟨k3, k4⟩ := k2 h1
          rw [k3, k4] at hset
          simp only [settle, Bool.false_eq_true, if_false, Option.some.injEq] at hset
          subst hset
          simp only [abs_mul, hs, mul_one]
          exact h2

theorem stepP_ends (M : Mach) (f : ℝ → ℝ) (p : Args) (a b : ℝ) (q : PSt) :
    stepP M f { p with a := a, b := b } q = stepP M f p q := rfl

theorem mainLoopP_ends (M : Mach) (f : ℝ → ℝ) (p : Args) (a b : ℝ) (n : ℕ) (q : PSt) :
    mainLoopP M f { p with a := a, b := b } n q = mainLoopP M f p n q := by
  induction n generalizing q with
  | zero => rfl
  | succ n ih =>
    unfold mainLoopP
    rw [stepP_ends]
    simp only [ih]

/-- After the partition the limits are no longer used. -/
theorem runP_ends (M : Mach) (f : ℝ → ℝ) (p : Args) (a b : ℝ) (npts : ℕ) (sign : ℝ) (pts : Buf ℝ) :
    runP M f { p with a := a, b := b } npts sign pts = runP M f p npts sign pts := by
  unfold runP
  simp only [mainLoopP_ends]
  rfl

theorem runP_spec (M : Mach) (f : ℝ → ℝ) (p : Args) (npts : ℕ) (sign : ℝ) (pts : Buf ℝ) (hlim : npts < p.limit)
    (hlen : pts.len = npts + 3) (ha : pts.get 1 = p.a) (hb : pts.get (npts + 2) = p.b) (hs : |sign| = 1) :
    (runP M f p npts sign pts = none → npts + 52 ≤ p.limit) ∧
    ∀ o, runP M f p npts sign pts = some o →
      (npts + 1 ≤ o.last ∧ o.last ≤ p.limit) ∧ o.neval = 42 * o.last - 21 * (npts + 1) ∧
      o.trace.length = o.neval ∧
      ((∀ i, 1 ≤ i → i ≤ npts + 1 → pts.get i < pts.get (i + 1)) → ∀ x ∈ o.trace,
        ∃ i, 1 ≤ i ∧ i ≤ npts + 1 ∧ pts.get i < x ∧ x < pts.get (i + 1)) ∧
      (o.ier = 0 → (npts = 0 ∧ p.limit = 1) ∨ o.abserr ≤ max p.epsabs (p.epsrel * |o.value|)) := by
  obtain ⟨g, q, hg, hq, hcore, hlast, htr, hier, -, -, -, -, hhead⟩ := initP_spec M f p npts pts hlim hlen ha hb
  have cells : ∀ s : St, Core M f p (.pieces M f (npts + 1) pts.get g.w.abserr) s →
      (∀ i, 1 ≤ i → i ≤ npts + 1 → pts.get i < pts.get (i + 1)) → ∀ x ∈ s.trace,
        ∃ i, 1 ≤ i ∧ i ≤ npts + 1 ∧ pts.get i < x ∧ x < pts.get (i + 1) := by
    intro s hs hgood x hx
    obtain ⟨u, v, ⟨i, i1, i2, rfl, rfl⟩, i5⟩ := hs.pts hgood x hx
    exact ⟨i, i1, i2, i5⟩
  unfold runP
  rw [Option.bind_eq_bind, hg, Option.bind_some]
  simp only
  by_cases hstop : stopsAtOnceP M p npts g.w
  · rw [if_pos hstop]
    refine ⟨fun h => by simp at h, ?_⟩
    intro o ho
    simp only [Option.pure_def, Option.some.injEq] at ho
    subst ho
    have hev := hcore.evals
    rw [hlast, ← htr] at hev
    simp only [Ctx.pieces] at hev
    refine ⟨⟨le_refl _, by simp only; omega⟩, by simp only; omega, by simp only; omega, ?_, ?_⟩
    · simp only [htr]; exact cells _ hcore
    · intro hz
      right
      simp only at hz
      simp only [abs_mul, hs, mul_one]
      rcases hstop with h | h
      · exfalso; split_ifs at hz <;> omega
      · exact h
  · rw [if_neg hstop, Option.bind_eq_bind, hq, Option.bind_some]
    by_cases hlt : npts + 1 < p.limit
    · have hm := mainLoopP_spec M f p _ (p.limit - (npts + 1)) q (hhead hlt) (by omega)
      cases hr : mainLoopP M f p (p.limit - (npts + 1)) q with
      | none => exact ⟨fun _ => by have := hm.1 hr; simp only [Ctx.pieces] at this; omega, by simp⟩
      | some r =>
        obtain ⟨t, b⟩ := r
        have hE := hm.2 t b hr
        rw [Option.bind_eq_bind, Option.bind_some]
        obtain ⟨o, o1, o2, o3, o4⟩ := finishP_core M f p _
          (decide (|g.w.result| ≥ (1 - 50 * M.eps) * g.w.resabs)) g.w.resabs sign (npts + 1) t.s b hE.core rfl
        simp only
        rw [o1]
        refine ⟨by simp, ?_⟩
        intro o' ho'
        simp only [Option.some.injEq] at ho'
        subst ho'
        have h1 := hE.core.more
        have h2 := hE.core.le
        have h3 := hE.core.evals
        simp only [Ctx.pieces] at h1 h3
        refine ⟨by omega, by omega, by rw [o4]; omega, by rw [o4]; exact cells _ hE.core, fun hz => Or.inr ?_⟩
        exact finishP_tol M f p _ _ _ sign (npts + 1) t b hE hs o o1 hz
    · have hn : npts = 0 := by
        by_contra hne
        apply hstop
        left
        unfold firstIerP
        simp only
        rw [if_pos (by omega)]
        omega
      have hl1 : p.limit = 1 := by omega
      rw [show p.limit - (npts + 1) = 0 by omega]
      unfold mainLoopP
      rw [Option.bind_eq_bind, Option.bind_some]
      obtain ⟨o, o1, o2, o3, o4⟩ := finishP_core M f p _
        (decide (|g.w.result| ≥ (1 - 50 * M.eps) * g.w.resabs)) g.w.resabs sign (npts + 1) q.s false hcore rfl
      simp only
      rw [o1]
      refine ⟨by simp, ?_⟩
      intro o' ho'
      simp only [Option.some.injEq] at ho'
      subst ho'
      have h1 := hcore.more
      have h2 := hcore.le
      have h3 := hcore.evals
      simp only [Ctx.pieces] at h1 h3
      exact ⟨by omega, by omega, by rw [o4]; omega, by rw [o4]; exact cells _ hcore, fun hz => Or.inl ⟨hn, hl1⟩⟩

/-- The break points are usable: inside the closed range. -/
theorem qagpe_cases (M : Mach) (f : ℝ → ℝ) (p : Args) (l : List ℝ) :
    (p.limit ≤ l.length ∧ qagpe M f p l = some (.error (.limitTooSmall p.limit l.length))) ∨
    (l.length < p.limit ∧ unachievable M p ∧ qagpe M f p l = some (.error .toleranceUnachievable)) ∨
    (l.length < p.limit ∧ ¬ unachievable M p ∧ (∃ x ∈ l, x < min p.a p.b ∨ max p.a p.b < x) ∧
      qagpe M f p l = some (.error .breakpointOutside)) ∨
    (l.length < p.limit ∧ ¬ unachievable M p ∧ (∀ x ∈ l, min p.a p.b ≤ x ∧ x ≤ max p.a p.b) ∧
      ∃ v, partition p.a p.b l = some (.ok v) ∧
      qagpe M f p l = (runP M f p l.length (if p.a > p.b then -1 else 1) v).map .ok) := by
  obtain ⟨hp1, hp2⟩ := partition_spec p.a p.b l
  unfold qagpe
  by_cases h1 : p.limit ≤ l.length
  · left; exact ⟨h1, by rw [if_pos h1]⟩
  rw [if_neg h1]
  by_cases h2 : unachievable M p
  · right; left; exact ⟨by omega, h2, by rw [if_pos h2]⟩
  rw [if_neg h2]
  right; right
  by_cases h3 : ∃ x ∈ l, x < min p.a p.b ∨ max p.a p.b < x
  · left
    refine ⟨by omega, h2, h3, ?_⟩
    rw [Option.bind_eq_bind, hp1 h3, Option.bind_some]
    rfl
  · right
    push Not at h3
    obtain ⟨v, hv, -⟩ := hp2 h3
    refine ⟨by omega, h2, h3, v, hv, ?_⟩
    rw [Option.bind_eq_bind, hv, Option.bind_some]
    simp only
    cases runP M f p l.length (if p.a > p.b then -1 else 1) v <;> rfl

/-- What `qagpe` returns. -/
theorem qagpe_ok (M : Mach) (f : ℝ → ℝ) (p : Args) (l : List ℝ) :
    (qagpe M f p l = none → l.length + 52 ≤ p.limit) ∧
    ∀ o, qagpe M f p l = some (.ok o) →
      (l.length + 1 ≤ o.last ∧ o.last ≤ p.limit) ∧ o.neval = 42 * o.last - 21 * (l.length + 1) ∧
      o.trace.length = o.neval ∧
      (p.a ≠ p.b → l.Nodup → (∀ x ∈ l, min p.a p.b < x ∧ x < max p.a p.b) → ∀ x ∈ o.trace,
        min p.a p.b < x ∧ x < max p.a p.b ∧ x ∉ l) ∧
      (o.ier = 0 → (l = [] ∧ p.limit = 1) ∨ o.abserr ≤ max p.epsabs (p.epsrel * |o.value|)) := by
  rcases qagpe_cases M f p l with ⟨-, h⟩ | ⟨-, -, h⟩ | ⟨-, -, -, h⟩ | ⟨hlim, hun, hall, v, hv, h⟩
  · rw [h]; simp
  · rw [h]; simp
  · rw [h]; simp
  rw [h]
  obtain ⟨v', hv', hlen, ha, hb, hso, hmem, hval, hgood⟩ := (partition_spec p.a p.b l).2 hall
  rw [hv] at hv'
  simp only [Option.some.injEq, Except.ok.injEq] at hv'
  subst hv'
  have hs : |(if p.a > p.b then -1 else 1 : ℝ)| = 1 := by split_ifs <;> simp
  obtain ⟨r1, r2⟩ := runP_spec M f { p with a := min p.a p.b, b := max p.a p.b } l.length
    (if p.a > p.b then -1 else 1) v hlim hlen ha hb hs
  have hsame : runP M f { p with a := min p.a p.b, b := max p.a p.b } l.length
    (if p.a > p.b then -1 else 1) v = runP M f p l.length (if p.a > p.b then -1 else 1) v :=
    runP_ends M f p _ _ _ _ _
  rw [hsame] at r1 r2
  constructor
  · intro hn
    exact r1 (by simpa using hn)
  · intro o ho
    obtain ⟨o', ho', hoo⟩ := Option.map_eq_some_iff.mp ho
    simp only [Except.ok.injEq] at hoo
    subst hoo
    obtain ⟨a1, a2, a3, a4, a5⟩ := r2 o' ho'
    refine ⟨a1, a2, a3, ?_, ?_⟩
    · intro hab hnd hint x hx
      obtain ⟨i, i1, i2, i3, i4⟩ := a4 (hgood hab hnd hint) x hx
      refine ⟨?_, ?_, ?_⟩
      · rw [← ha]; exact lt_of_le_of_lt (hso 1 i (le_refl _) i1 (by omega)) i3
      · rw [← hb]; exact lt_of_lt_of_le i4 (hso (i + 1) _ (by omega) (by omega) (le_refl _))
      · intro hxl
        obtain ⟨j, j1, j2, rfl⟩ := hmem x hxl
        rcases Nat.lt_or_ge i j with hij | hij
        · have := hso (i + 1) j (by omega) (by omega) j2; linarith
        · have := hso j i j1 hij (by omega); linarith
    · intro hz
      rcases a5 hz with ⟨h0, h1⟩ | h'
      · exact Or.inl ⟨List.length_eq_zero_iff.mp h0, h1⟩
      · exact Or.inr h'

/-! ## The states in between -/

/-- The states `qagpe` goes through, from a partition `v` of the range by `npts` points. -/
inductive VisitedP (M : Mach) (f : ℝ → ℝ) (p : Args) (l : List ℝ) (v : Buf ℝ) (g : Prepared) : PSt → Ctl → Prop
  | start (q : PSt) : partition p.a p.b l = some (.ok v) → l.length + 1 < p.limit →
      prepare M f p l.length v = some g → ¬ stopsAtOnceP M p l.length g.w → initP M p l.length g = some q →
      VisitedP M f p l v g q .next
  | turn (q t : PSt) (c : Ctl) : VisitedP M f p l v g q .next → stepP M f p q = some (t, c) →
      VisitedP M f p l v g t c

theorem VisitedP.ends {M : Mach} {f : ℝ → ℝ} {p : Args} {l : List ℝ} {v : Buf ℝ} {g : Prepared} {q : PSt}
    {c : Ctl} (h : VisitedP M f p l v g q c) :
    EndsP M f { p with a := min p.a p.b, b := max p.a p.b } (.pieces M f (l.length + 1) v.get g.w.abserr) q c ∧
      partition p.a p.b l = some (.ok v) := by
  induction h with
  | start q h1 h2 h3 h4 h5 =>
    refine ⟨?_, h1⟩
    obtain ⟨hp1, hp2⟩ := partition_spec p.a p.b l
    have hall : ∀ x ∈ l, min p.a p.b ≤ x ∧ x ≤ max p.a p.b := by
      by_contra hc
      push Not at hc
      obtain ⟨x, hx, hx'⟩ := hc
      have := hp1 ⟨x, hx, by
        by_cases hlo : x < min p.a p.b
        · exact Or.inl hlo
        · exact Or.inr (hx' (not_lt.mp hlo))⟩
      rw [h1] at this
      simp at this
    obtain ⟨v', hv', hlen, ha, hb, -⟩ := hp2 hall
    rw [h1] at hv'
    simp only [Option.some.injEq, Except.ok.injEq] at hv'
    subst hv'
    obtain ⟨g', q', k1, k2, -, -, -, -, -, -, -, -, k7⟩ := initP_spec M f { p with a := min p.a p.b, b := max p.a p.b }
      l.length v (by simp only; omega) hlen ha hb
    have k1' : prepare M f p l.length v = some g' := k1
    rw [h3] at k1'
    cases k1'
    have k2' : initP M p l.length g = some q' := k2
    rw [h5] at k2'
    cases k2'
    have hh := k7 h2
    exact ⟨hh.ready.core, fun _ => hh, by simp, by simp⟩
  | turn q t c _ hs ih => exact ⟨((stepP_spec M f _ _ q (ih.1.next rfl)).2 t c hs).1, ih.2⟩

/-- C123: in every state the integrator with break points goes through: the panels tile the range, no panel
straddles a break point, each holds the value of the 21-point rule, the running total and error are the sums
over the panels, and no workspace index is out of range unless the limit exceeds the number of points by 52. -/
theorem points_invariants (M : Mach) (f : ℝ → ℝ) (p : Args) (l : List ℝ) (v : Buf ℝ) (g : Prepared) (q : PSt)
    (c : Ctl) (h : VisitedP M f p l v g q c) :
    (l.length + 1 ≤ q.s.last ∧ q.s.last ≤ p.limit) ∧
    (∀ F : ℝ → ℝ, ∑ i ∈ Icc 1 q.s.last, (F (q.s.P.blist.get i) - F (q.s.P.alist.get i)) =
      F (max p.a p.b) - F (min p.a p.b)) ∧
    (p.a ≠ p.b → l.Nodup → (∀ x ∈ l, min p.a p.b < x ∧ x < max p.a p.b) →
      (∀ x, min p.a p.b ≤ x ∧ x < max p.a p.b →
        ∃! i, (1 ≤ i ∧ i ≤ q.s.last) ∧ q.s.P.alist.get i ≤ x ∧ x < q.s.P.blist.get i) ∧
      ∀ i, 1 ≤ i → i ≤ q.s.last → q.s.P.alist.get i < q.s.P.blist.get i ∧
        ∀ x ∈ l, x ≤ q.s.P.alist.get i ∨ q.s.P.blist.get i ≤ x) ∧
    (∀ i, 1 ≤ i → i ≤ q.s.last →
      q.s.P.rlist.get i = (qk21 M f (q.s.P.alist.get i) (q.s.P.blist.get i)).result) ∧
    q.s.area = ∑ i ∈ Icc 1 q.s.last, q.s.P.rlist.get i ∧
    q.s.errsum = ∑ i ∈ Icc 1 q.s.last, q.s.P.elist.get i ∧
    (c = .next → stepP M f p q = none → l.length + 52 ≤ p.limit) := by
  obtain ⟨hE, hpart⟩ := h.ends
  have hc := hE.core
  have hm := hc.more
  simp only [Ctx.pieces] at hm
  refine ⟨⟨hm, hc.le⟩, hc.tile, ?_, fun i h1 h2 => (hc.rule i h1 h2).1, hc.area, hc.errsum, ?_⟩
  · intro hab hnd hint
    have hall : ∀ x ∈ l, min p.a p.b ≤ x ∧ x ≤ max p.a p.b := fun x hx => ⟨(hint x hx).1.le, (hint x hx).2.le⟩
    obtain ⟨v', hv', hlen, ha, hb, hso, hmem, hval, hgood⟩ := (partition_spec p.a p.b l).2 hall
    rw [hpart] at hv'
    simp only [Option.some.injEq, Except.ok.injEq] at hv'
    subst hv'
    have hin := hc.inside (hgood hab hnd hint)
    have hord : ∀ i, 1 ≤ i → i ≤ q.s.last → q.s.P.alist.get i < q.s.P.blist.get i := by
      intro i h1 h2
      obtain ⟨a, b, -, h3⟩ := hin i h1 h2
      exact h3.2.1
    refine ⟨fun x hx => tiles_of_telescope _ _ q.s.last _ _ hc.tile hord x hx, ?_⟩
    intro i h1 h2
    refine ⟨hord i h1 h2, ?_⟩
    intro x hx
    obtain ⟨a, b, ⟨k, k1, k2, rfl, rfl⟩, h3, -, h5⟩ := hin i h1 h2
    obtain ⟨j, j1, j2, rfl⟩ := hmem x hx
    rcases Nat.lt_or_ge k j with hkj | hkj
    · right; exact h5.trans (hso (k + 1) j (by omega) (by omega) j2)
    · left; exact (hso j k j1 hkj (by omega)).trans h3
  · intro hcn hn
    have := ((stepP_spec M f _ _ q (hE.next hcn)).1 hn).2
    simp only [Ctx.pieces] at this
    omega

/-- C123: with a limit of at most 51 plus the number of points nothing is out of range. -/
theorem points_no_panic_partial (M : Mach) (f : ℝ → ℝ) (p : Args) (l : List ℝ) (h : p.limit ≤ l.length + 51) :
    qagpe M f p l ≠ none := by
  intro hn
  have := (qagpe_ok M f p l).1 hn
  omega

/-- C124: the integrand is evaluated exactly `neval = 42 * last - 21 * (number of points + 1)` times, strictly
inside the range, and never at a break point. -/
theorem points_evaluations (M : Mach) (f : ℝ → ℝ) (p : Args) (l : List ℝ) (o : Outcome)
    (h : qagpe M f p l = some (.ok o)) :
    o.trace.length = o.neval ∧ o.neval = 42 * o.last - 21 * (l.length + 1) ∧
      l.length + 1 ≤ o.last ∧ o.last ≤ p.limit ∧
      (p.a ≠ p.b → l.Nodup → (∀ x ∈ l, min p.a p.b < x ∧ x < max p.a p.b) → ∀ x ∈ o.trace,
        min p.a p.b < x ∧ x < max p.a p.b ∧ x ∉ l) := by
  obtain ⟨h1, h2, h3, h4, -⟩ := (qagpe_ok M f p l).2 o h
  exact ⟨h3, h2, h1.1, h1.2, h4⟩

/-- C125, the part that holds: unless there are no points and the limit is one, success means that the error
estimate is within the requested tolerance.  Missing: that case (`points_false_success`). -/
theorem points_success_partial (M : Mach) (f : ℝ → ℝ) (p : Args) (l : List ℝ) (o : Outcome)
    (h : qagpe M f p l = some (.ok o)) (hz : o.ier = 0) (hne : l ≠ [] ∨ p.limit ≠ 1) :
    o.abserr ≤ max p.epsabs (p.epsrel * |o.value|) := by
  rcases ((qagpe_ok M f p l).2 o h).2.2.2.2 hz with ⟨h1, h2⟩ | h'
  · rcases hne with h3 | h3
    · exact absurd h1 h3
    · exact absurd h2 h3
  · exact h'

/-- What happens for one panel and a limit of one when the first rule does not reach the tolerance and its
error is not round-off: the first rule is returned, and success is reported. -/
theorem points_limit_one (M : Mach) (f : ℝ → ℝ) (p : Args) (hlim : p.limit = 1) (hab : p.a < p.b)
    (hu : ¬ unachievable M p)
    (htol : max p.epsabs (p.epsrel * |(qk21 M f p.a p.b).result|) < (qk21 M f p.a p.b).abserr)
    (hround : 100 * M.eps * (qk21 M f p.a p.b).resabs < (qk21 M f p.a p.b).abserr) :
    ∃ o, qagpe M f p [] = some (.ok o) ∧ o.ier = 0 ∧ o.value = (qk21 M f p.a p.b).result ∧
      o.abserr = (qk21 M f p.a p.b).abserr := by
  rcases qagpe_cases M f p [] with ⟨h, -⟩ | ⟨-, h, -⟩ | ⟨-, -, ⟨x, hx, -⟩, -⟩ | ⟨hl, -, hall, v, hv, h⟩
  · simp at h; omega
  · exact absurd h hu
  · simp at hx
  rw [h]
  obtain ⟨v', hv', hlen, ha, hb, -⟩ := (partition_spec p.a p.b []).2 hall
  rw [hv] at hv'
  simp only [Option.some.injEq, Except.ok.injEq] at hv'
  subst hv'
  simp only [List.length_nil, zero_add] at hlen ha hb
  rw [min_eq_left hab.le] at ha
  rw [max_eq_right hab.le] at hb
  obtain ⟨g, q, hg, hq, hcore, hlast, htr, hier, ⟨b1, b2, b3⟩, c1, c2, c3, -⟩ :=
    initP_spec M f p 0 v (by omega) hlen ha hb
  simp only [zero_add, Icc_self, sum_singleton, Nat.reduceAdd, ha, hb] at c1 c2 c3
  have hns : ¬ stopsAtOnceP M p 0 g.w := by
    rintro (h' | h')
    · apply h'
      unfold firstIerP
      simp only
      rw [if_neg (by omega), if_neg]
      rintro ⟨h1, -⟩
      rw [c2, c3] at h1
      linarith
    · rw [c1, c2] at h'
      linarith
  have hsum : sumList q.s.P.rlist q.s.last 1 0 = some q.s.area := by
    have := hcore.lens
    have := hcore.cap
    rw [sumList_eq _ _ _ _ (by omega), zero_add, hcore.area]
    congr 2; ext i; simp; omega
  have hset : settle q.s true q.s.abserr = some (q.s.area, q.s.errsum) := by
    unfold settle; rw [if_pos rfl, hsum]; rfl
  have hlab : ∀ b d, label100 M b d q.s = (true, q.s.abserr, q.s.ier) := by
    intro b d
    unfold label100
    simp only [b1, if_true]
  have hrun : runP M f p 0 1 v = some ⟨q.s.area * 1, q.s.errsum, 21 * 1 + 42 * 0, q.s.last, 0, q.s.trace⟩ := by
    unfold runP
    rw [Option.bind_eq_bind, hg, Option.bind_some]
    simp only
    rw [if_neg hns, Option.bind_eq_bind, hq, Option.bind_some, hlim]
    simp only [zero_add, Nat.sub_self]
    unfold mainLoopP
    rw [Option.bind_eq_bind, Option.bind_some]
    unfold finishP
    simp only [Bool.false_eq_true, if_false, hlab]
    rw [Option.bind_eq_bind, hset, Option.bind_some, hlast, Option.bind_eq_bind, csub_of_le (by omega),
      Option.bind_some, hier]
    simp
  rw [if_neg (not_lt.mpr hab.le), List.length_nil, hrun]
  exact ⟨_, rfl, rfl, by simp only [b2, c1, mul_one], by simp only [b3, c2]⟩

/-! ## The driver -/

theorem mem_dedupAdj (l : List ℝ) (x : ℝ) : x ∈ dedupAdj l ↔ x ∈ l := by
  fun_induction dedupAdj l with
  | case1 => rfl
  | case2 => rfl
  | case3 y l ih => rw [ih]; simp
  | case4 y z l h ih => rw [List.mem_cons, ih]; simp

theorem dedupAdj_pairwise (l : List ℝ) (h : l.Pairwise (· ≤ ·)) : (dedupAdj l).Pairwise (· < ·) := by
  fun_induction dedupAdj l with
  | case1 => simp
  | case2 => simp
  | case3 y l ih =>
    apply ih
    rw [List.pairwise_cons, List.pairwise_cons] at h
    rw [List.pairwise_cons]
    exact ⟨fun z hz => h.1 z (by simp [hz]), h.2.2⟩
  | case4 y z l hne ih =>
    rw [List.pairwise_cons] at h
    rw [List.pairwise_cons]
    refine ⟨?_, ih h.2⟩
    intro w hw
    rw [mem_dedupAdj] at hw
    have h1 : y < z := lt_of_le_of_ne (h.1 z (by simp)) hne
    rcases List.mem_cons.mp hw with rfl | hw
    · exact h1
    · exact lt_of_lt_of_le h1 ((List.pairwise_cons.mp h.2).1 w hw)

/-- C126: the break points handed on are the distinct points strictly inside the range, increasing. -/
theorem filterPoints_spec (l : List ℝ) (a b : ℝ) :
    (filterPoints l a b).Pairwise (· < ·) ∧ ∀ x, x ∈ filterPoints l a b ↔ x ∈ l ∧ a < x ∧ x < b := by
  unfold filterPoints
  constructor
  · exact (dedupAdj_pairwise _ (List.pairwise_insertionSort _ _)).filter _
  · intro x
    simp [mem_dedupAdj]

theorem filterPoints_congr (l l' : List ℝ) (a b : ℝ) (h : ∀ x, a < x → x < b → (x ∈ l ↔ x ∈ l')) :
    filterPoints l a b = filterPoints l' a b := by
  obtain ⟨h1, h2⟩ := filterPoints_spec l a b
  obtain ⟨h3, h4⟩ := filterPoints_spec l' a b
  refine List.Perm.eq_of_pairwise ?_ h1 h3 ?_
  · intro u v _ _ huv hvu
    exact absurd huv (not_lt.mpr hvu.le)
  · rw [List.perm_ext_iff_of_nodup (h1.imp fun h => ne_of_lt h) (h3.imp fun h => ne_of_lt h)]
    intro x
    rw [h2, h4]
    constructor
    · rintro ⟨u, v, w⟩; exact ⟨(h x v w).mp u, v, w⟩
    · rintro ⟨u, v, w⟩; exact ⟨(h x v w).mpr u, v, w⟩

/-- C126: an empty range gives zero without evaluating the integrand, whatever the options. -/
theorem quad_empty (M : Mach) (f : ℝ → ℝ) (p : Args) (pts : Option (List ℝ)) (h : p.a = p.b) :
    ∃ o, quad M f p pts = some (.ok o) ∧ o.value = 0 ∧ o.abserr = 0 ∧ o.neval = 0 ∧ o.trace = [] ∧ o.ier = 0 :=
  ⟨_, by unfold quad; rw [if_pos h], rfl, rfl, rfl, rfl, rfl⟩

/-- C126: exchanging the limits negates the value and changes nothing else: not the error estimate, the flag,
the panels, the points evaluated, nor which error is raised. -/
theorem quad_reversed (M : Mach) (f : ℝ → ℝ) (p : Args) (pts : Option (List ℝ)) :
    quad M f { p with a := p.b, b := p.a } pts =
      (quad M f p pts).map (fun e => e.map (fun o => { o with value := -o.value })) := by
  rcases lt_trichotomy p.a p.b with h | h | h
  · unfold quad
    simp only
    rw [if_neg h.ne', if_neg h.ne, if_pos h, if_pos h, if_pos h, if_neg (not_lt.mpr h.le),
      if_neg (not_lt.mpr h.le), if_neg (not_lt.mpr h.le)]
  · unfold quad
    simp only
    rw [if_pos h.symm, if_pos h]
    simp [Except.map]
  · unfold quad
    simp only
    rw [if_neg h.ne, if_neg h.ne', if_pos h, if_pos h, if_pos h, if_neg (not_lt.mpr h.le),
      if_neg (not_lt.mpr h.le), if_neg (not_lt.mpr h.le)]
    generalize quadOrdered M f _ pts = r
    rcases r with _ | _ | o
    · rfl
    · rfl
    · simp [Except.map]

/-- C126: only the set of points strictly inside the range matters. -/
theorem quad_points_congr (M : Mach) (f : ℝ → ℝ) (p : Args) (l l' : List ℝ)
    (h : ∀ x, min p.a p.b < x → x < max p.a p.b → (x ∈ l ↔ x ∈ l')) :
    quad M f p (some l) = quad M f p (some l') := by
  unfold quad
  by_cases hab : p.a = p.b
  · rw [if_pos hab, if_pos hab]
  rw [if_neg hab, if_neg hab]
  have : filterPoints l (if p.b < p.a then p.b else p.a) (if p.b < p.a then p.a else p.b) =
      filterPoints l' (if p.b < p.a then p.b else p.a) (if p.b < p.a then p.a else p.b) := by
    apply filterPoints_congr
    intro x h1 h2
    apply h x
    · split_ifs at h1 with hc
      · exact lt_of_le_of_lt (min_le_right _ _) h1
      · exact lt_of_le_of_lt (min_le_left _ _) h1
    · split_ifs at h2 with hc
      · exact lt_of_lt_of_le h2 (le_max_left _ _)
      · exact lt_of_lt_of_le h2 (le_max_right _ _)
  simp only [quadOrdered, this]

/-- The ordered call behind `quad`. -/
theorem quad_ordered (M : Mach) (f : ℝ → ℝ) (p : Args) (pts : Option (List ℝ)) (h : p.a ≠ p.b) :
    ∃ r, r = quadOrdered M f { p with a := min p.a p.b, b := max p.a p.b } pts ∧
      quad M f p pts = r.map (fun e => e.map
        (fun o => { o with value := if p.b < p.a then -o.value else o.value })) := by
  refine ⟨_, rfl, ?_⟩
  unfold quad
  rw [if_neg h]
  rcases lt_or_gt_of_ne h with hlt | hlt
  · simp only [not_lt.mpr hlt.le, if_false, min_eq_left hlt.le, max_eq_right hlt.le]
    generalize quadOrdered M f _ pts = r
    rcases r with _ | _ | o
    · rfl
    · rfl
    · rfl
  · simp only [hlt, if_true, min_eq_right hlt.le, max_eq_left hlt.le]

/-- C126: the driver never reports a break point outside the range, and it reports a limit that is too small
exactly when the limit does not exceed the number of distinct interior points. -/
theorem quad_errors (M : Mach) (f : ℝ → ℝ) (p : Args) (l : List ℝ) (hab : p.a ≠ p.b) :
    quad M f p (some l) ≠ some (.error .breakpointOutside) ∧
      ((∃ m n, quad M f p (some l) = some (.error (.limitTooSmall m n))) ↔
        p.limit ≤ (filterPoints l (min p.a p.b) (max p.a p.b)).length) ∧
      (quad M f p (some l) = some (.error .toleranceUnachievable) ↔
        unachievable M p ∧ (filterPoints l (min p.a p.b) (max p.a p.b)).length < p.limit) := by
  obtain ⟨r, hr, hq⟩ := quad_ordered M f p (some l) hab
  simp only [quadOrdered] at hr
  have hlt : min p.a p.b < max p.a p.b := min_lt_max.mpr hab
  have hun : unachievable M { p with a := min p.a p.b, b := max p.a p.b } ↔ unachievable M p := Iff.rfl
  obtain ⟨-, hmem⟩ := filterPoints_spec l (min p.a p.b) (max p.a p.b)
  rw [hq]
  generalize filterPoints l (min p.a p.b) (max p.a p.b) = k at *
  rcases qagpe_cases M f { p with a := min p.a p.b, b := max p.a p.b } k with ⟨h1, h⟩ | ⟨h1, h2, h⟩ |
    ⟨-, -, ⟨x, hx, hx'⟩, h⟩ | ⟨h1, h2, -, v, -, h⟩
  · rw [hr, h]
    simp only at h1
    refine ⟨by simp [Except.map], ⟨fun _ => h1, fun _ => ⟨_, _, rfl⟩⟩, ?_⟩
    constructor
    · intro hh; simp [Except.map] at hh
    · rintro ⟨-, hh⟩; omega
  · rw [hr, h]
    simp only at h1
    refine ⟨by simp [Except.map], ⟨?_, fun hh => by omega⟩, ⟨fun _ => ⟨hun.mp h2, h1⟩, fun _ => rfl⟩⟩
    rintro ⟨m, n, hh⟩
    simp [Except.map] at hh
  · exfalso
    have := (hmem x).mp hx
    simp only [min_eq_left hlt.le, max_eq_right hlt.le] at hx'
    rcases hx' with h' | h' <;> linarith
  · rw [hr, h]
    simp only at h1
    cases runP M f { p with a := min p.a p.b, b := max p.a p.b } k.length
      (if min p.a p.b > max p.a p.b then -1 else 1) v with
    | none =>
      refine ⟨by simp, ⟨?_, fun hh => by omega⟩, ⟨fun hh => by simp at hh, fun hh => absurd hh.1 h2⟩⟩
      rintro ⟨m, n, hh⟩; simp at hh
    | some o =>
      refine ⟨by simp [Except.map], ⟨?_, fun hh => by omega⟩,
        ⟨fun hh => by simp [Except.map] at hh, fun hh => absurd hh.1 h2⟩⟩
      rintro ⟨m, n, hh⟩; simp [Except.map] at hh

/-- C124 for the driver: for every option the integrand is evaluated `neval` times, at most `42 * limit`
times, strictly between the limits and never at one of the points given. -/
theorem quad_evaluations (M : Mach) (f : ℝ → ℝ) (p : Args) (pts : Option (List ℝ)) (o : Outcome)
    (h : quad M f p pts = some (.ok o)) :
    o.trace.length = o.neval ∧ o.neval ≤ 42 * p.limit ∧
      (∀ x ∈ o.trace, min p.a p.b < x ∧ x < max p.a p.b) ∧
      ∀ l, pts = some l → ∀ x ∈ o.trace, x ∉ l := by
  by_cases hab : p.a = p.b
  · unfold quad at h
    rw [if_pos hab] at h
    simp only [Option.some.injEq, Except.ok.injEq] at h
    subst h
    simp
  have hlt : min p.a p.b < max p.a p.b := min_lt_max.mpr hab
  obtain ⟨r, hr, hq⟩ := quad_ordered M f p pts hab
  rw [hq] at h
  obtain ⟨e, he, he'⟩ := Option.map_eq_some_iff.mp h
  cases e with
  | error e => simp [Except.map] at he'
  | ok o' =>
    simp only [Except.map, Except.ok.injEq] at he'
    subst he'
    rw [hr] at he
    unfold quadOrdered at he
    simp only
    cases pts with
    | none =>
      obtain ⟨h1, h2, h3, h4, -⟩ := (qagse_ok M f _).2 o' he
      simp only at h1 h2 h3 h4
      exact ⟨h3, by omega, h4 hlt, fun l hl => by simp at hl⟩
    | some l =>
      obtain ⟨h1, h2, h3, h4, -⟩ := (qagpe_ok M f _ _).2 o' he
      obtain ⟨k1, k2⟩ := filterPoints_spec l (min p.a p.b) (max p.a p.b)
      simp only [min_eq_left hlt.le, max_eq_right hlt.le] at h1 h2 h3 h4
      have h5 := h4 hlt.ne (k1.imp fun h => ne_of_lt h) (fun x hx => ((k2 x).mp hx).2)
      refine ⟨h3, by omega, fun x hx => ⟨(h5 x hx).1, (h5 x hx).2.1⟩, ?_⟩
      intro l' hl' x hx hxl
      simp only [Option.some.injEq] at hl'
      subst hl'
      exact (h5 x hx).2.2 ((k2 x).mpr ⟨hxl, (h5 x hx).1, (h5 x hx).2.1⟩)

/-- C123 for the driver: with a limit of at most 51 (the default is 50) nothing is ever out of range. -/
theorem quad_no_panic_partial (M : Mach) (f : ℝ → ℝ) (p : Args) (pts : Option (List ℝ)) (h : p.limit ≤ 51) :
    quad M f p pts ≠ none := by
  intro hn
  by_cases hab : p.a = p.b
  · unfold quad at hn; rw [if_pos hab] at hn; simp at hn
  obtain ⟨r, hr, hq⟩ := quad_ordered M f p pts hab
  rw [hq] at hn
  have hrn : r = none := by simpa using hn
  rw [hr] at hrn
  unfold quadOrdered at hrn
  cases pts with
  | none => have := (qagse_ok M f _).1 hrn; simp only at this; omega
  | some l => have := (qagpe_ok M f _ _).1 hrn; simp only at this; omega

/-- C125 for the driver, the part that holds. -/
theorem quad_success_partial (M : Mach) (f : ℝ → ℝ) (p : Args) (pts : Option (List ℝ)) (o : Outcome)
    (h : quad M f p pts = some (.ok o)) (hz : o.ier = 0) (hab : p.a ≠ p.b)
    (hne : pts = none ∨ p.limit ≠ 1) :
    o.abserr ≤ max p.epsabs (p.epsrel * |o.value|) := by
  obtain ⟨r, hr, hq⟩ := quad_ordered M f p pts hab
  rw [hq] at h
  obtain ⟨e, he, he'⟩ := Option.map_eq_some_iff.mp h
  cases e with
  | error e => simp [Except.map] at he'
  | ok o' =>
    simp only [Except.map, Except.ok.injEq] at he'
    subst he'
    rw [hr] at he
    unfold quadOrdered at he
    simp only at hz ⊢
    have habs : |if p.b < p.a then -o'.value else o'.value| = |o'.value| := by
      split_ifs
      · exact abs_neg _
      · rfl
    rw [habs]
    cases pts with
    | none => exact ((qagse_ok M f _).2 o' he).2.2.2.2 hz
    | some l =>
      rcases ((qagpe_ok M f _ _).2 o' he).2.2.2.2 hz with ⟨-, h'⟩ | h'
      · rcases hne with h'' | h''
        · simp at h''
        · exact absurd h' h''
      · exact h'

/-- The integrand of the witnesses. -/
noncomputable def spike (x : ℝ) : ℝ := if x = 0 then 1 else 0

theorem spike_first : (1 : ℝ) / 1000 < (qk21 binary64 spike (-1) 1).abserr ∧
    100 * binary64.eps * (qk21 binary64 spike (-1) 1).resabs < (qk21 binary64 spike (-1) 1).abserr := by
  unfold spike
  norm_num [qk21, kronrod, kronrodError, rule21, gaussStep, extraStep, binary64]
  have hm : min (1 : ℝ) ((400000000000000000000000000000000000 / 3701108891994166188670127063220357) ^
      ((3 : ℝ) / 2)) = 1 := min_eq_left (Real.one_le_rpow (by norm_num) (by norm_num))
  rw [hm]
  split_ifs
  · rw [max_eq_right (by norm_num)]; norm_num
  · norm_num

/-- C125 fails for a limit of one when points are given but none is inside the range: the driver reports success
although the error estimate exceeds the tolerance. -/
theorem points_false_success :
    ∃ o, quad binary64 spike ⟨-1, 1, 1 / 1000, 0, 1⟩ (some [-1, 1]) = some (.ok o) ∧ o.ier = 0 ∧
      max (1 / 1000) (0 * |o.value|) < o.abserr := by
  have hu : ¬ unachievable binary64 ⟨-1, 1, 1 / 1000, 0, 1⟩ := by unfold unachievable; norm_num
  have hfil : filterPoints [-1, 1] (-1) 1 = [] := by
    rw [List.eq_nil_iff_forall_not_mem]
    intro x hx
    have := ((filterPoints_spec [-1, 1] (-1) 1).2 x).mp hx
    simp only [List.mem_cons, List.not_mem_nil, or_false] at this
    rcases this.1 with rfl | rfl <;> linarith [this.2.1, this.2.2]
  obtain ⟨s1, s2⟩ := spike_first
  have htol : max (1 / 1000 : ℝ) (0 * |(qk21 binary64 spike (-1) 1).result|) <
      (qk21 binary64 spike (-1) 1).abserr := by
    rw [zero_mul, max_eq_left (by norm_num)]; exact s1
  obtain ⟨o, h1, h2, h3, h4⟩ := points_limit_one binary64 spike ⟨-1, 1, 1 / 1000, 0, 1⟩ rfl (by norm_num) hu htol s2
  refine ⟨o, ?_, h2, by rw [h3, h4]; exact htol⟩
  unfold quad
  rw [if_neg (by norm_num)]
  simp only [quadOrdered]
  rw [if_neg (by norm_num), if_neg (by norm_num), if_neg (by norm_num), hfil, h1]

/-- The same call with the limits exchanged and repeated, unsorted and outside points. -/
example (l : ℕ) : quad binary64 spike ⟨1, -1, 1, 0, l⟩ (some [1 / 2, 7, 0, 1 / 2]) =
    (quad binary64 spike ⟨-1, 1, 1, 0, l⟩ (some [0, 1 / 2])).map
      (fun e => e.map (fun o => { o with value := -o.value })) := by
  rw [quad_points_congr binary64 spike ⟨1, -1, 1, 0, l⟩ [1 / 2, 7, 0, 1 / 2] [0, 1 / 2]]
  · exact quad_reversed binary64 spike ⟨-1, 1, 1, 0, l⟩ _
  · intro x h1 h2
    have : x < 1 := by norm_num at h2; exact h2
    simp only [List.mem_cons, List.not_mem_nil, or_false]
    constructor
    · rintro (rfl | rfl | rfl | rfl)
      · norm_num
      · norm_num at this
      · norm_num
      · norm_num
    · rintro (rfl | rfl) <;> norm_num

/-- A break point at the spike: the integrand is never evaluated there. -/
example (o : Outcome) (h : quad binary64 spike ⟨-1, 1, 1, 0, 50⟩ (some [0]) = some (.ok o)) : (0 : ℝ) ∉ o.trace :=
  fun h0 => (quad_evaluations _ _ _ _ o h).2.2.2 _ rfl 0 h0 (by simp)

/-- A break point outside: `qagpe` refuses it. -/
example : qagpe binary64 spike ⟨-1, 1, 1, 0, 50⟩ [3] = some (.error .breakpointOutside) := by
  rcases qagpe_cases binary64 spike ⟨-1, 1, 1, 0, 50⟩ [3] with ⟨h, -⟩ | ⟨-, h, -⟩ | ⟨-, -, -, h⟩ | ⟨-, -, h, -⟩
  · norm_num at h
  · unfold unachievable at h; norm_num at h
  · exact h
  · norm_num at h

end Hazma.Quad
