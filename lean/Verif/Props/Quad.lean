import Verif.Lemmas.QuadLoop

/-!
# C50, C51, C121, C122: the adaptive integrator
-/

namespace Hazma.Quad

open Finset

/-- The states the integrator goes through and how the turn that produced them ended. -/
inductive Visited (M : Mach) (f : ℝ → ℝ) (p : Args) : St → Ctl → Prop
  | start (s : St) : 1 ≤ p.limit → ¬ unachievable M p → ¬ stopsAtOnce M p (qk21 M f p.a p.b) →
      initSt M p (qk21 M f p.a p.b) = some s → Visited M f p s .next
  | turn (s t : St) (c : Ctl) : Visited M f p s .next → step M f p s = some (t, c) → Visited M f p t c

theorem init_head (M : Mach) (f : ℝ → ℝ) (p : Args) (hlim : 1 ≤ p.limit)
    (hstop : ¬ stopsAtOnce M p (qk21 M f p.a p.b)) :
    ∃ s, initSt M p (qk21 M f p.a p.b) = some s ∧ Head M f p s ∧ s.last = 1 := by
  have h2 : 2 ≤ p.limit := by
    by_contra h
    apply hstop
    left
    have : p.limit = 1 := by omega
    simp [firstIer, this]
  obtain ⟨c, hc⟩ : ∃ c, c = workspaceLen p.limit 1 := ⟨_, rfl⟩
  have hc3 : 3 ≤ c ∧ c ≤ p.limit + 2 := by rw [hc]; unfold workspaceLen; omega
  have h1 : 1 < c := by omega
  unfold initSt
  rw [← hc]
  simp only [Buf.new, Buf.wr, h1, if_true, Option.bind_eq_bind, Option.bind_some,
    show (1 : ℕ) < 53 by norm_num]
  have hk : kept p.limit 1 = 1 := by unfold kept; rw [if_neg (by omega)]
  have hs : sure p.limit 1 = 1 := by unfold sure; rw [if_neg (by omega)]
  refine ⟨_, rfl, ?_, rfl⟩
  have hio : Listed (Function.update (fun _ => (0 : ℝ)) 1 (qk21 M f p.a p.b).abserr)
      (Function.update (fun _ => 0) 1 1) 1 1 := by
    constructor
    · intro j h1 h2
      have : j = 1 := by omega
      subst j; simp
    · intro i j h1 h2 h3; omega
    · intro i j h1 h2 h3
      have : i = 1 := by omega
      have : j = 1 := by omega
      subst i j; exact le_refl _
  refine ⟨⟨le_refl _, le_refl _, hlim, ⟨hc3.1, hc3.2⟩, by simp, ?_, ?_, by simp, by simp, ?_, ?_, ?_, ?_, ?_⟩, h2,
    ⟨le_refl _, by simp [hk]⟩, by simp, by simp, fun _ => rfl, fun _ => rfl, by simp, by simp, le_refl _, rfl⟩
  · intro F; simp
  · intro i h1 h2
    simp only at h2
    have : i = 1 := by omega
    subst i; simp
  · intro hab i h1 h2
    simp only at h2
    have : i = 1 := by omega
    subst i; exact ⟨p.a, p.b, ⟨rfl, rfl⟩, by simpa using (show p.a < p.b from hab)⟩
  · simp [qk21_pts_length, Ctx.whole]
  · intro hab x hx
    exact ⟨p.a, p.b, ⟨rfl, rfl⟩, kronrod_inside _ rule21_good M f _ _ hab x hx⟩
  · simp only [hk]; exact hio
  · simp only [hs]; exact hio.top_full

theorem Visited.ends {M : Mach} {f : ℝ → ℝ} {p : Args} {s : St} {c : Ctl} (h : Visited M f p s c) :
    Ends M f p s c := by
  induction h with
  | start s h1 h2 h3 h4 =>
    obtain ⟨t, ht, hh, -⟩ := init_head M f p h1 h3
    rw [h4] at ht
    cases ht
    exact ⟨hh.core, fun _ => hh, by simp, by simp⟩
  | turn s t c _ hs ih =>
    exact ((step_spec M f p s (ih.next rfl)).2 t c hs).1

/-- Telescoping sums over positively oriented panels say that the panels tile the range. -/
theorem tiles_of_telescope (a b : ℝ) (n : ℕ) (u v : ℕ → ℝ)
    (ht : ∀ F : ℝ → ℝ, ∑ i ∈ Icc 1 n, (F (v i) - F (u i)) = F b - F a)
    (huv : ∀ i, 1 ≤ i → i ≤ n → u i < v i) (x : ℝ) (hx : a ≤ x ∧ x < b) :
    ∃! i, (1 ≤ i ∧ i ≤ n) ∧ u i ≤ x ∧ x < v i := by
  have h := ht (fun y => if x < y then 1 else 0)
  have h1 : ∀ i ∈ Icc 1 n, ((if x < v i then (1 : ℝ) else 0) - (if x < u i then 1 else 0)) =
      if u i ≤ x ∧ x < v i then 1 else 0 := by
    intro i hi
    simp only [mem_Icc] at hi
    have := huv i hi.1 hi.2
    by_cases c1 : x < u i
    · have c2 : x < v i := by linarith
      have c3 : ¬ u i ≤ x := not_le.mpr c1
      simp [c1, c2, c3]
    · have c3 : u i ≤ x := not_lt.mp c1
      by_cases c2 : x < v i <;> simp [c1, c2, c3]
  rw [Finset.sum_congr rfl h1, if_pos hx.2, if_neg (not_lt.mpr hx.1), Finset.sum_boole, sub_zero] at h
  have hcard : ((Icc 1 n).filter (fun i => u i ≤ x ∧ x < v i)).card = 1 := by exact_mod_cast h
  obtain ⟨i, hi⟩ := Finset.card_eq_one.mp hcard
  have hmem : ∀ j, j ∈ (Icc 1 n).filter (fun i => u i ≤ x ∧ x < v i) ↔ j = i := by
    intro j; rw [hi]; simp
  simp only [mem_filter, mem_Icc] at hmem
  exact ⟨i, (hmem i).mpr rfl, fun j hj => (hmem j).mp hj⟩

/-- C50: in every state the integrator goes through, for every integrand, tolerance and limit: the number of
panels is at most the limit; every point of the range lies in exactly one panel and the panels telescope
whatever the orientation of the range; each panel holds the value and error estimate of the 21-point rule
on it; the running total and the running error are their sums; and the integrand has been evaluated
`42 * last - 21` times. -/
theorem adaptive_invariants (M : Mach) (f : ℝ → ℝ) (p : Args) (s : St) (c : Ctl)
    (h : Visited M f p s c) :
    (1 ≤ s.last ∧ s.last ≤ p.limit) ∧
    (p.a < p.b → (∀ i, 1 ≤ i → i ≤ s.last → p.a ≤ s.P.alist.get i ∧
        s.P.alist.get i < s.P.blist.get i ∧ s.P.blist.get i ≤ p.b) ∧
      ∀ x, p.a ≤ x ∧ x < p.b →
        ∃! i, (1 ≤ i ∧ i ≤ s.last) ∧ s.P.alist.get i ≤ x ∧ x < s.P.blist.get i) ∧
    (∀ F : ℝ → ℝ, ∑ i ∈ Icc 1 s.last, (F (s.P.blist.get i) - F (s.P.alist.get i)) = F p.b - F p.a) ∧
    (∀ i, 1 ≤ i → i ≤ s.last →
      s.P.rlist.get i = (qk21 M f (s.P.alist.get i) (s.P.blist.get i)).result ∧
      s.P.elist.get i = (qk21 M f (s.P.alist.get i) (s.P.blist.get i)).abserr) ∧
    s.area = ∑ i ∈ Icc 1 s.last, s.P.rlist.get i ∧ s.errsum = ∑ i ∈ Icc 1 s.last, s.P.elist.get i ∧
    s.trace.length = 42 * s.last - 21 := by
  have hc := h.ends.core
  refine ⟨⟨hc.one, hc.le⟩, fun hab => ⟨hc.inside' hab, fun x hx => ?_⟩, hc.tile, hc.rule', hc.area, hc.errsum, ?_⟩
  · exact tiles_of_telescope p.a p.b s.last _ _ hc.tile (fun i h1 h2 => (hc.inside' hab i h1 h2).2.1) x hx
  · have := hc.evals'; omega

/-- C50: the workspace is always large enough: a turn can only panic in the ε-table, when it holds 50
elements, which takes a limit of at least 52. -/
theorem workspace_in_range (M : Mach) (f : ℝ → ℝ) (p : Args) (s : St) (h : Visited M f p s .next)
    (hn : step M f p s = none) : s.elg.n = 50 ∧ 52 ≤ p.limit :=
  (step_spec M f p s (h.ends.next rfl)).1 hn

/-- The loop ends at label 100 or 115 after a visited state. -/
theorem mainLoop_ends (M : Mach) (f : ℝ → ℝ) (p : Args) (cnt : ℕ) (s : St) (h : Visited M f p s .next)
    (hcnt : cnt + s.last = p.limit) :
    (mainLoop M f p cnt s = none → 52 ≤ p.limit) ∧
      ∀ t b, mainLoop M f p cnt s = some (t, b) → Visited M f p t (if b then .to115 else .to100) := by
  induction cnt generalizing s with
  | zero =>
    have := (h.ends.next rfl).lt
    omega
  | succ cnt ih =>
    have hst := step_spec M f p s (h.ends.next rfl)
    unfold mainLoop
    cases hs : step M f p s with
    | none =>
      refine ⟨fun _ => (hst.1 hs).2, ?_⟩
      intro t b hb
      simp at hb
    | some r =>
      obtain ⟨t, c⟩ := r
      have hv : Visited M f p t c := .turn s t c h hs
      have hl := (hst.2 t c hs).2
      cases c with
      | next =>
        simp only [Option.bind_eq_bind, Option.bind_some]
        exact ih t hv (by omega)
      | to100 =>
        simp only [Option.bind_eq_bind, Option.bind_some]
        refine ⟨by simp, ?_⟩
        intro t' b hb
        simp only [Option.pure_def, Option.some.injEq, Prod.mk.injEq] at hb
        obtain ⟨rfl, rfl⟩ := hb
        exact hv
      | to115 =>
        simp only [Option.bind_eq_bind, Option.bind_some]
        refine ⟨by simp, ?_⟩
        intro t' b hb
        simp only [Option.pure_def, Option.some.injEq, Prod.mk.injEq] at hb
        obtain ⟨rfl, rfl⟩ := hb
        exact hv

theorem sumList_eq (r : Buf ℝ) (cnt k : ℕ) (acc : ℝ) (h : k + cnt ≤ r.len) :
    sumList r cnt k acc = some (acc + ∑ i ∈ Ico k (k + cnt), r.get i) := by
  induction cnt generalizing k acc with
  | zero => simp [sumList]
  | succ cnt ih =>
    unfold sumList
    rw [Option.bind_eq_bind, Buf.rd_of_lt (by omega), Option.bind_some, ih (k + 1) _ (by omega),
      show k + (cnt + 1) = k + 1 + cnt by omega,
      Finset.sum_eq_sum_Ico_succ_bot (show k < k + 1 + cnt by omega)]
    congr 1; ring

theorem finish_ends (M : Mach) (f : ℝ → ℝ) (p : Args) (ksgn : Bool) (d : ℝ) (s : St) (b : Bool)
    (h : Ends M f p s (if b then .to115 else .to100)) :
    ∃ o, finish M ksgn d s b = some o ∧ o.last = s.last ∧ o.neval = 42 * s.last - 21 ∧ o.trace = s.trace ∧
      (o.ier = 0 → o.abserr ≤ max p.epsabs (p.epsrel * |o.value|)) := by
  have hc := h.core
  have hlen := hc.lens
  have hcap := hc.cap
  have hone := hc.one
  have hsum : sumList s.P.rlist s.last 1 0 = some s.area := by
    rw [sumList_eq _ _ _ _ (by omega), zero_add, hc.area]
    congr 2; ext i; simp; omega
  have hsub : csub (42 * s.last) 21 = some (42 * s.last - 21) := csub_of_le (by omega)
  unfold finish
  cases b with
  | true =>
    simp only [if_true, settle, hsum, Option.bind_eq_bind, Option.bind_some, Option.pure_def, hsub,
      Option.map_some]
    exact ⟨_, rfl, rfl, rfl, rfl, fun _ => h.to115 rfl⟩
  | false =>
    simp only [Bool.false_eq_true, if_false] at h ⊢
    have h100 := h.to100 rfl
    -- with `ier = 0` label 100 leads to the extrapolated value, or to a failure
    have key : (label100 M ksgn d s).2.2 = 0 → s.ier = 0 ∧ (label100 M ksgn d s).1 = false ∧
        (label100 M ksgn d s).2.1 = s.abserr := by
      intro hz
      unfold label100 at hz ⊢
      simp only at hz ⊢
      split_ifs at hz ⊢ with c1 c2 <;> simp_all
      all_goals omega
    generalize label100 M ksgn d s = r at key ⊢
    cases hr : r.1 with
    | true =>
      simp only [settle, if_true, hsum, Option.bind_eq_bind, Option.bind_some, Option.pure_def, hsub,
        Option.map_some]
      refine ⟨_, rfl, rfl, rfl, rfl, fun hz => ?_⟩
      exfalso
      simp only at hz
      have := (key (by split_ifs at hz <;> omega)).2.1
      rw [hr] at this
      simp at this
    | false =>
      simp only [settle, Bool.false_eq_true, if_false, Option.bind_eq_bind, Option.bind_some, Option.pure_def,
        hsub]
      refine ⟨_, rfl, rfl, rfl, rfl, fun hz => ?_⟩
      simp only at hz ⊢
      obtain ⟨k1, -, k3⟩ := key (by split_ifs at hz <;> omega)
      rw [k3]
      rcases h100 with h' | h'
      · exact absurd k1 h'
      · exact h'.2

/-- What `qagse` returns. -/
theorem qagse_ok (M : Mach) (f : ℝ → ℝ) (p : Args) :
    (qagse M f p = none → 52 ≤ p.limit) ∧
    (∀ o, qagse M f p = some (.ok o) →
      (1 ≤ o.last ∧ o.last ≤ p.limit) ∧ o.neval = 42 * o.last - 21 ∧ o.trace.length = o.neval ∧
      (p.a < p.b → ∀ x ∈ o.trace, p.a < x ∧ x < p.b) ∧
      (o.ier = 0 → o.abserr ≤ max p.epsabs (p.epsrel * |o.value|))) := by
  unfold qagse
  by_cases h1 : p.limit < 1
  · rw [if_pos h1]; simp
  rw [if_neg h1]
  by_cases h2 : unachievable M p
  · rw [if_pos h2]; simp
  rw [if_neg h2]
  simp only
  by_cases h3 : stopsAtOnce M p (qk21 M f p.a p.b)
  · rw [if_pos h3]
    refine ⟨by simp, ?_⟩
    intro o ho
    simp only [Option.some.injEq, Except.ok.injEq] at ho
    subst ho
    refine ⟨⟨le_refl _, by simp only; omega⟩, rfl, by simp [qk21_pts_length], ?_, ?_⟩
    · intro hab x hx
      exact kronrod_inside _ rule21_good M f _ _ hab x hx
    · intro hz
      simp only at hz ⊢
      rcases h3 with h | h | h
      · exact absurd hz h
      · exact h.1
      · rw [h]
        unfold unachievable at h2
        by_cases he : 0 < p.epsabs
        · exact le_max_of_le_left he.le
        · refine le_max_of_le_right (mul_nonneg ?_ (abs_nonneg _))
          by_contra hneg
          apply h2
          refine ⟨not_lt.mp he, lt_of_lt_of_le (not_le.mp hneg) (le_max_of_le_right (by norm_num))⟩
  · rw [if_neg h3]
    obtain ⟨s, hs, hh, hl⟩ := init_head M f p (by omega) h3
    have hv : Visited M f p s .next := .start s (by omega) h2 h3 hs
    have hm := mainLoop_ends M f p (p.limit - 1) s hv (by omega)
    rw [Option.bind_eq_bind, hs, Option.bind_some]
    cases hr : mainLoop M f p (p.limit - 1) s with
    | none => exact ⟨fun _ => hm.1 hr, by simp⟩
    | some r =>
      obtain ⟨t, b⟩ := r
      have hv' := hm.2 t b hr
      obtain ⟨o, ho, a1, a2, a3, a4⟩ := finish_ends M f p
        (decide (|(qk21 M f p.a p.b).result| ≥ (1 - 50 * M.eps) * (qk21 M f p.a p.b).resabs))
        (qk21 M f p.a p.b).resabs t b hv'.ends
      simp only [Option.bind_eq_bind, Option.bind_some, ho]
      refine ⟨by simp, ?_⟩
      intro o' ho'
      simp only [Option.pure_def, Option.some.injEq, Except.ok.injEq] at ho'
      subst ho'
      have hc := hv'.ends.core
      have := hc.evals'
      refine ⟨by rw [a1]; exact ⟨hc.one, hc.le⟩, by rw [a2, a1], by rw [a3, a2]; omega, ?_, a4⟩
      rw [a3]; exact hc.pts'

/-- C50: with a limit of at most 51 (the default is 50) no index is ever out of range. -/
theorem adaptive_no_panic_partial (M : Mach) (f : ℝ → ℝ) (p : Args) (h : p.limit ≤ 51) :
    qagse M f p ≠ none := by
  intro hn
  have := (qagse_ok M f p).1 hn
  omega

theorem elgLoop_converged (M : Mach) (cnt i : ℕ) (s : ElgLoop) (hl : s.tab.len = 53) (x : ℝ)
    (h1 : s.tab.get 52 = x) (h2 : s.tab.get 49 = x) (h3 : s.tab.get 48 = x) (he : 0 ≤ M.eps) :
    elgLoop M (cnt + 1) i 50 s = some { s with result := x, abserr := 0, converged := true } := by
  unfold elgLoop
  have hnn : 0 ≤ |x| * M.eps := mul_nonneg (abs_nonneg _) he
  simp [csub, Buf.rd, hl, h1, h2, h3, not_lt.mpr hnn]

/-- C50 fails in the ε-table for larger limits: a convergence detected with 50 elements leaves 50 elements,
and with 51 elements `qelg` writes past the end of the table. -/
theorem table_overflow (M : Mach) (he : 0 ≤ M.eps) (res3 : Buf ℝ) (nres : ℕ) :
    (∃ r, qelg M ⟨50, Buf.new 53 0, res3, nres⟩ = some r ∧ r.1.n = 50) ∧
      ∀ tab : Buf ℝ, tab.len = 53 → qelg M ⟨51, tab, res3, nres⟩ = none := by
  constructor
  · have hL : elgLoop M 24 1 50 ⟨⟨53, Function.update (fun _ => 0) 50 M.oflow⟩, 50, 0, M.oflow, false⟩ = _ :=
      elgLoop_converged M 23 1 _ rfl 0 (by simp) (by simp) (by simp) he
    simp [qelg, elgTail, Buf.rd, Buf.wr, Buf.new, csub, hL]
  · intro tab ht
    simp [qelg, Buf.rd, Buf.wr, ht]

/-- C121: success (`ier = 0`) means that the error estimate is within the requested tolerance of the
returned value, whichever way the integrator stopped. -/
theorem success_within_tolerance (M : Mach) (f : ℝ → ℝ) (p : Args) (o : Outcome)
    (h : qagse M f p = some (.ok o)) (hz : o.ier = 0) :
    o.abserr ≤ max p.epsabs (p.epsrel * |o.value|) :=
  ((qagse_ok M f p).2 o h).2.2.2.2 hz

/-- C122: the integrand is evaluated exactly `neval` times, at most `42 * limit - 21` times, always strictly
inside the range. -/
theorem evaluations (M : Mach) (f : ℝ → ℝ) (p : Args) (o : Outcome) (h : qagse M f p = some (.ok o)) :
    o.trace.length = o.neval ∧ o.neval = 42 * o.last - 21 ∧ 1 ≤ o.last ∧ o.last ≤ p.limit ∧
      (p.a < p.b → ∀ x ∈ o.trace, p.a < x ∧ x < p.b) := by
  obtain ⟨h1, h2, h3, h4, -⟩ := (qagse_ok M f p).2 o h
  exact ⟨h3, h2, h1.1, h1.2, h4⟩

/-- The integrand is zero everywhere: one rule, value and error zero, success after 21 evaluations. -/
example : ∃ o, qagse binary64 (fun _ => 0) ⟨0, 1, 0, 1, 50⟩ = some (.ok o) ∧ o.ier = 0 ∧ o.neval = 21 ∧
    o.value = 0 := by
  have h0 : (qk21 binary64 (fun _ => 0) 0 1).abserr = 0 := by
    simp [qk21, kronrod, kronrodError, rule21, gaussStep, extraStep]
  have h1 : (qk21 binary64 (fun _ => 0) 0 1).result = 0 := by
    simp [qk21, kronrod, kronrodError, rule21, gaussStep, extraStep]
  have h : ¬ unachievable binary64 ⟨0, 1, 0, 1, 50⟩ := by
    unfold unachievable binary64; norm_num
  unfold qagse
  rw [if_neg (by norm_num), if_neg h]
  simp only
  rw [if_pos (show stopsAtOnce _ _ _ from Or.inr (Or.inr h0))]
  exact ⟨_, rfl, by simp [firstIer, h0, h1], rfl, h1⟩

/-- An integrand that is not integrated by the first rule: one at the middle, zero elsewhere.  The error
estimate equals `resasc`, so the main loop is entered. -/
example : ∃ s, Visited binary64 (fun x => if x = 0 then 1 else 0) ⟨-1, 1, 1000, 0, 50⟩ s .next := by
  have hk : (qk21 binary64 (fun x => if x = 0 then 1 else 0) (-1) 1).abserr =
      (qk21 binary64 (fun x => if x = 0 then 1 else 0) (-1) 1).resasc ∧
      (qk21 binary64 (fun x => if x = 0 then 1 else 0) (-1) 1).abserr ≠ 0 ∧
      (qk21 binary64 (fun x => if x = 0 then 1 else 0) (-1) 1).abserr ≤ 1000 := by
    norm_num [qk21, kronrod, kronrodError, rule21, gaussStep, extraStep, binary64]
    have hm : min (1 : ℝ) ((400000000000000000000000000000000000 / 3701108891994166188670127063220357) ^
        ((3 : ℝ) / 2)) = 1 := min_eq_left (Real.one_le_rpow (by norm_num) (by norm_num))
    rw [hm]
    split_ifs
    · rw [max_eq_right (by norm_num)]; norm_num
    · norm_num
  have hstop : ¬ stopsAtOnce binary64 ⟨-1, 1, 1000, 0, 50⟩
      (qk21 binary64 (fun x => if x = 0 then 1 else 0) (-1) 1) := by
    rintro (h | h | h)
    · refine h ?_
      unfold firstIer
      simp only
      rw [if_neg (by norm_num), if_neg]
      rintro ⟨-, h2⟩
      have := lt_of_le_of_lt (le_max_left _ _) h2
      linarith [hk.2.2]
    · exact h.2 hk.1
    · exact hk.2.1 h
  obtain ⟨s, hs, -⟩ := init_head binary64 _ ⟨-1, 1, 1000, 0, 50⟩ (by norm_num) hstop
  exact ⟨s, .start s (by norm_num) (by unfold unachievable; norm_num) hstop hs⟩

/-! ## The order of the panels -/

/-- C51: the index list names distinct panels in non-increasing order of their error over the maintained
range `1..kept`, and the panel bisected next is its entry `nrmax`, inside that range. -/
theorem panels_in_order (M : Mach) (f : ℝ → ℝ) (p : Args) (s : St) (h : Visited M f p s .next) :
    let J := if s.last > p.limit / 2 + 2 then p.limit + 3 - s.last else s.last
    (∀ j, 1 ≤ j → j ≤ J → 1 ≤ s.iord.get j ∧ s.iord.get j ≤ s.last) ∧
    (∀ i j, 1 ≤ i → i < j → j ≤ J → s.iord.get i ≠ s.iord.get j ∧
      s.P.elist.get (s.iord.get j) ≤ s.P.elist.get (s.iord.get i)) ∧
    (1 ≤ s.nrmax ∧ s.nrmax ≤ J) ∧ s.maxerr = s.iord.get s.nrmax ∧
    s.errmax = s.P.elist.get s.maxerr := by
  have hh := h.ends.next rfl
  have hL := hh.core.listed
  exact ⟨hL.range, fun i j h1 h2 h3 => ⟨hL.inj i j h1 h2 h3, hL.sorted i j h1 h2.le h3⟩, hh.nr, hh.maxerr,
    hh.errmax⟩

/-- C51, the part that holds: while the list is complete, or `nrmax` is at most `limit + 1 - last`, the
panel bisected next is an `nrmax`-th largest one.  Missing: larger `nrmax` once more than `limit / 2 + 2`
panels are stored (`third_not_third_largest`). -/
theorem bisected_nth_largest_partial (M : Mach) (f : ℝ → ℝ) (p : Args) (s : St)
    (h : Visited M f p s .next) (hn : s.last ≤ p.limit / 2 + 2 ∨ s.nrmax ≤ p.limit + 1 - s.last) :
    ((Icc 1 s.last).filter (fun q => s.errmax < s.P.elist.get q)).card < s.nrmax ∧
      s.nrmax ≤ ((Icc 1 s.last).filter (fun q => s.errmax ≤ s.P.elist.get q)).card := by
  have hh := h.ends.next rfl
  have hL := hh.core.listed
  have hT := hh.core.top
  have hs : s.nrmax ≤ sure p.limit s.last := by
    have := hh.nr.2
    unfold sure; unfold kept at this
    split_ifs at this ⊢ <;> omega
  have hsk := sure_le_kept p.limit s.last
  have he : s.errmax = s.P.elist.get (s.iord.get s.nrmax) := by rw [hh.errmax, hh.maxerr]
  have hone := hh.nr.1
  constructor
  · have hsub : (Icc 1 s.last).filter (fun q => s.errmax < s.P.elist.get q) ⊆
        (Icc 1 (s.nrmax - 1)).image s.iord.get := by
      intro q hq
      simp only [mem_filter, mem_Icc] at hq
      by_contra hnot
      have hk : ∀ k, 1 ≤ k → k < s.nrmax → s.iord.get k ≠ q := by
        intro k h1 h2 h3
        exact hnot (mem_image.mpr ⟨k, by simp; omega, h3⟩)
      have : s.P.elist.get q ≤ s.errmax := by
        rw [he]
        by_cases hin : ∃ k, 1 ≤ k ∧ k ≤ sure p.limit s.last ∧ s.iord.get k = q
        · obtain ⟨k, k1, k2, rfl⟩ := hin
          refine hL.sorted s.nrmax k hone ?_ (by omega)
          by_contra hlt
          exact hk k k1 (by omega) rfl
        · push Not at hin
          exact hT q hq.1.1 hq.1.2 hin s.nrmax hone hs
      linarith [hq.2]
    have := (Finset.card_le_card hsub).trans Finset.card_image_le
    simp only [Nat.card_Icc] at this
    omega
  · have hsub : (Icc 1 s.nrmax).image s.iord.get ⊆
        (Icc 1 s.last).filter (fun q => s.errmax ≤ s.P.elist.get q) := by
      intro q hq
      obtain ⟨k, hk, rfl⟩ := mem_image.mp hq
      simp only [mem_Icc] at hk
      have := hL.range k hk.1 (by omega)
      simp only [mem_filter, mem_Icc]
      refine ⟨this, ?_⟩
      rw [he]
      exact hL.sorted k s.nrmax hk.1 hk.2 (by omega)
    have hcard : ((Icc 1 s.nrmax).image s.iord.get).card = s.nrmax := by
      rw [Finset.card_image_of_injOn]
      · simp
      · intro i hi j hj hij
        simp only [coe_Icc, Set.mem_Icc] at hi hj
        by_contra hne
        rcases lt_or_gt_of_ne hne with hl | hl
        · exact hL.inj i j hi.1 hl (by omega) hij
        · exact hL.inj j i hj.1 hl (by omega) hij.symm
    rw [← hcard]
    exact Finset.card_le_card hsub

/-- C51: outside extrapolation the panel bisected next has the largest error of all. -/
theorem largest_bisected (M : Mach) (f : ℝ → ℝ) (p : Args) (s : St) (h : Visited M f p s .next)
    (hx : s.extrap = false) (q : ℕ) (h1 : 1 ≤ q) (h2 : q ≤ s.last) : s.P.elist.get q ≤ s.errmax := by
  have hh := h.ends.next rfl
  have hn := hh.ext hx
  have := (bisected_nth_largest_partial M f p s h (by have := hh.lt; omega)).1
  rw [hn, Nat.lt_one_iff, Finset.card_eq_zero] at this
  by_contra hlt
  have hmem : q ∈ (Icc 1 s.last).filter (fun q => s.errmax < s.P.elist.get q) := by
    simp only [mem_filter, mem_Icc]; exact ⟨⟨h1, h2⟩, not_le.mp hlt⟩
  rw [this] at hmem
  simp at hmem

/-- C51 fails beyond `limit + 1 - last`: six panels with errors 10, 9, 8, 7, 6, 5 in order, the first is
bisected into errors 1 and 1 with a limit of 8.  The third entry of the new list has error 1, although
three panels other than the first two have errors 7, 6 and 5. -/
theorem third_not_third_largest :
    let before : ℕ → ℕ := fun q => 11 - q
    let elist : Buf ℕ := ⟨10, fun q => if q = 1 ∨ q = 7 then 1 else 11 - q⟩
    let iord : Buf ℕ := ⟨10, fun j => j⟩
    Listed before iord.get 6 6 ∧ ∃ r, qpsrt 8 7 1 elist iord 1 = some r ∧
      jupbn 8 7 = some 4 ∧ r.nrmax = 1 ∧ elist.get (r.iord.get 3) = 1 ∧
      (∀ j, 1 ≤ j → j ≤ 2 → elist.get (r.iord.get j) = 10 - j) ∧
      elist.get 4 = 7 ∧ elist.get 5 = 6 ∧ elist.get 6 = 5 := by
  refine ⟨⟨?_, ?_, ?_⟩, ?_⟩
  · intro j h1 h2; exact ⟨h1, h2⟩
  · intro i j h1 h2 h3; simp only; omega
  · intro i j h1 h2 h3; simp only; omega
  · refine ⟨_, rfl, rfl, rfl, rfl, ?_, rfl, rfl, rfl⟩
    intro j h1 h2
    have : j = 1 ∨ j = 2 := by omega
    rcases this with rfl | rfl <;> rfl

end Hazma.Quad
