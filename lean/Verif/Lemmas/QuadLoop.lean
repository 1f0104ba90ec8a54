import Verif.Lemmas.QuadElg
import Verif.Props.Kronrod

/-!
# Invariants of the adaptive integrator
-/

namespace Hazma.Quad

open Finset

/-- Up to where the index list is kept in order when there are `last` panels. -/
def kept (limit last : ℕ) : ℕ := if last > limit / 2 + 2 then limit + 3 - last else last
/-- Up to where its entries are certainly the largest. -/
def sure (limit last : ℕ) : ℕ := if last > limit / 2 + 2 then limit + 1 - last else last

/-- What distinguishes the two integrators: the number of panels before the main loop, the panels
themselves, whether they are proper, and the errors that may replace the rule's on them. -/
structure Ctx where
  n0 : ℕ
  cell : ℝ → ℝ → Prop
  good : Prop
  odd : ℝ → ℝ → ℝ → Prop

/-- One panel, the whole range. -/
def Ctx.whole (p : Args) : Ctx := ⟨1, fun u v => u = p.a ∧ v = p.b, p.a < p.b, fun _ _ _ => False⟩

/-- What holds of the panels whenever the integrator has stored them. -/
structure Core (M : Mach) (f : ℝ → ℝ) (p : Args) (k : Ctx) (s : St) : Prop where
  one : 1 ≤ s.last
  more : k.n0 ≤ s.last
  le : s.last ≤ p.limit
  cap : s.last + 2 ≤ s.cap ∧ s.cap ≤ p.limit + 2
  lens : s.P.alist.len = s.cap ∧ s.P.blist.len = s.cap ∧ s.P.rlist.len = s.cap ∧
    s.P.elist.len = s.cap ∧ s.iord.len = s.cap
  tile : ∀ F : ℝ → ℝ, ∑ i ∈ Icc 1 s.last, (F (s.P.blist.get i) - F (s.P.alist.get i)) = F p.b - F p.a
  rule : ∀ i, 1 ≤ i → i ≤ s.last →
    s.P.rlist.get i = (qk21 M f (s.P.alist.get i) (s.P.blist.get i)).result ∧
    (s.P.elist.get i = (qk21 M f (s.P.alist.get i) (s.P.blist.get i)).abserr ∨
      k.odd (s.P.alist.get i) (s.P.blist.get i) (s.P.elist.get i))
  area : s.area = ∑ i ∈ Icc 1 s.last, s.P.rlist.get i
  errsum : s.errsum = ∑ i ∈ Icc 1 s.last, s.P.elist.get i
  inside : k.good → ∀ i, 1 ≤ i → i ≤ s.last → ∃ u v, k.cell u v ∧
    u ≤ s.P.alist.get i ∧ s.P.alist.get i < s.P.blist.get i ∧ s.P.blist.get i ≤ v
  evals : s.trace.length + 21 * k.n0 = 42 * s.last
  pts : k.good → ∀ x ∈ s.trace, ∃ u v, k.cell u v ∧ u < x ∧ x < v
  listed : Listed s.P.elist.get s.iord.get (kept p.limit s.last) s.last
  top : Top s.P.elist.get s.iord.get (sure p.limit s.last) s.last

/-- `Core` looks at a part of the state only. -/
theorem Core.congr {M : Mach} {f : ℝ → ℝ} {p : Args} {k : Ctx} {s t : St} (h : Core M f p k s) (h1 : t.cap = s.cap)
    (h2 : t.P = s.P) (h3 : t.iord = s.iord) (h4 : t.last = s.last) (h5 : t.area = s.area)
    (h6 : t.errsum = s.errsum) (h7 : t.trace = s.trace) : Core M f p k t := by
  obtain ⟨cap, P, iord, last⟩ := s
  obtain ⟨cap', P', iord', last'⟩ := t
  simp only at h1 h2 h3 h4 h5 h6 h7
  subst h1 h2 h3 h4 h5 h6 h7
  exact ⟨h.one, h.more, h.le, h.cap, h.lens, h.tile, h.rule, h.area, h.errsum, h.inside, h.evals, h.pts, h.listed,
    h.top⟩

/-- What the bisection needs: room for one more panel, and a panel chosen from the list. -/
structure Ready (M : Mach) (f : ℝ → ℝ) (p : Args) (k : Ctx) (s : St) : Prop where
  core : Core M f p k s
  lt : s.last < p.limit
  nr : 1 ≤ s.nrmax ∧ s.nrmax ≤ kept p.limit s.last
  maxerr : s.maxerr = s.iord.get s.nrmax
  errmax : s.errmax = s.P.elist.get s.maxerr

/-- What holds at the head of an iteration. -/
structure Head (M : Mach) (f : ℝ → ℝ) (p : Args) (s : St) : Prop where
  core : Core M f p (.whole p) s
  lt : s.last < p.limit
  nr : 1 ≤ s.nrmax ∧ s.nrmax ≤ kept p.limit s.last
  maxerr : s.maxerr = s.iord.get s.nrmax
  errmax : s.errmax = s.P.elist.get s.maxerr
  ext : s.extrap = false → s.nrmax = 1
  noext : s.noext = true → s.extrap = false
  elg : 1 ≤ s.elg.n ∧ s.elg.n ≤ 50 ∧ s.elg.n ≤ max 2 s.last
  tab : s.elg.tab.len = 53 ∧ s.elg.res3.len = 4
  abserr : s.abserr ≤ M.oflow
  ier : s.ier = 0

theorem Head.ready {M : Mach} {f : ℝ → ℝ} {p : Args} {s : St} (h : Head M f p s) :
    Ready M f p (.whole p) s := ⟨h.core, h.lt, h.nr, h.maxerr, h.errmax⟩

theorem Core.rule' {M : Mach} {f : ℝ → ℝ} {p : Args} {s : St} (h : Core M f p (.whole p) s) (i : ℕ)
    (h1 : 1 ≤ i) (h2 : i ≤ s.last) :
    s.P.rlist.get i = (qk21 M f (s.P.alist.get i) (s.P.blist.get i)).result ∧
    s.P.elist.get i = (qk21 M f (s.P.alist.get i) (s.P.blist.get i)).abserr := by
  obtain ⟨a, b | b⟩ := h.rule i h1 h2
  · exact ⟨a, b⟩
  · exact b.elim

theorem Core.inside' {M : Mach} {f : ℝ → ℝ} {p : Args} {s : St} (h : Core M f p (.whole p) s)
    (hab : p.a < p.b) (i : ℕ) (h1 : 1 ≤ i) (h2 : i ≤ s.last) :
    p.a ≤ s.P.alist.get i ∧ s.P.alist.get i < s.P.blist.get i ∧ s.P.blist.get i ≤ p.b := by
  obtain ⟨u, v, ⟨hu, hv⟩, h3⟩ := h.inside hab i h1 h2
  rw [← hu, ← hv]; exact h3

theorem Core.pts' {M : Mach} {f : ℝ → ℝ} {p : Args} {s : St} (h : Core M f p (.whole p) s)
    (hab : p.a < p.b) (x : ℝ) (hx : x ∈ s.trace) : p.a < x ∧ x < p.b := by
  obtain ⟨u, v, ⟨hu, hv⟩, h3⟩ := h.pts hab x hx
  rw [← hu, ← hv]; exact h3

theorem Core.evals' {M : Mach} {f : ℝ → ℝ} {p : Args} {s : St} (h : Core M f p (.whole p) s) :
    s.trace.length + 21 = 42 * s.last := h.evals

theorem jupbn_kept (limit last : ℕ) (h : last ≤ limit) : jupbn limit last = some (kept limit last) := by
  unfold jupbn kept
  split_ifs
  · rw [csub_of_le (by omega)]
  · rfl

theorem kept_le (limit last : ℕ) (h : last ≤ limit) : kept limit last ≤ last := by
  unfold kept; split_ifs <;> omega

/-- Splitting one term of a sum in two. -/
theorem sum_split (n m : ℕ) (h1 : 1 ≤ m) (h2 : m ≤ n) (g g' : ℕ → ℝ)
    (h : ∀ i, 1 ≤ i → i ≤ n → i ≠ m → g' i = g i) :
    ∑ i ∈ Icc 1 (n + 1), g' i = ∑ i ∈ Icc 1 n, g i + (g' m + g' (n + 1) - g m) := by
  rw [Finset.sum_Icc_succ_top (by omega)]
  have hm : m ∈ Icc 1 n := by simp; omega
  rw [← Finset.add_sum_erase _ g' hm, ← Finset.add_sum_erase _ g hm]
  have : ∑ i ∈ (Icc 1 n).erase m, g' i = ∑ i ∈ (Icc 1 n).erase m, g i := by
    refine Finset.sum_congr rfl ?_
    intro i hi
    simp only [mem_erase, mem_Icc] at hi
    exact h i hi.2.1 hi.2.2 hi.1
  rw [this]; ring

/-- What storing the halves does. -/
theorem append_spec (P : Panels) (m n c : ℕ) (w : Halves) (hm : m < c) (hn : n < c) (hne : m ≠ n)
    (hl : P.alist.len = c ∧ P.blist.len = c ∧ P.rlist.len = c ∧ P.elist.len = c)
    (ha : P.alist.get m = w.a1) (hb : P.blist.get m = w.b2) :
    ∃ Q, append P m n w = some Q ∧
      (Q.alist.len = c ∧ Q.blist.len = c ∧ Q.rlist.len = c ∧ Q.elist.len = c) ∧
      (∀ i, i ≠ m → i ≠ n → Q.alist.get i = P.alist.get i ∧ Q.blist.get i = P.blist.get i ∧
        Q.rlist.get i = P.rlist.get i ∧ Q.elist.get i = P.elist.get i) ∧
      Q.elist.get n ≤ Q.elist.get m ∧
      ((Q.alist.get m = w.a1 ∧ Q.blist.get m = w.b1 ∧ Q.rlist.get m = w.left.result ∧
          Q.elist.get m = w.left.abserr ∧ Q.alist.get n = w.b1 ∧ Q.blist.get n = w.b2 ∧
          Q.rlist.get n = w.right.result ∧ Q.elist.get n = w.right.abserr) ∨
        (Q.alist.get n = w.a1 ∧ Q.blist.get n = w.b1 ∧ Q.rlist.get n = w.left.result ∧
          Q.elist.get n = w.left.abserr ∧ Q.alist.get m = w.b1 ∧ Q.blist.get m = w.b2 ∧
          Q.rlist.get m = w.right.result ∧ Q.elist.get m = w.right.abserr)) := by
  obtain ⟨h1, h2, h3, h4⟩ := hl
  have hne' : n ≠ m := fun h => hne h.symm
  unfold append
  simp only [Buf.wr, h1, h2, h3, h4, hm, hn, if_true, Option.bind_eq_bind, Option.bind_some]
  split_ifs with hgt
  · refine ⟨_, rfl, by simp [h1, h2, h3, h4], ?_, ?_, Or.inr ?_⟩
    · intro i hi hi'
      simp [Function.update_apply, hi, hi']
    · simpa [Function.update_apply, hne, hne'] using le_of_lt hgt
    · simp [Function.update_apply, hne, hne', hb]
  · refine ⟨_, rfl, by simp [h1, h2, h3, h4], ?_, ?_, Or.inl ?_⟩
    · intro i hi hi'
      simp [Function.update_apply, hi, hi']
    · simpa [Function.update_apply, hne, hne'] using not_lt.mp hgt
    · simp [Function.update_apply, hne, hne', ha]

/-- Growing the workspace keeps what is in it. -/
theorem growSt_spec (limit : ℕ) (s : St) (hlt : s.last < limit)
    (hcap : s.last + 2 ≤ s.cap ∧ s.cap ≤ limit + 2)
    (hl : s.P.alist.len = s.cap ∧ s.P.blist.len = s.cap ∧ s.P.rlist.len = s.cap ∧
      s.P.elist.len = s.cap ∧ s.iord.len = s.cap) :
    ∃ c Q io, growSt limit s = { s with last := s.last + 1, cap := c, P := Q, iord := io } ∧
      s.last + 3 ≤ c ∧ c ≤ limit + 2 ∧
      (Q.alist.len = c ∧ Q.blist.len = c ∧ Q.rlist.len = c ∧ Q.elist.len = c ∧ io.len = c) ∧
      (∀ i, i ≤ s.last → Q.alist.get i = s.P.alist.get i ∧ Q.blist.get i = s.P.blist.get i ∧
        Q.rlist.get i = s.P.rlist.get i ∧ Q.elist.get i = s.P.elist.get i ∧
        io.get i = s.iord.get i) := by
  obtain ⟨h1, h2, h3, h4, h5⟩ := hl
  unfold growSt
  by_cases h : s.last + 1 + 2 > s.cap
  · rw [if_pos h]
    refine ⟨_, _, _, rfl, ?_, ?_, ?_, ?_⟩
    · unfold grownWorkspaceLen; omega
    · unfold grownWorkspaceLen; omega
    · simp [Buf.resize]
    · intro i hi
      have : i < s.cap := by omega
      simp [Buf.resize, h1, h2, h3, h4, h5, this]
  · rw [if_neg h]
    exact ⟨s.cap, s.P, s.iord, rfl, by omega, hcap.2, ⟨h1, h2, h3, h4, h5⟩, fun i _ => by simp⟩

theorem Listed.congr {α : Type} [LinearOrder α] {e e' : ℕ → α} {io io' : ℕ → ℕ} {J N : ℕ}
    (h : Listed e io J N) (hio : ∀ j, 1 ≤ j → j ≤ J → io' j = io j)
    (he : ∀ q, 1 ≤ q → q ≤ N → e' q = e q) : Listed e' io' J N := by
  constructor
  · intro j h1 h2; rw [hio j h1 h2]; exact h.range j h1 h2
  · intro i j h1 h2 h3; rw [hio i h1 (by omega), hio j (by omega) h3]; exact h.inj i j h1 h2 h3
  · intro i j h1 h2 h3
    rw [hio i h1 (by omega), hio j (by omega) h3]
    have a := h.range i h1 (by omega)
    have b := h.range j (by omega) h3
    rw [he _ a.1 a.2, he _ b.1 b.2]
    exact h.sorted i j h1 h2 h3

theorem Top.congr {α : Type} [LinearOrder α] {e e' : ℕ → α} {io io' : ℕ → ℕ} {J K N : ℕ}
    (h : Top e io K N) (hL : Listed e io J N) (hKJ : K ≤ J) (hio : ∀ j, 1 ≤ j → j ≤ J → io' j = io j)
    (he : ∀ q, 1 ≤ q → q ≤ N → e' q = e q) : Top e' io' K N := by
  intro q h1 h2 h3 i h4 h5
  have a := hL.range i h4 (by omega)
  rw [hio i h4 (by omega), he _ a.1 a.2, he q h1 h2]
  exact h q h1 h2 (fun k hk hk' => by rw [← hio k hk (by omega)]; exact h3 k hk hk') i h4 h5

theorem sure_le_kept (limit last : ℕ) : sure limit last ≤ kept limit last := by
  unfold sure kept; split_ifs <;> omega

/-- Sorting after a bisection, from the second panel on. -/
theorem qpsrt_all (limit last m : ℕ) (elist : Buf ℝ) (io : Buf ℕ) (nrmax : ℕ) (e0 : ℕ → ℝ)
    (hlast : 2 ≤ last) (hlim : last ≤ limit)
    (hL : Listed e0 io.get (kept limit (last - 1)) (last - 1))
    (hT : Top e0 io.get (sure limit (last - 1)) (last - 1))
    (hn : 1 ≤ nrmax ∧ nrmax ≤ kept limit (last - 1)) (hm : io.get nrmax = m)
    (he : ∀ q, 1 ≤ q → q ≤ last - 1 → q ≠ m → elist.get q = e0 q)
    (hmin : elist.get last ≤ elist.get m) (hlen : last + 1 < io.len) (hlene : last < elist.len) :
    ∃ q, qpsrt limit last m elist io nrmax = some q ∧ q.iord.len = io.len ∧
      Listed elist.get q.iord.get (kept limit last) last ∧
      Top elist.get q.iord.get (sure limit last) last ∧
      1 ≤ q.nrmax ∧ q.nrmax ≤ nrmax ∧ q.maxerr = q.iord.get q.nrmax ∧
      1 ≤ q.maxerr ∧ q.maxerr ≤ last ∧ q.errmax = elist.get q.maxerr := by
  by_cases h3 : 3 ≤ last
  · by_cases hf : last > limit / 2 + 2
    · have hk : kept limit last = limit + 3 - last := by unfold kept; rw [if_pos hf]
      have hs : sure limit last = limit + 1 - last := by unfold sure; rw [if_pos hf]
      have hk0 : limit + 3 - last ≤ kept limit (last - 1) + 1 := by
        unfold kept; split_ifs <;> omega
      have hs0 : limit + 1 - last + 1 ≤ sure limit (last - 1) := by
        unfold sure; split_ifs <;> omega
      have := kept_le limit (last - 1) (by omega)
      rw [hk, hs]
      exact qpsrt_spec limit last m elist io nrmax e0 (kept limit (last - 1)) (limit + 3 - last)
        (sure limit (last - 1)) (limit + 1 - last) h3 (by rw [jupbn_kept _ _ hlim, hk]) hL hT
        (sure_le_kept _ _) hn hm he hmin (by omega) hk0 (by omega) hs0 (by omega) hlene
    · have hk : kept limit last = last := by unfold kept; rw [if_neg hf]
      have hs : sure limit last = last := by unfold sure; rw [if_neg hf]
      have hk0 : kept limit (last - 1) = last - 1 := by unfold kept; rw [if_neg (by omega)]
      have hs0 : sure limit (last - 1) = last - 1 := by unfold sure; rw [if_neg (by omega)]
      rw [hk, hs]
      rw [hk0] at hL hn
      rw [hs0] at hT
      obtain ⟨q, h1, h2, h3, h4, h5⟩ := qpsrt_spec limit last m elist io nrmax e0 (last - 1) last
        (last - 1) (last - 2) h3 (by rw [jupbn_kept _ _ hlim, hk]) hL hT (le_refl _) hn hm he hmin
        (by omega) (by omega) (by omega) (by omega) (by omega) hlene
      exact ⟨q, h1, h2, h3, h3.top_full, h5⟩
  · have h2 : last = 2 := by omega
    subst h2
    have hk0 : kept limit (2 - 1) = 1 := by unfold kept; rw [if_neg (by omega)]
    have hk : kept limit 2 = 2 := by unfold kept; rw [if_neg (by omega)]
    have hs : sure limit 2 = 2 := by unfold sure; rw [if_neg (by omega)]
    rw [hk0] at hL hn
    have hr := hL.range 1 (le_refl _) (le_refl _)
    have hn1 : nrmax = 1 := by omega
    have hm1 : m = 1 := by rw [← hm, hn1]; omega
    subst hn1 hm1
    rw [hk, hs]
    obtain ⟨N, hN⟩ : ∃ N : Buf ℕ, N = ⟨io.len, Function.update (Function.update io.get 1 1) 2 2⟩ := ⟨_, rfl⟩
    have hq : qpsrt limit 2 1 elist io 1 = psrtPick elist N 1 := by
      unfold qpsrt
      rw [if_pos (le_refl _), Option.bind_eq_bind, Buf.wr_of_lt (by omega), Option.bind_some,
        Buf.wr_of_lt (by simp only; omega), Option.bind_some, hN]
    have hN1 : N.get 1 = 1 := by simp [hN, Function.update_apply]
    have hN2 : N.get 2 = 2 := by simp [hN]
    have hp : psrtPick elist N 1 = some ⟨1, elist.get 1, N, 1⟩ := by
      unfold psrtPick
      rw [Option.bind_eq_bind, Buf.rd_of_lt (by simp [hN]; omega), Option.bind_some, hN1,
        Buf.rd_of_lt (by omega)]
      rfl
    have hLi : Listed elist.get N.get 2 2 := by
      constructor
      · intro j h1 h2
        have : j = 1 ∨ j = 2 := by omega
        rcases this with rfl | rfl
        · rw [hN1]; omega
        · rw [hN2]; omega
      · intro i j h1 h2 h3
        have : i = 1 := by omega
        have : j = 2 := by omega
        subst i j
        rw [hN1, hN2]; omega
      · refine sorted_of_step _ _ _ ?_
        intro j h1 h2
        have : j = 1 := by omega
        subst j
        rw [hN1, hN2]; exact hmin
    exact ⟨_, hq.trans hp, by simp [hN], hLi, hLi.top_full, le_refl _, le_refl _, hN1.symm, le_refl _,
      by simp, rfl⟩

theorem halves_spec (M : Mach) (f : ℝ → ℝ) (P : Panels) (m c : ℕ) (hm : m < c)
    (h1 : P.alist.len = c) (h2 : P.blist.len = c) (h3 : P.rlist.len = c) :
    ∃ w, halves M f P m = some w ∧ w.a1 = P.alist.get m ∧ w.b2 = P.blist.get m ∧
      w.b1 = 0.5 * (w.a1 + w.b2) ∧ w.left = qk21 M f w.a1 w.b1 ∧ w.right = qk21 M f w.b1 w.b2 ∧
      w.old = P.rlist.get m := by
  unfold halves
  rw [Option.bind_eq_bind, Buf.rd_of_lt (by omega), Option.bind_some, Buf.rd_of_lt (by omega),
    Option.bind_some, Buf.rd_of_lt (by omega), Option.bind_some]
  exact ⟨_, rfl, rfl, rfl, rfl, rfl, rfl, rfl⟩

/-- One bisection from the head of an iteration. -/
theorem bisect_spec (M : Mach) (f : ℝ → ℝ) (p : Args) (k : Ctx) (s : St) (h : Ready M f p k s) :
    ∃ t w, bisect M f p s = some (t, w) ∧ Core M f p k t ∧ t.last = s.last + 1 ∧
      1 ≤ t.nrmax ∧ t.nrmax ≤ s.nrmax ∧ t.maxerr = t.iord.get t.nrmax ∧
      1 ≤ t.maxerr ∧ t.maxerr ≤ t.last ∧ t.errmax = t.P.elist.get t.maxerr ∧
      t.extrap = s.extrap ∧ t.noext = s.noext ∧ t.elg = s.elg ∧ t.abserr = s.abserr ∧
      t.errbnd = max p.epsabs (p.epsrel * |t.area|) ∧ (t.last = p.limit → t.ier ≠ 0) ∧
      t.cap = (growSt p.limit s).cap := by
  have hc := h.core
  obtain ⟨c, Q, io, hg, hc1, hc2, hlens, hsame⟩ := growSt_spec p.limit s h.lt hc.cap hc.lens
  obtain ⟨hl1, hl2, hl3, hl4, hl5⟩ := hlens
  have hkl := kept_le p.limit s.last hc.le
  have hm : 1 ≤ s.maxerr ∧ s.maxerr ≤ s.last := by
    rw [h.maxerr]; exact hc.listed.range _ h.nr.1 h.nr.2
  obtain ⟨w, hw, hwa, hwb, hwm, hwl, hwr, hwo⟩ := halves_spec M f Q s.maxerr c (by omega) hl1 hl2 hl3
  obtain ⟨R, hR, hRl, hRsame, hRmin, hRcase⟩ := append_spec Q s.maxerr (s.last + 1) c w (by omega)
    (by omega) (by omega) ⟨hl1, hl2, hl3, hl4⟩ hwa.symm hwb.symm
  obtain ⟨hr1, hr2, hr3, hr4⟩ := hRl
  have hold : ∀ i, i ≤ s.last → i ≠ s.maxerr → R.alist.get i = s.P.alist.get i ∧
      R.blist.get i = s.P.blist.get i ∧ R.rlist.get i = s.P.rlist.get i ∧
      R.elist.get i = s.P.elist.get i := by
    intro i hi hne
    obtain ⟨a1, a2, a3, a4⟩ := hRsame i hne (by omega)
    obtain ⟨b1, b2, b3, b4, _⟩ := hsame i hi
    exact ⟨a1.trans b1, a2.trans b2, a3.trans b3, a4.trans b4⟩
  obtain ⟨hsa, hsb, hsr, hse, _⟩ := hsame s.maxerr hm.2
  rw [hsa] at hwa
  rw [hsb] at hwb
  rw [hsr] at hwo
  obtain ⟨q, hq, hql, hqL, hqT, hq1, hq2, hq3, hq4, hq5, hq6⟩ := qpsrt_all p.limit (s.last + 1) s.maxerr
    R.elist io s.nrmax s.P.elist.get (by have := hc.one; omega) (by have := h.lt; omega)
    (hc.listed.congr (fun j _ h2 => (hsame j (by omega)).2.2.2.2) (fun _ _ _ => rfl))
    (hc.top.congr hc.listed (sure_le_kept _ _) (fun j _ h2 => (hsame j (by omega)).2.2.2.2)
      (fun _ _ _ => rfl)) h.nr
    (by rw [(hsame s.nrmax (by have := h.nr.2; omega)).2.2.2.2, ← h.maxerr])
    (fun i _ h2 h3 => (hold i h2 h3).2.2.2) hRmin (by omega) (by omega)
  have hb : bisect M f p s = some ({ (growSt p.limit s) with
      P := R, iord := q.iord, maxerr := q.maxerr, errmax := q.errmax, nrmax := q.nrmax
      area := s.area + (w.left.result + w.right.result - w.old)
      errsum := s.errsum + (w.left.abserr + w.right.abserr - s.errmax)
      errbnd := max p.epsabs (p.epsrel * |s.area + (w.left.result + w.right.result - w.old)|)
      iroff1 := (flags M p.limit (growSt p.limit s) w).1
      iroff2 := (flags M p.limit (growSt p.limit s) w).2.1
      iroff3 := (flags M p.limit (growSt p.limit s) w).2.2.1
      ier := (flags M p.limit (growSt p.limit s) w).2.2.2.1
      ierro := (flags M p.limit (growSt p.limit s) w).2.2.2.2
      trace := s.trace ++ w.left.pts ++ w.right.pts }, w) := by
    unfold bisect
    rw [hg]
    simp only [Option.bind_eq_bind, hw, Option.bind_some, hR, hq]
    rfl
  have hpair : ∀ (g : ℝ → ℝ → ℝ),
      g (R.alist.get s.maxerr) (R.blist.get s.maxerr) +
        g (R.alist.get (s.last + 1)) (R.blist.get (s.last + 1)) = g w.a1 w.b1 + g w.b1 w.b2 := by
    intro g
    rcases hRcase with ⟨a1, a2, _, _, a5, a6, _, _⟩ | ⟨a1, a2, _, _, a5, a6, _, _⟩
    · rw [a1, a2, a5, a6]
    · rw [a1, a2, a5, a6]; ring
  refine ⟨_, _, hb, ?_, by simp [hg], hq1, hq2, hq3, hq4, by simpa [hg] using hq5, hq6, by simp [hg], by simp [hg],
    by simp [hg], by simp [hg], rfl, ?_, rfl⟩
  · constructor
    · simp [hg]
    · simp only [hg]; have := hc.more; omega
    · simp only [hg]; have := h.lt; omega
    · simp only [hg]; omega
    · simp only [hg]; exact ⟨hr1, hr2, hr3, hr4, by rw [hql, hl5]⟩
    · intro F
      simp only [hg]
      rw [sum_split s.last s.maxerr hm.1 hm.2
        (fun i => F (s.P.blist.get i) - F (s.P.alist.get i)) _
        (fun i _ h2 h3 => by rw [(hold i h2 h3).1, (hold i h2 h3).2.1]), hc.tile F]
      have := hpair (fun x y => F y - F x)
      rw [this, hwa, hwb]; ring
    · intro i h1 h2
      simp only [hg] at h2 ⊢
      by_cases hi : i = s.maxerr ∨ i = s.last + 1
      · rcases hRcase with ⟨a1, a2, a3, a4, a5, a6, a7, a8⟩ | ⟨a1, a2, a3, a4, a5, a6, a7, a8⟩ <;>
          rcases hi with rfl | rfl
        · rw [a1, a2, a3, a4, hwl]; exact ⟨rfl, Or.inl rfl⟩
        · rw [a5, a6, a7, a8, hwr]; exact ⟨rfl, Or.inl rfl⟩
        · rw [a5, a6, a7, a8, hwr]; exact ⟨rfl, Or.inl rfl⟩
        · rw [a1, a2, a3, a4, hwl]; exact ⟨rfl, Or.inl rfl⟩
      · push Not at hi
        obtain ⟨b1, b2, b3, b4⟩ := hold i (by omega) hi.1
        rw [b1, b2, b3, b4]
        exact hc.rule i h1 (by omega)
    · simp only [hg]
      rw [sum_split s.last s.maxerr hm.1 hm.2 s.P.rlist.get _
        (fun i _ h2 h3 => (hold i h2 h3).2.2.1), hc.area, hwo]
      rcases hRcase with ⟨a1, a2, a3, a4, a5, a6, a7, a8⟩ | ⟨a1, a2, a3, a4, a5, a6, a7, a8⟩ <;>
        rw [a3, a7] <;> ring
    · simp only [hg]
      rw [sum_split s.last s.maxerr hm.1 hm.2 s.P.elist.get _
        (fun i _ h2 h3 => (hold i h2 h3).2.2.2), hc.errsum, h.errmax]
      rcases hRcase with ⟨a1, a2, a3, a4, a5, a6, a7, a8⟩ | ⟨a1, a2, a3, a4, a5, a6, a7, a8⟩ <;>
        rw [a4, a8] <;> ring
    · intro hab i h1 h2
      simp only [hg] at h2 ⊢
      obtain ⟨u, v, huv, c1, c2, c3⟩ := hc.inside hab s.maxerr hm.1 hm.2
      rw [← hwa] at c1 c2
      rw [← hwb] at c2 c3
      have d1 : w.a1 < w.b1 := by rw [hwm]; linarith
      have d2 : w.b1 < w.b2 := by rw [hwm]; linarith
      by_cases hi : i = s.maxerr ∨ i = s.last + 1
      · rcases hRcase with ⟨a1, a2, a3, a4, a5, a6, a7, a8⟩ | ⟨a1, a2, a3, a4, a5, a6, a7, a8⟩ <;>
          rcases hi with rfl | rfl
        · rw [a1, a2]; exact ⟨u, v, huv, c1, d1, by linarith⟩
        · rw [a5, a6]; exact ⟨u, v, huv, by linarith, d2, c3⟩
        · rw [a5, a6]; exact ⟨u, v, huv, by linarith, d2, c3⟩
        · rw [a1, a2]; exact ⟨u, v, huv, c1, d1, by linarith⟩
      · push Not at hi
        obtain ⟨b1, b2, b3, b4⟩ := hold i (by omega) hi.1
        rw [b1, b2]
        exact hc.inside hab i h1 (by omega)
    · simp only [hg, List.length_append, hwl, hwr, qk21_pts_length]
      have := hc.evals
      omega
    · intro hab x hx
      obtain ⟨u, v, huv, c1, c2, c3⟩ := hc.inside hab s.maxerr hm.1 hm.2
      rw [← hwa] at c1 c2
      rw [← hwb] at c2 c3
      have d1 : w.a1 < w.b1 := by rw [hwm]; linarith
      have d2 : w.b1 < w.b2 := by rw [hwm]; linarith
      simp only [List.mem_append] at hx
      rcases hx with (hx | hx) | hx
      · exact hc.pts hab x hx
      · rw [hwl] at hx
        have := kronrod_inside _ rule21_good M f _ _ d1 x hx
        exact ⟨u, v, huv, by linarith, by linarith⟩
      · rw [hwr] at hx
        have := kronrod_inside _ rule21_good M f _ _ d2 x hx
        exact ⟨u, v, huv, by linarith, by linarith⟩
    · simp only [hg]; exact hqL
    · simp only [hg]; exact hqT
  · intro hlim
    simp only [hg] at hlim ⊢
    simp only [flags, hlim, if_true]
    split_ifs <;> decide

/-- The search for a wide panel stays in the list. -/
theorem seek_spec (P : Panels) (io : Buf ℕ) (small : ℝ) (J N c : ℕ) (hL : ∀ j, 1 ≤ j → j ≤ J → io.get j ≤ N)
    (hN : N < c) (hJ : J < c)
    (hl : P.alist.len = c ∧ P.blist.len = c ∧ P.elist.len = c ∧ io.len = c)
    (cnt nr m : ℕ) (e : ℝ) (h1 : 1 ≤ nr) (hcnt : cnt = 0 ∨ nr + cnt = J + 1) :
    ∃ r, seek P io small cnt nr m e = some r ∧
      (r.1 = true → 1 ≤ r.2.1 ∧ r.2.1 ≤ J ∧ r.2.2.1 = io.get r.2.1 ∧ r.2.2.2 = P.elist.get r.2.2.1) := by
  obtain ⟨hl1, hl2, hl3, hl4⟩ := hl
  induction cnt generalizing nr m e with
  | zero => exact ⟨_, rfl, by simp⟩
  | succ cnt ih =>
    have hj : nr ≤ J := by omega
    have := hL nr h1 hj
    unfold seek
    simp only [Option.bind_eq_bind, Buf.rd_of_lt (show nr < io.len by omega), Option.bind_some,
      Buf.rd_of_lt (show io.get nr < P.elist.len by omega),
      Buf.rd_of_lt (show io.get nr < P.blist.len by omega),
      Buf.rd_of_lt (show io.get nr < P.alist.len by omega)]
    split_ifs with hw
    · exact ⟨_, rfl, fun _ => ⟨h1, hj, rfl, rfl⟩⟩
    · exact ih (nr + 1) _ _ (by omega) (by omega)

/-- What a turn of the loop may end with. -/
structure Ends (M : Mach) (f : ℝ → ℝ) (p : Args) (t : St) (c : Ctl) : Prop where
  core : Core M f p (.whole p) t
  next : c = .next → Head M f p t
  to115 : c = .to115 → t.errsum ≤ max p.epsabs (p.epsrel * |t.area|)
  to100 : c = .to100 → t.ier ≠ 0 ∨ (t.abserr < M.oflow ∧ t.abserr ≤ max p.epsabs (p.epsrel * |t.result|))

theorem restart_spec (M : Mach) (f : ℝ → ℝ) (p : Args) (s : St) (hc : Core M f p (.whole p) s)
    (hlt : s.last < p.limit) (helg : 1 ≤ s.elg.n ∧ s.elg.n ≤ 50 ∧ s.elg.n ≤ max 2 s.last)
    (htab : s.elg.tab.len = 53 ∧ s.elg.res3.len = 4) (habs : s.abserr ≤ M.oflow) (hier : s.ier = 0) :
    ∃ t, restart s = some (t, .next) ∧ Head M f p t ∧ t.last = s.last := by
  have hlen := hc.lens
  have hcap := hc.cap
  have hone := hc.one
  have hk : 1 ≤ kept p.limit s.last := by
    unfold kept; split_ifs <;> omega
  have hio := hc.listed.range 1 (le_refl _) hk
  unfold restart
  rw [Option.bind_eq_bind, Buf.rd_of_lt (by omega), Option.bind_some, Option.bind_eq_bind,
    Buf.rd_of_lt (by omega), Option.bind_some]
  have hc3 : Core M f p (.whole p) { s with
      maxerr := s.iord.get 1, errmax := s.P.elist.get (s.iord.get 1), nrmax := 1, extrap := false,
      small := s.small * 0.5, erlarg := s.errsum } := hc.congr rfl rfl rfl rfl rfl rfl rfl
  exact ⟨_, rfl, ⟨hc3, hlt, ⟨le_refl _, hk⟩, rfl, rfl, fun _ => rfl, fun _ => rfl, helg, htab, habs, hier⟩, rfl⟩

theorem afterElg_spec (M : Mach) (f : ℝ → ℝ) (p : Args) (s : St) (r : Elg × ℝ × ℝ) (hc : Core M f p (.whole p) s)
    (hlt : s.last < p.limit) (helg : 1 ≤ r.1.n ∧ r.1.n ≤ 50 ∧ r.1.n ≤ max 2 s.last)
    (htab : r.1.tab.len = 53 ∧ r.1.res3.len = 4) (habs : s.abserr ≤ M.oflow) (hier : s.ier = 0) :
    ∃ t c, afterElg p s r = some (t, c) ∧ Ends M f p t c ∧ t.last = s.last := by
  have hf : (accept p s r).cap = s.cap ∧ (accept p s r).P = s.P ∧ (accept p s r).iord = s.iord ∧
      (accept p s r).last = s.last ∧ (accept p s r).area = s.area ∧ (accept p s r).errsum = s.errsum ∧
      (accept p s r).trace = s.trace ∧ (accept p s r).elg = r.1 ∧
      ((accept p s r).ier = 0 ∨ (accept p s r).ier = 5) ∧ (accept p s r).abserr ≤ s.abserr ∧
      (r.2.2 < s.abserr → (accept p s r).abserr < s.abserr ∧
        (accept p s r).ertest = max p.epsabs (p.epsrel * |(accept p s r).result|)) := by
    unfold accept
    have hi : (if s.ktmin + 1 > 5 ∧ s.abserr < 0.1e-2 * s.errsum then 5 else s.ier) = 0 ∨
        (if s.ktmin + 1 > 5 ∧ s.abserr < 0.1e-2 * s.errsum then 5 else s.ier) = 5 := by
      rw [hier]; split_ifs <;> simp
    simp only
    generalize (if s.ktmin + 1 > 5 ∧ s.abserr < 0.1e-2 * s.errsum then 5 else s.ier) = ier at hi ⊢
    by_cases h : r.2.2 < s.abserr
    · rw [if_pos h]; simp [h, le_of_lt h, hi]
    · rw [if_neg h]; simp [h, hi]
  unfold afterElg
  generalize accept p s r = s1 at hf ⊢
  obtain ⟨g1, g2, g3, g4, g5, g6, g7, g8, g9, g10, g11⟩ := hf
  have core1 : Core M f p (.whole p) s1 := hc.congr g1 g2 g3 g4 g5 g6 g7
  have hf2 : (noMore s1).cap = s1.cap ∧ (noMore s1).P = s1.P ∧ (noMore s1).iord = s1.iord ∧
      (noMore s1).last = s1.last ∧ (noMore s1).area = s1.area ∧ (noMore s1).errsum = s1.errsum ∧
      (noMore s1).trace = s1.trace ∧ (noMore s1).elg = s1.elg ∧ (noMore s1).ier = s1.ier ∧
      (noMore s1).abserr = s1.abserr := by
    unfold noMore; split_ifs <;> simp
  by_cases hstop : r.2.2 < s.abserr ∧ s1.abserr ≤ s1.ertest
  · rw [if_pos hstop]
    obtain ⟨g12, g13⟩ := g11 hstop.1
    refine ⟨_, _, rfl, ⟨core1, by simp, by simp, fun _ => Or.inr ⟨by linarith, ?_⟩⟩, g4⟩
    rw [← g13]; exact hstop.2
  · rw [if_neg hstop]
    generalize noMore s1 = s2 at hf2 ⊢
    obtain ⟨k1, k2, k3, k4, k5, k6, k7, k8, k9, k10⟩ := hf2
    have core2 : Core M f p (.whole p) s2 := core1.congr k1 k2 k3 k4 k5 k6 k7
    by_cases h5 : s2.ier = 5
    · rw [if_pos h5]
      exact ⟨_, _, rfl, ⟨core2, by simp, by simp, fun _ => Or.inl (by omega)⟩, by omega⟩
    · rw [if_neg h5]
      obtain ⟨t, ht, hh, hl⟩ := restart_spec M f p s2 core2 (by omega) (by rw [k8, g8, k4, g4]; exact helg)
        (by rw [k8, g8]; exact htab) (by rw [k10]; linarith) (by omega)
      exact ⟨t, _, ht, ⟨hh.core, fun _ => hh, by simp, by simp⟩, by omega⟩

theorem extrapolate_spec (M : Mach) (f : ℝ → ℝ) (p : Args) (s : St) (hc : Core M f p (.whole p) s)
    (hlt : s.last < p.limit) (h3 : 3 ≤ s.last)
    (helg : 1 ≤ s.elg.n ∧ s.elg.n ≤ 50 ∧ s.elg.n ≤ max 2 (s.last - 1))
    (htab : s.elg.tab.len = 53 ∧ s.elg.res3.len = 4) (habs : s.abserr ≤ M.oflow) (hier : s.ier = 0) :
    (extrapolate M p s = none → s.elg.n = 50 ∧ 52 ≤ p.limit) ∧
      ∀ t c, extrapolate M p s = some (t, c) → Ends M f p t c ∧ t.last = s.last := by
  unfold extrapolate
  rw [Option.bind_eq_bind, Buf.wr_of_lt (by omega), Option.bind_some]
  by_cases h50 : s.elg.n = 50
  · have hlim : 52 ≤ p.limit := by omega
    refine ⟨fun _ => ⟨h50, hlim⟩, ?_⟩
    intro t c he
    exfalso
    have : qelg M ⟨s.elg.n + 1, ⟨s.elg.tab.len, Function.update s.elg.tab.get (s.elg.n + 1) s.area⟩,
        s.elg.res3, s.elg.nres⟩ = none := by
      unfold qelg
      rw [Option.bind_eq_bind, Buf.rd_of_lt (by simp only; omega), Option.bind_some,
        if_neg (by simp only; omega)]
      have hw : ∀ x, Buf.wr (⟨s.elg.tab.len, Function.update s.elg.tab.get (s.elg.n + 1) s.area⟩ : Buf ℝ)
          (s.elg.n + 1 + 2) x = none := by
        intro x; simp [Buf.wr, htab.1, h50]
      simp only [hw]
      rfl
    rw [Option.bind_eq_bind, this] at he
    simp at he
  · obtain ⟨r, hr, hr1, hr2, hr3, hr4⟩ := qelg_safe M ⟨s.elg.n + 1,
        ⟨s.elg.tab.len, Function.update s.elg.tab.get (s.elg.n + 1) s.area⟩, s.elg.res3, s.elg.nres⟩
      (by simp only; omega) (by simp only; omega) htab.1 htab.2
    simp only at hr2
    rw [Option.bind_eq_bind, hr, Option.bind_some]
    obtain ⟨t, c, h1, h2, h3⟩ := afterElg_spec M f p s r hc hlt (by omega) ⟨hr3, hr4⟩ habs hier
    rw [h1]
    refine ⟨by simp, ?_⟩
    intro t' c' he
    simp only [Option.some.injEq, Prod.mk.injEq] at he
    obtain ⟨rfl, rfl⟩ := he
    exact ⟨h2, h3⟩

theorem label40_spec (M : Mach) (f : ℝ → ℝ) (p : Args) (s : St) (hc : Core M f p (.whole p) s)
    (hlt : s.last < p.limit) (h3 : 3 ≤ s.last) (hnr : 1 ≤ s.nrmax) (hext : s.extrap = true)
    (hno : s.noext = false) (helg : 1 ≤ s.elg.n ∧ s.elg.n ≤ 50 ∧ s.elg.n ≤ max 2 (s.last - 1))
    (htab : s.elg.tab.len = 53 ∧ s.elg.res3.len = 4) (habs : s.abserr ≤ M.oflow) (hier : s.ier = 0) :
    (label40 M p s = none → s.elg.n = 50 ∧ 52 ≤ p.limit) ∧
      ∀ t c, label40 M p s = some (t, c) → Ends M f p t c ∧ t.last = s.last := by
  unfold label40
  split_ifs with hcond
  · exact extrapolate_spec M f p s hc hlt h3 helg htab habs hier
  · have hlen := hc.lens
    have hcap := hc.cap
    have hkl := kept_le p.limit s.last hc.le
    obtain ⟨r, hr, hr'⟩ := seek_spec s.P s.iord s.small (kept p.limit s.last) s.last s.cap
      (fun j h1 h2 => (hc.listed.range j h1 h2).2) (by omega) (by omega)
      ⟨hlen.1, hlen.2.1, hlen.2.2.2.1, hlen.2.2.2.2⟩ (kept p.limit s.last + 1 - s.nrmax) s.nrmax s.maxerr
      s.errmax hnr (by omega)
    rw [Option.bind_eq_bind, jupbn_kept _ _ hc.le, Option.bind_some, Option.bind_eq_bind, hr, Option.bind_some]
    have hc1 : Core M f p (.whole p) { s with nrmax := r.2.1, maxerr := r.2.2.1, errmax := r.2.2.2 } :=
      hc.congr rfl rfl rfl rfl rfl rfl rfl
    simp only
    split_ifs with hfound
    · refine ⟨fun h => (by simp at h), ?_⟩
      intro t c he
      simp only [Option.pure_def, Option.some.injEq, Prod.mk.injEq] at he
      obtain ⟨rfl, rfl⟩ := he
      obtain ⟨a1, a2, a3, a4⟩ := hr' hfound
      refine ⟨⟨hc1, fun _ => ?_, by simp, by simp⟩, rfl⟩
      refine ⟨hc1, hlt, ⟨a1, a2⟩, a3, a4, ?_, ?_, ?_, htab, habs, hier⟩
      · simp [hext]
      · simp [hno]
      · simp only; omega
    · exact extrapolate_spec M f p _ hc1 hlt h3 helg htab habs hier

theorem choose_spec (M : Mach) (f : ℝ → ℝ) (p : Args) (s : St) (hc : Core M f p (.whole p) s)
    (hlt : s.last < p.limit) (h3 : 3 ≤ s.last) (hnr : 1 ≤ s.nrmax) (hm : s.maxerr = s.iord.get s.nrmax)
    (hm2 : s.maxerr ≤ s.last) (he : s.errmax = s.P.elist.get s.maxerr) (hext : s.extrap = false → s.nrmax = 1)
    (hno : s.noext = false) (helg : 1 ≤ s.elg.n ∧ s.elg.n ≤ 50 ∧ s.elg.n ≤ max 2 (s.last - 1))
    (htab : s.elg.tab.len = 53 ∧ s.elg.res3.len = 4) (habs : s.abserr ≤ M.oflow) (hier : s.ier = 0) :
    (choose M p s = none → s.elg.n = 50 ∧ 52 ≤ p.limit) ∧
      ∀ t c, choose M p s = some (t, c) → Ends M f p t c ∧ t.last = s.last := by
  have hlen := hc.lens
  have hcap := hc.cap
  unfold choose
  split_ifs with hx
  · exact label40_spec M f p s hc hlt h3 hnr hx hno helg htab habs hier
  · rw [Option.bind_eq_bind, Buf.rd_of_lt (by omega), Option.bind_some, Buf.rd_of_lt (by omega),
      Option.bind_some]
    have hx' : s.extrap = false := by simpa using hx
    have hn1 := hext hx'
    have hk : 1 ≤ kept p.limit s.last := by unfold kept; split_ifs <;> omega
    split_ifs with hw
    · refine ⟨by simp, ?_⟩
      intro t c ht
      simp only [Option.some.injEq, Prod.mk.injEq] at ht
      obtain ⟨rfl, rfl⟩ := ht
      refine ⟨⟨hc, fun _ => ?_, by simp, by simp⟩, rfl⟩
      exact ⟨hc, hlt, ⟨hnr, by omega⟩, hm, he, hext, fun _ => hx', by omega, htab, habs, hier⟩
    · exact label40_spec M f p { s with extrap := true, nrmax := 2 } (hc.congr rfl rfl rfl rfl rfl rfl rfl)
        hlt h3 (by simp) rfl hno helg htab habs hier

/-- One turn of the loop from the head of an iteration. -/
theorem step_spec (M : Mach) (f : ℝ → ℝ) (p : Args) (s : St) (h : Head M f p s) :
    (step M f p s = none → s.elg.n = 50 ∧ 52 ≤ p.limit) ∧
      ∀ t c, step M f p s = some (t, c) → Ends M f p t c ∧ t.last = s.last + 1 := by
  obtain ⟨t, w, hb, hc, hlast, hn1, hn2, hm, hm1, hm2, he, hext, hno, helg, habs, hbnd, hlim, -⟩ :=
    bisect_spec M f p _ s h.ready
  unfold step
  rw [Option.bind_eq_bind, hb, Option.bind_some]
  simp only
  have hone := h.core.one
  have hlt := h.lt
  have hE := h.elg
  have hT := h.tab
  have hA := h.abserr
  have hlen := hc.lens
  have hcap := hc.cap
  rw [← hlast]
  unfold steer
  split_ifs with c1 c2 c3 c4 c5
  · refine ⟨fun h => (by simp at h), ?_⟩
    intro t' c ht
    simp only [Option.some.injEq, Prod.mk.injEq] at ht
    obtain ⟨rfl, rfl⟩ := ht
    exact ⟨⟨hc, by simp, fun _ => by rw [← hbnd]; exact c1, by simp⟩, rfl⟩
  · refine ⟨fun h => (by simp at h), ?_⟩
    intro t' c ht
    simp only [Option.some.injEq, Prod.mk.injEq] at ht
    obtain ⟨rfl, rfl⟩ := ht
    exact ⟨⟨hc, by simp, by simp, fun _ => Or.inl c2⟩, rfl⟩
  · have hl2 : t.last = 2 := c3
    have hs1 : s.last = 1 := by omega
    have hk : kept p.limit s.last = 1 := by rw [hs1]; unfold kept; rw [if_neg (by omega)]
    have hk2 : kept p.limit t.last = 2 := by rw [hl2]; unfold kept; rw [if_neg (by omega)]
    have hnr := h.nr.2
    rw [Option.bind_eq_bind, Buf.wr_of_lt (by rw [helg]; omega), Option.bind_some]
    refine ⟨fun h => (by simp at h), ?_⟩
    intro t' c ht
    simp only [Option.pure_def, Option.some.injEq, Prod.mk.injEq] at ht
    obtain ⟨rfl, rfl⟩ := ht
    refine ⟨⟨hc.congr rfl rfl rfl rfl rfl rfl rfl, fun _ => ?_, by simp, by simp⟩, rfl⟩
    refine ⟨hc.congr rfl rfl rfl rfl rfl rfl rfl, ?_, ⟨hn1, ?_⟩, hm, he, ?_, ?_, ?_, ?_, ?_, ?_⟩
    · simp only
      rcases lt_or_eq_of_le hc.le with h' | h'
      · exact h'
      · exact absurd (hlim h') c2
    · simp only; omega
    · intro _; simp only; omega
    · intro hh; simp only at hh ⊢; rw [hext]; rw [hno] at hh; exact h.noext hh
    · simp only [helg]; omega
    · simp only [helg]; exact hT
    · simp only [habs]; exact hA
    · push Not at c2; exact c2
  all_goals
    have hlt' : t.last < p.limit := by
      rcases lt_or_eq_of_le hc.le with h' | h'
      · exact h'
      · exact absurd (hlim h') c2
    have hier : t.ier = 0 := by push Not at c2; exact c2
    have h3 : 3 ≤ t.last := by omega
    have hk2 : 2 ≤ kept p.limit t.last := by unfold kept; split_ifs <;> omega
  · have hx := h.noext (hno ▸ c4)
    have hnr1 := h.ext hx
    refine ⟨fun h => (by simp at h), ?_⟩
    intro t' c ht
    simp only [Option.some.injEq, Prod.mk.injEq] at ht
    obtain ⟨rfl, rfl⟩ := ht
    refine ⟨⟨hc, fun _ => ?_, by simp, by simp⟩, rfl⟩
    refine ⟨hc, hlt', ⟨hn1, by omega⟩, hm, he, fun _ => by omega, fun _ => by rw [hext, hx], ?_, ?_, ?_, hier⟩
    · rw [helg]; omega
    · rw [helg]; exact hT
    · rw [habs]; exact hA
  · have hno' : t.noext = false := by simpa using c4
    have := choose_spec M f p { t with erlarg := wideError s.errmax t w }
      (hc.congr rfl rfl rfl rfl rfl rfl rfl) hlt' h3 hn1 hm hm2 he
      (fun hx => by have := h.ext (hext ▸ hx); simp only; omega) hno' (by simp only [helg]; omega)
      (by simp only [helg]; exact hT) (by simp only [habs]; exact hA) hier
    refine ⟨fun hn => ?_, this.2⟩
    have := this.1 hn
    rwa [helg] at this

end Hazma.Quad
