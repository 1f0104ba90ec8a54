import Verif.Model.ScalarModel
import Mathlib.Tactic

/-! # Scalar-mediator models: setters and widths -/

namespace Hazma.ScalarModel

open Hazma

theorem pydiv_ok {a b : ℝ} (h : b ≠ 0) : pydiv a b = .ok (a / b) := if_neg h
theorem checked_ok {v : ℝ} (h : 0 ≤ v) : checked v = .ok v := if_pos h

theorem rpow32_nonneg (x : ℝ) : 0 ≤ x ^ (3 / 2 : ℝ) := by
  rcases le_or_gt 0 x with h | h
  · exact Real.rpow_nonneg h _
  · rw [Real.rpow_def_of_neg h]
    have : Real.cos (3 / 2 * Real.pi) = 0 := by
      rw [show (3 / 2 : ℝ) * Real.pi = Real.pi + Real.pi / 2 by ring, Real.cos_add]
      simp
    rw [this, mul_zero]

/-- The pion widths never trip the assert and close at threshold. -/
theorem widthPi_spec (c : Consts) (m norm : ℝ) (s : Base) (hvh : c.vh ≠ 0) (hm : 0 < m)
    (hn : 0 < norm) (hl : s.lam ≠ 0) (hvs : s.vs = 0) :
    ∃ w, widthPi c m norm s = .ok w ∧ 0 ≤ w ∧ (s.ms ≤ 2 * m → w = 0)
      ∧ (2 * m < s.ms → w = Real.sqrt (s.ms ^ 2 - 4 * m ^ 2)
          * (6 * s.gsGG * (s.ms ^ 2 - 2 * m ^ 2)
            + 9 * c.b0 * (c.mdq + c.muq) * (2 * s.gsGG + 3 * s.gsff * s.lam / c.vh)) ^ 2
          * 9 / (norm * s.lam ^ 2 * s.ms ^ 2 * Real.pi)) := by
  unfold widthPi
  by_cases h : s.ms > 2 * m
  · rw [if_pos h]
    have hms : 0 < s.ms := by linarith
    have hpi := Real.pi_pos
    have h9 : 9 * s.lam ≠ 0 := by positivity
    have hden : norm * s.lam ^ 6 * s.ms ^ 2 * Real.pi * c.vh ^ 4
        * (9 * s.lam + 4 * s.gsGG * s.vs) ^ 2 ≠ 0 := by
      rw [hvs, mul_zero, add_zero]; positivity
    rw [pydiv_ok hden]
    simp only
    rw [checked_ok]
    · refine ⟨_, rfl, ?_, fun h' => absurd h' (by linarith), fun _ => ?_⟩
      · apply div_nonneg
        · exact mul_nonneg (Real.sqrt_nonneg _) (sq_nonneg _)
        · have : 0 ≤ s.lam ^ 6 := by positivity
          positivity
      · rw [hvs, show -4 * m ^ 2 + s.ms ^ 2 = s.ms ^ 2 - 4 * m ^ 2 by ring]
        simp only [mul_zero, add_zero, sub_zero]
        obtain ⟨r, hr⟩ : ∃ r, r = Real.sqrt (s.ms ^ 2 - 4 * m ^ 2) := ⟨_, rfl⟩
        rw [← hr]
        field_simp
        ring
    · apply div_nonneg
      · exact mul_nonneg (Real.sqrt_nonneg _) (sq_nonneg _)
      · have : 0 ≤ s.lam ^ 6 := by positivity
        positivity
  · rw [if_neg h]
    exact ⟨0, rfl, le_rfl, fun _ => rfl, fun h' => absurd h' h⟩

theorem widthXX_spec (s : Base) (hmx : 0 ≤ s.mx ∨ s.ms ≠ 0) :
    ∃ w, widthXX s = .ok w ∧ 0 ≤ w ∧ (s.ms ≤ 2 * s.mx → w = 0)
      ∧ (2 * s.mx < s.ms → w = s.gsxx ^ 2 * (s.ms ^ 2 - 4 * s.mx ^ 2) ^ (3 / 2 : ℝ)
          / (8 * s.ms ^ 2 * Real.pi)) := by
  unfold widthXX
  by_cases h : s.ms > 2 * s.mx
  · rw [if_pos h]
    have hms : s.ms ≠ 0 := by
      rcases hmx with h' | h'
      · exact (by linarith : 0 < s.ms).ne'
      · exact h'
    have hpi := Real.pi_pos
    rw [pydiv_ok (by positivity)]
    simp only
    have hnn := rpow32_nonneg (s.ms ^ 2 - 4 * s.mx ^ 2)
    rw [checked_ok (by positivity)]
    exact ⟨_, rfl, by positivity, fun h' => absurd h' (by linarith), fun _ => rfl⟩
  · rw [if_neg h]
    exact ⟨0, rfl, le_rfl, fun _ => rfl, fun h' => absurd h' h⟩

theorem widthFF_spec (c : Consts) (s : Base) (f : String) (mf : ℝ) (hvh : c.vh ≠ 0)
    (hf : f = "e" ∧ mf = c.me ∨ f = "mu" ∧ mf = c.mmu) (hm : 0 < mf) :
    ∃ w, widthFF c s f = .ok w ∧ 0 ≤ w ∧ (s.ms ≤ 2 * mf → w = 0) ∧ (s.gsff = 0 → w = 0)
      ∧ (2 * mf < s.ms → w = s.gsff ^ 2 * mf ^ 2 * (s.ms ^ 2 - 4 * mf ^ 2) ^ (3 / 2 : ℝ)
          / (8 * s.ms ^ 2 * Real.pi * c.vh ^ 2)) := by
  have h1 : f = "e" ∨ f = "mu" := by rcases hf with h | h <;> simp [h.1]
  have h2 : (if f = "e" then c.me else c.mmu) = mf := by
    rcases hf with ⟨rfl, rfl⟩ | ⟨rfl, rfl⟩
    · simp
    · rw [if_neg (by decide)]
  unfold widthFF
  rw [if_pos h1]
  simp only [h2]
  by_cases h : s.ms > 2 * mf
  · rw [if_pos h]
    have hms : 0 < s.ms := by linarith
    have hpi := Real.pi_pos
    rw [pydiv_ok (by positivity)]
    simp only
    have hnn := rpow32_nonneg (-4 * mf ^ 2 + s.ms ^ 2)
    rw [checked_ok (by positivity)]
    refine ⟨_, rfl, by positivity, fun h' => absurd h' (by linarith), fun h0 => by simp [h0], fun _ => ?_⟩
    rw [show -4 * mf ^ 2 + s.ms ^ 2 = s.ms ^ 2 - 4 * mf ^ 2 by ring]
  · rw [if_neg h]
    exact ⟨0, rfl, le_rfl, fun _ => rfl, fun _ => rfl, fun h' => absurd h' h⟩

/-- Positive masses and a non-zero electroweak scale. -/
structure Consts.Physical (c : Consts) : Prop where
  vh : c.vh ≠ 0
  me : 0 < c.me
  mmu : 0 < c.mmu
  mpi : 0 < c.mpi
  mpi0 : 0 < c.mpi0

/-- C37 (scalar): with a non-zero `lam` no assert can fire, each width is non-negative and closes at
its threshold, the dark-matter and lepton widths have the Yukawa form, the pion widths differ by
the identical-particle factor, and `total` is the sum. -/
theorem scalar_widths (c : Consts) (hc : c.Physical) (s : Base) (hvs : s.vs = 0) (hl : s.lam ≠ 0)
    (hms : 0 ≤ s.ms) (hmx : 0 ≤ s.mx) :
    ∃ gg pi0 pi xx ee mumu,
      partialWidths c s = .ok [("g g", gg), ("pi0 pi0", pi0), ("pi pi", pi), ("x x", xx),
        ("e e", ee), ("mu mu", mumu), ("total", gg + pi0 + pi + xx + ee + mumu)]
      ∧ 0 ≤ gg ∧ 0 ≤ pi0 ∧ 0 ≤ pi ∧ 0 ≤ xx ∧ 0 ≤ ee ∧ 0 ≤ mumu
      ∧ (s.ms ≤ 2 * c.mpi0 → pi0 = 0) ∧ (s.ms ≤ 2 * c.mpi → pi = 0) ∧ (s.ms ≤ 2 * s.mx → xx = 0)
      ∧ (s.ms ≤ 2 * c.me → ee = 0) ∧ (s.ms ≤ 2 * c.mmu → mumu = 0)
      ∧ (c.mpi = c.mpi0 → pi = 2 * pi0)
      ∧ (2 * s.mx < s.ms → s.gsxx ≠ 0 → 0 < xx)
      ∧ (2 * c.me < s.ms → s.gsff ≠ 0 → 0 < ee) ∧ (2 * c.mmu < s.ms → s.gsff ≠ 0 → 0 < mumu)
      ∧ (0 < s.ms → s.gsFF ≠ 0 → c.alpha ≠ 0 → 0 < gg) := by
  have hpi := Real.pi_pos
  have hg : widthGG c s = .ok (c.alpha ^ 2 * s.gsFF ^ 2 * s.ms ^ 3 / (64 * s.lam ^ 2 * Real.pi ^ 3)) :=
    pydiv_ok (by positivity)
  obtain ⟨w1, e1, n1, z1, f1⟩ := widthPi_spec c c.mpi0 209952 s hc.vh hc.mpi0 (by norm_num) hl hvs
  obtain ⟨w2, e2, n2, z2, f2⟩ := widthPi_spec c c.mpi 104976 s hc.vh hc.mpi (by norm_num) hl hvs
  obtain ⟨w3, e3, n3, z3, f3⟩ := widthXX_spec s (Or.inl hmx)
  obtain ⟨w4, e4, n4, z4, -, f4⟩ := widthFF_spec c s "e" c.me hc.vh (Or.inl ⟨rfl, rfl⟩) hc.me
  obtain ⟨w5, e5, n5, z5, -, f5⟩ := widthFF_spec c s "mu" c.mmu hc.vh (Or.inr ⟨rfl, rfl⟩) hc.mmu
  have hvh := hc.vh
  refine ⟨c.alpha ^ 2 * s.gsFF ^ 2 * s.ms ^ 3 / (64 * s.lam ^ 2 * Real.pi ^ 3), w1, w2, w3, w4, w5,
    ?_, ?_, n1, n2, n3, n4, n5, z1, z2, z3, z4, z5, ?_, ?_, ?_, ?_, ?_⟩
  · unfold partialWidths
    rw [hg, e1, e2, e3, e4, e5]; rfl
  · positivity
  · intro h
    rw [h] at f2 z2
    by_cases h' : s.ms ≤ 2 * c.mpi0
    · rw [z1 h', z2 h']; ring
    · push Not at h'
      rw [f1 h', f2 h']
      have : s.ms ≠ 0 := by have := hc.mpi0; linarith
      field_simp
      ring
  · intro h hx
    rw [f3 h]
    have h0 : 0 < s.ms := by linarith
    have : 0 < s.ms ^ 2 - 4 * s.mx ^ 2 := by nlinarith
    have := Real.rpow_pos_of_pos this (3 / 2 : ℝ)
    positivity
  · intro h hx
    rw [f4 h]
    have := hc.me
    have h0 : 0 < s.ms := by linarith
    have : 0 < s.ms ^ 2 - 4 * c.me ^ 2 := by nlinarith
    have := Real.rpow_pos_of_pos this (3 / 2 : ℝ)
    have := hc.me
    positivity
  · intro h hx
    rw [f5 h]
    have := hc.mmu
    have h0 : 0 < s.ms := by linarith
    have : 0 < s.ms ^ 2 - 4 * c.mmu ^ 2 := by nlinarith
    have := Real.rpow_pos_of_pos this (3 / 2 : ℝ)
    have := hc.mmu
    positivity
  · intro h h1 h2
    positivity

/-! ### Setters -/

theorem totalWidth_ok (c : Consts) (hc : c.Physical) (s : Base) (hvs : s.vs = 0) (hl : s.lam ≠ 0)
    (hx : 0 ≤ s.mx ∨ s.ms ≠ 0) : ∃ w, totalWidth c s = .ok w := by
  have hpi := Real.pi_pos
  have hg : widthGG c s = .ok (c.alpha ^ 2 * s.gsFF ^ 2 * s.ms ^ 3 / (64 * s.lam ^ 2 * Real.pi ^ 3)) :=
    pydiv_ok (by positivity)
  obtain ⟨w1, e1, -⟩ := widthPi_spec c c.mpi0 209952 s hc.vh hc.mpi0 (by norm_num) hl hvs
  obtain ⟨w2, e2, -⟩ := widthPi_spec c c.mpi 104976 s hc.vh hc.mpi (by norm_num) hl hvs
  obtain ⟨w3, e3, -⟩ := widthXX_spec s hx
  obtain ⟨w4, e4, -⟩ := widthFF_spec c s "e" c.me hc.vh (Or.inl ⟨rfl, rfl⟩) hc.me
  obtain ⟨w5, e5, -⟩ := widthFF_spec c s "mu" c.mmu hc.vh (Or.inr ⟨rfl, rfl⟩) hc.mmu
  unfold totalWidth partialWidths
  rw [hg, e1, e2, e3, e4, e5]
  exact ⟨_, rfl⟩

theorem totalWidth_zero (c : Consts) (s : Base) (hl : s.lam = 0) :
    totalWidth c s = .error .zeroDivision := by
  have : widthGG c s = .error .zeroDivision := by
    unfold widthGG pydiv; rw [if_pos (by rw [hl]; ring)]
  unfold totalWidth partialWidths
  rw [this]; rfl

/-- The object is what the constructor builds from its current parameters. -/
def Fresh (c : Consts) (s : Base) : Prop :=
  create c s.mx s.ms s.gsxx s.gsff s.gsGG s.gsFF s.lam = .ok s

theorem computeVs_zero (s : Base) : computeVs s = 0 := by unfold computeVs; split_ifs <;> rfl

theorem store_vs (s : Base) (a : Attr) (v : ℝ) : (store s a v).vs = 0 := computeVs_zero _

theorem fresh_iff (c : Consts) (s : Base) : Fresh c s ↔ s.vs = 0 ∧ totalWidth c s = .ok s.width := by
  have key : totalWidth c ⟨s.mx, s.ms, s.gsxx, s.gsff, s.gsGG, s.gsFF, s.lam, 0, 0⟩
      = totalWidth c { s with vs := 0 } := rfl
  unfold Fresh create computeWidth
  simp only [computeVs_zero, key]
  constructor
  · intro h
    cases ht : totalWidth c { s with vs := 0 } with
    | error e => rw [ht] at h; simp at h
    | ok w =>
      rw [ht] at h
      simp only [Except.ok.injEq] at h
      have hv : s.vs = 0 := by rw [← h]
      refine ⟨hv, ?_⟩
      have hw : s.width = w := by rw [← h]
      have hs : ({ s with vs := 0 } : Base) = s := by ext <;> simp [hv]
      rw [hs] at ht
      rw [ht, hw]
  · rintro ⟨hv, hw⟩
    have hs : ({ s with vs := 0 } : Base) = s := by ext <;> simp [hv]
    rw [hs, hw]
    simp only [Except.ok.injEq]
    ext <;> simp [hv]

theorem computeWidth_fresh (c : Consts) (s : Base) (hvs : s.vs = 0)
    (h : (computeWidth c s).2 = none) : Fresh c (computeWidth c s).1 := by
  rw [fresh_iff]
  unfold computeWidth at *
  cases ht : totalWidth c s with
  | error e => rw [ht] at h; simp at h
  | ok w => exact ⟨hvs, ht⟩

/-- C35 (generic scalar model): an assignment that returns normally leaves an object
indistinguishable from a freshly constructed one with the same parameters; reading gives back what
was written and nothing else changes. -/
theorem scalar_setter_fresh (c : Consts) (s : Base) (a : Attr) (v : ℝ)
    (h : (setAttr c s a v).2 = none) :
    Fresh c (setAttr c s a v).1 := by
  unfold setAttr at *
  exact computeWidth_fresh c _ (store_vs _ _ _) h

theorem computeWidth_get (c : Consts) (s : Base) (a : Attr) : get (computeWidth c s).1 a = get s a := by
  unfold computeWidth
  cases totalWidth c s <;> cases a <;> rfl

theorem computeWidth_vs (c : Consts) (s : Base) : (computeWidth c s).1.vs = s.vs := by
  unfold computeWidth
  cases totalWidth c s <;> rfl

theorem scalar_setter_get (c : Consts) (s : Base) (a b : Attr) (v : ℝ) :
    get (setAttr c s a v).1 b = if b = a then v else get s b := by
  unfold setAttr
  rw [computeWidth_get]
  cases a <;> cases b <;> simp [get, store]

/-- C35 (generic scalar model): over any history the object is as good as new, unless the last
parameters cannot be constructed either (then the assignment raised `ZeroDivisionError`). -/
theorem scalar_history_fresh (c : Consts) (s0 : Base) (h0 : Fresh c s0)
    (hist : List (Attr × ℝ)) :
    let s := run (setAttr c) s0 hist
    Fresh c s ∨ ∃ e, create c s.mx s.ms s.gsxx s.gsff s.gsGG s.gsFF s.lam = .error e := by
  induction hist using List.reverseRecOn with
  | nil => exact Or.inl h0
  | append_singleton l p ih =>
    simp only [run, List.foldl_append, List.foldl_cons, List.foldl_nil]
    obtain ⟨a, v⟩ := p
    generalize List.foldl (fun s (p : Attr × ℝ) => (setAttr c s p.1 p.2).1) s0 l = t
    by_cases h : (setAttr c t a v).2 = none
    · exact Or.inl (scalar_setter_fresh c t a v h)
    · right
      unfold setAttr at h ⊢
      simp only at h ⊢
      have hv0 := store_vs t a v
      generalize store t a v = u at h hv0 ⊢
      have hv : u.vs = 0 := hv0
      cases ht : totalWidth c u with
      | ok w => unfold computeWidth at h; rw [ht] at h; simp at h
      | error e =>
        refine ⟨e, ?_⟩
        have : (computeWidth c u).1 = u := by unfold computeWidth; rw [ht]
        rw [this]
        unfold create computeWidth
        simp only [computeVs_zero]
        have hu : (⟨u.mx, u.ms, u.gsxx, u.gsff, u.gsGG, u.gsFF, u.lam, 0, 0⟩ : Base)
          = { u with width := 0 } := by ext <;> simp [hv]
        have : totalWidth c { u with width := 0 } = totalWidth c u := rfl
        rw [hu, this, ht]

/-- The construction fails exactly for a vanishing scale `lam` (physical masses). -/
theorem create_ok_iff (c : Consts) (hc : c.Physical) (mx ms gsxx gsff gsGG gsFF lam : ℝ)
    (hx : 0 ≤ mx) :
    (∃ s, create c mx ms gsxx gsff gsGG gsFF lam = .ok s) ↔ lam ≠ 0 := by
  unfold create computeWidth
  simp only [computeVs_zero]
  constructor
  · rintro ⟨s, hs⟩ hl
    rw [totalWidth_zero c _ hl] at hs
    simp at hs
  · intro hl
    obtain ⟨w, hw⟩ := totalWidth_ok c hc ⟨mx, ms, gsxx, gsff, gsGG, gsFF, lam, 0, 0⟩ rfl hl (Or.inl hx)
    rw [hw]
    exact ⟨_, rfl⟩

/-- A raising assignment keeps the stale width: `lam = 0` stores the zero, keeps the old width. -/
theorem scalar_lam_zero_stale (c : Consts) (s : Base) :
    (setAttr c s .lam 0).2 = some .zeroDivision ∧ (setAttr c s .lam 0).1.lam = 0
    ∧ (setAttr c s .lam 0).1.width = s.width := by
  unfold setAttr computeWidth
  rw [totalWidth_zero c _ rfl]
  exact ⟨rfl, rfl, rfl⟩

/-! ### Higgs portal -/

/-- A Higgs-portal object as its constructor would build it from its own parameters. -/
def FreshHiggs (c : Consts) (h : Higgs) : Prop :=
  createHiggs c h.base.mx h.base.ms h.base.gsxx h.stheta = .ok h

/-- Couplings that follow from the mixing angle. -/
def Tied (h : Higgs) : Prop :=
  h.base.gsff = h.stheta ∧ h.base.gsGG = 3 * h.stheta ∧ h.base.gsFF = -5 * h.stheta / 6

theorem freshHiggs_of (c : Consts) (h : Higgs) (hf : Fresh c h.base) (ht : Tied h)
    (hl : h.base.lam = c.vh) : FreshHiggs c h := by
  obtain ⟨h1, h2, h3⟩ := ht
  unfold Fresh at hf
  rw [h1, h2, h3, hl] at hf
  unfold FreshHiggs createHiggs
  rw [hf]

theorem freshHiggs_tied (c : Consts) (h : Higgs) (hf : FreshHiggs c h) :
    Tied h ∧ h.base.lam = c.vh ∧ h.base.vs = 0 := by
  unfold FreshHiggs createHiggs create computeWidth at hf
  simp only [computeVs_zero] at hf
  cases ht : totalWidth c ⟨h.base.mx, h.base.ms, h.base.gsxx, h.stheta, 3 * h.stheta,
      -5 * h.stheta / 6, c.vh, 0, 0⟩ with
  | error e => rw [ht] at hf; simp at hf
  | ok w =>
    rw [ht] at hf
    simp only [Except.ok.injEq] at hf
    have := congrArg Higgs.base hf
    simp only at this
    unfold Tied
    rw [← this]
    exact ⟨⟨rfl, rfl, rfl⟩, rfl, rfl⟩

/-- C35 (Higgs portal): forbidden assignments raise and change nothing. -/
theorem higgs_forbidden (c : Consts) (h : Higgs) (a : Attr) (v : ℝ)
    (ha : a = .gsff ∨ a = .gsGG ∨ a = .gsFF) :
    setHiggs c h (.base a) v = (h, some .attribute) := by
  rcases ha with rfl | rfl | rfl <;> rfl

theorem setHiggs_tied (c : Consts) (h : Higgs) (a : HiggsAttr) (v : ℝ) (ht : Tied h) :
    Tied (setHiggs c h a v).1 := by
  have key : ∀ b : Attr, b ≠ .gsff → b ≠ .gsGG → b ≠ .gsFF →
      Tied { h with base := (setAttr c h.base b v).1 } := by
    intro b h1 h2 h3
    have g1 := scalar_setter_get c h.base b .gsff v
    have g2 := scalar_setter_get c h.base b .gsGG v
    have g3 := scalar_setter_get c h.base b .gsFF v
    rw [if_neg h1.symm] at g1
    rw [if_neg h2.symm] at g2
    rw [if_neg h3.symm] at g3
    simp only [get] at g1 g2 g3
    unfold Tied
    simp only [g1, g2, g3]
    exact ht
  cases a with
  | stheta =>
    unfold setHiggs Tied
    simp only
    have g1 := computeWidth_get c { h.base with gsff := v, gsGG := 3 * v, gsFF := -5 * v / 6 } .gsff
    have g2 := computeWidth_get c { h.base with gsff := v, gsGG := 3 * v, gsFF := -5 * v / 6 } .gsGG
    have g3 := computeWidth_get c { h.base with gsff := v, gsGG := 3 * v, gsFF := -5 * v / 6 } .gsFF
    simp only [get] at g1 g2 g3
    exact ⟨g1, g2, g3⟩
  | base b =>
    cases b with
    | gsff => exact ht
    | gsGG => exact ht
    | gsFF => exact ht
    | mx => exact key .mx (by decide) (by decide) (by decide)
    | ms => exact key .ms (by decide) (by decide) (by decide)
    | gsxx => exact key .gsxx (by decide) (by decide) (by decide)
    | lam => exact key .lam (by decide) (by decide) (by decide)

/-- C35 (Higgs portal): over any history of assignments the couplings stay tied to `sin(theta)`. -/
theorem higgs_couplings_tied (c : Consts) (h0 : Higgs) (hf : FreshHiggs c h0)
    (hist : List (HiggsAttr × ℝ)) : Tied (run (setHiggs c) h0 hist) := by
  induction hist using List.reverseRecOn with
  | nil => exact (freshHiggs_tied c h0 hf).1
  | append_singleton l p ih =>
    simp only [run, List.foldl_append, List.foldl_cons, List.foldl_nil] at ih ⊢
    exact setHiggs_tied c _ _ _ ih

/-- An attribute other than the inherited `lam`. -/
def NotLam : HiggsAttr → Prop
  | .base .lam => False
  | _ => True

/-- C35 (Higgs portal), histories that never assign `lam` and keep the dark-matter mass
non-negative: always as good as new. -/
theorem higgs_history_fresh_partial (c : Consts) (hc : c.Physical) (h0 : Higgs)
    (hf : FreshHiggs c h0) (hx : 0 ≤ h0.base.mx) (hist : List (HiggsAttr × ℝ))
    (hl : ∀ p ∈ hist, NotLam p.1) (hm : ∀ p ∈ hist, p.1 = .base .mx → 0 ≤ p.2) :
    FreshHiggs c (run (setHiggs c) h0 hist) ∧ 0 ≤ (run (setHiggs c) h0 hist).base.mx := by
  induction hist using List.reverseRecOn with
  | nil => exact ⟨hf, hx⟩
  | append_singleton l p ih =>
    obtain ⟨ih, ihx⟩ := ih (fun q hq => hl q (by simp [hq])) (fun q hq => hm q (by simp [hq]))
    simp only [run, List.foldl_append, List.foldl_cons, List.foldl_nil] at ih ihx ⊢
    generalize List.foldl (fun s (p : HiggsAttr × ℝ) => (setHiggs c s p.1 p.2).1) h0 l = t at ih ihx ⊢
    obtain ⟨ht, htl, htv⟩ := freshHiggs_tied c t ih
    have hpl := hl p (by simp)
    have hpm := hm p (by simp)
    obtain ⟨a, v⟩ := p
    simp only at hpl hpm ⊢
    have hT := setHiggs_tied c t a v ht
    have key : ∀ b : Attr, b ≠ .lam → (b = .mx → 0 ≤ v) →
        Fresh c (setAttr c t.base b v).1 ∧ (setAttr c t.base b v).1.lam = c.vh
        ∧ 0 ≤ (setAttr c t.base b v).1.mx := by
      intro b hb hbm
      have g1 := scalar_setter_get c t.base b .lam v
      rw [if_neg (Ne.symm hb)] at g1
      have g2 := scalar_setter_get c t.base b .mx v
      simp only [get] at g1 g2
      have gx : 0 ≤ (setAttr c t.base b v).1.mx := by
        rw [g2]; split_ifs with h
        · exact hbm h.symm
        · exact ihx
      refine ⟨?_, by rw [g1, htl], gx⟩
      apply scalar_setter_fresh
      unfold setAttr at g1 gx ⊢
      have hv0 := store_vs t.base b v
      generalize store t.base b v = u at g1 gx hv0 ⊢
      have hv : u.vs = 0 := hv0
      have gl := computeWidth_get c u .lam
      have gm := computeWidth_get c u .mx
      simp only [get] at gl gm
      have hul : u.lam ≠ 0 := by rw [← gl, g1, htl]; exact hc.vh
      obtain ⟨w, hw⟩ := totalWidth_ok c hc u hv hul (Or.inl (by rw [← gm]; exact gx))
      unfold computeWidth
      rw [hw]
    cases a with
    | stheta =>
      have hs : Fresh c (setHiggs c t .stheta v).1.base := by
        unfold setHiggs
        simp only
        apply computeWidth_fresh c { t.base with gsff := v, gsGG := 3 * v, gsFF := -5 * v / 6 } htv
        obtain ⟨w, hw⟩ := totalWidth_ok c hc
          { t.base with gsff := v, gsGG := 3 * v, gsFF := -5 * v / 6 } htv
          (by simp only [htl]; exact hc.vh) (Or.inl ihx)
        unfold computeWidth
        rw [hw]
      have g1 := computeWidth_get c { t.base with gsff := v, gsGG := 3 * v, gsFF := -5 * v / 6 } .lam
      have g2 := computeWidth_get c { t.base with gsff := v, gsGG := 3 * v, gsFF := -5 * v / 6 } .mx
      simp only [get] at g1 g2
      refine ⟨freshHiggs_of c _ hs hT ?_, ?_⟩
      · unfold setHiggs; simp only; rw [g1, htl]
      · unfold setHiggs; simp only; rw [g2]; exact ihx
    | base b =>
      cases b with
      | gsff => exact ⟨ih, ihx⟩
      | gsGG => exact ⟨ih, ihx⟩
      | gsFF => exact ⟨ih, ihx⟩
      | lam => exact absurd hpl id
      | mx =>
        obtain ⟨k1, k2, k3⟩ := key .mx (by decide) (fun _ => hpm rfl)
        exact ⟨freshHiggs_of c _ k1 hT k2, k3⟩
      | ms =>
        obtain ⟨k1, k2, k3⟩ := key .ms (by decide) (fun h => by cases h)
        exact ⟨freshHiggs_of c _ k1 hT k2, k3⟩
      | gsxx =>
        obtain ⟨k1, k2, k3⟩ := key .gsxx (by decide) (fun h => by cases h)
        exact ⟨freshHiggs_of c _ k1 hT k2, k3⟩

theorem gg_only_width (c : Consts) (hc : c.Physical) (s : Base) (hv : s.vs = 0) (hl : s.lam ≠ 0)
    (h0 : 0 ≤ s.ms) (h1 : s.ms ≤ 2 * c.mpi0) (h2 : s.ms ≤ 2 * c.mpi) (h3 : s.ms ≤ 2 * s.mx)
    (h4 : s.ms ≤ 2 * c.me) (h5 : s.ms ≤ 2 * c.mmu) :
    totalWidth c s = .ok (c.alpha ^ 2 * s.gsFF ^ 2 * s.ms ^ 3 / (64 * s.lam ^ 2 * Real.pi ^ 3)) := by
  have hpi := Real.pi_pos
  have hg : widthGG c s = .ok (c.alpha ^ 2 * s.gsFF ^ 2 * s.ms ^ 3 / (64 * s.lam ^ 2 * Real.pi ^ 3)) :=
    pydiv_ok (by positivity)
  obtain ⟨w1, e1, -, z1, -⟩ := widthPi_spec c c.mpi0 209952 s hc.vh hc.mpi0 (by norm_num) hl hv
  obtain ⟨w2, e2, -, z2, -⟩ := widthPi_spec c c.mpi 104976 s hc.vh hc.mpi (by norm_num) hl hv
  obtain ⟨w3, e3, -, z3, -⟩ := widthXX_spec s (Or.inl (by linarith))
  obtain ⟨w4, e4, -, z4, -⟩ := widthFF_spec c s "e" c.me hc.vh (Or.inl ⟨rfl, rfl⟩) hc.me
  obtain ⟨w5, e5, -, z5, -⟩ := widthFF_spec c s "mu" c.mmu hc.vh (Or.inr ⟨rfl, rfl⟩) hc.mmu
  unfold totalWidth partialWidths
  rw [hg, e1, e2, e3, e4, e5, z1 h1, z2 h2, z3 h3, z4 h4, z5 h5]
  simp [Bind.bind, Except.bind, Pure.pure, Except.pure, Dict.get?]

/-- C35 (Higgs portal, false in general): the inherited `lam` setter is not hidden.  After assigning
it, an object whose visible parameters are unchanged has a width different from a fresh one. -/
theorem higgs_lam_assignment_breaks (c : Consts) (hc : c.Physical) (ha : c.alpha ≠ 0)
    (hme : c.me ≤ c.mmu ∧ c.me ≤ c.mpi ∧ c.me ≤ c.mpi0) :
    ∃ h h' : Higgs, createHiggs c c.me c.me 1 1 = .ok h
      ∧ setHiggs c h (.base .lam) (2 * c.vh) = (h', none)
      ∧ h'.base.mx = h.base.mx ∧ h'.base.ms = h.base.ms ∧ h'.base.gsxx = h.base.gsxx
      ∧ h'.stheta = h.stheta ∧ h.base.width = 4 * h'.base.width ∧ h'.base.width ≠ h.base.width := by
  obtain ⟨m1, m2, m3⟩ := hme
  have hm := hc.me
  have hvh := hc.vh
  have hpi := Real.pi_pos
  have e1 := gg_only_width c hc ⟨c.me, c.me, 1, 1, 3 * 1, -5 * 1 / 6, c.vh, 0, 0⟩ rfl hvh hm.le
    (by simp only; linarith) (by simp only; linarith) (by simp only; linarith)
    (by simp only; linarith) (by simp only; linarith)
  have e2 := gg_only_width c hc ⟨c.me, c.me, 1, 1, 3 * 1, -5 * 1 / 6, 2 * c.vh, 0, 0⟩ rfl
    (by simp [hvh]) hm.le
    (by simp only; linarith) (by simp only; linarith) (by simp only; linarith)
    (by simp only; linarith) (by simp only; linarith)
  simp only at e1 e2
  obtain ⟨w1, hw1⟩ : ∃ w, w = c.alpha ^ 2 * (-5 * 1 / 6) ^ 2 * c.me ^ 3 / (64 * c.vh ^ 2 * Real.pi ^ 3) :=
    ⟨_, rfl⟩
  obtain ⟨w2, hw2⟩ : ∃ w, w = c.alpha ^ 2 * (-5 * 1 / 6) ^ 2 * c.me ^ 3
      / (64 * (2 * c.vh) ^ 2 * Real.pi ^ 3) := ⟨_, rfl⟩
  rw [← hw1] at e1
  rw [← hw2] at e2
  have h4 : w1 = 4 * w2 := by rw [hw1, hw2]; field_simp; norm_num
  have hpos : 0 < w2 := by
    rw [hw2]
    have : 0 < c.alpha ^ 2 := by positivity
    have : 0 < c.vh ^ 2 := by positivity
    positivity
  refine ⟨⟨⟨c.me, c.me, 1, 1, 3 * 1, -5 * 1 / 6, c.vh, 0, w1⟩, 1⟩,
    ⟨⟨c.me, c.me, 1, 1, 3 * 1, -5 * 1 / 6, 2 * c.vh, 0, w2⟩, 1⟩, ?_, ?_, rfl, rfl, rfl, rfl, h4, ?_⟩
  · unfold createHiggs create computeWidth
    simp only [computeVs_zero, e1]
  · unfold setHiggs setAttr computeWidth
    have e2' : totalWidth c ⟨c.me, c.me, 1, 1, 3 * 1, -5 * 1 / 6, 2 * c.vh, 0, w1⟩ = .ok w2 := e2
    simp only [store, computeVs_zero, e2']
  · simp only; rw [h4]; linarith

/-! ### Heavy quark -/

/-- A heavy-quark object as its constructor would build it. -/
def FreshHeavy (c : Consts) (h : Heavy) : Prop :=
  createHeavy c h.base.mx h.base.ms h.base.gsxx h.gsQ h.mQ h.QQ = .ok h

/-- Couplings that follow from the heavy quark's coupling and charge. -/
def TiedHeavy (h : Heavy) : Prop :=
  h.base.gsff = 0 ∧ h.base.gsGG = h.gsQ ∧ h.base.gsFF = 2 * h.gsQ * h.QQ ^ 2

theorem heavy_forbidden (c : Consts) (h : Heavy) (a : Attr) (v : ℝ)
    (ha : a = .gsff ∨ a = .gsGG ∨ a = .gsFF) :
    setHeavy c h (.base a) v = (h, some .attribute) := by
  rcases ha with rfl | rfl | rfl <;> rfl

theorem freshHeavy_tied (c : Consts) (h : Heavy) (hf : FreshHeavy c h) :
    TiedHeavy h ∧ h.base.lam = h.mQ ∧ h.base.vs = 0 := by
  unfold FreshHeavy createHeavy create computeWidth at hf
  simp only [computeVs_zero] at hf
  cases ht : totalWidth c ⟨h.base.mx, h.base.ms, h.base.gsxx, 0, h.gsQ, 2 * h.gsQ * h.QQ ^ 2,
      h.mQ, 0, 0⟩ with
  | error e => rw [ht] at hf; simp at hf
  | ok w =>
    rw [ht] at hf
    simp only [Except.ok.injEq] at hf
    have := congrArg Heavy.base hf
    simp only at this
    unfold TiedHeavy
    rw [← this]
    exact ⟨⟨rfl, rfl, rfl⟩, rfl, rfl⟩

theorem setHeavy_tied (c : Consts) (h : Heavy) (a : HeavyAttr) (v : ℝ)
    (ht : TiedHeavy h ∧ h.base.vs = 0) :
    TiedHeavy (setHeavy c h a v).1 ∧ (setHeavy c h a v).1.base.vs = 0 := by
  obtain ⟨⟨t1, t2, t3⟩, tv⟩ := ht
  have key : ∀ b : Attr, b ≠ .gsff → b ≠ .gsGG → b ≠ .gsFF →
      TiedHeavy { h with base := (setAttr c h.base b v).1 } ∧ (setAttr c h.base b v).1.vs = 0 := by
    intro b h1 h2 h3
    have g1 := scalar_setter_get c h.base b .gsff v
    have g2 := scalar_setter_get c h.base b .gsGG v
    have g3 := scalar_setter_get c h.base b .gsFF v
    rw [if_neg h1.symm] at g1
    rw [if_neg h2.symm] at g2
    rw [if_neg h3.symm] at g3
    simp only [get] at g1 g2 g3
    unfold TiedHeavy
    simp only [g1, g2, g3]
    refine ⟨⟨t1, t2, t3⟩, ?_⟩
    unfold setAttr
    rw [computeWidth_vs]
    exact store_vs _ _ _
  have new : ∀ (b : Base) (q m z : ℝ), b.vs = 0 → b.gsff = 0 → b.gsGG = q → b.gsFF = 2 * q * z ^ 2 →
      TiedHeavy ⟨(computeWidth c b).1, q, m, z⟩ ∧ (computeWidth c b).1.vs = 0 := by
    intro b q m z hv h1 h2 h3
    have g1 := computeWidth_get c b .gsff
    have g2 := computeWidth_get c b .gsGG
    have g3 := computeWidth_get c b .gsFF
    simp only [get] at g1 g2 g3
    unfold TiedHeavy
    simp only [g1, g2, g3, computeWidth_vs]
    exact ⟨⟨h1, h2, h3⟩, hv⟩
  cases a with
  | gsQ => exact new _ _ _ _ tv t1 rfl rfl
  | mQ => exact new _ _ _ _ tv t1 t2 t3
  | QQ => exact new _ _ _ _ tv t1 t2 rfl
  | base b =>
    cases b with
    | gsff => exact ⟨⟨t1, t2, t3⟩, tv⟩
    | gsGG => exact ⟨⟨t1, t2, t3⟩, tv⟩
    | gsFF => exact ⟨⟨t1, t2, t3⟩, tv⟩
    | mx => exact key .mx (by decide) (by decide) (by decide)
    | ms => exact key .ms (by decide) (by decide) (by decide)
    | gsxx => exact key .gsxx (by decide) (by decide) (by decide)
    | lam => exact key .lam (by decide) (by decide) (by decide)

/-- C35 (heavy quark): over any history the couplings follow from `gsQ` and `QQ`, so the leptonic
widths, which the class does not list as final states, stay zero. -/
theorem heavy_couplings_tied (c : Consts) (hc : c.Physical) (h0 : Heavy) (hf : FreshHeavy c h0)
    (hist : List (HeavyAttr × ℝ)) :
    TiedHeavy (run (setHeavy c) h0 hist)
    ∧ ∀ f, f = "e" ∨ f = "mu" → widthFF c (run (setHeavy c) h0 hist).base f = .ok 0 := by
  have h1 : TiedHeavy (run (setHeavy c) h0 hist) ∧ (run (setHeavy c) h0 hist).base.vs = 0 := by
    induction hist using List.reverseRecOn with
    | nil => exact ⟨(freshHeavy_tied c h0 hf).1, (freshHeavy_tied c h0 hf).2.2⟩
    | append_singleton l p ih =>
      simp only [run, List.foldl_append, List.foldl_cons, List.foldl_nil] at ih ⊢
      exact setHeavy_tied c _ _ _ ih
  refine ⟨h1.1, ?_⟩
  rintro f (rfl | rfl)
  · obtain ⟨w, e, -, -, z, -⟩ := widthFF_spec c (run (setHeavy c) h0 hist).base "e" c.me hc.vh
      (Or.inl ⟨rfl, rfl⟩) hc.me
    rw [e, z h1.1.1]
  · obtain ⟨w, e, -, -, z, -⟩ := widthFF_spec c (run (setHeavy c) h0 hist).base "mu" c.mmu hc.vh
      (Or.inr ⟨rfl, rfl⟩) hc.mmu
    rw [e, z h1.1.1]

/-- C35 (heavy quark): an assignment other than `lam` that returns normally leaves an object as
good as new. -/
theorem heavy_setter_fresh_partial (c : Consts) (h : Heavy) (a : HeavyAttr) (v : ℝ)
    (ht : TiedHeavy h) (hv : h.base.vs = 0) (hl : h.base.lam = h.mQ) (ha : a ≠ .base .lam)
    (hok : (setHeavy c h a v).2 = none) :
    FreshHeavy c (setHeavy c h a v).1 := by
  have hT := (setHeavy_tied c h a v ⟨ht, hv⟩).1
  have fin : ∀ k : Heavy, Fresh c k.base → TiedHeavy k → k.base.lam = k.mQ → FreshHeavy c k := by
    intro k hf ⟨h1, h2, h3⟩ hl
    unfold Fresh at hf
    rw [h1, h2, h3, hl] at hf
    unfold FreshHeavy createHeavy
    rw [hf]
  have key : ∀ b : Attr, b ≠ .lam → (setAttr c h.base b v).2 = none →
      (setAttr c h.base b v).1.lam = h.mQ := by
    intro b hb _
    have g1 := scalar_setter_get c h.base b .lam v
    rw [if_neg (Ne.symm hb)] at g1
    simp only [get] at g1
    rw [g1, hl]
  cases a with
  | gsQ =>
    refine fin _ (computeWidth_fresh c _ hv hok) hT ?_
    exact (computeWidth_get c { h.base with gsGG := v, gsFF := 2 * v * h.QQ ^ 2 } .lam).trans hl
  | mQ =>
    refine fin _ (computeWidth_fresh c _ hv hok) hT ?_
    exact computeWidth_get c { h.base with lam := v } .lam
  | QQ =>
    refine fin _ (computeWidth_fresh c _ hv hok) hT ?_
    exact (computeWidth_get c { h.base with gsFF := 2 * h.gsQ * v ^ 2 } .lam).trans hl
  | base b =>
    cases b with
    | gsff => simp [setHeavy] at hok
    | gsGG => simp [setHeavy] at hok
    | gsFF => simp [setHeavy] at hok
    | lam => exact absurd rfl ha
    | mx => exact fin _ (scalar_setter_fresh c _ .mx v hok) hT (key .mx (by decide) hok)
    | ms => exact fin _ (scalar_setter_fresh c _ .ms v hok) hT (key .ms (by decide) hok)
    | gsxx => exact fin _ (scalar_setter_fresh c _ .gsxx v hok) hT (key .gsxx (by decide) hok)

/-- C35 (heavy quark, false in general): the inherited `lam` setter separates the scale from the
visible heavy-quark mass. -/
theorem heavy_lam_assignment_breaks (c : Consts) (h : Heavy) (v : ℝ) (hne : v ≠ h.mQ) :
    (setHeavy c h (.base .lam) v).1.mQ = h.mQ
    ∧ (setHeavy c h (.base .lam) v).1.base.lam ≠ (setHeavy c h (.base .lam) v).1.mQ
    ∧ ¬ FreshHeavy c (setHeavy c h (.base .lam) v).1 := by
  have g := scalar_setter_get c h.base .lam .lam v
  simp only [get, if_true] at g
  have h1 : (setHeavy c h (.base .lam) v).1.base.lam = v := g
  refine ⟨rfl, ?_, ?_⟩
  · rw [h1]; exact hne
  · intro hf
    have := (freshHeavy_tied c _ hf).2.1
    rw [h1] at this
    exact hne this

/-- Physical constants close to those of `hazma/parameters.py`, and an object that exists. -/
example : ∃ c : Consts, c.Physical ∧ (∃ s, create c 100 1000 1 0.1 0.3 0.2 246000 = .ok s)
    ∧ c.me ≤ c.mmu ∧ c.me ≤ c.mpi ∧ c.me ≤ c.mpi0 ∧ c.alpha ≠ 0 := by
  refine ⟨⟨1 / 137, 246000, 2600, 2.2, 4.7, 139.57, 134.98, 0.511, 105.66⟩, ?_, ?_, ?_⟩
  · constructor <;> norm_num
  · refine (create_ok_iff _ ?_ _ _ _ _ _ _ _ ?_).mpr ?_
    · constructor <;> norm_num
    · norm_num
    · norm_num
  · norm_num

/-- C37: a lepton name other than `"e"` and `"mu"` raises `ValueError`. -/
theorem width_unknown_lepton (c : Consts) (s : Base) (f : String) (h1 : f ≠ "e") (h2 : f ≠ "mu") :
    widthFF c s f = .error .value := by
  simp [widthFF, h1, h2]

end Hazma.ScalarModel
