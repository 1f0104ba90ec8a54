import Verif.Model.VectorModel
import Verif.Props.ScalarModel

/-! # Vector-mediator models: setters and widths -/

namespace Hazma.VectorModel

open Hazma
open Hazma.ScalarModel (Err checked pydiv pydiv_ok checked_ok rpow32_nonneg)

/-- Positive masses, coupling and decay constant. -/
structure Consts.Physical (c : Consts) : Prop where
  alpha : 0 < c.alpha
  fpi : 0 < c.fpi
  me : 0 < c.me
  mmu : 0 < c.mmu
  mpi : 0 < c.mpi
  mpi0 : 0 < c.mpi0

theorem bind_ok {α β : Type} {x : Except Err α} {a : α} (h : x = .ok a) (f : α → Except Err β) :
    (x >>= f) = f a := by rw [h]; rfl

theorem widthPiPi_spec (c : Consts) (hc : c.Physical) (s : Base) :
    ∃ w, widthPiPi c s = .ok w ∧ 0 ≤ w ∧ (s.mv ≤ 2 * c.mpi → w = 0)
      ∧ (2 * c.mpi < s.mv → w = (s.gvdd - s.gvuu) ^ 2 * s.mv
          * (1 - 4 * c.mpi ^ 2 / s.mv ^ 2) ^ (3 / 2 : ℝ) / (48 * Real.pi)) := by
  have hpi := Real.pi_pos
  have hm := hc.mpi
  unfold widthPiPi
  by_cases h : s.mv > 2 * c.mpi
  · have hv : 0 < s.mv := by linarith
    rw [if_pos h]
    simp only
    rw [bind_ok (pydiv_ok hv.ne'), bind_ok (pydiv_ok (by positivity))]
    have hn := rpow32_nonneg (1 - 4 * (c.mpi / s.mv) ^ 2)
    rw [checked_ok (by positivity)]
    refine ⟨_, rfl, by positivity, fun h' => absurd h' (by linarith), fun _ => ?_⟩
    rw [show 1 - 4 * c.mpi ^ 2 / s.mv ^ 2 = 1 - 4 * (c.mpi / s.mv) ^ 2 by rw [div_pow]; ring]
    ring
  · rw [if_neg h]
    exact ⟨0, rfl, le_rfl, fun _ => rfl, fun h' => absurd h' h⟩

theorem widthPi0G_spec (c : Consts) (hc : c.Physical) (s : Base) :
    ∃ w, widthPi0G c s = .ok w ∧ 0 ≤ w ∧ (s.mv ≤ c.mpi0 → w = 0)
      ∧ (c.mpi0 < s.mv → w = c.alpha * (s.gvdd + 2 * s.gvuu) ^ 2 * (s.mv ^ 2 - c.mpi0 ^ 2) ^ 3
          / (384 * c.fpi ^ 2 * Real.pi ^ 4 * s.mv ^ 3)) := by
  have hpi := Real.pi_pos
  have hm := hc.mpi0
  have ha := hc.alpha
  have hf := hc.fpi
  unfold widthPi0G
  by_cases h : s.mv > c.mpi0
  · have hv : 0 < s.mv := by linarith
    rw [if_pos h]
    rw [bind_ok (pydiv_ok hv.ne'), bind_ok (pydiv_ok (by positivity))]
    have h1 : 0 ≤ 1 - (c.mpi0 / s.mv) ^ 2 := by
      rw [div_pow, sub_nonneg, div_le_one (by positivity)]
      nlinarith
    rw [checked_ok (by positivity)]
    refine ⟨_, rfl, by positivity, fun h' => absurd h' (by linarith), fun _ => ?_⟩
    field_simp
  · rw [if_neg h]
    exact ⟨0, rfl, le_rfl, fun _ => rfl, fun h' => absurd h' h⟩

theorem widthXX_spec (s : Base) (hx : 0 ≤ s.mx ∨ s.mv ≠ 0) :
    ∃ w, widthXX s = .ok w ∧ 0 ≤ w ∧ (s.mv ≤ 2 * s.mx → w = 0)
      ∧ (2 * s.mx < s.mv → w = s.gvxx ^ 2 * Real.sqrt (s.mv ^ 2 - 4 * s.mx ^ 2)
          * (s.mv ^ 2 + 2 * s.mx ^ 2) / (12 * s.mv ^ 2 * Real.pi)) := by
  have hpi := Real.pi_pos
  unfold widthXX
  by_cases h : s.mv > 2 * s.mx
  · have hv : s.mv ≠ 0 := by
      rcases hx with h' | h'
      · exact (by linarith : 0 < s.mv).ne'
      · exact h'
    rw [if_pos h, bind_ok (pydiv_ok (by positivity)), checked_ok (by positivity)]
    exact ⟨_, rfl, by positivity, fun h' => absurd h' (by linarith), fun _ => rfl⟩
  · rw [if_neg h]
    exact ⟨0, rfl, le_rfl, fun _ => rfl, fun h' => absurd h' h⟩

theorem widthFF_spec (c : Consts) (s : Base) (f : String) (mf g : ℝ)
    (hf : f = "e" ∧ mf = c.me ∧ g = s.gvee ∨ f = "mu" ∧ mf = c.mmu ∧ g = s.gvmumu) (hm : 0 < mf) :
    ∃ w, widthFF c s f = .ok w ∧ 0 ≤ w ∧ (s.mv ≤ 2 * mf → w = 0) ∧ (g = 0 → w = 0)
      ∧ (2 * mf < s.mv → w = g ^ 2 * Real.sqrt (s.mv ^ 2 - 4 * mf ^ 2)
          * (s.mv ^ 2 + 2 * mf ^ 2) / (12 * s.mv ^ 2 * Real.pi)) := by
  have hpi := Real.pi_pos
  have h1 : f = "e" ∨ f = "mu" := by rcases hf with h | h <;> simp [h.1]
  have h2 : (if f = "e" then c.me else c.mmu) = mf ∧ (if f = "e" then s.gvee else s.gvmumu) = g := by
    rcases hf with ⟨rfl, rfl, rfl⟩ | ⟨rfl, rfl, rfl⟩
    · simp
    · simp only [if_neg (show ¬ "mu" = "e" by decide), and_self]
  unfold widthFF
  rw [if_pos h1]
  simp only [h2.1, h2.2]
  by_cases h : s.mv > 2 * mf
  · have hv : 0 < s.mv := by linarith
    rw [if_pos h, bind_ok (pydiv_ok (by positivity)), checked_ok (by positivity)]
    refine ⟨_, rfl, by positivity, fun h' => absurd h' (by linarith), fun h0 => by simp [h0],
      fun _ => ?_⟩
    rw [show -4 * mf ^ 2 + s.mv ^ 2 = s.mv ^ 2 - 4 * mf ^ 2 by ring,
      show 2 * mf ^ 2 + s.mv ^ 2 = s.mv ^ 2 + 2 * mf ^ 2 by ring]
  · rw [if_neg h]
    exact ⟨0, rfl, le_rfl, fun _ => rfl, fun _ => rfl, fun h' => absurd h' h⟩

/-- C37 (vector): for a non-negative dark-matter mass no exception can occur, each width is
non-negative, closed below threshold, open above it when its coupling is non-zero, and `total` is
the sum. -/
theorem vector_widths (c : Consts) (hc : c.Physical) (s : Base) (hx : 0 ≤ s.mx) :
    ∃ pipi pi0g xx ee mumu,
      partialWidths c s = .ok [("pi pi", pipi), ("pi0 g", pi0g), ("x x", xx), ("e e", ee),
        ("mu mu", mumu), ("total", pipi + pi0g + xx + ee + mumu)]
      ∧ 0 ≤ pipi ∧ 0 ≤ pi0g ∧ 0 ≤ xx ∧ 0 ≤ ee ∧ 0 ≤ mumu
      ∧ (0 < pipi ↔ 2 * c.mpi < s.mv ∧ s.gvdd ≠ s.gvuu)
      ∧ (0 < pi0g ↔ c.mpi0 < s.mv ∧ s.gvdd + 2 * s.gvuu ≠ 0)
      ∧ (0 < xx ↔ 2 * s.mx < s.mv ∧ s.gvxx ≠ 0)
      ∧ (0 < ee ↔ 2 * c.me < s.mv ∧ s.gvee ≠ 0)
      ∧ (0 < mumu ↔ 2 * c.mmu < s.mv ∧ s.gvmumu ≠ 0) := by
  have hpi := Real.pi_pos
  obtain ⟨w1, e1, n1, z1, f1⟩ := widthPiPi_spec c hc s
  obtain ⟨w2, e2, n2, z2, f2⟩ := widthPi0G_spec c hc s
  obtain ⟨w3, e3, n3, z3, f3⟩ := widthXX_spec s (Or.inl hx)
  obtain ⟨w4, e4, n4, z4, -, f4⟩ := widthFF_spec c s "e" c.me s.gvee (Or.inl ⟨rfl, rfl, rfl⟩) hc.me
  obtain ⟨w5, e5, n5, z5, -, f5⟩ := widthFF_spec c s "mu" c.mmu s.gvmumu
    (Or.inr ⟨rfl, rfl, rfl⟩) hc.mmu
  have two : ∀ m g w : ℝ, 0 ≤ m → (s.mv ≤ 2 * m → w = 0) → (2 * m < s.mv → w = g ^ 2
      * Real.sqrt (s.mv ^ 2 - 4 * m ^ 2) * (s.mv ^ 2 + 2 * m ^ 2) / (12 * s.mv ^ 2 * Real.pi)) →
      (0 < w ↔ 2 * m < s.mv ∧ g ≠ 0) := by
    intro m g w hm z f
    constructor
    · intro hw
      have h1 : 2 * m < s.mv := by
        by_contra h; push Not at h; rw [z h] at hw; exact lt_irrefl _ hw
      refine ⟨h1, ?_⟩
      rintro rfl
      rw [f h1] at hw
      simp at hw
    · rintro ⟨h1, h2⟩
      rw [f h1]
      have h0 : 0 < s.mv := by linarith
      have : 0 < Real.sqrt (s.mv ^ 2 - 4 * m ^ 2) := Real.sqrt_pos.mpr (by nlinarith)
      positivity
  refine ⟨w1, w2, w3, w4, w5, ?_, n1, n2, n3, n4, n5, ?_, ?_, two _ _ _ hx z3 f3,
    two _ _ _ hc.me.le z4 f4, two _ _ _ hc.mmu.le z5 f5⟩
  · unfold partialWidths
    rw [e1, e2, e3, e4, e5]; rfl
  · constructor
    · intro hw
      have h1 : 2 * c.mpi < s.mv := by
        by_contra h; push Not at h; rw [z1 h] at hw; exact lt_irrefl _ hw
      refine ⟨h1, fun h => ?_⟩
      rw [f1 h1, h] at hw
      simp at hw
    · rintro ⟨h1, h2⟩
      rw [f1 h1]
      have hm := hc.mpi
      have h0 : 0 < s.mv := by linarith
      have h3 : 0 < 1 - 4 * c.mpi ^ 2 / s.mv ^ 2 := by
        rw [sub_pos, div_lt_one (by positivity)]; nlinarith
      have := Real.rpow_pos_of_pos h3 (3 / 2 : ℝ)
      have : s.gvdd - s.gvuu ≠ 0 := sub_ne_zero.mpr h2
      positivity
  · constructor
    · intro hw
      have h1 : c.mpi0 < s.mv := by
        by_contra h; push Not at h; rw [z2 h] at hw; exact lt_irrefl _ hw
      refine ⟨h1, fun h => ?_⟩
      rw [f2 h1, h] at hw
      simp at hw
    · rintro ⟨h1, h2⟩
      rw [f2 h1]
      have hm := hc.mpi0
      have ha := hc.alpha
      have hf := hc.fpi
      have h0 : 0 < s.mv := by linarith
      have h3 : 0 < s.mv ^ 2 - c.mpi0 ^ 2 := by nlinarith
      positivity

/-! ### Setters -/

theorem totalWidth_ok (c : Consts) (hc : c.Physical) (s : Base) (hx : 0 ≤ s.mx) :
    ∃ w, totalWidth c s = .ok w := by
  obtain ⟨a, b, d, e, f, h, -⟩ := vector_widths c hc s hx
  unfold totalWidth
  rw [bind_ok h]
  exact ⟨_, rfl⟩

/-- The object is what the constructor builds from its current parameters. -/
def Fresh (c : Consts) (s : Base) : Prop :=
  create c s.mx s.mv s.gvxx s.gvuu s.gvdd s.gvss s.gvee s.gvmumu = .ok s

theorem fresh_iff (c : Consts) (s : Base) : Fresh c s ↔ totalWidth c s = .ok s.width := by
  have key : totalWidth c ⟨s.mx, s.mv, s.gvxx, s.gvuu, s.gvdd, s.gvss, s.gvee, s.gvmumu, 0⟩
      = totalWidth c s := rfl
  unfold Fresh create computeWidth
  rw [key]
  cases ht : totalWidth c s with
  | error e => simp
  | ok w =>
    simp only [Except.ok.injEq]
    constructor
    · intro h; rw [← h]
    · intro h; ext <;> simp [h]

theorem computeWidth_get (c : Consts) (s : Base) (a : Attr) : get (computeWidth c s).1 a = get s a := by
  unfold computeWidth
  cases totalWidth c s <;> cases a <;> rfl

theorem computeWidth_fresh (c : Consts) (s : Base)
    (h : ∃ w, totalWidth c s = .ok w) : Fresh c (computeWidth c s).1 ∧ (computeWidth c s).2 = none := by
  obtain ⟨w, hw⟩ := h
  rw [fresh_iff]
  unfold computeWidth
  rw [hw]
  exact ⟨hw, rfl⟩

/-- Reading after writing. -/
theorem vector_setter_get (c : Consts) (s : Base) (a b : Attr) (v : ℝ) :
    get (setAttr c s a v).1 b = if b = a then v else get s b := by
  unfold setAttr
  rw [computeWidth_get]
  cases a <;> cases b <;> simp [get, store]

theorem store_mx (s : Base) (a : Attr) (v : ℝ) (hx : 0 ≤ s.mx) (ha : a = .mx → 0 ≤ v) :
    0 ≤ (store s a v).mx := by
  cases a <;> first | exact ha rfl | exact hx

theorem setAttr_fresh (c : Consts) (hc : c.Physical) (s : Base) (a : Attr) (v : ℝ) (hx : 0 ≤ s.mx)
    (ha : a = .mx → 0 ≤ v) :
    Fresh c (setAttr c s a v).1 ∧ (setAttr c s a v).2 = none ∧ 0 ≤ (setAttr c s a v).1.mx := by
  have h := store_mx s a v hx ha
  obtain ⟨h1, h2⟩ := computeWidth_fresh c _ (totalWidth_ok c hc _ h)
  exact ⟨h1, h2, h.trans_eq (computeWidth_get c (store s a v) .mx).symm⟩

/-- C36 (generic vector model): whatever is assigned in whatever order, the object is as good as
new. -/
theorem vector_history_fresh (c : Consts) (hc : c.Physical) (s0 : Base) (h0 : Fresh c s0)
    (hx : 0 ≤ s0.mx) (hist : List (Attr × ℝ)) (hm : ∀ p ∈ hist, p.1 = .mx → 0 ≤ p.2) :
    Fresh c (run (setAttr c) s0 hist) ∧ 0 ≤ (run (setAttr c) s0 hist).mx := by
  induction hist using List.reverseRecOn with
  | nil => exact ⟨h0, hx⟩
  | append_singleton l p ih =>
    obtain ⟨-, ihx⟩ := ih (fun q hq => hm q (by simp [hq]))
    simp only [run, List.foldl_append, List.foldl_cons, List.foldl_nil] at ihx ⊢
    obtain ⟨k1, -, k3⟩ := setAttr_fresh c hc _ p.1 p.2 ihx (hm p (by simp))
    exact ⟨k1, k3⟩

/-- A fresh object's cached width is the total of its partial widths. -/
theorem fresh_width_total (c : Consts) (s : Base) (h : Fresh c s) :
    ∃ d : Dict ℝ, partialWidths c s = .ok d ∧ d.get? "total" = some s.width := by
  rw [fresh_iff] at h
  unfold totalWidth at h
  cases hd : partialWidths c s with
  | error e => rw [hd] at h; cases h
  | ok d =>
    rw [bind_ok hd] at h
    refine ⟨d, rfl, ?_⟩
    cases hg : d.get? "total" with
    | none => rw [hg] at h; cases h
    | some w => rw [hg] at h; cases h; rfl

/-! ### Kinetic mixing -/

/-- A kinetic-mixing object as its constructor would build it. -/
def FreshKinetic (c : Consts) (k : Kinetic) : Prop :=
  createKinetic c k.base.mx k.base.mv k.base.gvxx k.eps = .ok k

/-- Couplings are charge times `-eps*qe`. -/
def Tied (c : Consts) (k : Kinetic) : Prop :=
  k.base.gvuu = -(2 / 3) * k.eps * c.qe ∧ k.base.gvdd = 1 / 3 * k.eps * c.qe
  ∧ k.base.gvss = 1 / 3 * k.eps * c.qe ∧ k.base.gvee = k.eps * c.qe ∧ k.base.gvmumu = k.eps * c.qe

theorem charges (e q : ℝ) : -Qu * e * q = -(2 / 3) * e * q ∧ -Qd * e * q = 1 / 3 * e * q
    ∧ -Qe * e * q = e * q := by
  unfold Qu Qd Qe
  refine ⟨by ring, by ring, by ring⟩

theorem freshKinetic_iff (c : Consts) (k : Kinetic) :
    FreshKinetic c k ↔ Fresh c k.base ∧ Tied c k := by
  obtain ⟨q1, q2, q3⟩ := charges k.eps c.qe
  unfold FreshKinetic createKinetic
  rw [q1, q2, q3]
  constructor
  · intro h
    cases hb : create c k.base.mx k.base.mv k.base.gvxx (-(2 / 3) * k.eps * c.qe)
        (1 / 3 * k.eps * c.qe) (1 / 3 * k.eps * c.qe) (k.eps * c.qe) (k.eps * c.qe) with
    | error e => rw [hb] at h; cases h
    | ok b =>
      rw [hb] at h
      simp only [Except.ok.injEq] at h
      have hbk : b = k.base := by rw [← h]
      have hb' := hb
      unfold create computeWidth at hb'
      cases ht : totalWidth c ⟨k.base.mx, k.base.mv, k.base.gvxx, -(2 / 3) * k.eps * c.qe,
        1 / 3 * k.eps * c.qe, 1 / 3 * k.eps * c.qe, k.eps * c.qe, k.eps * c.qe, 0⟩ with
      | error e => rw [ht] at hb'; cases hb'
      | ok w =>
        rw [ht] at hb'
        simp only [Except.ok.injEq] at hb'
        have ht' : Tied c k := by
          unfold Tied
          rw [← hbk, ← hb']
          exact ⟨rfl, rfl, rfl, rfl, rfl⟩
        refine ⟨?_, ht'⟩
        obtain ⟨t1, t2, t3, t4, t5⟩ := ht'
        unfold Fresh
        rw [t1, t2, t3, t4, t5, hb, hbk]
  · rintro ⟨hf, t1, t2, t3, t4, t5⟩
    unfold Fresh at hf
    rw [t1, t2, t3, t4, t5] at hf
    rw [hf]

/-- C36 (kinetic mixing): forbidden assignments raise and change nothing. -/
theorem kinetic_forbidden (c : Consts) (k : Kinetic) (a : Attr) (v : ℝ)
    (ha : a ≠ .mx ∧ a ≠ .mv ∧ a ≠ .gvxx) :
    setKinetic c k (.base a) v = (k, some .attribute) := by
  cases a <;> first | rfl | exact absurd rfl ha.1 | exact absurd rfl ha.2.1 | exact absurd rfl ha.2.2

/-- C36 (kinetic mixing): over any history the object is as good as new; in particular the couplings
are the charges times `-eps*qe` and the cached width is current. -/
theorem kinetic_history_fresh (c : Consts) (hc : c.Physical) (k0 : Kinetic) (h0 : FreshKinetic c k0)
    (hx : 0 ≤ k0.base.mx) (hist : List (KineticAttr × ℝ))
    (hm : ∀ p ∈ hist, p.1 = .base .mx → 0 ≤ p.2) :
    FreshKinetic c (run (setKinetic c) k0 hist) ∧ Tied c (run (setKinetic c) k0 hist)
    ∧ 0 ≤ (run (setKinetic c) k0 hist).base.mx := by
  induction hist using List.reverseRecOn with
  | nil => exact ⟨h0, ((freshKinetic_iff c k0).mp h0).2, hx⟩
  | append_singleton l p ih =>
    obtain ⟨ihf, iht, ihx⟩ := ih (fun q hq => hm q (by simp [hq]))
    simp only [run, List.foldl_append, List.foldl_cons, List.foldl_nil] at ihf iht ihx ⊢
    have hmp := hm p (by simp)
    obtain ⟨a, v⟩ := p
    simp only at hmp ⊢
    generalize List.foldl (fun s (p : KineticAttr × ℝ) => (setKinetic c s p.1 p.2).1) k0 l = t
      at ihf iht ihx ⊢
    have key : ∀ b : Attr, b = .mx ∨ b = .mv ∨ b = .gvxx → (b = .mx → 0 ≤ v) →
        FreshKinetic c { t with base := (setAttr c t.base b v).1 }
        ∧ Tied c { t with base := (setAttr c t.base b v).1 } ∧ 0 ≤ (setAttr c t.base b v).1.mx := by
      intro b hb hbm
      obtain ⟨k1, -, k3⟩ := setAttr_fresh c hc t.base b v ihx hbm
      have g := fun d => vector_setter_get c t.base b d v
      have hT : Tied c { t with base := (setAttr c t.base b v).1 } := by
        have g1 := g .gvuu
        have g2 := g .gvdd
        have g3 := g .gvss
        have g4 := g .gvee
        have g5 := g .gvmumu
        rw [if_neg (by rcases hb with rfl | rfl | rfl <;> decide)] at g1 g2 g3 g4 g5
        simp only [get] at g1 g2 g3 g4 g5
        unfold Tied
        simp only [g1, g2, g3, g4, g5]
        exact iht
      exact ⟨(freshKinetic_iff c _).mpr ⟨k1, hT⟩, hT, k3⟩
    cases a with
    | eps =>
      have hb : ∀ b : Base, 0 ≤ b.mx → b.gvuu = -Qu * v * c.qe → b.gvdd = -Qd * v * c.qe →
          b.gvss = -Qd * v * c.qe → b.gvee = -Qe * v * c.qe → b.gvmumu = -Qe * v * c.qe →
          FreshKinetic c ⟨(computeWidth c b).1, v⟩ ∧ Tied c ⟨(computeWidth c b).1, v⟩
          ∧ 0 ≤ (computeWidth c b).1.mx := by
        intro b hbx h1 h2 h3 h4 h5
        have g := computeWidth_get c b
        have g0 := g .mx
        have g1 := g .gvuu
        have g2 := g .gvdd
        have g3 := g .gvss
        have g4 := g .gvee
        have g5 := g .gvmumu
        simp only [get] at g0 g1 g2 g3 g4 g5
        obtain ⟨q1, q2, q3⟩ := charges v c.qe
        have hT : Tied c ⟨(computeWidth c b).1, v⟩ := by
          unfold Tied
          simp only [g1, g2, g3, g4, g5, h1, h2, h3, h4, h5, q1, q2, q3, and_self]
        obtain ⟨f1, -⟩ := computeWidth_fresh c b (totalWidth_ok c hc b hbx)
        exact ⟨(freshKinetic_iff c _).mpr ⟨f1, hT⟩, hT, g0.symm ▸ hbx⟩
      exact hb { t.base with
        gvuu := -Qu * v * c.qe, gvdd := -Qd * v * c.qe, gvss := -Qd * v * c.qe,
        gvee := -Qe * v * c.qe, gvmumu := -Qe * v * c.qe } ihx rfl rfl rfl rfl rfl
    | base b =>
      cases b with
      | gvuu => exact ⟨ihf, iht, ihx⟩
      | gvdd => exact ⟨ihf, iht, ihx⟩
      | gvss => exact ⟨ihf, iht, ihx⟩
      | gvee => exact ⟨ihf, iht, ihx⟩
      | gvmumu => exact ⟨ihf, iht, ihx⟩
      | mx => exact key .mx (by simp) (fun _ => hmp rfl)
      | mv => exact key .mv (by simp) (fun h => by cases h)
      | gvxx => exact key .gvxx (by simp) (fun h => by cases h)

/-- The couplings follow the code, whose sign is the opposite of the one in the class docstring
(`gvuu = Qu qe eps`). -/
theorem kinetic_docstring_sign (c : Consts) (mx mv gvxx eps : ℝ) (k : Kinetic)
    (h : createKinetic c mx mv gvxx eps = .ok k) (he : eps ≠ 0) (hq : c.qe ≠ 0) :
    k.base.gvuu = -(Qu * c.qe * eps) ∧ k.base.gvuu ≠ Qu * c.qe * eps := by
  have hk : k.base.gvuu = -Qu * eps * c.qe := by
    unfold createKinetic create computeWidth at h
    cases ht : totalWidth c ⟨mx, mv, gvxx, -Qu * eps * c.qe, -Qd * eps * c.qe, -Qd * eps * c.qe,
        -Qe * eps * c.qe, -Qe * eps * c.qe, 0⟩ with
    | error e => rw [ht] at h; cases h
    | ok w => rw [ht] at h; cases h; rfl
  refine ⟨by rw [hk]; ring, ?_⟩
  rw [hk]
  unfold Qu
  intro h'
  have : eps * c.qe = 0 := by linarith
  rcases mul_eq_zero.mp this with h | h
  · exact he h
  · exact hq h

/-! ### Quarks only -/

/-- C36 (quarks only): over any history the lepton couplings and widths are zero, assignments to
them raise, and the object is as good as new. -/
theorem quarks_history_fresh (c : Consts) (hc : c.Physical) (mx mv gvxx gvuu gvdd gvss : ℝ) (s0 : Base)
    (h0 : createQuarks c mx mv gvxx gvuu gvdd gvss = .ok s0) (hx : 0 ≤ mx)
    (hist : List (Attr × ℝ)) (hm : ∀ p ∈ hist, p.1 = .mx → 0 ≤ p.2) :
    let s := run (setQuarks c) s0 hist
    createQuarks c s.mx s.mv s.gvxx s.gvuu s.gvdd s.gvss = .ok s
    ∧ s.gvee = 0 ∧ s.gvmumu = 0 ∧ widthFF c s "e" = .ok 0 ∧ widthFF c s "mu" = .ok 0
    ∧ ∀ v, setQuarks c s .gvee v = (s, some .attribute)
      ∧ setQuarks c s .gvmumu v = (s, some .attribute) := by
  intro s
  have hs0 : Fresh c s0 ∧ s0.gvee = 0 ∧ s0.gvmumu = 0 ∧ 0 ≤ s0.mx := by
    have h' := h0
    unfold createQuarks create computeWidth at h0
    cases ht : totalWidth c ⟨mx, mv, gvxx, gvuu, gvdd, gvss, 0, 0, 0⟩ with
    | error e => rw [ht] at h0; cases h0
    | ok w => rw [ht] at h0; cases h0; exact ⟨h', rfl, rfl, hx⟩
  have inv : Fresh c s ∧ s.gvee = 0 ∧ s.gvmumu = 0 ∧ 0 ≤ s.mx := by
    clear h0
    induction hist using List.reverseRecOn with
    | nil => exact hs0
    | append_singleton l p ih =>
      have ih := ih (fun q hq => hm q (by simp [hq]))
      have hmp := hm p (by simp)
      simp only [s, run, List.foldl_append, List.foldl_cons, List.foldl_nil] at ih ⊢
      obtain ⟨a, v⟩ := p
      simp only at hmp ⊢
      generalize List.foldl (fun s (p : Attr × ℝ) => (setQuarks c s p.1 p.2).1) s0 l = t at ih ⊢
      obtain ⟨i1, i2, i3, i4⟩ := ih
      have key : ∀ b : Attr, b ≠ .gvee → b ≠ .gvmumu → (b = .mx → 0 ≤ v) →
          Fresh c (setAttr c t b v).1 ∧ (setAttr c t b v).1.gvee = 0
          ∧ (setAttr c t b v).1.gvmumu = 0 ∧ 0 ≤ (setAttr c t b v).1.mx := by
        intro b hb1 hb2 hb3
        obtain ⟨k1, -, k3⟩ := setAttr_fresh c hc t b v i4 hb3
        have g1 := vector_setter_get c t b .gvee v
        have g2 := vector_setter_get c t b .gvmumu v
        rw [if_neg hb1.symm] at g1
        rw [if_neg hb2.symm] at g2
        simp only [get] at g1 g2
        exact ⟨k1, g1.trans i2, g2.trans i3, k3⟩
      cases a with
      | gvee => exact ⟨i1, i2, i3, i4⟩
      | gvmumu => exact ⟨i1, i2, i3, i4⟩
      | mx => exact key .mx (by decide) (by decide) (fun _ => hmp rfl)
      | mv => exact key .mv (by decide) (by decide) (fun h => by cases h)
      | gvxx => exact key .gvxx (by decide) (by decide) (fun h => by cases h)
      | gvuu => exact key .gvuu (by decide) (by decide) (fun h => by cases h)
      | gvdd => exact key .gvdd (by decide) (by decide) (fun h => by cases h)
      | gvss => exact key .gvss (by decide) (by decide) (fun h => by cases h)
  obtain ⟨i1, i2, i3, -⟩ := inv
  refine ⟨?_, i2, i3, ?_, ?_, fun v => ⟨rfl, rfl⟩⟩
  · unfold Fresh at i1
    rw [i2, i3] at i1
    exact i1
  · obtain ⟨w, e, -, -, z, -⟩ := widthFF_spec c s "e" c.me s.gvee (Or.inl ⟨rfl, rfl, rfl⟩) hc.me
    rw [e, z i2]
  · obtain ⟨w, e, -, -, z, -⟩ := widthFF_spec c s "mu" c.mmu s.gvmumu (Or.inr ⟨rfl, rfl, rfl⟩) hc.mmu
    rw [e, z i3]

/-- Physical constants near those of `hazma/parameters.py`: a kinetic-mixing object exists. -/
example : ∃ c : Consts, c.Physical ∧ ∃ k, createKinetic c 100 1000 1 0.1 = .ok k
    ∧ FreshKinetic c k := by
  have hc : Consts.Physical ⟨1 / 137, 0.303, 92.2, 139.57, 134.98, 0.511, 105.66⟩ := by
    constructor <;> norm_num
  obtain ⟨w, hw⟩ := totalWidth_ok _ hc ⟨100, 1000, 1, -Qu * 0.1 * 0.303, -Qd * 0.1 * 0.303,
    -Qd * 0.1 * 0.303, -Qe * 0.1 * 0.303, -Qe * 0.1 * 0.303, 0⟩ (by norm_num)
  have h : createKinetic ⟨1 / 137, 0.303, 92.2, 139.57, 134.98, 0.511, 105.66⟩ 100 1000 1 0.1
      = .ok ⟨⟨100, 1000, 1, -Qu * 0.1 * 0.303, -Qd * 0.1 * 0.303,
        -Qd * 0.1 * 0.303, -Qe * 0.1 * 0.303, -Qe * 0.1 * 0.303, w⟩, 0.1⟩ := by
    unfold createKinetic create computeWidth
    simp only [hw]
  exact ⟨_, hc, _, h, h⟩

end Hazma.VectorModel
