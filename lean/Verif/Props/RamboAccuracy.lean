import Verif.Props.RamboNewton
import Verif.Props.PhaseSpaceMeasure
import Mathlib.Tactic

/-!
# Averages over generated events of massive particles (C311)
-/

open MeasureTheory Set Hazma.Rambo Hazma.RamboMeasure
open scoped ENNReal NNReal

namespace Hazma.RamboUnbiased

/-! ### Stretching an event -/

theorem modsqr_correct (x : ℝ) (p : P4) (m : ℝ) : modsqr (correctOne x p m) = x ^ 2 * modsqr p := by
  unfold modsqr correctOne; ring

theorem modsqr_nonneg (p : P4) : 0 ≤ modsqr p := by unfold modsqr; positivity

theorem sqrt_correct {x : ℝ} (hx : 0 ≤ x) (p : P4) (m : ℝ) :
    Real.sqrt (modsqr (correctOne x p m)) = x * Real.sqrt (modsqr p) := by
  rw [modsqr_correct, Real.sqrt_mul (sq_nonneg x), Real.sqrt_sq hx]

theorem hypot_stretch {r x e m : ℝ} (hr : 1 ≤ r) (hx : 0 < x) (he : 0 < e) :
    Rambo.hypot (x * e) m ≤ Rambo.hypot (r * x * e) m ∧ Rambo.hypot (r * x * e) m ≤ r * Rambo.hypot (x * e) m := by
  unfold Rambo.hypot
  have h1 : x * e ≤ r * x * e := by nlinarith [mul_pos hx he]
  have h0 : 0 < x * e := mul_pos hx he
  refine ⟨Real.sqrt_le_sqrt (by nlinarith), ?_⟩
  rw [Real.sqrt_le_left (by positivity), mul_pow r (Real.sqrt _), Real.sq_sqrt (by positivity)]
  nlinarith [mul_nonneg (by nlinarith : (0 : ℝ) ≤ r ^ 2 - 1) (sq_nonneg m)]

theorem sum_stretch (cme r x : ℝ) (hr : 1 ≤ r) (hx : 0 < x) (ms : List ℝ) (ps : List P4) :
    ((correctEvent ms ps (r * x)).map fun p => Real.sqrt (modsqr p) / cme).sum
      = r * ((correctEvent ms ps x).map fun p => Real.sqrt (modsqr p) / cme).sum := by
  unfold correctEvent
  induction ps generalizing ms with
  | nil => simp
  | cons p ps ih =>
    cases ms with
    | nil => simp
    | cons m ms =>
      simp only [List.zipWith_cons_cons, List.map_cons, List.sum_cons, ih ms]
      rw [sqrt_correct (by positivity), sqrt_correct hx.le]
      ring

theorem ratio_stretch {r x : ℝ} (hr : 1 ≤ r) (hx : 0 < x) (ms : List ℝ) (ps : List P4) (hp : ∀ p ∈ ps, 0 < p.e) :
    r * ((correctEvent ms ps x).map fun p => modsqr p / p.e).sum ≤ ((correctEvent ms ps (r * x)).map fun p => modsqr p / p.e).sum ∧
    ((correctEvent ms ps (r * x)).map fun p => modsqr p / p.e).sum ≤ r ^ 2 * ((correctEvent ms ps x).map fun p => modsqr p / p.e).sum ∧
    0 ≤ ((correctEvent ms ps x).map fun p => modsqr p / p.e).sum := by
  unfold correctEvent
  induction ps generalizing ms with
  | nil => simp
  | cons p ps ih =>
    cases ms with
    | nil => simp
    | cons m ms =>
      obtain ⟨i1, i2, i3⟩ := ih ms (fun p h => hp p (by simp [h]))
      have he := hp p (by simp)
      simp only [List.zipWith_cons_cons, List.map_cons, List.sum_cons, modsqr_correct]
      obtain ⟨h1, h2⟩ := hypot_stretch (m := m) hr hx he
      have hh : 0 < Rambo.hypot (x * p.e) m := hypot_pos m (by positivity)
      have e1 : (correctOne (r * x) p m).e = Rambo.hypot (r * x * p.e) m := rfl
      have e2 : (correctOne x p m).e = Rambo.hypot (x * p.e) m := rfl
      rw [e1, e2]
      generalize Rambo.hypot (r * x * p.e) m = H at *
      generalize Rambo.hypot (x * p.e) m = h at *
      have hH : 0 < H := by linarith
      have hq := modsqr_nonneg p
      generalize modsqr p = q at *
      have k1 : r * (x ^ 2 * q / h) ≤ (r * x) ^ 2 * q / H := by
        rw [mul_div_assoc', div_le_div_iff₀ hh hH]
        have : 0 ≤ r * x ^ 2 * q := by positivity
        nlinarith [mul_le_mul_of_nonneg_left h2 this]
      have k2 : (r * x) ^ 2 * q / H ≤ r ^ 2 * (x ^ 2 * q / h) := by
        rw [mul_div_assoc', div_le_div_iff₀ hH hh]
        have : 0 ≤ r ^ 2 * x ^ 2 * q := by positivity
        nlinarith [mul_le_mul_of_nonneg_left h1 this]
      refine ⟨by linarith, by linarith, by positivity⟩

theorem prod_stretch {r x : ℝ} (hr : 1 ≤ r) (hx : 0 < x) (ms : List ℝ) (ps : List P4) (hp : ∀ p ∈ ps, 0 < p.e) :
    0 ≤ ((correctEvent ms ps x).map fun p => Real.sqrt (modsqr p) / p.e).prod ∧
    ((correctEvent ms ps x).map fun p => Real.sqrt (modsqr p) / p.e).prod ≤ ((correctEvent ms ps (r * x)).map fun p => Real.sqrt (modsqr p) / p.e).prod ∧
    ((correctEvent ms ps (r * x)).map fun p => Real.sqrt (modsqr p) / p.e).prod
      ≤ r ^ ps.length * ((correctEvent ms ps x).map fun p => Real.sqrt (modsqr p) / p.e).prod := by
  unfold correctEvent
  induction ps generalizing ms with
  | nil => simp
  | cons p ps ih =>
    cases ms with
    | nil => simpa using one_le_pow₀ (n := ps.length + 1) hr
    | cons m ms =>
      obtain ⟨i1, i2, i3⟩ := ih ms (fun p h => hp p (by simp [h]))
      have he := hp p (by simp)
      simp only [List.zipWith_cons_cons, List.map_cons, List.prod_cons, List.length_cons, sqrt_correct hx.le,
        sqrt_correct (by positivity : 0 ≤ r * x)]
      obtain ⟨h1, h2⟩ := hypot_stretch (m := m) hr hx he
      have hh : 0 < Rambo.hypot (x * p.e) m := hypot_pos m (by positivity)
      have e1 : (correctOne (r * x) p m).e = Rambo.hypot (r * x * p.e) m := rfl
      have e2 : (correctOne x p m).e = Rambo.hypot (x * p.e) m := rfl
      rw [e1, e2]
      generalize Rambo.hypot (r * x * p.e) m = H at *
      generalize Rambo.hypot (x * p.e) m = h at *
      have hH : 0 < H := by linarith
      have hq := Real.sqrt_nonneg (modsqr p)
      generalize Real.sqrt (modsqr p) = q at *
      have k1 : x * q / h ≤ r * x * q / H := by
        rw [div_le_div_iff₀ hh hH]
        have : 0 ≤ x * q := by positivity
        nlinarith [mul_le_mul_of_nonneg_left h2 this]
      have k2 : r * x * q / H ≤ r * (x * q / h) := by
        rw [mul_div_assoc', div_le_div_iff₀ hH hh]
        have : 0 ≤ r * x * q := by positivity
        nlinarith [mul_le_mul_of_nonneg_left h1 this]
      have k0 : 0 ≤ x * q / h := by positivity
      refine ⟨mul_nonneg k0 i1, mul_le_mul k1 i2 i1 (k0.trans k1), ?_⟩
      refine (mul_le_mul k2 i3 (i1.trans i2) (by positivity)).trans (le_of_eq ?_)
      ring

/-- The weight of a stretched event. -/
theorem weight_stretch {cme bw r x : ℝ} (hc : 0 < cme) (hb : 0 ≤ bw) (hr : 1 ≤ r) (hx : 0 < x) {n : ℕ} (hn : 2 ≤ n) (ms : List ℝ) {ps : List P4}
    (hl : ps.length = n) (hp : ∀ p ∈ ps, 0 < p.e) :
    0 ≤ weight cme bw n (correctEvent ms ps x) ∧
    weight cme bw n (correctEvent ms ps x) ≤ r * weight cme bw n (correctEvent ms ps (r * x)) ∧
    weight cme bw n (correctEvent ms ps (r * x)) ≤ r ^ (3 * n - 3) * weight cme bw n (correctEvent ms ps x) := by
  obtain ⟨t1, t2, t3⟩ := ratio_stretch hr hx ms ps hp
  obtain ⟨p0, p1, p2⟩ := prod_stretch hr hx ms ps hp
  have hs := sum_stretch cme r x hr hx ms ps
  have hs0 : 0 ≤ ((correctEvent ms ps x).map fun p => Real.sqrt (modsqr p) / cme).sum := by
    refine List.sum_nonneg fun y hy => ?_
    obtain ⟨p, -, rfl⟩ := List.mem_map.mp hy
    positivity
  unfold weight
  simp only []
  rw [hs]
  rw [hl] at p2
  generalize ((correctEvent ms ps x).map fun p => Real.sqrt (modsqr p) / cme).sum = S at *
  generalize ((correctEvent ms ps x).map fun p => modsqr p / p.e).sum = T at *
  generalize ((correctEvent ms ps (r * x)).map fun p => modsqr p / p.e).sum = T' at *
  generalize ((correctEvent ms ps x).map fun p => Real.sqrt (modsqr p) / p.e).prod = P at *
  generalize ((correctEvent ms ps (r * x)).map fun p => Real.sqrt (modsqr p) / p.e).prod = P' at *
  obtain ⟨a, ha⟩ : ∃ a, 2 * n - 3 = a + 1 := ⟨2 * n - 4, by omega⟩
  rw [ha]
  have hr0 : 0 < r := by linarith
  have hS : 0 ≤ S ^ (a + 1) := by positivity
  rcases eq_or_lt_of_le t3 with h0 | h0
  · have hT' : T' = 0 := by rw [← h0] at t1 t2; linarith
    rw [← h0, hT']
    simp
  have hT' : 0 < T' := by nlinarith
  have q1 : S ^ (a + 1) / T ≤ r * ((r * S) ^ (a + 1) / T') := by
    rw [mul_div_assoc', div_le_div_iff₀ h0 hT', mul_pow]
    have hra : 1 ≤ r ^ a := one_le_pow₀ hr
    calc S ^ (a + 1) * T' ≤ S ^ (a + 1) * (r ^ 2 * T) := mul_le_mul_of_nonneg_left t2 hS
      _ = 1 * (S ^ (a + 1) * (r ^ 2 * T)) := by ring
      _ ≤ r ^ a * (S ^ (a + 1) * (r ^ 2 * T)) := mul_le_mul_of_nonneg_right hra (by positivity)
      _ = r * (r ^ (a + 1) * S ^ (a + 1)) * T := by ring
  have q2 : (r * S) ^ (a + 1) / T' ≤ r ^ (a + 1) * (S ^ (a + 1) / T) := by
    rw [mul_div_assoc', div_le_div_iff₀ hT' h0, mul_pow]
    exact mul_le_mul_of_nonneg_left (by nlinarith) (by positivity)
  have q0 : 0 ≤ S ^ (a + 1) / T := by positivity
  have q0' : 0 ≤ (r * S) ^ (a + 1) / T' := by positivity
  have hcb : 0 ≤ cme * bw := by positivity
  refine ⟨by positivity, ?_, ?_⟩
  · calc S ^ (a + 1) / T * P * cme * bw = S ^ (a + 1) / T * P * (cme * bw) := by ring
      _ ≤ r * ((r * S) ^ (a + 1) / T') * P' * (cme * bw) :=
        mul_le_mul_of_nonneg_right (mul_le_mul q1 p1 p0 (by positivity)) hcb
      _ = r * ((r * S) ^ (a + 1) / T' * P' * cme * bw) := by ring
  · calc (r * S) ^ (a + 1) / T' * P' * cme * bw = (r * S) ^ (a + 1) / T' * P' * (cme * bw) := by ring
      _ ≤ r ^ (a + 1) * (S ^ (a + 1) / T) * (r ^ n * P) * (cme * bw) :=
        mul_le_mul_of_nonneg_right (mul_le_mul q2 p2 (p0.trans p1) (by positivity)) hcb
      _ = r ^ (3 * n - 3) * (S ^ (a + 1) / T * P * cme * bw) := by
        rw [show 3 * n - 3 = a + 1 + n by omega, pow_add]; ring

theorem momenta_stretch {n : ℕ} (r x : ℝ) (ms : List ℝ) (ps : List P4) :
    momenta (n := n) (correctEvent ms ps (r * x)) = r • momenta (n := n) (correctEvent ms ps x) := by
  have key : ∀ (i : ℕ), (∀ q : P4 → ℝ, (∀ y p m, q (correctOne y p m) = y * q p) → q ⟨0, 0, 0, 0⟩ = 0 →
      q ((correctEvent ms ps (r * x))[i]?.getD ⟨0, 0, 0, 0⟩) = r * q ((correctEvent ms ps x)[i]?.getD ⟨0, 0, 0, 0⟩)) := by
    intro i q hq h0
    unfold correctEvent
    rw [List.getElem?_zipWith, List.getElem?_zipWith]
    cases ps[i]? with
    | none => simp [h0]
    | some p =>
      cases ms[i]? with
      | none => simp [h0]
      | some m => simp [hq, mul_assoc]
  funext i
  ext j
  fin_cases j
  · simpa [momenta] using key i P4.x (fun _ _ _ => rfl) rfl
  · simpa [momenta] using key i P4.y (fun _ _ _ => rfl) rfl
  · simpa [momenta] using key i P4.z (fun _ _ _ => rfl) rfl

/-! ### The events that `generate` returns -/

theorem massless_ok {N : ℕ} {Q : ℝ} (hQ : 0 < Q) {d : Fin (N + 1 + 1) → ℝ × ℝ × ℝ × ℝ}
    (hr : ∀ i, (d i).1 ∈ Ico (0 : ℝ) 1 ∧ (d i).2.2.1 ∈ Ico (0 : ℝ) 1 ∧ (d i).2.2.2 ∈ Ico (0 : ℝ) 1)
    (hg : (fun i => drawMom (d i)) ∉ bad N) :
    (boost Q (List.ofFn fun i => initMomentum (toDraw (d i)))).length = N + 2 ∧
    (∀ p ∈ boost Q (List.ofFn fun i => initMomentum (toDraw (d i))), 0 < p.e) ∧
    ((boost Q (List.ofFn fun i => initMomentum (toDraw (d i)))).map P4.e).sum = Q := by
  obtain ⟨M, hM, hgood, hsum, hb⟩ := boosted hg Q
  have hinit : (List.ofFn fun i => initMomentum (toDraw (d i))) = List.ofFn fun i => p4 ‖drawMom (d i)‖ (drawMom (d i)) := by
    congr 1
    funext i
    exact init_eq (hr i).1 (hr i).2.1 (hr i).2.2
  rw [hinit, hb]
  refine ⟨by simp, ?_, ?_⟩
  · intro p hp
    obtain ⟨i, rfl⟩ := List.mem_ofFn.mp hp
    exact mul_pos (div_pos hQ hM) (norm_pos_iff.mpr (hgood i))
  · rw [List.map_ofFn, List.sum_ofFn]
    have : ∀ i, (P4.e ∘ fun i => p4 (Q / M * ‖full (cmom fun i => drawMom (d i)) i‖) ((Q / M) • full (cmom fun i => drawMom (d i)) i)) i
        = Q / M * ‖full (cmom fun i => drawMom (d i)) i‖ := fun i => rfl
    simp only [this]
    rw [← Finset.mul_sum, hsum]
    field_simp

/-- **C311, event by event.** In any batch, the momenta of each event are those of the exact RAMBO event stretched by a common factor
`c` not above one plus the bound of C310, and its weight is the exact one up to powers of `c`. -/
theorem generate_close {N : ℕ} {ms : Fin (N + 2) → ℝ} (hm : ∀ i, 0 ≤ ms i) {Q : ℝ} (hQ : ∑ i, ms i < Q) {s : State}
    (hs : create Q (List.ofFn ms) = some s) {eps : ℝ} (heps : 0 ≤ eps) {xi : ℝ → List ℝ → ℝ} (hxi : ExactScale xi ms)
    {dl : List (Fin (N + 2) → ℝ × ℝ × ℝ × ℝ)}
    (hr : ∀ d ∈ dl, ∀ i, (d i).1 ∈ Ico (0 : ℝ) 1 ∧ (d i).2.2.1 ∈ Ico (0 : ℝ) 1 ∧ (d i).2.2.2 ∈ Ico (0 : ℝ) 1)
    (hg : ∀ d ∈ dl, (fun i => drawMom (d i)) ∉ bad N) :
    ∃ (c : (Fin (N + 2) → ℝ × ℝ × ℝ × ℝ) → ℝ) (E : (Fin (N + 2) → ℝ × ℝ × ℝ × ℝ) → List P4) (W : (Fin (N + 2) → ℝ × ℝ × ℝ × ℝ) → ℝ),
      generate s eps (dl.map fun d => List.ofFn fun i => toDraw (d i)) = (dl.map E, dl.map W) ∧
      ∀ d ∈ dl, 1 ≤ c d ∧ c d ≤ 1 + excessBound Q eps (List.ofFn ms) ∧
        momenta (n := N + 2) (E d) = c d • momenta (n := N + 2) (event xi ms Q d) ∧
        0 ≤ weight Q ((baseWeight Q (N + 2)).getD 0) (N + 2) (event xi ms Q d) ∧
        weight Q ((baseWeight Q (N + 2)).getD 0) (N + 2) (event xi ms Q d) ≤ c d * W d ∧
        W d ≤ c d ^ (3 * (N + 2) - 3) * weight Q ((baseWeight Q (N + 2)).getD 0) (N + 2) (event xi ms Q d) := by
  have ho : Open Q (List.ofFn ms) := ⟨by simp, by
    intro m hm'
    obtain ⟨i, rfl⟩ := List.mem_ofFn.mp hm'
    exact hm i, by rw [List.sum_ofFn]; exact hQ⟩
  have hQ0 := open_cme_pos ho
  obtain ⟨-, h1, h2, h3, h4, h5⟩ := create_some hs
  rw [List.length_ofFn] at h3 h5
  have hmap : ∀ d : Fin (N + 2) → ℝ × ℝ × ℝ × ℝ, (List.ofFn fun i => toDraw (d i)).map initMomentum = List.ofFn fun i => initMomentum (toDraw (d i)) := by
    intro d
    rw [List.map_ofFn]
    rfl
  obtain ⟨X, hX, hclose⟩ := generated_close heps ho hs (draws := dl.map fun d => List.ofFn fun i => toDraw (d i)) (by
    intro ds hds
    obtain ⟨d, hd, rfl⟩ := List.mem_map.mp hds
    rw [hmap, List.length_ofFn]
    exact massless_ok hQ0 (hr d hd) (hg d hd))
  have hw : (generate s eps (dl.map fun d => List.ofFn fun i => toDraw (d i))).2
      = (generate s eps (dl.map fun d => List.ofFn fun i => toDraw (d i))).1.map (weight s.cme s.baseWgt s.n) := rfl
  refine ⟨fun d => X (List.ofFn fun i => toDraw (d i)) / xi Q ((boost Q (List.ofFn fun i => initMomentum (toDraw (d i)))).map P4.e),
    fun d => correctEvent (List.ofFn ms) (boost Q (List.ofFn fun i => initMomentum (toDraw (d i)))) (X (List.ofFn fun i => toDraw (d i))),
    fun d => weight Q ((baseWeight Q (N + 2)).getD 0) (N + 2)
      (correctEvent (List.ofFn ms) (boost Q (List.ofFn fun i => initMomentum (toDraw (d i)))) (X (List.ofFn fun i => toDraw (d i)))), ?_, ?_⟩
  · refine Prod.ext ?_ ?_
    · rw [hX, List.map_map]
      refine List.map_congr_left fun d _ => ?_
      simp only [Function.comp, hmap]
    · rw [hw, hX, List.map_map, List.map_map]
      refine List.map_congr_left fun d _ => ?_
      simp only [Function.comp, hmap, h1, h3, h5]
      simp
  · intro d hd
    obtain ⟨hl, hp, hsum⟩ := massless_ok hQ0 (hr d hd) (hg d hd)
    obtain ⟨-, -, hroot⟩ := hclose _ (List.mem_map.mpr ⟨d, hd, rfl⟩)
    rw [hmap] at hroot
    obtain ⟨x0, hx0⟩ := hxi Q ((boost Q (List.ofFn fun i => initMomentum (toDraw (d i)))).map P4.e) ho (by simpa using hl) (by simpa using hp) hsum
    obtain ⟨r1, r2⟩ := hroot _ x0 hx0
    unfold event
    simp only []
    generalize xi Q ((boost Q (List.ofFn fun i => initMomentum (toDraw (d i)))).map P4.e) = x at *
    generalize X (List.ofFn fun i => toDraw (d i)) = y at *
    have hy : y = y / x * x := by field_simp
    have hc : 1 ≤ y / x := by rw [le_div_iff₀ x0]; linarith
    have hbw : 0 ≤ (baseWeight Q (N + 2)).getD 0 := by
      unfold baseWeight
      rw [if_neg (by omega)]
      have : (0 : ℝ) ≤ ((N + 2 : ℕ) : ℝ) - 1 := by push_cast; linarith [(Nat.cast_nonneg N : (0 : ℝ) ≤ N)]
      have hpi := Real.pi_pos
      simp only [Option.getD_some]
      positivity
    obtain ⟨w0, w1, w2⟩ := weight_stretch hQ0 hbw hc x0 (n := N + 2) (by omega) (List.ofFn ms) hl hp
    have hmom := momenta_stretch (n := N + 2) (y / x) x (List.ofFn ms) (boost Q (List.ofFn fun i => initMomentum (toDraw (d i))))
    rw [← hy] at w1 w2 hmom
    exact ⟨hc, by linarith, hmom, w0, w1, w2⟩

/-- `f` changes by at most a factor `L` when all momenta are stretched by a common factor of at most `1 + b`. -/
def Stable {n : ℕ} (L : ℝ≥0) (b : ℝ) (f : (Fin n → V) → ℝ≥0∞) : Prop :=
  ∀ p c, 1 ≤ c → c ≤ 1 + b → f (c • p) ≤ L * f p ∧ f p ≤ L * f (c • p)

theorem stable_mono {n : ℕ} {L : ℝ≥0} {b b' : ℝ} {f : (Fin n → V) → ℝ≥0∞} (h : Stable L b' f) (hb : b ≤ b') : Stable L b f :=
  fun p c h1 h2 => h p c h1 (by linarith)

/-- **C311, at every energy.** The mean of an observable over generated events is the mean over exact RAMBO events, up to a factor that
is one up to the bound of C310. -/
theorem average_close {N : ℕ} {ms : Fin (N + 2) → ℝ} (hm : ∀ i, 0 ≤ ms i) {Q : ℝ} (hQ : ∑ i, ms i < Q) {s : State}
    (hs : create Q (List.ofFn ms) = some s) {eps : ℝ} (heps : 0 ≤ eps) {xi : ℝ → List ℝ → ℝ} (hxi : ExactScale xi ms)
    {B : ℝ} (hB : excessBound Q eps (List.ofFn ms) ≤ B) {L : ℝ≥0} {f : (Fin (N + 2) → V) → ℝ≥0∞} (hf : Stable L B f) :
    (∫⁻ d, (List.zipWith (fun ev w => f (momenta ev) * ENNReal.ofReal w)
          (generate s eps [List.ofFn fun i => toDraw (d i)]).1 (generate s eps [List.ofFn fun i => toDraw (d i)]).2).sum ∂draws (N + 2))
      ≤ ENNReal.ofReal ((1 + B) ^ (3 * (N + 2) - 3)) * L * ∫⁻ d, f (momenta (event xi ms Q d))
          * ENNReal.ofReal (weight Q ((baseWeight Q (N + 2)).getD 0) (N + 2) (event xi ms Q d)) ∂draws (N + 2) ∧
    (∫⁻ d, f (momenta (event xi ms Q d)) * ENNReal.ofReal (weight Q ((baseWeight Q (N + 2)).getD 0) (N + 2) (event xi ms Q d)) ∂draws (N + 2))
      ≤ ENNReal.ofReal (1 + B) * L * ∫⁻ d, (List.zipWith (fun ev w => f (momenta ev) * ENNReal.ofReal w)
          (generate s eps [List.ofFn fun i => toDraw (d i)]).1 (generate s eps [List.ofFn fun i => toDraw (d i)]).2).sum ∂draws (N + 2) := by
  have key : ∀ᵐ d ∂draws (N + 2),
      (List.zipWith (fun ev w => f (momenta ev) * ENNReal.ofReal w)
          (generate s eps [List.ofFn fun i => toDraw (d i)]).1 (generate s eps [List.ofFn fun i => toDraw (d i)]).2).sum
        ≤ ENNReal.ofReal ((1 + B) ^ (3 * (N + 2) - 3)) * L * (f (momenta (event xi ms Q d))
          * ENNReal.ofReal (weight Q ((baseWeight Q (N + 2)).getD 0) (N + 2) (event xi ms Q d))) ∧
      f (momenta (event xi ms Q d)) * ENNReal.ofReal (weight Q ((baseWeight Q (N + 2)).getD 0) (N + 2) (event xi ms Q d))
        ≤ ENNReal.ofReal (1 + B) * L * (List.zipWith (fun ev w => f (momenta ev) * ENNReal.ofReal w)
          (generate s eps [List.ofFn fun i => toDraw (d i)]).1 (generate s eps [List.ofFn fun i => toDraw (d i)]).2).sum := by
    filter_upwards [draws_good N, draws_range (N + 1 + 1)] with d hd hr
    obtain ⟨c, E, W, hgen, hall⟩ := generate_close hm hQ hs heps hxi (dl := [d]) (by simpa using hr) (by simpa using hd)
    obtain ⟨c1, c2, hmom, w0, w1, w2⟩ := hall d (by simp)
    simp only [List.map_cons, List.map_nil] at hgen
    rw [hgen]
    simp only [List.zipWith_cons_cons, List.zipWith_nil_left, List.sum_cons, List.sum_nil, add_zero]
    rw [hmom]
    have hcB : c d ≤ 1 + B := by linarith
    obtain ⟨f1, f2⟩ := hf (momenta (event xi ms Q d)) (c d) c1 hcB
    generalize weight Q ((baseWeight Q (N + 2)).getD 0) (N + 2) (event xi ms Q d) = w at *
    have hc0 : 0 ≤ c d := by linarith
    have hW : 0 ≤ W d := by
      by_contra hneg
      push Not at hneg
      nlinarith
    constructor
    · have h2 : ENNReal.ofReal (W d) ≤ ENNReal.ofReal ((1 + B) ^ (3 * (N + 2) - 3)) * ENNReal.ofReal w := by
        rw [← ENNReal.ofReal_mul (by have : 0 ≤ 1 + B := hc0.trans hcB
                                     positivity)]
        exact ENNReal.ofReal_le_ofReal (w2.trans (mul_le_mul_of_nonneg_right (pow_le_pow_left₀ hc0 hcB _) w0))
      refine (mul_le_mul' f1 h2).trans (le_of_eq ?_)
      ring
    · have h2 : ENNReal.ofReal w ≤ ENNReal.ofReal (1 + B) * ENNReal.ofReal (W d) := by
        rw [← ENNReal.ofReal_mul (hc0.trans hcB)]
        exact ENNReal.ofReal_le_ofReal (w1.trans (mul_le_mul_of_nonneg_right hcB hW))
      refine (mul_le_mul' f2 h2).trans (le_of_eq ?_)
      ring
  have hfin1 : ENNReal.ofReal ((1 + B) ^ (3 * (N + 2) - 3)) * (L : ℝ≥0∞) ≠ ∞ := ENNReal.mul_ne_top ENNReal.ofReal_ne_top ENNReal.coe_ne_top
  have hfin2 : ENNReal.ofReal (1 + B) * (L : ℝ≥0∞) ≠ ∞ := ENNReal.mul_ne_top ENNReal.ofReal_ne_top ENNReal.coe_ne_top
  rw [← lintegral_const_mul' _ _ hfin1, ← lintegral_const_mul' _ _ hfin2]
  exact ⟨lintegral_mono_ae (key.mono fun _ h => h.1), lintegral_mono_ae (key.mono fun _ h => h.2)⟩

/-- **C311.** Averages over what `generate` returns for massive particles are the phase-space integral, up to factors that are one up to
`B`: here `g` selects energies at which the bound of C310 is at most `B`. -/
theorem generate_average {N : ℕ} {ms : Fin (N + 2) → ℝ} (hm : ∀ i, 0 ≤ ms i) {eps : ℝ} (heps : 0 ≤ eps) {S : ℝ → State}
    (hS : ∀ Q, ∑ i, ms i < Q → create Q (List.ofFn ms) = some (S Q)) {B : ℝ} {L : ℝ≥0} {f : (Fin (N + 2) → V) → ℝ≥0∞} (hfm : Measurable f)
    (hf : Stable L B f) {g : ℝ → ℝ≥0∞} (hg : Measurable g) (hgB : ∀ Q, ∑ i, ms i < Q → g Q ≠ 0 → excessBound Q eps (List.ofFn ms) ≤ B) :
    (∫⁻ Q in Ioi (∑ i, ms i), g Q * ∫⁻ d, (List.zipWith (fun ev w => f (momenta ev) * ENNReal.ofReal w)
          (generate (S Q) eps [List.ofFn fun i => toDraw (d i)]).1 (generate (S Q) eps [List.ofFn fun i => toDraw (d i)]).2).sum ∂draws (N + 2))
      ≤ ENNReal.ofReal ((1 + B) ^ (3 * (N + 2) - 3)) * L * (ENNReal.ofReal ((2 * Real.pi) ^ 4 / (2 * Real.pi) ^ (3 * (N + 2)))
        * ∫⁻ k : Fin (N + 1) → V,
          ENNReal.ofReal (∏ i, 1 / (2 * energy (ms i) (atRest k i))) * f (atRest k) * g (∑ i, energy (ms i) (atRest k i))) ∧
    ENNReal.ofReal ((2 * Real.pi) ^ 4 / (2 * Real.pi) ^ (3 * (N + 2))) * (∫⁻ k : Fin (N + 1) → V,
          ENNReal.ofReal (∏ i, 1 / (2 * energy (ms i) (atRest k i))) * f (atRest k) * g (∑ i, energy (ms i) (atRest k i)))
      ≤ ENNReal.ofReal (1 + B) * L * ∫⁻ Q in Ioi (∑ i, ms i), g Q * ∫⁻ d, (List.zipWith (fun ev w => f (momenta ev) * ENNReal.ofReal w)
          (generate (S Q) eps [List.ofFn fun i => toDraw (d i)]).1 (generate (S Q) eps [List.ofFn fun i => toDraw (d i)]).2).sum ∂draws (N + 2) := by
  obtain ⟨xi, hxi⟩ := exactScale_exists ms
  rw [← events_average_partial hm hxi hfm hg]
  have hfin1 : ENNReal.ofReal ((1 + B) ^ (3 * (N + 2) - 3)) * (L : ℝ≥0∞) ≠ ∞ := ENNReal.mul_ne_top ENNReal.ofReal_ne_top ENNReal.coe_ne_top
  have hfin2 : ENNReal.ofReal (1 + B) * (L : ℝ≥0∞) ≠ ∞ := ENNReal.mul_ne_top ENNReal.ofReal_ne_top ENNReal.coe_ne_top
  rw [← lintegral_const_mul' _ _ hfin1, ← lintegral_const_mul' _ _ hfin2]
  refine ⟨setLIntegral_mono' measurableSet_Ioi fun Q hQ => ?_, setLIntegral_mono' measurableSet_Ioi fun Q hQ => ?_⟩
  · by_cases h0 : g Q = 0
    · simp [h0]
    rw [mul_left_comm]
    exact mul_le_mul' le_rfl (average_close hm hQ (hS Q hQ) heps hxi (hgB Q hQ h0) hf).1
  · by_cases h0 : g Q = 0
    · simp [h0]
    rw [mul_left_comm]
    exact mul_le_mul' le_rfl (average_close hm hQ (hS Q hQ) heps hxi (hgB Q hQ h0) hf).2

/-- **C311, three bodies.** At almost every energy the mean weight of generated events is the phase-space volume that `integrate` finds by
quadrature, up to factors that are one up to the bound of C310. -/
theorem three_body_volume {m : Fin 3 → ℝ} (hm : ∀ i, 0 ≤ m i) {eps : ℝ} (heps : 0 ≤ eps) {S : ℝ → State}
    (hS : ∀ Q, ∑ i, m i < Q → create Q (List.ofFn m) = some (S Q)) :
    ∀ᵐ Q ∂volume.restrict (Ioi (∑ i, m i)),
      (∫⁻ d, ((generate (S Q) eps [List.ofFn fun i => toDraw (d i)]).2.map ENNReal.ofReal).sum ∂draws 3)
        ≤ ENNReal.ofReal ((1 + excessBound Q eps (List.ofFn m)) ^ 6)
          * ENNReal.ofReal (Hazma.ThreeBody.integrateQuad ⟨Q, (m 0, m 1, m 2), none, fun _ _ => 1⟩) ∧
      ENNReal.ofReal (Hazma.ThreeBody.integrateQuad ⟨Q, (m 0, m 1, m 2), none, fun _ _ => 1⟩)
        ≤ ENNReal.ofReal (1 + excessBound Q eps (List.ofFn m))
          * ∫⁻ d, ((generate (S Q) eps [List.ofFn fun i => toDraw (d i)]).2.map ENNReal.ofReal).sum ∂draws 3 := by
  obtain ⟨xi, hxi⟩ := exactScale_exists m
  have h := Hazma.PhaseSpaceMeasure.rambo_quadrature_ae_partial hm hxi (M := fun _ _ => 1) continuous_const (fun _ => zero_le_one)
  filter_upwards [h, ae_restrict_mem measurableSet_Ioi] with Q hq hQ
  have hst : Stable 1 (excessBound Q eps (List.ofFn m)) (fun _ : Fin 3 → V => (1 : ℝ≥0∞)) := fun _ _ _ _ => by simp
  obtain ⟨a1, a2⟩ := average_close (N := 1) hm hQ (hS Q hQ) heps hxi le_rfl hst
  have hz : ∀ d : Fin 3 → ℝ × ℝ × ℝ × ℝ, (List.zipWith (fun _ w => (1 : ℝ≥0∞) * ENNReal.ofReal w)
        (generate (S Q) eps [List.ofFn fun i => toDraw (d i)]).1 (generate (S Q) eps [List.ofFn fun i => toDraw (d i)]).2).sum
      = ((generate (S Q) eps [List.ofFn fun i => toDraw (d i)]).2.map ENNReal.ofReal).sum := by
    intro d
    congr 1
    apply List.ext_getElem
    · simp [generate]
    · intro i h1 h2; simp
  simp only [ENNReal.ofReal_one] at hq
  simp only [hz, ENNReal.coe_one, mul_one] at a1 a2
  rw [hq] at a1 a2
  exact ⟨a1, a2⟩

/-! ### Non-triviality -/

/-- An electron, a muon and a photon above 300 MeV in double precision: stretching factors differ from one by less than `1e-17`. -/
example {Q : ℝ} (hQ : 300 < Q) : excessBound Q 2.3e-16 (List.ofFn (![0.511, 105.66, 0] : Fin 3 → ℝ)) ≤ 1e-17 := by
  have hsum : (List.ofFn (![0.511, 105.66, 0] : Fin 3 → ℝ)).sum = 106.171 := by
    rw [List.sum_ofFn, Fin.sum_univ_three]
    have : (![0.511, 105.66, 0] : Fin 3 → ℝ) 2 = 0 := rfl
    rw [this]
    norm_num
  have ho : Open Q (List.ofFn (![0.511, 105.66, 0] : Fin 3 → ℝ)) := ⟨by simp, by
    intro m hm
    obtain ⟨i, rfl⟩ := List.mem_ofFn.mp hm
    fin_cases i <;> norm_num, by rw [hsum]; linarith⟩
  have h := excess_small (eps := 2.3e-16) (by norm_num) ho (by rw [hsum]; linarith)
  refine h.trans ?_
  have : 2 * 2.3e-16 / Q ^ 2 ≤ (5e-18 : ℝ) := by
    rw [div_le_iff₀ (by positivity)]
    nlinarith
  linarith

/-- Squared momentum transfer, for example, changes by at most `(1 + b)²`. -/
example {b : ℝ≥0} : Stable ((1 + b) ^ 2) (b : ℝ) (fun p : Fin 3 → V => ENNReal.ofReal (‖p 0‖ ^ 2)) := by
  intro p c h1 h2
  have hn : ‖(c • p) 0‖ = c * ‖p 0‖ := by rw [Pi.smul_apply, norm_smul, Real.norm_of_nonneg (by linarith)]
  have hL : (((1 + b) ^ 2 : ℝ≥0) : ℝ≥0∞) = ENNReal.ofReal ((1 + (b : ℝ)) ^ 2) := by
    rw [← ENNReal.ofReal_coe_nnreal]
    push_cast
    rfl
  simp only [hn, hL]
  rw [← ENNReal.ofReal_mul (by positivity), ← ENNReal.ofReal_mul (by positivity)]
  have hb : (0 : ℝ) ≤ b := b.2
  have hq := sq_nonneg ‖p 0‖
  refine ⟨ENNReal.ofReal_le_ofReal ?_, ENNReal.ofReal_le_ofReal ?_⟩
  · rw [mul_pow]
    exact mul_le_mul_of_nonneg_right (pow_le_pow_left₀ (by linarith) h2 2) hq
  · rw [mul_pow]
    have : 1 ≤ (1 + (b : ℝ)) ^ 2 * c ^ 2 := by
      have a1 : 1 ≤ (1 + (b : ℝ)) ^ 2 := one_le_pow₀ (by linarith)
      have a2 : 1 ≤ c ^ 2 := one_le_pow₀ h1
      nlinarith
    nlinarith

end Hazma.RamboUnbiased
