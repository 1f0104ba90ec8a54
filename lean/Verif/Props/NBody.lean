import Verif.Model.NBody
import Mathlib.Tactic

/-! # n-body spectra: radiation terms, direct products, flavours and outcomes -/

namespace Hazma.NBody

open Hazma Hazma.PhaseSpace Finset

/-! ## Sums over pairs -/

theorem sum_filter_map {α : Type} (l : List α) (q : α → Bool) (f : α → ℝ) :
    ((l.filter q).map f).sum = (l.map fun x => if q x then f x else 0).sum := by
  induction l with
  | nil => rfl
  | cons a l ih =>
    by_cases h : q a = true
    · simp [List.filter_cons_of_pos h, ih, h]
    · simp only [Bool.not_eq_true] at h
      simp [ih, h]

theorem sum_pairs {n : ℕ} (f : Fin n × Fin n → ℝ) :
    ((pairs n).map f).sum = ∑ i, ∑ j, if i < j then f (i, j) else 0 := by
  have key : ∀ l : List (Fin n),
      ((l.flatMap fun i => ((List.finRange n).filter fun j => i < j).map fun j => (i, j)).map f).sum
        = (l.map fun i => ∑ j, if i < j then f (i, j) else 0).sum := by
    intro l
    induction l with
    | nil => rfl
    | cons a l ih =>
      rw [List.flatMap_cons, List.map_append, List.sum_append, ih, List.map_cons, List.sum_cons,
        List.map_map, sum_filter_map, Fin.sum_univ_def]
      simp
  rw [pairs, key, Fin.sum_univ_def]

/-- The pair made of two different particles, smaller index first. -/
def ord {n : ℕ} (i j : Fin n) : Fin n × Fin n := if i < j then (i, j) else (j, i)

/-- Summing over pairs and over the members of each pair is summing over particles and over their
partners. -/
theorem sum_pairs_members {n : ℕ} (A : Fin n → Fin n × Fin n → ℝ) :
    ((pairs n).map fun ij => A ij.1 ij + A ij.2 ij).sum = ∑ i, ∑ j ∈ univ.erase i, A i (ord i j) := by
  rw [sum_pairs]
  have h1 : (∑ i : Fin n, ∑ j, if i < j then (A i (i, j) + A j (i, j)) else 0)
      = (∑ i, ∑ j, if i < j then A i (i, j) else 0) + ∑ i, ∑ j, if j < i then A i (j, i) else 0 := by
    rw [Finset.sum_comm (f := fun i j => if j < i then A i (j, i) else 0), ← Finset.sum_add_distrib]
    refine Finset.sum_congr rfl fun i _ => ?_
    rw [← Finset.sum_add_distrib]
    refine Finset.sum_congr rfl fun j _ => ?_
    split <;> simp
  rw [h1, ← Finset.sum_add_distrib]
  refine Finset.sum_congr rfl fun i _ => ?_
  rw [← Finset.sum_add_distrib, ← Finset.add_sum_erase univ _ (Finset.mem_univ i)]
  simp only [lt_self_iff_false, if_false, add_zero, zero_add]
  refine Finset.sum_congr rfl fun j hj => ?_
  have hne : j ≠ i := (Finset.mem_erase.1 hj).1
  rcases lt_or_gt_of_ne hne with h | h
  · simp [ord, h, not_lt.2 h.le]
  · simp [ord, h, not_lt.2 h.le]

/-! ## The loop -/

theorem fold_average (l : List (String × ℝ)) (st : FsrState) (s : String) (hs : s ∈ fsrKeys) :
    ((l.foldl (fsrStep true) st).counts s : ℝ) = st.counts s + (l.map fun ev => if ev.1 = s then (1 : ℝ) else 0).sum
    ∧ (l.foldl (fsrStep true) st).dndes s = st.dndes s + (l.map fun ev => if ev.1 = s then ev.2 else 0).sum := by
  induction l generalizing st with
  | nil => simp
  | cons ev l ih =>
    obtain ⟨h1, h2⟩ := ih (fsrStep true st ev)
    rw [List.foldl_cons, h1, h2]
    by_cases hm : ev.1 ∈ fsrKeys
    · by_cases he : ev.1 = s
      · subst he
        simp only [fsrStep, hm, if_true, true_or, List.map_cons, List.sum_cons, Nat.cast_add, Nat.cast_one]
        constructor <;> ring
      · have he' : ¬ s = ev.1 := fun q => he q.symm
        simp [fsrStep, hm, he, he']
    · have he : ev.1 ≠ s := fun q => hm (q ▸ hs)
      simp [fsrStep, hm, he]

theorem events_sum (env : Env) (e : ℝ) {n : ℕ} (fs : Fin n → String) (inv : Fin n × Fin n → Dist)
    (g : String × ℝ → ℝ) :
    ((fsrEvents env e fs inv).map g).sum
      = ((pairs n).map fun ij => g (fs ij.1, convolve (env.fsr (fs ij.1) e) (inv ij))
          + g (fs ij.2, convolve (env.fsr (fs ij.2) e) (inv ij))).sum := by
  unfold fsrEvents
  induction pairs n with
  | nil => rfl
  | cons a l ih =>
    rw [List.flatMap_cons, List.map_append, List.sum_append, ih, List.map_cons, List.sum_cons]
    simp

/-! ## C48 -/

/-- The radiation of particle `i`: its radiation spectrum convolved with the invariant-mass distribution of
each pair it belongs to, averaged over its `n - 1` partners. -/
noncomputable def radiation (env : Env) (e : ℝ) {n : ℕ} (fs : Fin n → String) (inv : Fin n × Fin n → Dist)
    (i : Fin n) : ℝ :=
  (∑ j ∈ univ.erase i, convolve (env.fsr (fs i) e) (inv (ord i j))) / ((n : ℝ) - 1)

/-- How many final-state particles carry the name of particle `i`. -/
def copies {n : ℕ} (fs : Fin n → String) (i : Fin n) : ℕ := #{k | fs k = fs i}

/-- What the code computes: the radiation of every charged particle divided by the number of particles with
its name — one term per species instead of one per particle. -/
theorem fsr_per_species (env : Env) (e : ℝ) {n : ℕ} (hn : 2 ≤ n) (fs : Fin n → String)
    (inv : Fin n × Fin n → Dist) :
    photonFsr env e fs inv true
      = ∑ i, if fs i ∈ fsrKeys then radiation env e fs inv i / copies fs i else 0 := by
  obtain ⟨K, hK⟩ : ∃ K, K = ((List.ofFn fs).filter fun s => s ∈ fsrKeys) := ⟨_, rfl⟩
  have hn1 : (n : ℝ) - 1 ≠ 0 := by
    have : (2 : ℝ) ≤ n := by exact_mod_cast hn
    linarith
  have hmem : ∀ s, s ∈ K ↔ (∃ i, fs i = s) ∧ s ∈ fsrKeys := by
    intro s; rw [hK]; simp [List.mem_ofFn]
  have hval : ∀ s ∈ K.toFinset,
      (((fsrEvents env e fs inv).foldl (fsrStep true) ⟨fun _ => 0, fun _ => 0⟩).dndes s
        / (((fsrEvents env e fs inv).foldl (fsrStep true) ⟨fun _ => 0, fun _ => 0⟩).counts s : ℝ))
      = ∑ i, if fs i = s then radiation env e fs inv i / copies fs i else 0 := by
    intro s hs
    have hs' := (hmem s).1 (List.mem_toFinset.1 hs)
    obtain ⟨h1, h2⟩ := fold_average (fsrEvents env e fs inv) ⟨fun _ => 0, fun _ => 0⟩ s hs'.2
    rw [h1, h2, events_sum, events_sum]
    have e1 := sum_pairs_members (n := n) (fun i ij => if fs i = s then convolve (env.fsr (fs i) e) (inv ij) else 0)
    have e2 := sum_pairs_members (n := n) (fun i _ => if fs i = s then (1 : ℝ) else 0)
    simp only [] at e1 e2 ⊢
    rw [e1, e2]
    have c2 : (∑ i : Fin n, ∑ j ∈ univ.erase i, if fs i = s then (1 : ℝ) else 0)
        = ((n : ℝ) - 1) * (#{k | fs k = s} : ℕ) := by
      have : ∀ i : Fin n, (∑ j ∈ univ.erase i, if fs i = s then (1 : ℝ) else 0)
          = ((n : ℝ) - 1) * if fs i = s then (1 : ℝ) else 0 := by
        intro i
        rw [Finset.sum_const, Finset.card_erase_of_mem (Finset.mem_univ i), Finset.card_univ, Fintype.card_fin,
          nsmul_eq_mul, Nat.cast_sub (by omega), Nat.cast_one]
      rw [Finset.sum_congr rfl fun i _ => this i, ← Finset.mul_sum]
      congr 1
      simp
    have c1 : (∑ i : Fin n, ∑ j ∈ univ.erase i, if fs i = s then convolve (env.fsr (fs i) e) (inv (ord i j)) else 0)
        = ∑ i : Fin n, if fs i = s then ((n : ℝ) - 1) * radiation env e fs inv i else 0 := by
      refine Finset.sum_congr rfl fun i _ => ?_
      by_cases h : fs i = s
      · simp only [h, if_true, radiation]
        field_simp
      · simp [h]
    rw [c1, c2, zero_add, Nat.cast_zero, zero_add, Finset.sum_div]
    refine Finset.sum_congr rfl fun i _ => ?_
    by_cases h : fs i = s
    · have hc : copies fs i = #{k | fs k = s} := by rw [copies, h]
      rw [if_pos h, if_pos h, hc, mul_div_mul_left _ _ hn1]
    · simp [h]
  unfold photonFsr
  simp only []
  rw [← hK]
  rw [← List.sum_toFinset _ (List.nodup_dedup K), show K.dedup.toFinset = K.toFinset from by ext; simp, Finset.sum_congr rfl hval, Finset.sum_comm]
  refine Finset.sum_congr rfl fun i _ => ?_
  rw [Finset.sum_ite_eq]
  by_cases h : fs i ∈ fsrKeys
  · rw [if_pos h, if_pos (List.mem_toFinset.2 ((hmem _).2 ⟨⟨i, rfl⟩, h⟩))]
  · rw [if_neg h, if_neg (fun q => h ((hmem _).1 (List.mem_toFinset.1 q)).2)]

/-- C48 (the part that holds): one radiation term per charged particle when no two charged particles carry
the same name. -/
theorem fsr_per_particle_partial (env : Env) (e : ℝ) {n : ℕ} (hn : 2 ≤ n) (fs : Fin n → String)
    (inv : Fin n × Fin n → Dist)
    (hd : ∀ i j, fs i ∈ fsrKeys → fs i = fs j → i = j) :
    photonFsr env e fs inv true = ∑ i, if fs i ∈ fsrKeys then radiation env e fs inv i else 0 := by
  rw [fsr_per_species env e hn]
  refine Finset.sum_congr rfl fun i _ => ?_
  by_cases h : fs i ∈ fsrKeys
  · have : copies fs i = 1 := by
      rw [copies, Finset.card_eq_one]
      refine ⟨i, ?_⟩
      ext k
      simp only [Finset.mem_filter, Finset.mem_univ, true_and, Finset.mem_singleton]
      constructor
      · intro q; exact (hd i k h q.symm).symm
      · rintro rfl; rfl
    simp [h, this]
  · simp [h]

/-- C48 is false: whenever some charged name occurs twice and the radiation terms are positive, the
spectrum is strictly smaller than one term per charged particle; `π⁺π⁻π⁰` gets exactly half. -/
theorem fsr_identical_particles (env : Env) (e : ℝ) {n : ℕ} (hn : 2 ≤ n) (fs : Fin n → String)
    (inv : Fin n × Fin n → Dist) (hpos : ∀ i, fs i ∈ fsrKeys → 0 < radiation env e fs inv i)
    (a b : Fin n) (hab : a ≠ b) (hs : fs a = fs b) (ha : fs a ∈ fsrKeys) :
    photonFsr env e fs inv true < ∑ i, if fs i ∈ fsrKeys then radiation env e fs inv i else 0 := by
  rw [fsr_per_species env e hn]
  have hc : ∀ i, 1 ≤ copies fs i := fun i => Finset.card_pos.2 ⟨i, by simp⟩
  apply Finset.sum_lt_sum
  · intro i _
    by_cases h : fs i ∈ fsrKeys
    · rw [if_pos h, if_pos h]
      have h1 : (1 : ℝ) ≤ copies fs i := by exact_mod_cast hc i
      exact div_le_self (hpos i h).le h1
    · simp [h]
  · refine ⟨a, Finset.mem_univ a, ?_⟩
    rw [if_pos ha, if_pos ha]
    have h2 : (1 : ℝ) < copies fs a := by
      have : 1 < copies fs a := by
        rw [copies, Finset.one_lt_card]
        exact ⟨a, by simp, b, by simp [hs], hab⟩
      exact_mod_cast this
    exact div_lt_self (hpos a ha) h2

theorem fsr_three_pions (env : Env) (e : ℝ) (inv : Fin 3 × Fin 3 → Dist) :
    photonFsr env e ![ "pi", "pi", "pi0" ] inv true
      = (radiation env e ![ "pi", "pi", "pi0" ] inv 0 + radiation env e ![ "pi", "pi", "pi0" ] inv 1) / 2 := by
  rw [fsr_per_species env e (by norm_num)]
  have c0 : copies ![ "pi", "pi", "pi0" ] 0 = 2 := by decide
  have c1 : copies ![ "pi", "pi", "pi0" ] 1 = 2 := by decide
  rw [Fin.sum_univ_three, c0, c1]
  simp [fsrKeys]
  ring

/-- Two-body states do get one term per particle: `π⁺π⁻` radiates twice. -/
theorem fsr_two_body (env : Env) (e cme : ℝ) (s : String) (m : ℝ) (hm : smMasses.get? s = some m)
    (hs : s ∈ fsrKeys) :
    ∃ v w, twoBody env e cme s s .photon true = .ok v ∧ twoBody env e cme s s .photon false = .ok w
      ∧ v - w = 2 * env.fsr s e cme := by
  have h : getMasses [s, s] = .ok [m, m] := by simp [getMasses, hm]
  refine ⟨_, _, by simp only [twoBody, h]; rfl, by simp only [twoBody, h]; rfl, ?_⟩
  simp [hs]
  ring

/-! ### Without averaging -/

theorem fold_same (average : Bool) (C : String → ℝ) (l : List (String × ℝ))
    (hl : ∀ ev ∈ l, ev.1 ∈ fsrKeys → ev.2 = C ev.1) (st : FsrState) (s : String) (hs : s ∈ fsrKeys)
    (h0 : st.dndes s = st.counts s * C s) :
    (l.foldl (fsrStep average) st).dndes s = (l.foldl (fsrStep average) st).counts s * C s
    ∧ (0 < st.counts s ∨ (∃ ev ∈ l, ev.1 = s) → 0 < (l.foldl (fsrStep average) st).counts s) := by
  induction l generalizing st with
  | nil => simp [h0]
  | cons ev l ih =>
    have hl' : ∀ ev ∈ l, ev.1 ∈ fsrKeys → ev.2 = C ev.1 := fun x hx => hl x (by simp [hx])
    have he := hl ev (by simp)
    rw [List.foldl_cons]
    by_cases hm : ev.1 = s
    · subst hm
      by_cases hc : average = true ∨ st.counts ev.1 = 0
      · have e1 : (fsrStep average st ev).counts ev.1 = st.counts ev.1 + 1 := by
          simp [fsrStep, hs, hc]
        have e2 : (fsrStep average st ev).dndes ev.1 = st.dndes ev.1 + ev.2 := by
          simp [fsrStep, hs, hc]
        obtain ⟨i1, i2⟩ := ih hl' (fsrStep average st ev) (by
          rw [e1, e2, h0, he hs]; push_cast; ring)
        exact ⟨i1, fun _ => i2 (Or.inl (by omega))⟩
      · have e1 : fsrStep average st ev = st := by simp [fsrStep, hc]
        rw [e1]
        push Not at hc
        obtain ⟨i1, i2⟩ := ih hl' st h0
        exact ⟨i1, fun _ => i2 (Or.inl (Nat.pos_of_ne_zero hc.2))⟩
    · have hne : ¬ s = ev.1 := fun h => hm h.symm
      have e1 : (fsrStep average st ev).counts s = st.counts s := by
        unfold fsrStep; split_ifs <;> simp [hne]
      have e2 : (fsrStep average st ev).dndes s = st.dndes s := by
        unfold fsrStep; split_ifs <;> simp [hne]
      obtain ⟨i1, i2⟩ := ih hl' (fsrStep average st ev) (by rw [e1, e2, h0])
      refine ⟨i1, fun h => i2 ?_⟩
      rw [e1]
      rcases h with h | ⟨x, hx, hxs⟩
      · exact Or.inl h
      · rcases List.mem_cons.mp hx with rfl | hx
        · exact absurd hxs hm
        · exact Or.inr ⟨x, hx, hxs⟩

/-- `average_fsr` does not matter when all pairs have the same distribution: with and without it every
charged species radiates its convolved spectrum once. -/
theorem fsr_average_irrelevant (env : Env) (e : ℝ) {n : ℕ} (hn : 2 ≤ n) (fs : Fin n → String)
    (inv : Fin n × Fin n → Dist) (C : String → ℝ)
    (h : ∀ ij, ∀ s ∈ fsrKeys, convolve (env.fsr s e) (inv ij) = C s) (average : Bool) :
    photonFsr env e fs inv average
      = (((List.ofFn fs).filter fun s => s ∈ fsrKeys).dedup.map C).sum := by
  unfold photonFsr
  simp only
  congr 1
  apply List.map_congr_left
  intro s hs
  simp only [List.mem_dedup, List.mem_filter, List.mem_ofFn, decide_eq_true_eq] at hs
  obtain ⟨⟨i, hi⟩, hk⟩ := hs
  have hev : ∀ ev ∈ fsrEvents env e fs inv, ev.1 ∈ fsrKeys → ev.2 = C ev.1 := by
    intro ev hm hk'
    simp only [fsrEvents, List.mem_flatMap, List.mem_cons, List.not_mem_nil, or_false] at hm
    obtain ⟨ij, -, rfl | rfl⟩ := hm <;> exact h ij _ hk'
  have hex : ∃ ev ∈ fsrEvents env e fs inv, ev.1 = s := by
    obtain ⟨j, hj⟩ : ∃ j : Fin n, j ≠ i := by
      by_cases h0 : i = ⟨0, by omega⟩
      · exact ⟨⟨1, by omega⟩, by rw [h0]; simp⟩
      · exact ⟨⟨0, by omega⟩, fun hc => h0 hc.symm⟩
    have hp : ∀ a b : Fin n, a < b → (a, b) ∈ pairs n := by
      intro a b hab
      simp [pairs, hab]
    simp only [fsrEvents, List.mem_flatMap, List.mem_cons, List.not_mem_nil, or_false]
    rcases lt_or_gt_of_ne hj with hlt | hgt
    · exact ⟨_, ⟨(j, i), hp j i hlt, Or.inr rfl⟩, hi⟩
    · exact ⟨_, ⟨(i, j), hp i j hgt, Or.inl rfl⟩, hi⟩
  obtain ⟨f1, f2⟩ := fold_same average C _ hev ⟨fun _ => 0, fun _ => 0⟩ s hk (by simp)
  have hpos := f2 (Or.inr hex)
  rw [f1]
  have : ((List.foldl (fsrStep average) ⟨fun _ => 0, fun _ => 0⟩ (fsrEvents env e fs inv)).counts s : ℝ) ≠ 0 := by
    exact_mod_cast hpos.ne'
  field_simp

end Hazma.NBody
