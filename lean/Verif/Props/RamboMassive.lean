import Verif.Props.RamboConvergence
import Verif.Props.RamboAccuracy
import Mathlib.Tactic

/-!
# The Monte-Carlo integral of massive particles (C312)
-/

namespace Hazma.RamboConvergence

open MeasureTheory ProbabilityTheory Filter Topology Set Hazma.RamboEstimate Hazma.Rambo Hazma.RamboStatistics
open Hazma.RamboUnbiased Hazma.RamboMeasure Hazma.PhaseSpaceMeasure Hazma.ThreeBody
open scoped NNReal

/-! ### Specification -/

/-- The squared matrix element changes by at most a factor `L` when all momenta are stretched by a common factor of at most `1 + B`. -/
def StableReal {N : ℕ} (L B : ℝ) (F : (Fin (N + 2) → V) → ℝ) : Prop :=
  ∀ (k : Fin (N + 1) → V) (c : ℝ), 1 ≤ c → c ≤ 1 + B → F (c • atRest k) ≤ L * F (atRest k) ∧ F (atRest k) ≤ L * F (c • atRest k)

/-! ### Helper lemmas -/

theorem wt_bound {N : ℕ} {ms : Fin (N + 1 + 1) → ℝ} {Q : ℝ} (hQ : 0 < Q) {p : Fin (N + 1 + 1) → V} (hp : ∀ i, p i ≠ 0)
    (hs : ∑ i, ‖p i‖ ≤ Q) : 0 ≤ wt ms Q p ∧ wt ms Q p ≤ bw N Q := by
  have hpi := Real.pi_pos
  have hbw : 0 ≤ bw N Q := by unfold bw; positivity
  have hn : ∀ i, 0 < ‖p i‖ := fun i => norm_pos_iff.mpr (hp i)
  have hle : ∀ i, ‖p i‖ ≤ en ms p i := fun i => Real.le_sqrt_of_sq_le (by nlinarith [sq_nonneg (ms i)])
  have he : ∀ i, 0 < en ms p i := fun i => (hn i).trans_le (hle i)
  have hr1 : ∀ i, ‖p i‖ / en ms p i ≤ 1 := fun i => (div_le_one (he i)).mpr (hle i)
  have hr0 : ∀ i, 0 ≤ ‖p i‖ / en ms p i := fun i => (div_pos (hn i) (he i)).le
  have hT : 0 < ∑ i, ‖p i‖ ^ 2 / en ms p i := Finset.sum_pos (fun i _ => by have := hn i; have := he i; positivity) Finset.univ_nonempty
  have hP0 : 0 ≤ ∏ i, ‖p i‖ / en ms p i := Finset.prod_nonneg fun i _ => hr0 i
  have hS0 : 0 ≤ ∑ i, ‖p i‖ := Finset.sum_nonneg fun i _ => norm_nonneg _
  have hSP : (∑ i, ‖p i‖) * ∏ i, ‖p i‖ / en ms p i ≤ ∑ i, ‖p i‖ ^ 2 / en ms p i := by
    rw [Finset.sum_mul]
    refine Finset.sum_le_sum fun i _ => ?_
    have h1 : ∏ j, ‖p j‖ / en ms p j ≤ ‖p i‖ / en ms p i := by
      rw [← Finset.mul_prod_erase _ _ (Finset.mem_univ i)]
      exact mul_le_of_le_one_right (hr0 i) (Finset.prod_le_one (fun j _ => hr0 j) fun j _ => hr1 j)
    calc ‖p i‖ * ∏ j, ‖p j‖ / en ms p j ≤ ‖p i‖ * (‖p i‖ / en ms p i) := mul_le_mul_of_nonneg_left h1 (norm_nonneg _)
      _ = ‖p i‖ ^ 2 / en ms p i := by ring
  unfold wt
  rw [← Finset.sum_div]
  generalize ∑ i, ‖p i‖ ^ 2 / en ms p i = T at *
  generalize ∏ i, ‖p i‖ / en ms p i = P at *
  generalize ∑ i, ‖p i‖ = S at *
  have hx0 : 0 ≤ S / Q := by positivity
  have hx1 : S / Q ≤ 1 := (div_le_one hQ).mpr hs
  refine ⟨by positivity, ?_⟩
  have h1 : (S / Q) ^ (2 * N + 1) ≤ S / Q := by
    rw [pow_succ]
    exact mul_le_of_le_one_left hx0 (pow_le_one₀ hx0 hx1)
  have h2 : (S / Q) ^ (2 * N + 1) / T * P * Q ≤ 1 := by
    calc (S / Q) ^ (2 * N + 1) / T * P * Q ≤ S / Q / T * P * Q := by gcongr
      _ = S * P / T := by field_simp
      _ ≤ 1 := (div_le_one hT).mpr hSP
  calc (S / Q) ^ (2 * N + 1) / T * P * Q * bw N Q ≤ 1 * bw N Q := mul_le_mul_of_nonneg_right h2 hbw
    _ = bw N Q := one_mul _

/-- Exact events: their weights are bounded, never above those without masses. -/
theorem exact_weights {N : ℕ} {ms : Fin (N + 2) → ℝ} (hm : ∀ i, 0 ≤ ms i) {Q : ℝ} (hQ : ∑ i, ms i < Q) {xi : ℝ → List ℝ → ℝ} (hxi : ExactScale xi ms)
    {F : (Fin (N + 2) → V) → ℝ} (hF : Continuous F) (hF0 : ∀ k, 0 ≤ F (atRest k)) :
    ∃ (W : (Fin (N + 2) → ℝ × ℝ × ℝ × ℝ) → ℝ) (ev : (Fin (N + 2) → ℝ × ℝ × ℝ × ℝ) → Fin (N + 1) → V), Measurable W ∧ MemLp W 2 (draws (N + 2)) ∧
      (∀ d, ((∀ i, (d i).1 ∈ Ico (0 : ℝ) 1 ∧ (d i).2.2.1 ∈ Ico (0 : ℝ) 1 ∧ (d i).2.2.2 ∈ Ico (0 : ℝ) 1)
        ∧ (fun i => drawMom (d i)) ∉ bad N) → momenta (event xi ms Q d) = atRest (ev d) ∧
        W d = weight Q ((baseWeight Q (N + 2)).getD 0) (N + 2) (event xi ms Q d) * F (atRest (ev d))) ∧
      0 ≤ ∫ d, W d ∂draws (N + 2) ∧
      ENNReal.ofReal (∫ d, W d ∂draws (N + 2)) = ∫⁻ d, ENNReal.ofReal (F (momenta (event xi ms Q d)))
          * ENNReal.ofReal (weight Q ((baseWeight Q (N + 2)).getD 0) (N + 2) (event xi ms Q d)) ∂draws (N + 2) := by
  have hprob := draws_prob (N + 2)
  have hQ0 : 0 < Q := (Finset.sum_nonneg fun i _ => hm i).trans_lt hQ
  have hpi := Real.pi_pos
  have hbw : 0 ≤ bw N Q := by unfold bw; positivity
  obtain ⟨ev, hev⟩ : ∃ ev : (Fin (N + 2) → ℝ × ℝ × ℝ × ℝ) → Fin (N + 2) → V, ev = fun d =>
      tau ms Q (cmom fun i => drawMom (d i)) • full (cmom fun i => drawMom (d i)) := ⟨_, rfl⟩
  have hevm : Measurable ev := by
    have h1 : Measurable fun d : Fin (N + 2) → ℝ × ℝ × ℝ × ℝ => cmom (N := N + 1) fun i => drawMom (d i) :=
      cmom_measurable.comp (measurable_pi_lambda _ fun i => drawMom_measurable.comp (measurable_pi_apply i))
    have h2 : Measurable fun d : Fin (N + 2) → ℝ × ℝ × ℝ × ℝ => (Q, cmom (N := N + 1) fun i => drawMom (d i)) := measurable_const.prodMk h1
    rw [hev]
    exact ((tau_measurable hm).comp h2).smul (full_measurable.comp h1)
  have hgood : ∀ᵐ d ∂draws (N + 2), (∀ i, (d i).1 ∈ Ico (0 : ℝ) 1 ∧ (d i).2.2.1 ∈ Ico (0 : ℝ) 1 ∧ (d i).2.2.2 ∈ Ico (0 : ℝ) 1)
      ∧ (fun i => drawMom (d i)) ∉ bad N := by
    filter_upwards [draws_good N, draws_range (N + 1 + 1)] with d hd hr
    exact ⟨hr, hd⟩
  obtain ⟨W, hWe⟩ : ∃ W : (Fin (N + 2) → ℝ × ℝ × ℝ × ℝ) → ℝ, W = fun d => wt ms Q (ev d) * F (ev d) := ⟨_, rfl⟩
  have hWm : Measurable W := by
    have h1 : Measurable fun d : Fin (N + 2) → ℝ × ℝ × ℝ × ℝ => (Q, ev d) := measurable_const.prodMk hevm
    rw [hWe]
    exact ((wt_measurable (N := N) ms).comp h1).mul (hF.measurable.comp hevm)
  have hval : ∀ d, ((∀ i, (d i).1 ∈ Ico (0 : ℝ) 1 ∧ (d i).2.2.1 ∈ Ico (0 : ℝ) 1 ∧ (d i).2.2.2 ∈ Ico (0 : ℝ) 1)
      ∧ (fun i => drawMom (d i)) ∉ bad N) →
      momenta (event xi ms Q d) = ev d ∧
      weight Q ((baseWeight Q (N + 2)).getD 0) (N + 2) (event xi ms Q d) = wt ms Q (ev d) := by
    intro d hd
    rw [event_eq hm hxi hQ hd.1 hd.2, hev]
    exact ⟨momenta_ofFn _ _, weight_ofFn _ _ _⟩
  have hrest : ∀ d, ev d = atRest (tau ms Q (cmom fun i => drawMom (d i)) • cmom fun i => drawMom (d i)) := by
    intro d
    rw [hev]
    simp only
    rw [← full_smul]
    rfl
  have hnorm : ∀ d, (fun i => drawMom (d i)) ∉ bad N → (∀ i, ev d i ≠ 0) ∧ ∑ i, ‖ev d i‖ ≤ Q := by
    intro d hd
    obtain ⟨-, -, hgd, -, -⟩ := boosted hd Q
    obtain ⟨t, ht, he⟩ := tau_exists hm hgd hQ
    have hτ := tau_eq hgd hQ ht he
    rw [hev]
    simp only
    rw [hτ]
    refine ⟨fun i => ?_, ?_⟩
    · rw [Pi.smul_apply]
      exact smul_ne_zero ht.ne' (hgd i)
    · unfold etot at he
      rw [← he]
      refine Finset.sum_le_sum fun i _ => ?_
      rw [Pi.smul_apply, norm_smul, Real.norm_eq_abs, abs_of_pos ht]
      unfold mags
      exact Real.le_sqrt_of_sq_le (by nlinarith [sq_nonneg (ms i)])
  obtain ⟨C, hC⟩ := (isCompact_closedBall (0 : Fin (N + 2) → V) Q).exists_bound_of_continuousOn hF.continuousOn
  have hF1 : ∀ d, 0 ≤ F (ev d) := fun d => by rw [hrest]; exact hF0 _
  have hL2 : MemLp W 2 (draws (N + 2)) := by
    refine MemLp.of_bound hWm.aestronglyMeasurable (bw N Q * C) ?_
    filter_upwards [hgood] with d hd
    obtain ⟨n1, n2⟩ := hnorm d hd.2
    obtain ⟨b1, b2⟩ := wt_bound (ms := ms) hQ0 n1 n2
    have hball : ev d ∈ Metric.closedBall (0 : Fin (N + 2) → V) Q := by
      rw [mem_closedBall_zero_iff, pi_norm_le_iff_of_nonneg hQ0.le]
      intro i
      exact (Finset.single_le_sum (f := fun i => ‖ev d i‖) (fun i _ => norm_nonneg _) (Finset.mem_univ i)).trans n2
    rw [hWe]
    simp only
    rw [norm_mul, Real.norm_eq_abs, abs_of_nonneg b1]
    exact mul_le_mul b2 (hC _ hball) (norm_nonneg _) hbw
  have hWnn : ∀ᵐ d ∂draws (N + 2), 0 ≤ W d := by
    filter_upwards [hgood] with d hd
    obtain ⟨n1, n2⟩ := hnorm d hd.2
    rw [hWe]
    exact mul_nonneg (wt_bound (ms := ms) hQ0 n1 n2).1 (hF1 d)
  refine ⟨W, fun d => tau ms Q (cmom fun i => drawMom (d i)) • cmom fun i => drawMom (d i), hWm, hL2, ?_, integral_nonneg_of_ae hWnn, ?_⟩
  · intro d hd
    obtain ⟨e1, e2⟩ := hval d hd
    rw [e1, e2, hWe]
    simp only
    rw [hrest d]
    exact ⟨rfl, rfl⟩
  · rw [ofReal_integral_eq_lintegral_ofReal (hL2.integrable one_le_two) hWnn]
    refine lintegral_congr_ae ?_
    filter_upwards [hgood] with d hd
    obtain ⟨e1, e2⟩ := hval _ hd
    rw [e1, e2, hWe]
    simp only
    rw [mul_comm, ENNReal.ofReal_mul (hF1 d)]

theorem nanmean_range {b : ℕ} (hb : 0 < b) (f : ℕ → ℝ) : nanmean ((List.range b).map fun i => some (f i)) = some ((∑ i ∈ Finset.range b, f i) / b) := by
  have hv : valid ((List.range b).map fun i => some (f i)) = (List.range b).map f := by
    rw [← valid_map_some ((List.range b).map f), List.map_map]
    rfl
  unfold nanmean
  simp only [hv]
  rw [if_neg (by simp; omega), sum_list]
  simp

/-- `integrate` compares two runs event by event. -/
theorem integrate_compare {A A' : ℕ → ℕ → List (Option ℝ)} {a a' : ℕ → ℕ → ℕ → ℝ} (hA : ∀ k b, A k b = (List.range b).map fun i => some (a k b i))
    (hA' : ∀ k b, A' k b = (List.range b).map fun i => some (a' k b i)) {n : ℕ} (hn : 0 < n) {bs : Option ℕ} (hbs : ∀ b, bs = some b → 0 < b) :
    ∃ v e v' e', integrate A n bs = .ok (some v, e) ∧ integrate A' n bs = .ok (some v', e') ∧
      (∀ C, (∀ k b i, i < b → a k b i ≤ C * a' k b i) → v ≤ C * v') ∧ (∀ C, (∀ k b i, i < b → a' k b i ≤ C * a k b i) → v' ≤ C * v) := by
  have key : ∀ (K : ℕ) (f g : ℕ → ℝ) (C : ℝ), (∀ i < K, f i ≤ C * g i) → (∑ i ∈ Finset.range K, f i) / K ≤ C * ((∑ i ∈ Finset.range K, g i) / K) := by
    intro K f g C h
    rw [← mul_div_assoc, Finset.mul_sum]
    exact div_le_div_of_nonneg_right (Finset.sum_le_sum fun i hi => h i (Finset.mem_range.mp hi)) (Nat.cast_nonneg K)
  have once : ∃ v e v' e', Except.ok (integrateOnce (A 0 n) n) = (Except.ok (some v, e) : Except Err _) ∧
      Except.ok (integrateOnce (A' 0 n) n) = (Except.ok (some v', e') : Except Err _) ∧
      (∀ C, (∀ k b i, i < b → a k b i ≤ C * a' k b i) → v ≤ C * v') ∧ (∀ C, (∀ k b i, i < b → a' k b i ≤ C * a k b i) → v' ≤ C * v) := by
    refine ⟨_, (nanstd (A 0 n)).map fun s => s / Real.sqrt n, _, (nanstd (A' 0 n)).map fun s => s / Real.sqrt n, ?_, ?_,
      fun C h => key n (a 0 n) (a' 0 n) C fun i hi => h 0 n i hi, fun C h => key n (a' 0 n) (a 0 n) C fun i hi => h 0 n i hi⟩
    · rw [integrateOnce, hA, nanmean_range hn]
    · rw [integrateOnce, hA', nanmean_range hn]
  rcases bs with _ | b
  · exact once
  have hb := hbs b rfl
  unfold integrate
  simp only
  by_cases hbn : b = n
  · simp only [if_pos hbn]
    exact once
  simp only [if_neg hbn, if_neg hb.ne']
  have hK : 0 < numBatches n b := by
    unfold numBatches
    simp only
    rcases Nat.eq_zero_or_pos (n / b) with h0 | h0
    · rw [h0, if_neg (by omega)]; norm_num
    · omega
  have hmean : ∀ {B : ℕ → ℕ → List (Option ℝ)} {f : ℕ → ℕ → ℕ → ℝ}, (∀ k b, B k b = (List.range b).map fun i => some (f k b i)) →
      (integrateBatches ((List.range (numBatches n b)).map fun k => B k b) b).1
        = some ((∑ k ∈ Finset.range (numBatches n b), (∑ i ∈ Finset.range b, f k b i) / b) / numBatches n b) := by
    intro B f hB
    unfold integrateBatches
    simp only [List.map_map]
    have : (nanmean ∘ fun k => B k b) = fun k => some ((∑ i ∈ Finset.range b, f k b i) / b) := by
      funext k
      simp only [Function.comp, hB, nanmean_range hb]
    rw [this, nanmean_range hK]
  refine ⟨_, (integrateBatches ((List.range (numBatches n b)).map fun k => A k b) b).2, _,
    (integrateBatches ((List.range (numBatches n b)).map fun k => A' k b) b).2, ?_, ?_,
    fun C h => key (numBatches n b) (fun k => (∑ i ∈ Finset.range b, a k b i) / b) (fun k => (∑ i ∈ Finset.range b, a' k b i) / b) C
      fun k _ => key b (a k b) (a' k b) C fun i hi => h k b i hi,
    fun C h => key (numBatches n b) (fun k => (∑ i ∈ Finset.range b, a' k b i) / b) (fun k => (∑ i ∈ Finset.range b, a k b i) / b) C
      fun k _ => key b (a' k b) (a k b) C fun i hi => h k b i hi⟩
  · rw [← hmean hA]
  · rw [← hmean hA']

/-- **C312.** `Rambo.integrate` for massive particles: almost surely, whatever the batch size, the value comes, and stays, as close as one
likes to the interval between `I` divided by `(1 + B) L` and `I` times `(1 + B)^(3n-3) L`, with `I` the average over exact events. -/
theorem massive_integral {N : ℕ} {ms : Fin (N + 2) → ℝ} (hm : ∀ i, 0 ≤ ms i) {Q : ℝ} (hQ : ∑ i, ms i < Q) {s : Rambo.State}
    (hs : create Q (List.ofFn ms) = some s) {eps : ℝ} (heps : 0 ≤ eps) {xi : ℝ → List ℝ → ℝ} (hxi : ExactScale xi ms)
    {B L : ℝ} (hB : excessBound Q eps (List.ofFn ms) ≤ B)
    {F : (Fin (N + 2) → V) → ℝ} (hF : Continuous F) (hF0 : ∀ k, 0 ≤ F (atRest k)) (hst : StableReal L B F)
    {bs : Option ℕ} (hbs : ∀ b, bs = some b → 2 ≤ b) :
    ∃ I, 0 ≤ I ∧ ENNReal.ofReal I = (∫⁻ d, ENNReal.ofReal (F (momenta (event xi ms Q d)))
          * ENNReal.ofReal (weight Q ((baseWeight Q (N + 2)).getD 0) (N + 2) (event xi ms Q d)) ∂draws (N + 2)) ∧
      ∀ᵐ ω ∂law (N + 2), ∀ δ > 0, ∀ᶠ n in atTop, ∃ value err, integrate (batches s eps F ω) n bs = .ok (some value, err) ∧
        value ≤ (1 + B) ^ (3 * (N + 2) - 3) * L * I + δ ∧ I ≤ (1 + B) * L * value + δ := by
  have hprob := draws_prob (N + 2)
  obtain ⟨W, ev, hWm, hL2, hW, hI0, hI⟩ := exact_weights hm hQ hxi hF hF0
  refine ⟨_, hI0, hI, ?_⟩
  obtain ⟨value, err, h1, h2, -⟩ := converges (draws (N + 2)) hWm hL2 hbs
  have hgood : ∀ᵐ d ∂draws (N + 2), (∀ i, (d i).1 ∈ Ico (0 : ℝ) 1 ∧ (d i).2.2.1 ∈ Ico (0 : ℝ) 1 ∧ (d i).2.2.2 ∈ Ico (0 : ℝ) 1)
      ∧ (fun i => drawMom (d i)) ∉ bad N := by
    filter_upwards [draws_good N, draws_range (N + 1 + 1)] with d hd hr
    exact ⟨hr, hd⟩
  have hall : ∀ᵐ ω ∂law (N + 2), ∀ x : ℕ × ℕ, (∀ i, (ω x i).1 ∈ Ico (0 : ℝ) 1 ∧ (ω x i).2.2.1 ∈ Ico (0 : ℝ) 1 ∧ (ω x i).2.2.2 ∈ Ico (0 : ℝ) 1)
      ∧ (fun i => drawMom (ω x i)) ∉ bad N := by
    rw [ae_all_iff]
    intro x
    have hp := measurePreserving_eval_infinitePi (fun _ : ℕ × ℕ => draws (N + 2)) x
    exact hp.quasiMeasurePreserving.ae hgood
  filter_upwards [hall, h2] with ω hω hlim δ hδ
  -- the generated weights, event by event
  have hgen : ∀ k b, ∃ X : ℕ → ℝ, batches s eps F ω k b = ((List.range b).map fun i => some (X i)) ∧
      ∀ i < b, X i ≤ (1 + B) ^ (3 * (N + 2) - 3) * L * W (ω (k, i)) ∧ W (ω (k, i)) ≤ (1 + B) * L * X i := by
    intro k b
    obtain ⟨c, E, w, hg, hall⟩ := generate_close hm hQ hs heps hxi (dl := (List.range b).map fun i => ω (k, i))
      (by intro d hd; obtain ⟨i, -, rfl⟩ := List.mem_map.mp hd; exact (hω (k, i)).1)
      (by intro d hd; obtain ⟨i, -, rfl⟩ := List.mem_map.mp hd; exact (hω (k, i)).2)
    have hb1 : ∀ i < b, w (ω (k, i)) * F (momenta (E (ω (k, i)))) ≤ (1 + B) ^ (3 * (N + 2) - 3) * L * W (ω (k, i)) ∧
        W (ω (k, i)) ≤ (1 + B) * L * (w (ω (k, i)) * F (momenta (E (ω (k, i))))) := by
      intro i hi
      obtain ⟨c1, c2, hmom, w0, w1, w2⟩ := hall (ω (k, i)) (List.mem_map.mpr ⟨i, List.mem_range.mpr hi, rfl⟩)
      obtain ⟨e1, e2⟩ := hW _ (hω (k, i))
      have hcB : c (ω (k, i)) ≤ 1 + B := by linarith
      obtain ⟨f1, f2⟩ := hst (ev (ω (k, i))) _ c1 hcB
      have hF1 := hF0 (ev (ω (k, i)))
      rw [hmom, e1, e2]
      generalize weight Q ((baseWeight Q (N + 2)).getD 0) (N + 2) (event xi ms Q (ω (k, i))) = u at *
      generalize w (ω (k, i)) = v at *
      generalize F (atRest (ev (ω (k, i)))) = y at *
      have hz : 0 ≤ F (c (ω (k, i)) • atRest (ev (ω (k, i)))) := by
        have : c (ω (k, i)) • atRest (ev (ω (k, i))) = atRest (c (ω (k, i)) • ev (ω (k, i))) := (full_smul _ _).symm
        rw [this]
        exact hF0 _
      generalize F (c (ω (k, i)) • atRest (ev (ω (k, i)))) = z at *
      generalize c (ω (k, i)) = c at *
      have hc0 : 0 ≤ c := by linarith
      have hv : 0 ≤ v := by
        by_contra hneg
        push Not at hneg
        nlinarith
      constructor
      · have : v ≤ (1 + B) ^ (3 * (N + 2) - 3) * u := w2.trans (mul_le_mul_of_nonneg_right (pow_le_pow_left₀ hc0 hcB _) w0)
        calc v * z ≤ (1 + B) ^ (3 * (N + 2) - 3) * u * (L * y) := mul_le_mul this f1 hz (hv.trans this)
          _ = (1 + B) ^ (3 * (N + 2) - 3) * L * (u * y) := by ring
      · have : u ≤ (1 + B) * v := w1.trans (mul_le_mul_of_nonneg_right hcB hv)
        calc u * y ≤ (1 + B) * v * (L * z) := mul_le_mul this f2 hF1 (w0.trans this)
          _ = (1 + B) * L * (v * z) := by ring
    refine ⟨fun i => w (ω (k, i)) * F (momenta (E (ω (k, i)))), ?_, hb1⟩
    · unfold batches eventWeights
      rw [List.map_map] at hg
      have hcomp : ((fun d : Fin (N + 2) → ℝ × ℝ × ℝ × ℝ => List.ofFn fun i => toDraw (d i)) ∘ fun i => ω (k, i))
          = fun i => List.ofFn fun j => toDraw (ω (k, i) j) := rfl
      rw [hcomp] at hg
      simp only [hg]
      apply List.ext_getElem
      · simp
      · intro i _ _
        simp
  choose X hX hXW using hgen
  have hpos : ∀ b, bs = some b → 0 < b := fun b hb => by have := hbs b hb; omega
  have hup := (hlim.1.const_mul ((1 + B) ^ (3 * (N + 2) - 3) * L)).eventually
    (gt_mem_nhds (show (1 + B) ^ (3 * (N + 2) - 3) * L * ∫ d, W d ∂draws (N + 2) < (1 + B) ^ (3 * (N + 2) - 3) * L * (∫ d, W d ∂draws (N + 2)) + δ by linarith))
  have hlow := hlim.1.eventually (lt_mem_nhds (show (∫ d, W d ∂draws (N + 2)) - δ < ∫ d, W d ∂draws (N + 2) by linarith))
  filter_upwards [hup, hlow, h1, eventually_gt_atTop 0] with n n1 n2 n3 n4
  obtain ⟨v, e, v', e', i1, i2, i3, i4⟩ := integrate_compare hX (fun k b => rfl : ∀ k b, run (fun k i ω => W (ω (k, i))) ω k b = (List.range b).map fun i => some (W (ω (k, i))))
    n4 hpos
  have hv : v' = value n ω := by
    have := i2.symm.trans (n3 ω)
    simp only [Except.ok.injEq, Prod.mk.injEq, Option.some.injEq] at this
    exact this.1
  have b1 := i3 ((1 + B) ^ (3 * (N + 2) - 3) * L) fun k b i hi => (hXW k b i hi).1
  have b2 := i4 ((1 + B) * L) fun k b i hi => (hXW k b i hi).2
  rw [hv] at b1 b2
  exact ⟨v, e, i1, by linarith, by linarith⟩

/-- **C312, three bodies.** At almost every energy the interval is around the value that `ThreeBody.integrate` finds by quadrature. -/
theorem massive_three_body {m : Fin 3 → ℝ} (hm : ∀ i, 0 ≤ m i) {eps : ℝ} (heps : 0 ≤ eps) {M : Msqrd}
    (hM : Continuous fun z : ℝ × ℝ => M z.1 z.2)
    (hpos : ∀ k : Fin 2 → V, 0 ≤ M (pairMassSq (m 1) (m 2) (atRest k 1) (atRest k 2)) (pairMassSq (m 0) (m 2) (atRest k 0) (atRest k 2)))
    {bs : Option ℕ} (hbs : ∀ b, bs = some b → 2 ≤ b) :
    ∀ᵐ Q ∂volume.restrict (Ioi (∑ i, m i)), ∀ s L B, create Q (List.ofFn m) = some s → excessBound Q eps (List.ofFn m) ≤ B →
      StableReal (N := 1) L B (fun p => M (pairMassSq (m 1) (m 2) (p 1) (p 2)) (pairMassSq (m 0) (m 2) (p 0) (p 2))) →
      ∀ᵐ ω ∂law 3, ∀ δ > 0, ∀ᶠ n in atTop, ∃ value err,
        integrate (batches s eps (fun p : Fin 3 → V => M (pairMassSq (m 1) (m 2) (p 1) (p 2)) (pairMassSq (m 0) (m 2) (p 0) (p 2))) ω) n bs
          = .ok (some value, err) ∧
        value ≤ (1 + B) ^ 6 * L * integrateQuad ⟨Q, (m 0, m 1, m 2), none, M⟩ + δ ∧
        integrateQuad ⟨Q, (m 0, m 1, m 2), none, M⟩ ≤ (1 + B) * L * value + δ := by
  obtain ⟨xi, hxi⟩ := exactScale_exists m
  have h := rambo_quadrature_ae_partial hm hxi hM hpos
  filter_upwards [h, ae_restrict_mem measurableSet_Ioi] with Q hq hQ s L B hs hB hst
  have hF : Continuous fun p : Fin 3 → V => M (pairMassSq (m 1) (m 2) (p 1) (p 2)) (pairMassSq (m 0) (m 2) (p 0) (p 2)) := by
    refine hM.comp (f := fun p : Fin 3 → V => (pairMassSq (m 1) (m 2) (p 1) (p 2), pairMassSq (m 0) (m 2) (p 0) (p 2))) ?_
    unfold pairMassSq energy
    fun_prop
  obtain ⟨I, hI0, hI, hω⟩ := massive_integral (N := 1) hm hQ hs heps hxi hB hF hpos hst hbs
  have hqn : 0 ≤ integrateQuad ⟨Q, (m 0, m 1, m 2), none, M⟩ := by
    refine quad_nonneg (hm 0) (hm 1) (hm 2) ?_ (pos_dalitz hm hpos)
    have : ∑ i, m i < Q := hQ
    rwa [Fin.sum_univ_three] at this
  have hIq : I = integrateQuad ⟨Q, (m 0, m 1, m 2), none, M⟩ := (ENNReal.ofReal_eq_ofReal_iff hI0 hqn).mp (hI.trans hq)
  rw [hIq] at hω
  exact hω

/-! ### Non-triviality -/

/-- An electron, a muon and a photon with constant matrix element, above 300 MeV in double precision: the Monte-Carlo volume comes within
`2e-16` of the quadrature, relatively. -/
example : ∀ᵐ Q ∂volume.restrict (Ioi (∑ i, (![0.511, 105.66, 0] : Fin 3 → ℝ) i)), 300 < Q → ∀ s, create Q (List.ofFn (![0.511, 105.66, 0] : Fin 3 → ℝ)) = some s →
    ∀ᵐ ω ∂law 3, ∀ δ > 0, ∀ᶠ n in atTop, ∃ value err, integrate (batches s 2.3e-16 (fun _ : Fin 3 → V => 1) ω) n none = .ok (some value, err) ∧
      value ≤ (1 + 2e-16) * integrateQuad ⟨Q, (0.511, 105.66, 0), none, fun _ _ => 1⟩ + δ ∧
      integrateQuad ⟨Q, (0.511, 105.66, 0), none, fun _ _ => 1⟩ ≤ (1 + 1e-17) * value + δ := by
  have hm : ∀ i, 0 ≤ (![0.511, 105.66, 0] : Fin 3 → ℝ) i := by
    intro i
    fin_cases i <;> norm_num
  filter_upwards [massive_three_body (eps := 2.3e-16) hm (by norm_num) (M := fun _ _ => 1) continuous_const (fun _ => zero_le_one) (bs := none)
    (by simp), ae_restrict_mem measurableSet_Ioi] with Q h hQ0 hQ s hs
  have hsum : (List.ofFn (![0.511, 105.66, 0] : Fin 3 → ℝ)).sum = 106.171 := by
    rw [List.sum_ofFn, Fin.sum_univ_three]
    have : (![0.511, 105.66, 0] : Fin 3 → ℝ) 2 = 0 := rfl
    rw [this]
    norm_num
  have ho : Open Q (List.ofFn (![0.511, 105.66, 0] : Fin 3 → ℝ)) := ⟨by simp, by
    intro m hm'
    obtain ⟨i, rfl⟩ := List.mem_ofFn.mp hm'
    exact hm i, by rw [hsum]; linarith⟩
  have hb : excessBound Q 2.3e-16 (List.ofFn (![0.511, 105.66, 0] : Fin 3 → ℝ)) ≤ 1e-17 := by
    refine (excess_small (eps := 2.3e-16) (by norm_num) ho (by rw [hsum]; linarith)).trans ?_
    have : 2 * 2.3e-16 / Q ^ 2 ≤ (5e-18 : ℝ) := by
      rw [div_le_iff₀ (by positivity)]
      nlinarith
    linarith
  have hq : 0 ≤ integrateQuad ⟨Q, (0.511, 105.66, 0), none, fun _ _ => 1⟩ := by
    refine quad_nonneg (by norm_num) (by norm_num) le_rfl (by linarith) ?_
    intro _ _ _
    exact zero_le_one
  have h2 := h s 1 1e-17 hs hb (fun _ _ _ _ => by simp)
  filter_upwards [h2] with ω hω δ hδ
  filter_upwards [hω δ hδ] with n hn
  obtain ⟨value, err, v1, v2, v3⟩ := hn
  refine ⟨value, err, v1, v2.trans ?_, by simpa using v3⟩
  have e : ((1 + 1e-17 : ℝ) ^ 6 * 1) ≤ 1 + 2e-16 := by norm_num
  exact add_le_add (mul_le_mul_of_nonneg_right e hq) le_rfl

end Hazma.RamboConvergence
