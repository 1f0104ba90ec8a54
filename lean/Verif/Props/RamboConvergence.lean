import Verif.Props.RamboStatistics
import Mathlib.Probability.CentralLimitTheorem
import Mathlib.Probability.StrongLaw
import Mathlib.MeasureTheory.Measure.Portmanteau
import Mathlib.Tactic

/-! # The Monte-Carlo integral converges and its error is a Gaussian standard deviation -/

namespace Hazma.RamboConvergence

open MeasureTheory ProbabilityTheory Filter Topology Set Hazma.RamboEstimate Hazma.Rambo Hazma.RamboStatistics

variable {Ω : Type*} [MeasurableSpace Ω] {P : Measure Ω} [IsProbabilityMeasure P]

/-! ### Helper lemmas -/

/-- A Gaussian limit divided by a consistent estimate of its standard deviation. -/
theorem coverage {A B : ℕ → Ω → ℝ} {v : NNReal} (hv : v ≠ 0)
    (hA : TendstoInDistribution A atTop (id : ℝ → ℝ) (fun _ => P) (gaussianReal 0 v))
    (hBm : ∀ n, AEMeasurable (B n) P) (hB : ∀ᵐ ω ∂P, Tendsto (fun n => B n ω) atTop (𝓝 (Real.sqrt v))) (z : ℝ) :
    Tendsto (fun n => P {ω | |A n ω| ≤ z * B n ω}) atTop (𝓝 (gaussianReal 0 1 (Icc (-z) z))) := by
  have hBt : TendstoInMeasure P B atTop fun _ => Real.sqrt v :=
    tendstoInMeasure_of_tendsto_ae (fun n => (hBm n).aestronglyMeasurable) hB
  have hg : Continuous fun x : ℝ × ℝ => |x.1| - z * x.2 := by fun_prop
  have hD := hA.continuous_comp_prodMk_of_tendstoInMeasure_const hg hBt hBm
  have hs : 0 < Real.sqrt v := Real.sqrt_pos.mpr (by exact_mod_cast pos_iff_ne_zero.mpr hv)
  have hna := nullSingletonClass_gaussianReal (μ := 0) hv
  have hmeas : Measurable fun x : ℝ => |id x| - z * Real.sqrt v := by fun_prop
  have hfr : (Measure.map (fun x : ℝ => |id x| - z * Real.sqrt v) (gaussianReal 0 v)) (frontier (Iic 0)) = 0 := by
    rw [frontier_Iic, Measure.map_apply hmeas (measurableSet_singleton _)]
    refine measure_mono_null (t := {z * Real.sqrt v, -(z * Real.sqrt v)}) ?_ ?_
    · intro x hx
      have hx' : |x| - z * Real.sqrt v = 0 := hx
      rcases abs_cases x with h | h
      · left; linarith [h.1]
      · right; show x = -(z * Real.sqrt v); linarith [h.1]
    · exact (Set.toFinite _).measure_zero _
  have := ProbabilityMeasure.tendsto_measure_of_null_frontier_of_tendsto' hD.tendsto hfr
  have hlim : (Measure.map (fun x : ℝ => |id x| - z * Real.sqrt v) (gaussianReal 0 v)) (Iic 0) = gaussianReal 0 1 (Icc (-z) z) := by
    rw [Measure.map_apply hmeas measurableSet_Iic]
    have h1 := gaussianReal_map_const_mul (μ := 0) (v := 1) (Real.sqrt v)
    have hvv : (NNReal.mk (Real.sqrt v ^ 2) (sq_nonneg _) * 1 : NNReal) = v := by
      ext
      simp [Real.sq_sqrt v.2]
    rw [mul_zero, hvv] at h1
    rw [← h1, Measure.map_apply (by fun_prop) (hmeas measurableSet_Iic)]
    congr 1
    ext x
    simp only [mem_preimage, mem_Iic, id, mem_Icc]
    rw [abs_mul, abs_of_pos hs, ← abs_le]
    constructor
    · intro h; nlinarith
    · intro h; nlinarith
  simp only [ProbabilityMeasure.coe_mk] at this
  rw [hlim] at this
  refine this.congr fun n => ?_
  have hm : AEMeasurable (fun ω => |A n ω| - z * B n ω) P := hD.forall_aemeasurable n
  rw [Measure.map_apply_of_aemeasurable hm measurableSet_Iic]
  congr 1
  ext ω
  simp

/-- Independent identically distributed numbers: their average, with an error that is a consistent estimate of the standard deviation
over the square root of the number of them. -/
theorem average_coverage {U : ℕ → Ω → ℝ} (hL : MemLp (U 0) 2 P) (hi : iIndepFun U P) (hd : ∀ k, IdentDistrib (U k) (U 0) P P)
    (hv : Var[U 0; P] ≠ 0) {B : ℕ → Ω → ℝ} (hBm : ∀ n, AEMeasurable (B n) P)
    (hB : ∀ᵐ ω ∂P, Tendsto (fun n => B n ω) atTop (𝓝 (Real.sqrt Var[U 0; P]))) (z : ℝ) :
    Tendsto (fun n : ℕ => P {ω | |(∑ k ∈ Finset.range n, U k ω) / n - P[U 0]| ≤ z * (B n ω / Real.sqrt n)}) atTop
      (𝓝 (gaussianReal 0 1 (Icc (-z) z))) := by
  have hvn : 0 ≤ Var[U 0; P] := ProbabilityTheory.variance_nonneg _ _
  have hv0 : Var[U 0; P].toNNReal ≠ 0 := by
    intro h
    rw [Real.toNNReal_eq_zero] at h
    exact hv (le_antisymm h hvn)
  have hclt := tendstoInDistribution_inv_sqrt_mul_sum_sub (Y := (id : ℝ → ℝ)) (P' := gaussianReal 0 Var[U 0; P].toNNReal) HasLaw.id hL hi hd
  have hB' : ∀ᵐ ω ∂P, Tendsto (fun n => B n ω) atTop (𝓝 (Real.sqrt (Var[U 0; P].toNNReal))) := by
    rw [Real.coe_toNNReal _ hvn]; exact hB
  refine (coverage hv0 hclt hBm hB' z).congr' ?_
  filter_upwards [eventually_gt_atTop 0] with n hn
  congr 1
  ext ω
  have hn' : (0 : ℝ) < n := by exact_mod_cast hn
  have hs : 0 < Real.sqrt n := Real.sqrt_pos.mpr hn'
  have hss : Real.sqrt n * Real.sqrt n = n := Real.mul_self_sqrt hn'.le
  have e : (Real.sqrt n)⁻¹ * (∑ k ∈ Finset.range n, U k ω - n * P[U 0])
      = Real.sqrt n * ((∑ k ∈ Finset.range n, U k ω) / n - P[U 0]) := by
    have : (n : ℝ)⁻¹ = (Real.sqrt n)⁻¹ * (Real.sqrt n)⁻¹ := by rw [← mul_inv, hss]
    rw [div_eq_mul_inv, this]
    field_simp
    rw [Real.sq_sqrt hn'.le]
  simp only [mem_setOf_eq]
  rw [e, abs_mul, abs_of_pos hs, ← mul_div_assoc, le_div_iff₀ hs, mul_comm]

/-- The sample variance converges with the averages of the numbers and of their squared deviations. -/
theorem variance_tendsto {x : ℕ → ℝ} {m v : ℝ} (h1 : Tendsto (fun n : ℕ => (∑ i ∈ Finset.range n, x i) / n) atTop (𝓝 m))
    (h2 : Tendsto (fun n : ℕ => (∑ i ∈ Finset.range n, (x i - m) ^ 2) / n) atTop (𝓝 v)) :
    Tendsto (fun n : ℕ => RamboEstimate.variance ((List.range n).map x)) atTop (𝓝 v) := by
  have h3 : Tendsto (fun n : ℕ => (n : ℝ) / (n + (-1))) atTop (𝓝 1) := tendsto_natCast_div_add_atTop (-1 : ℝ)
  have h4 := ((h2.sub (((h1.sub_const m)).pow 2)).mul h3)
  simp only [sub_self, ne_eq, OfNat.ofNat_ne_zero, not_false_eq_true, zero_pow, sub_zero, mul_one] at h4
  refine h4.congr' ?_
  filter_upwards [eventually_ge_atTop 2] with n hn
  have hn' : (0 : ℝ) < n := by exact_mod_cast (by omega : 0 < n)
  have hn1 : (n : ℝ) + -1 ≠ 0 := by
    have : (2 : ℝ) ≤ n := by exact_mod_cast hn
    linarith
  have hs := spread_shift ((List.range n).map x) (by simp; omega) m
  unfold RamboEstimate.variance
  rw [hs]
  unfold RamboEstimate.mean
  rw [List.map_map, sum_list]
  have : ((fun y => (y - m) ^ 2) ∘ x) = fun i => (x i - m) ^ 2 := rfl
  rw [this, sum_list]
  simp only [List.length_map, List.length_range, sub_eq_add_neg (n : ℝ) 1]
  field_simp

variable {D : Type*} [MeasurableSpace D] (μ : Measure D) [IsProbabilityMeasure μ]

/-- Functions of different batches are independent and equally distributed. -/
theorem batch_iid {f : (ℕ → D) → ℝ} (hf : Measurable f) :
    iIndepFun (fun (k : ℕ) (ω : ℕ × ℕ → D) => f fun i => ω (k, i)) (Measure.infinitePi fun _ : ℕ × ℕ => μ) ∧
      ∀ k, Measure.map (fun ω : ℕ × ℕ → D => f fun i => ω (k, i)) (Measure.infinitePi fun _ : ℕ × ℕ => μ)
        = Measure.map f (Measure.infinitePi fun _ : ℕ => μ) := by
  have hc : (Measure.infinitePi fun _ : ℕ × ℕ => μ).map (MeasurableEquiv.curry ℕ ℕ D)
      = Measure.infinitePi fun _ : ℕ => Measure.infinitePi fun _ : ℕ => μ := Measure.infinitePi_map_curry fun _ _ => μ
  have hk : ∀ k, Measure.map (fun ω : ℕ × ℕ → D => f fun i => ω (k, i)) (Measure.infinitePi fun _ : ℕ × ℕ => μ)
      = Measure.map f (Measure.infinitePi fun _ : ℕ => μ) := by
    intro k
    have h1 : (fun ω : ℕ × ℕ → D => f fun i => ω (k, i)) = (fun ω : ℕ → ℕ → D => f (ω k)) ∘ MeasurableEquiv.curry ℕ ℕ D := rfl
    rw [h1, ← Measure.map_map (by fun_prop) (MeasurableEquiv.measurable _), hc]
    have h2 : (fun ω : ℕ → ℕ → D => f (ω k)) = f ∘ Function.eval k := rfl
    rw [h2, ← Measure.map_map hf (by fun_prop), Measure.infinitePi_map_eval]
  refine ⟨?_, hk⟩
  have hfk : ∀ k : ℕ, Measurable fun ω : ℕ × ℕ → D => f fun i => ω (k, i) := fun k => hf.comp (by fun_prop)
  rw [iIndepFun_iff_map_fun_eq_infinitePi_map hfk]
  simp only [hk]
  have h1 : (fun (ω : ℕ × ℕ → D) (k : ℕ) => f fun i => ω (k, i)) = (fun (ω : ℕ → ℕ → D) k => f (ω k)) ∘ MeasurableEquiv.curry ℕ ℕ D := rfl
  rw [h1, ← Measure.map_map (by fun_prop) (MeasurableEquiv.measurable _), hc, Measure.infinitePi_map_pi _ fun _ => hf]

theorem batch_ident {f : (ℕ → D) → ℝ} (hf : Measurable f) (k l : ℕ) :
    IdentDistrib (fun ω : ℕ × ℕ → D => f fun i => ω (k, i)) (fun ω : ℕ × ℕ → D => f fun i => ω (l, i))
      (Measure.infinitePi fun _ : ℕ × ℕ => μ) (Measure.infinitePi fun _ : ℕ × ℕ => μ) := by
  have hfk : ∀ k : ℕ, Measurable fun ω : ℕ × ℕ → D => f fun i => ω (k, i) := fun k => hf.comp (by fun_prop)
  refine ⟨(hfk k).aemeasurable, (hfk l).aemeasurable, ?_⟩
  rw [(batch_iid μ hf).2 k, (batch_iid μ hf).2 l]

/-- Events of one batch are independent and equally distributed. -/
theorem event_iid {W : D → ℝ} (hW : Measurable W) (k : ℕ) :
    iIndepFun (fun (i : ℕ) (ω : ℕ × ℕ → D) => W (ω (k, i))) (Measure.infinitePi fun _ : ℕ × ℕ => μ) ∧
      ∀ i, IdentDistrib (fun ω : ℕ × ℕ → D => W (ω (k, i))) (fun ω : ℕ × ℕ → D => W (ω (k, 0)))
        (Measure.infinitePi fun _ : ℕ × ℕ => μ) (Measure.infinitePi fun _ : ℕ × ℕ => μ) := by
  have hi := iIndepFun_infinitePi (P := fun _ : ℕ × ℕ => μ) (X := fun _ => W) (fun _ => hW)
  have hinj : Function.Injective fun i : ℕ => (k, i) := fun i j h => (Prod.mk.inj h).2
  refine ⟨hi.precomp hinj, fun i => ?_⟩
  have hm : ∀ i : ℕ, Measurable fun ω : ℕ × ℕ → D => W (ω (k, i)) := fun i => hW.comp (by fun_prop)
  have hk : ∀ i, Measure.map (fun ω : ℕ × ℕ → D => W (ω (k, i))) (Measure.infinitePi fun _ : ℕ × ℕ => μ) = Measure.map W μ := by
    intro i
    have h2 : (fun ω : ℕ × ℕ → D => W (ω (k, i))) = W ∘ Function.eval (k, i) := rfl
    rw [h2, ← Measure.map_map hW (by fun_prop), Measure.infinitePi_map_eval]
  exact ⟨(hm i).aemeasurable, (hm 0).aemeasurable, by rw [hk i, hk 0]⟩

theorem variance_measurable (n : ℕ) (X : ℕ → Ω → ℝ) (hX : ∀ i, Measurable (X i)) :
    Measurable fun ω => RamboEstimate.variance ((List.range n).map fun i => X i ω) := by
  have e : (fun ω => RamboEstimate.variance ((List.range n).map fun i => X i ω))
      = fun ω => (∑ i ∈ Finset.range n, (X i ω - (∑ j ∈ Finset.range n, X j ω) / n) ^ 2) / (n - 1) := by
    funext ω
    unfold RamboEstimate.variance spread RamboEstimate.mean
    rw [sum_list, List.map_map]
    have : ((fun y => (y - (∑ j ∈ Finset.range n, X j ω) / ((List.range n).map fun i => X i ω).length) ^ 2) ∘ fun i => X i ω)
        = fun i => (X i ω - (∑ j ∈ Finset.range n, X j ω) / n) ^ 2 := by
      funext i
      simp
    rw [this, sum_list]
    simp
  rw [e]
  fun_prop

/-! ### C301 -/

/-- Without batches. -/
theorem converges_once {W : D → ℝ} (hW : Measurable W) (h2 : MemLp W 2 μ) :
    ∃ value err : ℕ → (ℕ × ℕ → D) → ℝ,
      (∀ n, 2 ≤ n → ∀ ω, integrate (run (fun k i ω => W (ω (k, i))) ω) n none = .ok (some (value n ω), some (err n ω))) ∧
      (∀ᵐ ω ∂Measure.infinitePi fun _ : ℕ × ℕ => μ, Tendsto (fun n => value n ω) atTop (𝓝 (∫ d, W d ∂μ)) ∧
        Tendsto (fun n => err n ω) atTop (𝓝 0)) ∧
      (Var[W; μ] ≠ 0 → ∀ z, Tendsto (fun n => (Measure.infinitePi fun _ : ℕ × ℕ => μ) {ω | |value n ω - ∫ d, W d ∂μ| ≤ z * err n ω}) atTop
        (𝓝 (gaussianReal 0 1 (Icc (-z) z)))) := by
  obtain ⟨hsq, -, hmean, hvar⟩ := independent_draws μ hW h2
  obtain ⟨hi, hd⟩ := event_iid μ hW 0
  have hm : ∀ i : ℕ, Measurable fun ω : ℕ × ℕ → D => W (ω (0, i)) := fun i => hW.comp (by fun_prop)
  have hpair : Pairwise (Function.onFun (fun f g : (ℕ × ℕ → D) → ℝ => f ⟂ᵢ[Measure.infinitePi fun _ : ℕ × ℕ => μ] g)
      fun (i : ℕ) (ω : ℕ × ℕ → D) => W (ω (0, i))) := fun i j hij => hi.indepFun hij
  have hlln := strong_law_ae_real (fun (i : ℕ) (ω : ℕ × ℕ → D) => W (ω (0, i))) ((hsq 0 0).integrable one_le_two) hpair hd
  rw [hmean] at hlln
  have hlln2 := strong_law_ae_real (fun (i : ℕ) (ω : ℕ × ℕ → D) => (W (ω (0, i)) - ∫ d, W d ∂μ) ^ 2)
    ((hsq 0 0).sub (memLp_const _)).integrable_sq
    (fun i j hij => (hi.indepFun hij).comp (φ := fun x => (x - ∫ d, W d ∂μ) ^ 2) (ψ := fun x => (x - ∫ d, W d ∂μ) ^ 2) (by fun_prop) (by fun_prop))
    (fun i => (hd i).comp (u := fun x => (x - ∫ d, W d ∂μ) ^ 2) (by fun_prop))
  have hv : (Measure.infinitePi fun _ : ℕ × ℕ => μ)[fun ω => (W (ω (0, 0)) - ∫ d, W d ∂μ) ^ 2] = Var[W; μ] := by
    rw [← hvar 0 0, variance_eq_integral (hsq 0 0).aemeasurable, hmean]
  rw [hv] at hlln2
  obtain ⟨B, hBe⟩ : ∃ B : ℕ → (ℕ × ℕ → D) → ℝ, B = fun n ω => Real.sqrt (RamboEstimate.variance ((List.range n).map fun i => W (ω (0, i)))) :=
    ⟨_, rfl⟩
  have hB : ∀ᵐ ω ∂Measure.infinitePi fun _ : ℕ × ℕ => μ, Tendsto (fun n => B n ω) atTop (𝓝 (Real.sqrt Var[W; μ])) := by
    filter_upwards [hlln, hlln2] with ω w1 w2
    rw [hBe]
    exact (variance_tendsto w1 w2).sqrt
  have hBm : ∀ n, AEMeasurable (B n) (Measure.infinitePi fun _ : ℕ × ℕ => μ) := by
    intro n
    rw [hBe]
    exact (variance_measurable n _ hm).sqrt.aemeasurable
  refine ⟨fun n ω => (∑ i ∈ Finset.range n, W (ω (0, i))) / n, fun n ω => B n ω / Real.sqrt n, ?_, ?_, ?_⟩
  · intro n hn ω
    have hl : (valid (run (fun k i ω => W (ω (k, i))) ω 0 n)).length = n := by rw [valid_run]; simp
    rw [integrate_none]
    unfold integrateOnce
    rw [nanmean_pos (by omega), nanstd_two (by omega), valid_run, hBe]
    unfold RamboEstimate.mean
    rw [sum_list]
    simp
  · filter_upwards [hlln, hB] with ω w1 w2
    refine ⟨w1, ?_⟩
    exact w2.div_atTop (Real.tendsto_sqrt_atTop.comp tendsto_natCast_atTop_atTop)
  · intro hv0 z
    have := average_coverage (hsq 0 0) hi hd (by rw [hvar]; exact hv0) hBm (by rw [hvar]; exact hB) z
    rw [hmean] at this
    exact this

theorem numBatches_ge {n b : ℕ} (hb : 0 < b) : n / b ≤ numBatches n b := by
  unfold numBatches
  simp only
  split <;> omega

/-- With batches of a fixed size. -/
theorem converges_batches {W : D → ℝ} (hW : Measurable W) (h2 : MemLp W 2 μ) {b : ℕ} (hb : 2 ≤ b) :
    ∃ value err : ℕ → (ℕ × ℕ → D) → ℝ,
      (∀ n, b < n → ∀ ω, integrate (run (fun k i ω => W (ω (k, i))) ω) n (some b) = .ok (some (value n ω), some (err n ω))) ∧
      (∀ᵐ ω ∂Measure.infinitePi fun _ : ℕ × ℕ => μ, Tendsto (fun n => value n ω) atTop (𝓝 (∫ d, W d ∂μ)) ∧
        Tendsto (fun n => err n ω) atTop (𝓝 0)) ∧
      (Var[W; μ] ≠ 0 → ∀ z, Tendsto (fun n => (Measure.infinitePi fun _ : ℕ × ℕ => μ) {ω | |value n ω - ∫ d, W d ∂μ| ≤ z * err n ω}) atTop
        (𝓝 (gaussianReal 0 1 (Icc (-z) z)))) := by
  have hind := independent_draws μ hW h2
  have hb0 : (0 : ℝ) < b := by exact_mod_cast (by omega : 0 < b)
  obtain ⟨f, hf⟩ : ∃ f : (ℕ → D) → ℝ, f = fun x => (∑ i ∈ Finset.range b, W (x i)) / b := ⟨_, rfl⟩
  obtain ⟨g, hg⟩ : ∃ g : (ℕ → D) → ℝ, g = fun x => RamboEstimate.variance ((List.range b).map fun i => W (x i)) / b := ⟨_, rfl⟩
  have hfm : Measurable f := by
    rw [hf]
    exact (Finset.measurable_sum _ fun i _ => hW.comp (measurable_pi_apply i)).div_const _
  have hgm : Measurable g := by
    rw [hg]
    exact (variance_measurable b (fun i (x : ℕ → D) => W (x i)) fun i => hW.comp (measurable_pi_apply i)).div_const _
  obtain ⟨a1, a2, a3⟩ := average (s := ({0} : Finset ℕ) ×ˢ Finset.range b) (by simp; omega) hind
  have hfe : (fun ω : ℕ × ℕ → D => (∑ x ∈ ({0} : Finset ℕ) ×ˢ Finset.range b, W (ω (x.1, x.2))) / (({0} : Finset ℕ) ×ˢ Finset.range b).card)
      = fun ω => f fun i => ω (0, i) := by
    funext ω
    rw [hf, Finset.sum_product]
    simp
  rw [hfe] at a1 a2 a3
  have hcard : ((({0} : Finset ℕ) ×ˢ Finset.range b).card : ℝ) = b := by simp
  rw [hcard] at a3
  have hge : (fun ω : ℕ × ℕ → D => g fun i => ω (0, i))
      = fun ω => RamboEstimate.variance (valid (run (fun k i ω => W (ω (k, i))) ω 0 b)) / b := by
    funext ω
    rw [valid_run, hg]
  obtain ⟨b1, b2⟩ := batch_variance hb hind 0
  have g1 : Integrable (fun ω : ℕ × ℕ → D => g fun i => ω (0, i)) (Measure.infinitePi fun _ : ℕ × ℕ => μ) := by
    rw [hge]; exact b1.div_const _
  have g2 : (Measure.infinitePi fun _ : ℕ × ℕ => μ)[fun ω : ℕ × ℕ → D => g fun i => ω (0, i)] = Var[W; μ] / b := by
    rw [hge, integral_div, b2]
  obtain ⟨fi, -⟩ := batch_iid μ hfm
  obtain ⟨gi, -⟩ := batch_iid μ hgm
  have hlln := strong_law_ae_real (fun (k : ℕ) (ω : ℕ × ℕ → D) => f fun i => ω (k, i)) (a1.integrable one_le_two)
    (fun i j hij => fi.indepFun hij) (fun k => batch_ident μ hfm k 0)
  rw [a2] at hlln
  have hlln2 := strong_law_ae_real (fun (k : ℕ) (ω : ℕ × ℕ → D) => g fun i => ω (k, i)) g1
    (fun i j hij => gi.indepFun hij) (fun k => batch_ident μ hgm k 0)
  rw [g2] at hlln2
  obtain ⟨B, hBe⟩ : ∃ B : ℕ → (ℕ × ℕ → D) → ℝ, B = fun K ω => Real.sqrt ((∑ k ∈ Finset.range K, g fun i => ω (k, i)) / K) := ⟨_, rfl⟩
  have hB : ∀ᵐ ω ∂Measure.infinitePi fun _ : ℕ × ℕ => μ, Tendsto (fun n => B n ω) atTop (𝓝 (Real.sqrt (Var[W; μ] / b))) := by
    filter_upwards [hlln2] with ω w2
    rw [hBe]
    exact w2.sqrt
  have hBm : ∀ n, AEMeasurable (B n) (Measure.infinitePi fun _ : ℕ × ℕ => μ) := by
    intro n
    have hfk : ∀ k : ℕ, Measurable fun ω : ℕ × ℕ → D => g fun i => ω (k, i) := fun k => hgm.comp (by fun_prop)
    rw [hBe]
    exact ((Finset.measurable_sum _ fun k _ => hfk k).div_const _).sqrt.aemeasurable
  have hK : Tendsto (fun n => numBatches n b) atTop atTop :=
    tendsto_atTop_mono (fun n => numBatches_ge (n := n) (by omega)) (Nat.tendsto_div_const_atTop (by omega))
  refine ⟨fun n ω => (∑ k ∈ Finset.range (numBatches n b), f fun i => ω (k, i)) / numBatches n b,
    fun n ω => B (numBatches n b) ω / Real.sqrt (numBatches n b), ?_, ?_, ?_⟩
  · intro n hn ω
    have hv : ∀ k b, ∀ w ∈ run (fun k i (ω : ℕ × ℕ → D) => W (ω (k, i))) ω k b, w ≠ none := by
      intro k b w hw
      unfold run at hw
      obtain ⟨i, -, rfl⟩ := List.mem_map.mp hw
      simp
    have hl : ∀ k b, (run (fun k i (ω : ℕ × ℕ → D) => W (ω (k, i))) ω k b).length = b := by intro k b; simp [run]
    have hKp := numBatches_pos (n := n) (b := b) (by omega) (by omega)
    obtain ⟨K, hKe⟩ : ∃ K, K = numBatches n b := ⟨_, rfl⟩
    rw [← hKe] at hKp
    have hKr : (0 : ℝ) < K := by exact_mod_cast hKp
    obtain ⟨i, e, h1, h2, h3, -⟩ := batched_error (batch := run (fun k i (ω : ℕ × ℕ → D) => W (ω (k, i))) ω) (n := n) (by omega) hb (by omega)
      (fun k => hl k b) (fun k => hv k b)
    obtain ⟨e', h4, h5⟩ := batched_mean (batch := run (fun k i (ω : ℕ × ℕ → D) => W (ω (k, i))) ω) (n := n) (b := b) (by omega) (by omega) (by omega)
      (fun k => hl k b) (fun k => hv k b)
    rw [h1] at h4
    have hi := (Prod.mk.inj (Except.ok.inj h4)).1
    rw [h1, hi]
    have hval : RamboEstimate.mean (allValid (run (fun k i (ω : ℕ × ℕ → D) => W (ω (k, i))) ω) n b)
        = (∑ k ∈ Finset.range (numBatches n b), f fun i => ω (k, i)) / numBatches n b := by
      unfold RamboEstimate.mean
      rw [h5]
      unfold allValid
      simp only [valid_run]
      rw [← hKe, sum_all, Finset.sum_product, hf, ← Finset.sum_div]
      push_cast
      rw [div_div, mul_comm (b : ℝ)]
    have herr : e = B (numBatches n b) ω / Real.sqrt (numBatches n b) := by
      rw [← hKe, sum_list] at h3
      simp only [valid_run] at h3
      rw [← hKe, hBe, hg]
      simp only
      rw [← Real.sqrt_div' _ hKr.le, ← Finset.sum_div]
      have : (∑ k ∈ Finset.range K, RamboEstimate.variance ((List.range b).map fun i => W (ω (k, i)))) / b / K / K = e ^ 2 := by
        rw [div_div, div_div, div_eq_iff (by positivity)]
        rw [eq_div_iff (by positivity)] at h3
        linarith
      rw [this, Real.sqrt_sq h2]
    rw [hval, herr]
  · filter_upwards [hlln, hB] with ω w1 w2
    exact ⟨w1.comp hK, (w2.comp hK).div_atTop (Real.tendsto_sqrt_atTop.comp (tendsto_natCast_atTop_atTop.comp hK))⟩
  · intro hv0 z
    have hne : Var[fun ω : ℕ × ℕ → D => f fun i => ω (0, i); Measure.infinitePi fun _ : ℕ × ℕ => μ] ≠ 0 := by
      rw [a3]; exact div_ne_zero hv0 hb0.ne'
    have := average_coverage a1 fi (fun k => batch_ident μ hfm k 0) hne hBm (by rw [a3]; exact hB) z
    rw [a2] at this
    exact this.comp hK

/-- **C301.** The integral converges to the mean of the weights, its error to zero, and the band of `z` errors around the integral contains
the mean with the Gaussian probability of `z` standard deviations. -/
theorem converges {W : D → ℝ} (hW : Measurable W) (h2 : MemLp W 2 μ) {bs : Option ℕ} (hbs : ∀ b, bs = some b → 2 ≤ b) :
    ∃ value err : ℕ → (ℕ × ℕ → D) → ℝ,
      (∀ᶠ n in atTop, ∀ ω, integrate (run (fun k i ω => W (ω (k, i))) ω) n bs = .ok (some (value n ω), some (err n ω))) ∧
      (∀ᵐ ω ∂Measure.infinitePi fun _ : ℕ × ℕ => μ, Tendsto (fun n => value n ω) atTop (𝓝 (∫ d, W d ∂μ)) ∧
        Tendsto (fun n => err n ω) atTop (𝓝 0)) ∧
      (Var[W; μ] ≠ 0 → ∀ z, Tendsto (fun n => (Measure.infinitePi fun _ : ℕ × ℕ => μ) {ω | |value n ω - ∫ d, W d ∂μ| ≤ z * err n ω}) atTop
        (𝓝 (gaussianReal 0 1 (Icc (-z) z)))) := by
  rcases bs with _ | b
  · obtain ⟨value, err, h1, h2, h3⟩ := converges_once μ hW h2
    exact ⟨value, err, (eventually_ge_atTop 2).mono h1, h2, h3⟩
  · obtain ⟨value, err, h1, h2, h3⟩ := converges_batches μ hW h2 (hbs b rfl)
    exact ⟨value, err, (eventually_gt_atTop b).mono h1, h2, h3⟩

/-! ### Massless particles -/

open Hazma.RamboUnbiased Hazma.RamboMeasure Hazma.PhaseSpaceMeasure Hazma.ThreeBody

/-- Three massless particles: at almost every energy the value of `Rambo.integrate` converges to the quadrature of `ThreeBody.integrate`. -/
theorem massless_converges {eps : ℝ} {M : Msqrd} (hM : Continuous fun z : ℝ × ℝ => M z.1 z.2)
    (hpos : ∀ k : Fin 2 → V, 0 ≤ M (pairMassSq 0 0 (atRest k 1) (atRest k 2)) (pairMassSq 0 0 (atRest k 0) (atRest k 2)))
    {bs : Option ℕ} (hbs : ∀ b, bs = some b → 2 ≤ b) :
    ∀ᵐ Q ∂volume.restrict (Ioi (0 : ℝ)), ∀ s, create Q (List.replicate 3 0) = some s →
      ∃ value err : ℕ → (ℕ × ℕ → Fin 3 → ℝ × ℝ × ℝ × ℝ) → ℝ,
        (∀ᵐ ω ∂law 3, (∀ᶠ n in atTop, integrate
            (batches s eps (fun p : Fin 3 → V => M (pairMassSq 0 0 (p 1) (p 2)) (pairMassSq 0 0 (p 0) (p 2))) ω) n bs
              = .ok (some (value n ω), some (err n ω))) ∧
          Tendsto (fun n => value n ω) atTop (𝓝 (integrateQuad ⟨Q, (0, 0, 0), none, M⟩)) ∧ Tendsto (fun n => err n ω) atTop (𝓝 0)) := by
  have h := rambo_quadrature_ae_partial (m := fun _ => 0) (fun _ => le_rfl) (exactScale_massless 3) hM hpos
  rw [Finset.sum_const_zero] at h
  filter_upwards [h, ae_restrict_mem measurableSet_Ioi] with Q hQ hQ0 s hs
  have hF : Continuous fun p : Fin 3 → V => M (pairMassSq 0 0 (p 1) (p 2)) (pairMassSq 0 0 (p 0) (p 2)) := by
    refine hM.comp (f := fun p : Fin 3 → V => (pairMassSq 0 0 (p 1) (p 2), pairMassSq 0 0 (p 0) (p 2))) ?_
    unfold pairMassSq energy
    fun_prop
  have hprob := draws_prob 3
  obtain ⟨W, hWm, hL2, hnn, hrun, hint⟩ := massless_weights (N := 1) (eps := eps) hQ0 hs hF hpos
  obtain ⟨value, err, h1, h2, -⟩ := converges (draws 3) hWm hL2 hbs
  have hq : 0 ≤ integrateQuad ⟨Q, (0, 0, 0), none, M⟩ :=
    quad_nonneg le_rfl le_rfl le_rfl (by have : 0 < Q := hQ0; linarith) (pos_dalitz (m := fun _ => 0) (fun _ => le_rfl) hpos)
  have hW0 : 0 ≤ ∫ d, W d ∂draws 3 := integral_nonneg_of_ae hnn
  rw [(ENNReal.ofReal_eq_ofReal_iff hW0 hq).mp (hint.trans hQ)] at h2
  refine ⟨value, err, ?_⟩
  filter_upwards [hrun, h2] with ω w1 w2
  refine ⟨h1.mono fun n hn => ?_, w2⟩
  rw [w1]
  exact hn ω

/-! ### Non-triviality -/

/-- Weights uniform in `[0, 1)`: one error around the integral contains one half with the probability of one standard deviation. -/
example : ∃ (P : Measure (ℕ × ℕ → ℝ)) (value err : ℕ → (ℕ × ℕ → ℝ) → ℝ),
    (∀ᶠ n in atTop, ∀ ω, integrate (run (fun k i ω => ω (k, i)) ω) n (some 3) = .ok (some (value n ω), some (err n ω))) ∧
      Tendsto (fun n => P {ω | |value n ω - 1 / 2| ≤ 1 * err n ω}) atTop (𝓝 (gaussianReal 0 1 (Icc (-1) 1))) := by
  have hp : IsProbabilityMeasure (volume.restrict (Ico (0 : ℝ) 1)) := ⟨by simp⟩
  have h2 : MemLp (fun x : ℝ => x) 2 (volume.restrict (Ico (0 : ℝ) 1)) := by
    refine MemLp.of_bound (by fun_prop) 1 ?_
    filter_upwards [ae_restrict_mem measurableSet_Ico] with x hx
    rw [Real.norm_eq_abs, abs_of_nonneg hx.1]
    exact hx.2.le
  have hm : ∫ x in Ico (0 : ℝ) 1, x = 1 / 2 := by
    rw [integral_Ico_eq_integral_Ioc, ← intervalIntegral.integral_of_le (by norm_num)]
    simp
  have hv : Var[fun x : ℝ => x; volume.restrict (Ico (0 : ℝ) 1)] ≠ 0 := by
    rw [variance_eq_sub h2, hm]
    have : ∫ x in Ico (0 : ℝ) 1, x ^ 2 = 1 / 3 := by
      rw [integral_Ico_eq_integral_Ioc, ← intervalIntegral.integral_of_le (by norm_num), integral_pow]
      norm_num
    simp only [Pi.pow_apply]
    rw [this]
    norm_num
  obtain ⟨value, err, h1, -, h3⟩ := converges (volume.restrict (Ico (0 : ℝ) 1)) (W := fun x => x) measurable_id h2 (bs := some 3)
    (by intro b hb; cases hb; norm_num)
  rw [hm] at h3
  exact ⟨_, value, err, h1, h3 hv 1⟩

end Hazma.RamboConvergence
