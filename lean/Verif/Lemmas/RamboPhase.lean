import Verif.Lemmas.RamboConst
import Verif.Lemmas.RamboDraw

/-! # From massless to massive momenta -/

namespace Hazma.RamboMeasure

open MeasureTheory Set
open scoped ENNReal

section Energy

variable {n : ℕ} (m a : Fin n → ℝ)

/-- Total energy of momenta `t a` and masses `m`. -/
noncomputable def etot (t : ℝ) : ℝ := ∑ i, Real.sqrt ((t * a i) ^ 2 + m i ^ 2)

theorem etot_continuous : Continuous (etot m a) := by unfold etot; fun_prop

theorem etot_zero (hm : ∀ i, 0 ≤ m i) : etot m a 0 = ∑ i, m i := by
  unfold etot
  refine Finset.sum_congr rfl fun i _ => ?_
  rw [zero_mul, zero_pow two_ne_zero, zero_add, Real.sqrt_sq (hm i)]

theorem etot_mono [NeZero n] (ha : ∀ i, 0 < a i) : StrictMonoOn (etot m a) (Ici 0) := by
  intro s hs t _ hst
  unfold etot
  refine Finset.sum_lt_sum_of_nonempty Finset.univ_nonempty fun i _ => ?_
  refine Real.sqrt_lt_sqrt (by positivity) ?_
  have h1 : s * a i < t * a i := mul_lt_mul_of_pos_right hst (ha i)
  have h2 : 0 ≤ s * a i := mul_nonneg hs (ha i).le
  nlinarith

theorem etot_deriv (ha : ∀ i, 0 < a i) {t : ℝ} (ht : 0 < t) :
    HasDerivAt (etot m a) (t * ∑ i, a i ^ 2 / Real.sqrt ((t * a i) ^ 2 + m i ^ 2)) t := by
  have h : ∀ i ∈ Finset.univ, HasDerivAt (fun t : ℝ => Real.sqrt ((t * a i) ^ 2 + m i ^ 2))
      (t * (a i ^ 2 / Real.sqrt ((t * a i) ^ 2 + m i ^ 2))) t := by
    intro i _
    have hp : 0 < (t * a i) ^ 2 + m i ^ 2 := by
      have := mul_pos ht (ha i)
      positivity
    have h1 : HasDerivAt (fun t : ℝ => (t * a i) ^ 2 + m i ^ 2) (2 * (t * a i) * a i) t := by
      have := (((hasDerivAt_id t).mul_const (a i)).pow 2).add_const (m i ^ 2)
      refine this.congr_deriv ?_
      simp
    refine (h1.sqrt hp.ne').congr_deriv ?_
    have := Real.sqrt_pos.mpr hp
    field_simp
  have := HasDerivAt.fun_sum h
  rw [Finset.mul_sum]
  exact this

theorem etot_image [NeZero n] (hm : ∀ i, 0 ≤ m i) (ha : ∀ i, 0 < a i) : etot m a '' Ioi 0 = Ioi (∑ i, m i) := by
  ext Q
  constructor
  · rintro ⟨t, ht, rfl⟩
    rw [mem_Ioi, ← etot_zero m a hm]
    exact etot_mono m a ha self_mem_Ici (Ioi_subset_Ici_self ht) ht
  · intro hQ
    have hQ' : ∑ i, m i < Q := hQ
    have hQ0 : 0 < Q := lt_of_le_of_lt (Finset.sum_nonneg fun i _ => hm i) hQ'
    have hT : 0 < Q / a 0 := div_pos hQ0 (ha 0)
    have hbig : Q ≤ etot m a (Q / a 0) := by
      unfold etot
      have h1 : Q ≤ Real.sqrt ((Q / a 0 * a 0) ^ 2 + m 0 ^ 2) := by
        rw [div_mul_cancel₀ _ (ha 0).ne']
        exact Real.le_sqrt_of_sq_le (by nlinarith [sq_nonneg (m 0)])
      exact h1.trans (Finset.single_le_sum (f := fun i => Real.sqrt ((Q / a 0 * a i) ^ 2 + m i ^ 2))
        (fun i _ => Real.sqrt_nonneg _) (Finset.mem_univ 0))
    have := intermediate_value_Icc hT.le (etot_continuous m a).continuousOn
    obtain ⟨t, ht, htQ⟩ := this ⟨by rw [etot_zero m a hm]; exact hQ'.le, hbig⟩
    refine ⟨t, lt_of_le_of_ne ht.1 fun h0 => ?_, htQ⟩
    rw [← h0, etot_zero m a hm] at htQ
    linarith

end Energy

section Full

variable {N : ℕ}

/-- All momenta in the centre of mass. -/
noncomputable def full (k : Fin N → V) : Fin (N + 1) → V := Fin.snoc k (-∑ i, k i)

theorem full_last (k : Fin N → V) : full k (Fin.last N) = -∑ i, k i := by unfold full; simp

theorem full_castSucc (k : Fin N → V) (i : Fin N) : full k i.castSucc = k i := by unfold full; simp

theorem full_smul (t : ℝ) (k : Fin N → V) : full (t • k) = t • full k := by
  funext i
  refine Fin.lastCases ?_ (fun j => ?_) i
  · rw [Pi.smul_apply, full_last, full_last, smul_neg, Finset.smul_sum]
    rfl
  · rw [Pi.smul_apply, full_castSucc, full_castSucc]
    rfl

theorem full_measurable : Measurable (full (N := N)) := by
  have h : Measurable fun k : Fin N → V => (-∑ i, k i, k) := by
    refine Measurable.prodMk ?_ measurable_id
    fun_prop
  exact (snoc_measurable (X := V) N).comp h

theorem full_sum (k : Fin N → V) : ∑ i, ‖full k i‖ = Mt k := by
  rw [Fin.sum_univ_castSucc, full_last, norm_neg]
  simp only [full_castSucc]
  rfl

theorem full_prod (k : Fin N → V) : ∏ i, ‖full k i‖⁻¹ = (∏ i, ‖k i‖⁻¹) * ‖∑ i, k i‖⁻¹ := by
  rw [Fin.prod_univ_castSucc, full_last, norm_neg]
  simp only [full_castSucc]

/-- No momentum vanishes. -/
def good (k : Fin N → V) : Prop := ∀ i, full k i ≠ 0

theorem good_smul {t : ℝ} (ht : 0 < t) (k : Fin N → V) : good (t • k) ↔ good k := by
  unfold good
  rw [full_smul]
  simp only [Pi.smul_apply, ne_eq, smul_eq_zero, ht.ne', false_or]

theorem good_measurable : MeasurableSet {k : Fin N → V | good k} := by
  have : {k : Fin N → V | good k} = ⋂ i, {k | full k i ≠ 0} := by ext k; simp [good]
  rw [this]
  refine MeasurableSet.iInter fun i => ?_
  have h0 : MeasurableSet ({0}ᶜ : Set V) := (measurableSet_singleton 0).compl
  exact ((measurable_pi_apply i).comp full_measurable) h0

theorem good_ae (hN : 0 < N) : ∀ᵐ k : Fin N → V, good k := by
  have h2 : ∀ᵐ k : Fin N → V, ∑ i, k i ≠ 0 := by
    let S : Submodule ℝ (Fin N → V) := LinearMap.ker (∑ i, LinearMap.proj (R := ℝ) (φ := fun _ : Fin N => V) i)
    have hS : volume (S : Set (Fin N → V)) = 0 := by
      refine Measure.addHaar_submodule _ _ fun htop => ?_
      obtain ⟨v, hv⟩ := exists_ne (0 : V)
      have hmem : (Pi.single ⟨0, hN⟩ v : Fin N → V) ∈ S := by rw [htop]; trivial
      rw [LinearMap.mem_ker] at hmem
      simp only [LinearMap.coe_sum, Finset.sum_apply, LinearMap.proj_apply, Finset.sum_pi_single', Finset.mem_univ,
        if_true] at hmem
      refine hv ?_
      simpa [Finset.sum_apply] using hmem
    rw [ae_iff]
    refine measure_mono_null (fun k hk => ?_) hS
    simp only [ne_eq, not_not, mem_ofPred_eq] at hk
    rw [SetLike.mem_coe, LinearMap.mem_ker]
    simpa using hk
  filter_upwards [ae_ne_zero (ι := Fin N), h2] with k h1 h2 i
  refine Fin.lastCases ?_ (fun j => ?_) i
  · rw [full_last]; exact neg_ne_zero.mpr h2
  · rw [full_castSucc]; exact h1 j

/-- Magnitudes of all momenta. -/
noncomputable def mags (k : Fin N → V) : Fin (N + 1) → ℝ := fun i => ‖full k i‖

theorem mags_smul {t : ℝ} (ht : 0 < t) (k : Fin N → V) : mags (t • k) = fun i => t * mags k i := by
  funext i
  unfold mags
  rw [full_smul, Pi.smul_apply, norm_smul, Real.norm_eq_abs, abs_of_pos ht]

theorem tau_exists {m : Fin (N + 1) → ℝ} (hm : ∀ i, 0 ≤ m i) {Q : ℝ} {k : Fin N → V} (h : good k) (hQ : ∑ i, m i < Q) :
    ∃ t, 0 < t ∧ etot m (mags k) t = Q := by
  have := etot_image m (mags k) hm (fun i => norm_pos_iff.mpr (h i))
  have hmem : Q ∈ etot m (mags k) '' Ioi 0 := by rw [this]; exact hQ
  obtain ⟨t, ht, h⟩ := hmem
  exact ⟨t, ht, h⟩

open Classical in
/-- The scale that gives massive particles the energy `Q`. -/
noncomputable def tau (m : Fin (N + 1) → ℝ) (Q : ℝ) (k : Fin N → V) : ℝ :=
  if h : (good k ∧ ∑ i, m i < Q) ∧ ∃ t, 0 < t ∧ etot m (mags k) t = Q then h.2.choose else 0

theorem tau_eq {m : Fin (N + 1) → ℝ} {Q : ℝ} {k : Fin N → V} (h : good k)
    (hQ : ∑ i, m i < Q) {t : ℝ} (ht : 0 < t) (he : etot m (mags k) t = Q) : tau m Q k = t := by
  have hex : ∃ t, 0 < t ∧ etot m (mags k) t = Q := ⟨t, ht, he⟩
  unfold tau
  rw [dif_pos ⟨⟨h, hQ⟩, hex⟩]
  have hs := hex.choose_spec
  refine (etot_mono m (mags k) (fun i => norm_pos_iff.mpr (h i))).injOn (mem_Ici.mpr hs.1.le) (mem_Ici.mpr ht.le) ?_
  rw [hs.2, he]

theorem tau_nonneg (m : Fin (N + 1) → ℝ) (Q : ℝ) (k : Fin N → V) : 0 ≤ tau m Q k := by
  unfold tau
  split_ifs with h
  · exact h.2.choose_spec.1.le
  · exact le_refl 0

theorem tau_smul {m : Fin (N + 1) → ℝ} (hm : ∀ i, 0 ≤ m i) (Q : ℝ) {t : ℝ} (ht : 0 < t) (k : Fin N → V) :
    tau m Q (t • k) • full (t • k) = tau m Q k • full k := by
  by_cases h : good k ∧ ∑ i, m i < Q
  · obtain ⟨s, hs, he⟩ := tau_exists hm h.1 h.2
    have h1 : tau m Q (t • k) = s / t := by
      refine tau_eq ((good_smul ht k).mpr h.1) h.2 (div_pos hs ht) ?_
      rw [mags_smul ht, ← he]
      unfold etot
      refine Finset.sum_congr rfl fun i _ => ?_
      congr 3
      field_simp
    rw [h1, tau_eq h.1 h.2 hs he, full_smul, smul_smul, div_mul_cancel₀ _ ht.ne']
  · have h1 : tau m Q k = 0 := by unfold tau; rw [dif_neg (fun hc => h hc.1)]
    have h2 : tau m Q (t • k) = 0 := by
      unfold tau
      rw [dif_neg (fun hc => h ⟨(good_smul ht k).mp hc.1.1, hc.1.2⟩)]
    rw [h1, h2, zero_smul, zero_smul]

theorem etot_measurable (m : Fin (N + 1) → ℝ) (c : ℝ) : Measurable fun k : Fin N → V => etot m (mags k) c := by
  unfold etot mags
  have h : ∀ i, Measurable fun k : Fin N → V => full k i := fun i => (measurable_pi_apply i).comp full_measurable
  refine Finset.measurable_sum _ fun i _ => ?_
  have := (h i).norm
  fun_prop

theorem tau_measurable {m : Fin (N + 1) → ℝ} (hm : ∀ i, 0 ≤ m i) :
    Measurable fun x : ℝ × (Fin N → V) => tau m x.1 x.2 := by
  refine measurable_of_Ioi fun c => ?_
  by_cases hc : 0 ≤ c
  · have : (fun x : ℝ × (Fin N → V) => tau m x.1 x.2) ⁻¹' Ioi c
        = {x | good x.2} ∩ ({x | ∑ i, m i < x.1} ∩ {x | etot m (mags x.2) c < x.1}) := by
      ext x
      simp only [mem_preimage, mem_Ioi, mem_inter_iff, mem_ofPred_eq]
      constructor
      · intro h
        have hg : good x.2 ∧ ∑ i, m i < x.1 := by
          by_contra hno
          have : tau m x.1 x.2 = 0 := by unfold tau; rw [dif_neg (fun hc => hno hc.1)]
          linarith
        obtain ⟨s, hs, he⟩ := tau_exists hm hg.1 hg.2
        rw [tau_eq hg.1 hg.2 hs he] at h
        refine ⟨hg.1, hg.2, ?_⟩
        rw [← he]
        exact etot_mono m _ (fun i => norm_pos_iff.mpr (hg.1 i)) (mem_Ici.mpr hc) (mem_Ici.mpr hs.le) h
      · rintro ⟨h1, h2, h3⟩
        obtain ⟨s, hs, he⟩ := tau_exists hm h1 h2
        rw [tau_eq h1 h2 hs he]
        by_contra hle
        have := (etot_mono m (mags x.2) (fun i => norm_pos_iff.mpr (h1 i))).monotoneOn (mem_Ici.mpr hs.le) (mem_Ici.mpr hc) (not_lt.mp hle)
        rw [he] at this
        linarith
    rw [this]
    refine (measurable_snd good_measurable).inter ((measurableSet_lt measurable_const measurable_fst).inter
      (measurableSet_lt ((etot_measurable m c).comp measurable_snd) measurable_fst))
  · have : (fun x : ℝ × (Fin N → V) => tau m x.1 x.2) ⁻¹' Ioi c = univ := by
      ext x
      simp only [mem_preimage, mem_Ioi, mem_univ, iff_true]
      linarith [tau_nonneg m x.1 x.2]
    rw [this]
    exact MeasurableSet.univ

/-- Changing from the scale of the momenta to the total energy. -/
theorem energy_lintegral {m : Fin (N + 1) → ℝ} (hm : ∀ i, 0 ≤ m i) {k : Fin N → V} (h : good k) (H : ℝ → ℝ → ℝ≥0∞) :
    ∫⁻ Q in Ioi (∑ i, m i), H Q (tau m Q k)
      = ∫⁻ t in Ioi (0 : ℝ), ENNReal.ofReal (t * ∑ i, mags k i ^ 2 / Real.sqrt ((t * mags k i) ^ 2 + m i ^ 2))
        * H (etot m (mags k) t) t := by
  have ha : ∀ i, 0 < mags k i := fun i => norm_pos_iff.mpr (h i)
  rw [← etot_image m (mags k) hm ha, lintegral_image_eq_lintegral_abs_deriv_mul measurableSet_Ioi
    (fun t ht => (etot_deriv m (mags k) ha ht).hasDerivWithinAt)
    ((etot_mono m (mags k) ha).injOn.mono Ioi_subset_Ici_self)]
  refine setLIntegral_congr_fun measurableSet_Ioi fun t ht => ?_
  have ht0 : 0 < t := ht
  have hQ : ∑ i, m i < etot m (mags k) t := by
    rw [← etot_zero m (mags k) hm]
    exact etot_mono m _ ha self_mem_Ici (Ioi_subset_Ici_self ht) ht
  have hnn : 0 ≤ t * ∑ i, mags k i ^ 2 / Real.sqrt ((t * mags k i) ^ 2 + m i ^ 2) :=
    mul_nonneg ht0.le (Finset.sum_nonneg fun i _ => by positivity)
  rw [tau_eq h hQ ht0 rfl, abs_of_nonneg hnn]

end Full

end Hazma.RamboMeasure
