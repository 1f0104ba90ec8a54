import Verif.Model.Rambo
import Verif.Props.Rambo
import Verif.Lemmas.RamboFinal

/-!
# RAMBO events integrate over phase space (C297)
-/

namespace Hazma.RamboUnbiased

open MeasureTheory Set Hazma.Rambo Hazma.RamboMeasure
open scoped ENNReal

/-! ### Specification -/

/-- Four random numbers as the draw of one particle. -/
def toDraw (d : ℝ × ℝ × ℝ × ℝ) : Draw := ⟨d.1, d.2.1, d.2.2.1, d.2.2.2⟩

/-- Four independent random numbers for each of `n` particles, each uniform in `[0, 1)`. -/
noncomputable def draws (n : ℕ) : Measure (Fin n → ℝ × ℝ × ℝ × ℝ) :=
  Measure.pi fun _ =>
    (volume.restrict (Ico 0 1)).prod ((volume.restrict (Ico 0 1)).prod ((volume.restrict (Ico 0 1)).prod (volume.restrict (Ico 0 1))))

/-- The event of random numbers `d` at energy `Q`, the massless momenta being rescaled by `xi`. -/
noncomputable def event {n : ℕ} (xi : ℝ → List ℝ → ℝ) (ms : Fin n → ℝ) (Q : ℝ) (d : Fin n → ℝ × ℝ × ℝ × ℝ) : List P4 :=
  let ps := boost Q (List.ofFn fun i => initMomentum (toDraw (d i)))
  correctEvent (List.ofFn ms) ps (xi Q (ps.map P4.e))

/-- Three-momenta of an event. -/
noncomputable def momenta {n : ℕ} (ps : List P4) : Fin n → V := fun i =>
  !₂[(ps[(i : ℕ)]?.getD ⟨0, 0, 0, 0⟩).x, (ps[(i : ℕ)]?.getD ⟨0, 0, 0, 0⟩).y, (ps[(i : ℕ)]?.getD ⟨0, 0, 0, 0⟩).z]

/-- `xi` rescales massless momenta to the masses at the given energy, exactly. -/
def ExactScale {n : ℕ} (xi : ℝ → List ℝ → ℝ) (ms : Fin n → ℝ) : Prop :=
  ∀ Q es, Open Q (List.ofFn ms) → es.length = n → (∀ e ∈ es, 0 < e) → es.sum = Q →
    0 < xi Q es ∧ scaleF Q (List.ofFn ms) es (xi Q es) = 0

/-- All momenta of an event at rest whose first momenta are `k`. -/
noncomputable def atRest {n : ℕ} (k : Fin n → V) : Fin (n + 1) → V := Fin.snoc k (-∑ i, k i)

/-- Energy of a particle. -/
noncomputable def energy (m : ℝ) (p : V) : ℝ := Real.sqrt (‖p‖ ^ 2 + m ^ 2)

/-! ### Helper lemmas -/

/-- A four-momentum. -/
noncomputable def p4 (e : ℝ) (v : V) : P4 := ⟨e, v 0, v 1, v 2⟩

theorem norm_sq3 (v : V) : ‖v‖ ^ 2 = v 0 ^ 2 + v 1 ^ 2 + v 2 ^ 2 := by
  rw [EuclideanSpace.norm_sq_eq, Fin.sum_univ_three]
  simp

theorem inner3 (v w : V) : inner ℝ v w = v 0 * w 0 + v 1 * w 1 + v 2 * w 2 := by
  rw [PiLp.inner_apply, Fin.sum_univ_three]
  simp
  ring

theorem init_eq {d : ℝ × ℝ × ℝ × ℝ} (h1 : d.1 ∈ Ico (0 : ℝ) 1) (h3 : d.2.2.1 ∈ Ico (0 : ℝ) 1) (h4 : d.2.2.2 ∈ Ico (0 : ℝ) 1) :
    initMomentum (toDraw d) = p4 ‖drawMom d‖ (drawMom d) := by
  have he : 0 ≤ -Real.log (d.2.2.1 * d.2.2.2) := by
    have := Real.log_nonpos (mul_nonneg h3.1 h4.1) (by nlinarith [h3.1, h3.2, h4.1, h4.2])
    linarith
  have hc : 2 * d.1 - 1 ∈ Icc (-1 : ℝ) 1 := ⟨by linarith [h1.1], by linarith [h1.2]⟩
  have hn : ‖drawMom d‖ = -Real.log (d.2.2.1 * d.2.2.2) := sph_norm _ he hc
  rw [hn]
  simp [p4, drawMom, sph, vec, initMomentum, toDraw]

theorem total_ofFn {n : ℕ} (q : Fin n → V) : total (List.ofFn fun i => p4 ‖q i‖ (q i)) = p4 (∑ i, ‖q i‖) (∑ i, q i) := by
  have h : ∀ j : Fin 3, (∑ i, q i : V) j = ∑ i, (q i) j := fun j => by simp
  unfold total p4
  simp only [List.map_ofFn, List.sum_ofFn, Function.comp_apply, h]

theorem boostOne_eq {Q E M : ℝ} {P q : V} (hM : 0 < M) (hE : 0 < E) (hEM : E ^ 2 - ‖P‖ ^ 2 = M ^ 2) :
    boostOne Q (p4 E P) (p4 ‖q‖ q) = p4 (Q / M * ‖bst (M⁻¹ • P) q‖) ((Q / M) • bst (M⁻¹ • P) q) := by
  have hg : gam (M⁻¹ • P) = E / M := by
    unfold gam
    rw [norm_smul, mul_pow, Real.norm_eq_abs, sq_abs, ← Real.sqrt_sq (div_pos hE hM).le]
    congr 1
    have : ‖P‖ ^ 2 = E ^ 2 - M ^ 2 := by linarith
    rw [this]
    field_simp
    ring
  have hs : Real.sqrt (E ^ 2 - P 0 ^ 2 - P 1 ^ 2 - P 2 ^ 2) = M := by
    rw [show E ^ 2 - P 0 ^ 2 - P 1 ^ 2 - P 2 ^ 2 = M ^ 2 by rw [← hEM, norm_sq3]; ring, Real.sqrt_sq hM.le]
  have hin : inner ℝ (M⁻¹ • P) q = M⁻¹ * (P 0 * q 0 + P 1 * q 1 + P 2 * q 2) := by rw [inner_smul_left, inner3]; simp
  have hne : 1 + E / M ≠ 0 := by positivity
  rw [norm_bst]
  unfold bst
  rw [hg, hin]
  unfold boostOne p4
  simp only [hs]
  ext
  · simp only
    field_simp
    ring
  · simp
    field_simp
    ring
  · simp
    field_simp
    ring
  · simp
    field_simp
    ring

theorem zipWith_ofFn {α β γ : Type*} {n : ℕ} (F : α → β → γ) (a : Fin n → α) (b : Fin n → β) :
    List.zipWith F (List.ofFn a) (List.ofFn b) = List.ofFn fun i => F (a i) (b i) := by
  apply List.ext_getElem
  · simp
  · intro i h1 h2
    simp

theorem correctOne_eq {xi s m : ℝ} (hx : 0 ≤ xi) (hs : 0 ≤ s) (k : V) :
    correctOne xi (p4 (s * ‖k‖) (s • k)) m = p4 (energy m ((xi * s) • k)) ((xi * s) • k) := by
  unfold correctOne energy p4 Rambo.hypot
  have : ‖(xi * s) • k‖ = xi * (s * ‖k‖) := by
    rw [norm_smul, Real.norm_eq_abs, abs_of_nonneg (mul_nonneg hx hs)]; ring
  rw [this]
  ext
  · rfl
  all_goals
    simp
    ring

/-- Momenta whose total has no mass. -/
def bad (N : ℕ) : Set (Fin (N + 1 + 1) → V) := {q | ¬ ((∀ i : Fin (N + 1), q i.castSucc ≠ 0)
  ∧ (∑ i : Fin (N + 1), ‖q i.castSucc‖) * ‖q (Fin.last (N + 1))‖ ≠ inner ℝ (∑ i : Fin (N + 1), q i.castSucc) (q (Fin.last (N + 1))))}

theorem bad_measurable (N : ℕ) : MeasurableSet (bad N) := by
  unfold bad
  refine MeasurableSet.compl (MeasurableSet.inter ?_ ?_)
  · have : {q : Fin (N + 1 + 1) → V | ∀ i : Fin (N + 1), q i.castSucc ≠ 0} = ⋂ i : Fin (N + 1), {q | q i.castSucc ≠ 0} := by
      ext q; simp
    have h2 : MeasurableSet {q : Fin (N + 1 + 1) → V | ∀ i : Fin (N + 1), q i.castSucc ≠ 0} := by
      rw [this]
      refine MeasurableSet.iInter fun i => ?_
      have h0 : MeasurableSet ({0}ᶜ : Set V) := (measurableSet_singleton 0).compl
      exact (measurable_pi_apply (X := fun _ : Fin (N + 1 + 1) => V) i.castSucc) h0
    exact h2
  · have h1 : Measurable fun q : Fin (N + 1 + 1) → V => (∑ i : Fin (N + 1), ‖q i.castSucc‖) * ‖q (Fin.last (N + 1))‖ := by fun_prop
    have h2 : Measurable fun q : Fin (N + 1 + 1) → V => inner ℝ (∑ i : Fin (N + 1), q i.castSucc) (q (Fin.last (N + 1))) := by fun_prop
    exact (measurableSet_eq_fun h1 h2).compl

theorem bad_null (N : ℕ) : volume (bad N) = 0 := by
  have hmi : Measurable ((bad N).indicator fun _ => (1 : ℝ≥0∞)) := measurable_const.indicator (bad_measurable N)
  rw [← lintegral_indicator_one (bad_measurable N)]
  have h1 := snoc_lintegral (volume : Measure V) (N + 1) hmi
  have h2 : ∫⁻ q : Fin (N + 1 + 1) → V, (bad N).indicator (fun _ => (1 : ℝ≥0∞)) q = 0 := by
    have hsw : AEMeasurable (Function.uncurry fun (q : V) (q' : Fin (N + 1) → V) =>
        (bad N).indicator (fun _ => (1 : ℝ≥0∞)) (Fin.snoc q' q : Fin (N + 1 + 1) → V))
        ((volume : Measure V).prod (Measure.pi fun _ : Fin (N + 1) => (volume : Measure V))) :=
      (hmi.comp (snoc_measurable (X := V) (N + 1))).aemeasurable
    rw [volume_pi, h1, lintegral_lintegral_swap hsw, ← volume_pi]
    rw [lintegral_eq_zero_iff']
    · filter_upwards [ae_ne_zero (ι := Fin (N + 1))] with q' hq'
      have hA : 0 < ∑ i, ‖q' i‖ := Finset.sum_pos (fun i _ => norm_pos_iff.mpr (hq' i)) Finset.univ_nonempty
      have hnull := collinear_null hA (norm_sum_le Finset.univ q')
      have hae : ∀ᵐ q : V, (bad N).indicator (fun _ => (1 : ℝ≥0∞)) (Fin.snoc q' q : Fin (N + 1 + 1) → V) = 0 := by
        rw [ae_iff]
        refine measure_mono_null (fun q hq => ?_) hnull
        by_contra hne
        apply hq
        refine indicator_of_notMem ?_ _
        intro hb
        apply hb
        simp only [Fin.snoc_castSucc, Fin.snoc_last]
        exact ⟨hq', hne⟩
      rw [lintegral_congr_ae hae]
      simp
    · have hm2 : Measurable fun x : (Fin (N + 1) → V) × V => (bad N).indicator (fun _ => (1 : ℝ≥0∞)) (Fin.snoc x.1 x.2 : Fin (N + 1 + 1) → V) :=
        (hmi.comp (snoc_measurable (X := V) (N + 1))).comp measurable_swap
      exact (Measurable.lintegral_prod_right' hm2).aemeasurable
  exact h2

theorem law_eq (n : ℕ) : draws n = Measure.pi fun _ : Fin n => drawLaw := rfl

theorem draws_good (N : ℕ) : ∀ᵐ d ∂draws (N + 1 + 1), (fun i => drawMom (d i)) ∉ bad N := by
  have hmi : Measurable ((bad N).indicator fun _ => (1 : ℝ≥0∞)) := measurable_const.indicator (bad_measurable N)
  have h := pi_draw (N + 1 + 1) hmi
  have hz : ∫⁻ q : Fin (N + 1 + 1) → V, ENNReal.ofReal (∏ i, rho (q i)) * (bad N).indicator (fun _ => (1 : ℝ≥0∞)) q = 0 := by
    have hae : ∀ᵐ q : Fin (N + 1 + 1) → V, q ∉ bad N := by
      rw [ae_iff]
      simpa using bad_null N
    have : ∀ᵐ q : Fin (N + 1 + 1) → V, ENNReal.ofReal (∏ i, rho (q i)) * (bad N).indicator (fun _ => (1 : ℝ≥0∞)) q = 0 := by
      filter_upwards [hae] with q hq
      rw [indicator_of_notMem hq, mul_zero]
    rw [lintegral_congr_ae this]
    simp
  rw [hz, ← law_eq] at h
  have hd : Measurable fun d : Fin (N + 1 + 1) → ℝ × ℝ × ℝ × ℝ => fun i => drawMom (d i) :=
    measurable_pi_lambda _ fun i => drawMom_measurable.comp (measurable_pi_apply i)
  have h' := (lintegral_eq_zero_iff (hmi.comp hd)).mp h
  filter_upwards [h'] with d hd hb
  have hd' : (bad N).indicator (fun _ => (1 : ℝ≥0∞)) (fun i => drawMom (d i)) = 0 := hd
  rw [indicator_of_mem hb] at hd'
  exact one_ne_zero hd'

theorem draws_range (n : ℕ) : ∀ᵐ d ∂draws n, ∀ i, (d i).1 ∈ Ico (0 : ℝ) 1 ∧ (d i).2.2.1 ∈ Ico (0 : ℝ) 1 ∧ (d i).2.2.2 ∈ Ico (0 : ℝ) 1 := by
  rw [ae_all_iff]
  intro i
  have h1 : ∀ᵐ x : ℝ ∂unif, x ∈ Ico (0 : ℝ) 1 := ae_restrict_mem measurableSet_Ico
  have h : ∀ᵐ x : ℝ × ℝ × ℝ × ℝ ∂drawLaw, x.1 ∈ Ico (0 : ℝ) 1 ∧ x.2.2.1 ∈ Ico (0 : ℝ) 1 ∧ x.2.2.2 ∈ Ico (0 : ℝ) 1 := by
    unfold drawLaw
    have a1 := (Measure.quasiMeasurePreserving_fst (μ := unif) (ν := unif.prod (unif.prod unif))).ae h1
    have a3 := (Measure.quasiMeasurePreserving_snd (μ := unif) (ν := unif.prod (unif.prod unif))).ae
      ((Measure.quasiMeasurePreserving_snd (μ := unif) (ν := unif.prod unif)).ae
        ((Measure.quasiMeasurePreserving_fst (μ := unif) (ν := unif)).ae h1))
    have a4 := (Measure.quasiMeasurePreserving_snd (μ := unif) (ν := unif.prod (unif.prod unif))).ae
      ((Measure.quasiMeasurePreserving_snd (μ := unif) (ν := unif.prod unif)).ae
        ((Measure.quasiMeasurePreserving_snd (μ := unif) (ν := unif)).ae h1))
    filter_upwards [a1, a3, a4] with x b1 b3 b4
    exact ⟨b1, b3, b4⟩
  rw [law_eq]
  exact (Measure.quasiMeasurePreserving_eval (μ := fun _ : Fin n => drawLaw) i).ae h

theorem boosted {N : ℕ} {q : Fin (N + 1 + 1) → V} (hq : q ∉ bad N) (Q : ℝ) :
    ∃ M, 0 < M ∧ good (cmom q) ∧ ∑ i, ‖full (cmom q) i‖ = M ∧
      boost Q (List.ofFn fun i => p4 ‖q i‖ (q i))
        = List.ofFn fun i => p4 (Q / M * ‖full (cmom q) i‖) ((Q / M) • full (cmom q) i) := by
  obtain ⟨hne, hcol⟩ := not_not.mp hq
  obtain ⟨A, hAd⟩ : ∃ A, A = ∑ i : Fin (N + 1), ‖q i.castSucc‖ := ⟨_, rfl⟩
  obtain ⟨a, had⟩ : ∃ a, a = ∑ i : Fin (N + 1), q i.castSucc := ⟨_, rfl⟩
  have hA : 0 < A := by rw [hAd]; exact Finset.sum_pos (fun i _ => norm_pos_iff.mpr (hne i)) Finset.univ_nonempty
  have ha : ‖a‖ ≤ A := by rw [hAd, had]; exact norm_sum_le _ _
  rw [← hAd, ← had] at hcol
  obtain ⟨b, hK, hb⟩ := cmQ_surj hA ha hcol
  have hbv : bv A a (q (Fin.last (N + 1))) = b := by rw [← hb, bv_cmQ b hA ha]
  have hcm : ∀ i : Fin (N + 1), cmom q i = bst b (q i.castSucc) := fun i => by
    unfold cmom
    rw [← hAd, ← had, hbv]
  have hcm' : cmom q = fun i : Fin (N + 1) => bst b (q i.castSucc) := funext hcm
  have hsum : ∑ i, cmom q i = cmK A a b := by rw [hcm', sum_bst, ← hAd, ← had]
  have hlast : full (cmom q) (Fin.last (N + 1)) = bst b (q (Fin.last (N + 1))) := by
    rw [full_last, hsum, ← hb, bst_cmQ A b hA ha]
  have hall : ∀ i, full (cmom q) i = bst b (q i) := by
    intro i
    induction i using Fin.lastCases with
    | last => exact hlast
    | cast i => rw [full_castSucc, hcm]
  have hM := cmM_pos b hA ha
  have hE : ∑ i, ‖q i‖ = A + ‖q (Fin.last (N + 1))‖ := by rw [Fin.sum_univ_castSucc, hAd]
  have hP : ∑ i, q i = a + q (Fin.last (N + 1)) := by rw [Fin.sum_univ_castSucc, had]
  have hP' : (cmM A a b)⁻¹ • ∑ i, q i = b := by
    rw [hP, ← hb]
    unfold cmQ
    rw [add_sub_cancel, smul_smul, inv_mul_cancel₀ hM.ne', one_smul]
  have hEM : (∑ i, ‖q i‖) ^ 2 - ‖∑ i, q i‖ ^ 2 = cmM A a b ^ 2 := by
    rw [hE, hP]
    have h1 := invM_cmQ b hA ha
    rw [hb] at h1
    unfold invM at h1
    have h2 : 0 < (A + ‖q (Fin.last (N + 1))‖) ^ 2 - ‖a + q (Fin.last (N + 1))‖ ^ 2 := Real.sqrt_pos.mp (by rw [h1]; exact hM)
    rw [← h1, Real.sq_sqrt h2.le]
  have hE0 : 0 < ∑ i, ‖q i‖ := by rw [hE]; have := norm_nonneg (q (Fin.last (N + 1))); linarith
  refine ⟨cmM A a b, hM, ?_, ?_, ?_⟩
  · intro i
    induction i using Fin.lastCases with
    | last => rw [full_last, hsum]; exact neg_ne_zero.mpr hK
    | cast i => rw [full_castSucc, hcm]; exact bst_ne_zero (hne i)
  · rw [Fin.sum_univ_castSucc, full_last, norm_neg]
    simp only [full_castSucc]
    have := Mt_bst b (fun i : Fin (N + 1) => q i.castSucc)
    rw [← hAd, ← had] at this
    rw [← this]
    unfold Mt
    rw [hcm']
  · unfold boost
    rw [total_ofFn, List.map_ofFn]
    congr 1
    funext i
    rw [Function.comp_apply, boostOne_eq hM hE0 hEM, hP', hall]

/-- Weight of an event given by its momenta. -/
theorem weight_ofFn {N : ℕ} (ms : Fin (N + 1 + 1) → ℝ) (Q : ℝ) (p : Fin (N + 1 + 1) → V) :
    weight Q ((baseWeight Q (N + 1 + 1)).getD 0) (N + 1 + 1) (List.ofFn fun i => p4 (energy (ms i) (p i)) (p i)) = wt ms Q p := by
  have hms : ∀ v : V, ∀ e, modsqr (p4 e v) = ‖v‖ ^ 2 := fun v e => by rw [norm_sq3]; rfl
  have hbw : (baseWeight Q (N + 1 + 1)).getD 0 = bw N Q := by
    unfold baseWeight bw
    rw [if_neg (by omega)]
    simp only [Option.getD_some]
    rw [show N + 1 + 1 - 2 = N by omega, show N + 1 + 1 - 1 = N + 1 by omega, show 2 * (N + 1 + 1) - 4 = 2 * N by omega,
      show 3 * (N + 1 + 1) - 4 = 3 * N + 2 by omega]
    push_cast
    rw [show (N : ℝ) + 1 + 1 - 1 = N + 1 by ring]
  unfold weight wt
  simp only [List.map_ofFn, List.sum_ofFn, List.prod_ofFn, Function.comp_apply, hms, hbw]
  rw [show 2 * (N + 1 + 1) - 3 = 2 * N + 1 by omega]
  have hsq : ∀ v : V, Real.sqrt (‖v‖ ^ 2) = ‖v‖ := fun v => Real.sqrt_sq (norm_nonneg v)
  simp only [hsq]
  rfl

theorem momenta_ofFn {n : ℕ} (e : Fin n → ℝ) (p : Fin n → V) : momenta (List.ofFn fun i => p4 (e i) (p i)) = p := by
  funext i
  unfold momenta
  ext j
  fin_cases j <;> simp [p4]

theorem event_eq {N : ℕ} {ms : Fin (N + 1 + 1) → ℝ} (hm : ∀ i, 0 ≤ ms i) {xi : ℝ → List ℝ → ℝ} (hxi : ExactScale xi ms)
    {Q : ℝ} (hQ : ∑ i, ms i < Q) {d : Fin (N + 1 + 1) → ℝ × ℝ × ℝ × ℝ}
    (hr : ∀ i, (d i).1 ∈ Ico (0 : ℝ) 1 ∧ (d i).2.2.1 ∈ Ico (0 : ℝ) 1 ∧ (d i).2.2.2 ∈ Ico (0 : ℝ) 1)
    (hg : (fun i => drawMom (d i)) ∉ bad N) :
    event xi ms Q d = List.ofFn fun i =>
      p4 (energy (ms i) ((tau ms Q (cmom fun i => drawMom (d i)) • full (cmom fun i => drawMom (d i))) i))
        ((tau ms Q (cmom fun i => drawMom (d i)) • full (cmom fun i => drawMom (d i))) i) := by
  obtain ⟨M, hM, hgood, hsum, hb⟩ := boosted hg Q
  have hinit : (List.ofFn fun i => initMomentum (toDraw (d i))) = List.ofFn fun i => p4 ‖drawMom (d i)‖ (drawMom (d i)) := by
    congr 1
    funext i
    exact init_eq (hr i).1 (hr i).2.1 (hr i).2.2
  have hQ0 : 0 < Q := lt_of_le_of_lt (Finset.sum_nonneg fun i _ => hm i) hQ
  have hs : 0 < Q / M := div_pos hQ0 hM
  unfold event
  simp only [hinit, hb]
  obtain ⟨k, hk⟩ : ∃ k, k = cmom fun i => drawMom (d i) := ⟨_, rfl⟩
  rw [← hk] at hgood hsum ⊢
  obtain ⟨es, hes⟩ : ∃ es, es = (List.ofFn fun i => p4 (Q / M * ‖full k i‖) ((Q / M) • full k i)).map P4.e := ⟨_, rfl⟩
  have hes' : es = List.ofFn fun i => Q / M * ‖full k i‖ := by
    rw [hes, List.map_ofFn]
    rfl
  rw [← hes]
  have hopen : Open Q (List.ofFn ms) := by
    refine ⟨by simp, ?_, by rw [List.sum_ofFn]; exact hQ⟩
    intro m hmm
    obtain ⟨i, rfl⟩ := List.mem_ofFn.mp hmm
    exact hm i
  obtain ⟨hx0, hx⟩ := hxi Q es hopen (by rw [hes']; simp)
    (by
      intro e he
      rw [hes'] at he
      obtain ⟨i, rfl⟩ := List.mem_ofFn.mp he
      exact mul_pos hs (norm_pos_iff.mpr (hgood i)))
    (by rw [hes', List.sum_ofFn, ← Finset.mul_sum, hsum]; field_simp)
  have htau : tau ms Q k = xi Q es * (Q / M) := by
    refine tau_eq hgood hQ (mul_pos hx0 hs) ?_
    unfold scaleF at hx
    generalize xi Q es = x at hx ⊢
    rw [hes', zipWith_ofFn, List.sum_ofFn] at hx
    rw [← sub_eq_zero, ← hx]
    unfold etot mags Rambo.hypot
    congr 1
    refine Finset.sum_congr rfl fun i _ => ?_
    congr 2
    ring
  unfold correctEvent
  rw [zipWith_ofFn]
  congr 1
  funext i
  rw [correctOne_eq hx0.le hs.le, htau]
  rfl

/-! ### C297 -/

theorem event_lintegral {N : ℕ} {ms : Fin (N + 2) → ℝ} (hm : ∀ i, 0 ≤ ms i) {xi : ℝ → List ℝ → ℝ} (hxi : ExactScale xi ms)
    {f : (Fin (N + 2) → V) → ℝ≥0∞} (hf : Measurable f) {Q : ℝ} (hQ : Q ∈ Ioi (∑ i, ms i)) :
    ∫⁻ d, f (momenta (event xi ms Q d)) * ENNReal.ofReal (weight Q ((baseWeight Q (N + 2)).getD 0) (N + 2) (event xi ms Q d)) ∂draws (N + 2)
      = ∫⁻ q : Fin (N + 1 + 1) → V, ENNReal.ofReal (∏ i, rho (q i)) * obs ms f Q (cmom q) := by
  have hΦ : Measurable fun q : Fin (N + 1 + 1) → V => obs ms f Q (cmom q) := by
    have h2 := obs_measurable' hm hf Q
    generalize obs ms f Q = F at h2
    exact h2.comp cmom_measurable
  rw [← pi_draw (N + 1 + 1) hΦ, ← law_eq]
  refine lintegral_congr_ae ?_
  filter_upwards [draws_good N, draws_range (N + 1 + 1)] with d hd hr
  rw [event_eq hm hxi hQ hr hd]
  unfold obs
  rw [momenta_ofFn, weight_ofFn]

/-- **C297.** Take two or more particles, of any masses.  Averaged over the random numbers, the weighted events integrate any
observable `f` of the momenta over Lorentz-invariant phase space
`∏ d³pᵢ/((2π)³ 2Eᵢ) (2π)⁴ δ⁴(P - Σ pᵢ)`: momentum conservation fixes the last momentum, and the energy delta function is tested with
any function `g` of the centre-of-mass energy.  Missing: the rescaling of the massless momenta is taken to be
the exact one, which the at most five Newton steps of the code only approach (from above, C23) when there are masses. -/
theorem events_average_partial {N : ℕ} {ms : Fin (N + 2) → ℝ} (hm : ∀ i, 0 ≤ ms i) {xi : ℝ → List ℝ → ℝ} (hxi : ExactScale xi ms)
    {f : (Fin (N + 2) → V) → ℝ≥0∞} (hf : Measurable f) {g : ℝ → ℝ≥0∞} (hg : Measurable g) :
    ∫⁻ Q in Ioi (∑ i, ms i), g Q * ∫⁻ d, f (momenta (event xi ms Q d))
          * ENNReal.ofReal (weight Q ((baseWeight Q (N + 2)).getD 0) (N + 2) (event xi ms Q d)) ∂draws (N + 2)
      = ENNReal.ofReal ((2 * Real.pi) ^ 4 / (2 * Real.pi) ^ (3 * (N + 2))) * ∫⁻ k : Fin (N + 1) → V,
          ENNReal.ofReal (∏ i, 1 / (2 * energy (ms i) (atRest k i))) * f (atRest k) * g (∑ i, energy (ms i) (atRest k i)) := by
  have hpi := Real.pi_pos
  have h := phase_space hm hf hg
  rw [setLIntegral_congr_fun measurableSet_Ioi (fun Q hQ => by rw [event_lintegral hm hxi hf hQ]), h]
  congr 1
  · congr 1
    have hx : (2 * Real.pi) ≠ 0 := by positivity
    rw [one_div, inv_pow, show 3 * (N + 2) = 3 * N + 2 + 4 by ring, pow_add _ (3 * N + 2) 4]
    generalize 2 * Real.pi = x at hx
    rw [eq_div_iff (mul_ne_zero (pow_ne_zero _ hx) (pow_ne_zero _ hx)), ← mul_assoc, inv_mul_cancel₀ (pow_ne_zero _ hx), one_mul]
  · refine lintegral_congr fun k => ?_
    simp only [one_div, mul_assoc]
    rfl

/-- The exact rescaling exists for any masses. -/
theorem exactScale_exists {n : ℕ} (ms : Fin n → ℝ) : ∃ xi, ExactScale xi ms := by
  classical
  refine ⟨fun Q es => if h : ∃ r, 0 < r ∧ scaleF Q (List.ofFn ms) es r = 0 then h.choose else 0, ?_⟩
  intro Q es ho hl hp hs
  obtain ⟨r, hr0, -, hr, -⟩ := scale_factor_exists_unique ho hp (by simpa using hl) hs
  have hex : ∃ r, 0 < r ∧ scaleF Q (List.ofFn ms) es r = 0 := ⟨r, hr0, by rw [scaleF_eq, hr, sub_self]⟩
  simp only [dif_pos hex]
  exact hex.choose_spec

theorem hypot_zero {n : ℕ} {es : List ℝ} (hl : es.length = n) (hp : ∀ e ∈ es, 0 < e) :
    List.zipWith (fun e m => Rambo.hypot (e * 1) m) es (List.ofFn fun _ : Fin n => (0 : ℝ)) = es := by
  apply List.ext_getElem
  · simp [hl]
  · intro i h1 h2
    have := hp _ (List.getElem_mem h2)
    simp [Rambo.hypot, Real.sqrt_sq this.le]

/-- Massless particles need no rescaling. -/
theorem exactScale_massless (n : ℕ) : ExactScale (fun _ _ => 1) (fun _ : Fin n => 0) := by
  intro Q es _ hl hp hs
  refine ⟨one_pos, ?_⟩
  unfold scaleF
  rw [hypot_zero hl hp, hs, sub_self]

theorem generate_massless_list {N : ℕ} {Q eps : ℝ} (hQ : 0 < Q) {s : State} (hs : create Q (List.replicate (N + 2) 0) = some s)
    {dl : List (Fin (N + 1 + 1) → ℝ × ℝ × ℝ × ℝ)}
    (hr : ∀ d ∈ dl, ∀ i, (d i).1 ∈ Ico (0 : ℝ) 1 ∧ (d i).2.2.1 ∈ Ico (0 : ℝ) 1 ∧ (d i).2.2.2 ∈ Ico (0 : ℝ) 1)
    (hg : ∀ d ∈ dl, (fun i => drawMom (d i)) ∉ bad N) :
    generate s eps (dl.map fun d => List.ofFn fun i => toDraw (d i))
      = (dl.map fun d => event (fun _ _ => 1) (fun _ => 0) Q d,
        dl.map fun d => weight Q ((baseWeight Q (N + 2)).getD 0) (N + 2) (event (fun _ _ => 1) (fun _ => 0) Q d)) := by
  obtain ⟨-, h1, h2, h3, h4, h5⟩ := create_some hs
  have hx : s.xi0 = 1 := by rw [h4]; simp
  have hlen : (List.replicate (N + 2) (0 : ℝ)).length = N + 2 := by simp
  rw [hlen] at h3 h5
  have hms : s.masses = List.ofFn fun _ : Fin (N + 1 + 1) => (0 : ℝ) := by rw [h2, List.ofFn_const]
  have hfix : ∀ d ∈ dl, newtonStep Q s.masses ((boost Q (List.ofFn fun i => initMomentum (toDraw (d i)))).map P4.e) 1 = 1 := by
    intro d hd
    obtain ⟨M, hM, hgood, hsum, hb⟩ := boosted (hg d hd) Q
    have hinit : (List.ofFn fun i => initMomentum (toDraw (d i))) = List.ofFn fun i => p4 ‖drawMom (d i)‖ (drawMom (d i)) := by
      congr 1
      funext i
      exact init_eq (hr d hd i).1 (hr d hd i).2.1 (hr d hd i).2.2
    obtain ⟨ps, hps⟩ : ∃ ps, ps = boost Q (List.ofFn fun i => initMomentum (toDraw (d i))) := ⟨_, rfl⟩
    have hpe : ps.map P4.e = List.ofFn fun i => Q / M * ‖full (cmom fun i => drawMom (d i)) i‖ := by
      rw [hps, hinit, hb, List.map_ofFn]
      rfl
    rw [← hps]
    have h0 : scaleF Q s.masses (ps.map P4.e) 1 = 0 := by
      unfold scaleF
      rw [hms, hypot_zero (by rw [hpe]; simp) (by
        intro e he
        rw [hpe] at he
        obtain ⟨i, rfl⟩ := List.mem_ofFn.mp he
        exact mul_pos (div_pos hQ hM) (norm_pos_iff.mpr (hgood i))), hpe, List.sum_ofFn, ← Finset.mul_sum, hsum]
      field_simp
      ring
    unfold newtonStep
    rw [h0]
    simp
  have hb' : (dl.map fun d => List.ofFn fun i => toDraw (d i)).map (fun ds => boost Q (ds.map initMomentum))
      = dl.map fun d => boost Q (List.ofFn fun i => initMomentum (toDraw (d i))) := by
    rw [List.map_map]
    refine List.map_congr_left fun d _ => ?_
    simp only [Function.comp, List.map_ofFn]
    rfl
  obtain ⟨bl, hbl⟩ : ∃ bl, bl = dl.map fun d => boost Q (List.ofFn fun i => initMomentum (toDraw (d i))) := ⟨_, rfl⟩
  have hsc : scaleFactors Q 1 eps s.masses bl = bl.map fun _ => 1 := by
    unfold scaleFactors
    obtain ⟨k, -, hk, -⟩ := newtonLoop_eq Q (Real.sqrt eps) s.masses (bl.map fun ps => ps.map P4.e) 5 (bl.map fun _ => (1 : ℝ)) (by norm_num) (by simp)
    rw [hk]
    apply List.ext_getElem
    · simp
    · intro i hi1 hi2
      have hi : i < bl.length := by simpa using hi2
      have hi' : i < dl.length := by rw [hbl] at hi; simpa using hi
      have he : bl[i] = boost Q (List.ofFn fun j => initMomentum (toDraw (dl[i] j))) := by simp [hbl]
      simp only [List.getElem_zipWith, List.getElem_map, he]
      exact Function.iterate_fixed (hfix _ (List.getElem_mem hi')) _
  have hev : List.zipWith (correctEvent s.masses) bl (bl.map fun _ => (1 : ℝ)) = dl.map fun d => event (fun _ _ => 1) (fun _ => 0) Q d := by
    rw [hms]
    apply List.ext_getElem
    · simp [hbl]
    · intro i _ _
      simp only [List.getElem_zipWith, List.getElem_map, hbl]
      rfl
  unfold generate
  simp only [h1, hx, hb', ← hbl, hsc, hev, h3, h5, Option.getD_some, List.map_map]
  rfl

theorem generate_massless {N : ℕ} {Q eps : ℝ} (hQ : 0 < Q) {s : State} (hs : create Q (List.replicate (N + 2) 0) = some s)
    {d : Fin (N + 1 + 1) → ℝ × ℝ × ℝ × ℝ}
    (hr : ∀ i, (d i).1 ∈ Ico (0 : ℝ) 1 ∧ (d i).2.2.1 ∈ Ico (0 : ℝ) 1 ∧ (d i).2.2.2 ∈ Ico (0 : ℝ) 1)
    (hg : (fun i => drawMom (d i)) ∉ bad N) :
    generate s eps [List.ofFn fun i => toDraw (d i)]
      = ([event (fun _ _ => 1) (fun _ => 0) Q d],
        [weight Q ((baseWeight Q (N + 2)).getD 0) (N + 2) (event (fun _ _ => 1) (fun _ => 0) Q d)]) :=
  generate_massless_list (dl := [d]) hQ hs (by simpa using hr) (by simpa using hg)

/-- **C297, generated events.** For massless particles the rescaling found by the code is exact, so that the statement holds for
the events and weights that `generate` returns. -/
theorem generate_average_massless {N : ℕ} {eps : ℝ} {S : ℝ → State} (hS : ∀ Q, 0 < Q → create Q (List.replicate (N + 2) 0) = some (S Q))
    {f : (Fin (N + 2) → V) → ℝ≥0∞} (hf : Measurable f) {g : ℝ → ℝ≥0∞} (hg : Measurable g) :
    ∫⁻ Q in Ioi 0, g Q * ∫⁻ d, (List.zipWith (fun ev w => f (momenta ev) * ENNReal.ofReal w)
          (generate (S Q) eps [List.ofFn fun i => toDraw (d i)]).1 (generate (S Q) eps [List.ofFn fun i => toDraw (d i)]).2).sum ∂draws (N + 2)
      = ENNReal.ofReal ((2 * Real.pi) ^ 4 / (2 * Real.pi) ^ (3 * (N + 2))) * ∫⁻ k : Fin (N + 1) → V,
          ENNReal.ofReal (∏ i, 1 / (2 * ‖atRest k i‖)) * f (atRest k) * g (∑ i, ‖atRest k i‖) := by
  have h := events_average_partial (N := N) (ms := fun _ => 0) (fun _ => le_rfl) (exactScale_massless (N + 2)) hf hg
  have he : ∀ v : V, energy 0 v = ‖v‖ := fun v => by
    unfold energy
    rw [zero_pow two_ne_zero, add_zero, Real.sqrt_sq (norm_nonneg v)]
  simp only [he, Finset.sum_const_zero] at h
  rw [← h]
  refine setLIntegral_congr_fun measurableSet_Ioi fun Q hQ => ?_
  congr 1
  refine lintegral_congr_ae ?_
  filter_upwards [draws_good N, draws_range (N + 1 + 1)] with d hd hr
  rw [generate_massless hQ (hS Q hQ) hr hd]
  simp

/-! ### Non-triviality -/

/-- An electron, a muon and a photon: the mean weight is the phase-space volume, for some exact rescaling. -/
example : ∃ xi : ℝ → List ℝ → ℝ, ∀ g : ℝ → ℝ≥0∞, Measurable g →
    ∫⁻ Q in Ioi (∑ i, (![0.511, 105.66, 0] : Fin 3 → ℝ) i), g Q * ∫⁻ d, 1
          * ENNReal.ofReal (weight Q ((baseWeight Q 3).getD 0) 3 (event xi ![0.511, 105.66, 0] Q d)) ∂draws 3
      = ENNReal.ofReal ((2 * Real.pi) ^ 4 / (2 * Real.pi) ^ (3 * 3)) * ∫⁻ k : Fin 2 → V,
          ENNReal.ofReal (∏ i, 1 / (2 * energy ((![0.511, 105.66, 0] : Fin 3 → ℝ) i) (atRest k i))) * 1
            * g (∑ i, energy ((![0.511, 105.66, 0] : Fin 3 → ℝ) i) (atRest k i)) := by
  obtain ⟨xi, hxi⟩ := exactScale_exists (![0.511, 105.66, 0] : Fin 3 → ℝ)
  refine ⟨xi, fun g hg => ?_⟩
  have hm : ∀ i, 0 ≤ (![0.511, 105.66, 0] : Fin 3 → ℝ) i := by
    intro i
    fin_cases i <;> norm_num
  exact events_average_partial (N := 1) hm hxi (f := fun _ => 1) measurable_const hg

/-- States for massless particles exist at every energy. -/
example : ∃ S : ℝ → State, ∀ Q, 0 < Q → create Q (List.replicate 4 0) = some (S Q) :=
  ⟨fun Q => (create Q (List.replicate 4 0)).getD ⟨0, [], 0, 0, 0⟩, fun Q _ => by simp [create, baseWeight]⟩

end Hazma.RamboUnbiased
