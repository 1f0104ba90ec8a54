import Verif.Lemmas.RamboPhase

/-! # The events as an integral over phase space -/

namespace Hazma.RamboMeasure

open MeasureTheory Set
open scoped ENNReal

variable {N : ℕ}

/-- Momenta of all particles but the last in the centre of mass. -/
noncomputable def cmom (q : Fin (N + 1) → V) : Fin N → V := fun i =>
  bst (bv (∑ j : Fin N, ‖q j.castSucc‖) (∑ j : Fin N, q j.castSucc) (q (Fin.last N))) (q i.castSucc)

theorem cmom_measurable : Measurable (cmom (N := N)) := by
  refine measurable_pi_lambda _ fun i => ?_
  have hb : Measurable fun q : Fin (N + 1) → V =>
      bv (∑ j : Fin N, ‖q j.castSucc‖) (∑ j : Fin N, q j.castSucc) (q (Fin.last N)) := by
    unfold bv invM
    fun_prop
  exact bst_continuous.measurable.comp (hb.prodMk (measurable_pi_apply _))

/-- The random momenta as an integral over directions, for `N + 2` particles. -/
theorem events_lintegral {F : (Fin (N + 1) → V) → ℝ≥0∞} (hF : Measurable F) (hom : ∀ t : ℝ, 0 < t → ∀ k, F (t • k) = F k) :
    ∫⁻ q : Fin (N + 1 + 1) → V, ENNReal.ofReal (∏ i, rho (q i)) * F (cmom q)
      = ENNReal.ofReal (((4 * Real.pi) ^ (N + 2))⁻¹ * (2 ^ (2 * N + 3) * Real.pi * (N + 1).factorial * N.factorial))
        * ∫⁻ w in shell (N + 1), ENNReal.ofReal ((∏ i, ‖full w i‖⁻¹) / Mt w ^ (2 * N + 1)) * F w := by
  have hpi := Real.pi_pos
  have hu := uniform_lintegral (Nat.succ_pos N) hF hom
  rw [gam_lintegral N] at hu
  have hsub : 2 * (N + 1) - 1 = 2 * N + 1 := by omega
  rw [hsub] at hu
  simp only [full_prod]
  rw [ENNReal.ofReal_mul (by positivity), mul_assoc, ← hu, ← lintegral_const_mul' _ _ ENNReal.ofReal_ne_top]
  have hm : Measurable fun q : Fin (N + 1 + 1) → V => ENNReal.ofReal (∏ i, rho (q i)) * F (cmom q) := by
    refine Measurable.mul ?_ (hF.comp cmom_measurable)
    exact (Finset.measurable_prod _ fun i _ => rho_measurable.comp (measurable_pi_apply i)).ennreal_ofReal
  rw [volume_pi, snoc_lintegral (volume : Measure V) (N + 1) hm, lintegral_lintegral_swap, ← volume_pi]
  · refine lintegral_congr fun q' => ?_
    rw [← lintegral_const_mul' _ _ ENNReal.ofReal_ne_top]
    refine lintegral_congr fun q => ?_
    have e1 : cmom (Fin.snoc q' q : Fin (N + 1 + 1) → V) = fun i => bst (bv (∑ i, ‖q' i‖) (∑ i, q' i) q) (q' i) := by
      funext i
      simp only [cmom, Fin.snoc_castSucc, Fin.snoc_last]
    have e2 : ∏ i, rho ((Fin.snoc q' q : Fin (N + 1 + 1) → V) i)
        = ((4 * Real.pi) ^ (N + 2))⁻¹ * ((∏ i, ‖q' i‖⁻¹) * (‖q‖⁻¹ * Real.exp (-(∑ i, ‖q' i‖ + ‖q‖)))) := by
      rw [Fin.prod_univ_castSucc]
      simp only [Fin.snoc_castSucc, Fin.snoc_last, rho]
      rw [Finset.prod_mul_distrib, Finset.prod_div_distrib, ← Real.exp_sum, Finset.prod_const, Finset.card_univ, Fintype.card_fin,
        Finset.sum_neg_distrib, neg_add, Real.exp_add, pow_succ (4 * Real.pi) (N + 1)]
      have : (4 * Real.pi) ^ (N + 1) ≠ 0 := by positivity
      generalize (4 * Real.pi) ^ (N + 1) = P at *
      generalize (∏ i, ‖q' i‖⁻¹) = R
      generalize Real.exp (-∑ i, ‖q' i‖) = X
      rw [mul_inv]
      ring
    rw [e1, e2, ENNReal.ofReal_mul (by positivity), ENNReal.ofReal_mul (Finset.prod_nonneg fun i _ => by positivity),
      ENNReal.ofReal_mul (by positivity)]
    simp only [mul_assoc]
  · exact (hm.comp (snoc_measurable (X := V) (N + 1))).aemeasurable

/-- Energies of momenta `p` with masses `m`. -/
noncomputable def en {n : ℕ} (m : Fin n → ℝ) (p : Fin n → V) (i : Fin n) : ℝ := Real.sqrt (‖p i‖ ^ 2 + m i ^ 2)

/-- The weight without masses, for `N + 2` particles. -/
noncomputable def bw (N : ℕ) (Q : ℝ) : ℝ :=
  1 / ((N + 1) * (N.factorial : ℝ) ^ 2) * (Real.pi / 2) ^ (N + 1) * Q ^ (2 * N) * (1 / (2 * Real.pi)) ^ (3 * N + 2)

/-- The weight of momenta `p`. -/
noncomputable def wt (m : Fin (N + 1 + 1) → ℝ) (Q : ℝ) (p : Fin (N + 1 + 1) → V) : ℝ :=
  (∑ i, ‖p i‖ / Q) ^ (2 * N + 1) / (∑ i, ‖p i‖ ^ 2 / en m p i) * (∏ i, ‖p i‖ / en m p i) * Q * bw N Q

theorem wt_algebra (N : ℕ) {t S M Q Pa Pe : ℝ} (ht : 0 < t) (hS : 0 < S) (hM : 0 < M) (hQ : 0 < Q) (hPa : 0 < Pa) (hPe : 0 < Pe) :
    ((4 * Real.pi) ^ (N + 2))⁻¹ * (2 ^ (2 * N + 3) * Real.pi * (N + 1).factorial * N.factorial) * (t * S) * (Pa⁻¹ / M ^ (2 * N + 1))
        * ((t * M / Q) ^ (2 * N + 1) / (t ^ 2 * S) * (t ^ (N + 2) * Pa / Pe) * Q * bw N Q)
      = (1 / (2 * Real.pi)) ^ (3 * N + 2) * (t ^ (3 * N + 2) * ((2 ^ (N + 2))⁻¹ * Pe⁻¹)) := by
  have hpi := Real.pi_pos
  unfold bw
  have f1 : ((N + 1).factorial : ℝ) = (N + 1) * N.factorial := by rw [Nat.factorial_succ]; push_cast; ring
  have hf : (N.factorial : ℝ) ≠ 0 := by positivity
  rw [f1]
  have e1 : (4 * Real.pi) ^ (N + 2) = 2 ^ (2 * N + 4) * Real.pi ^ (N + 2) := by
    rw [mul_pow, show (4 : ℝ) = 2 ^ 2 by norm_num, ← pow_mul]; ring_nf
  have e2 : (t * M / Q) ^ (2 * N + 1) = t ^ (2 * N + 1) * M ^ (2 * N + 1) / (Q ^ (2 * N) * Q) := by
    rw [div_pow, mul_pow, ← pow_succ]
  have e3 : t ^ (3 * N + 2) * t = t ^ (2 * N + 1) * t ^ (N + 2) := by ring
  have e4 : (Real.pi / 2) ^ (N + 1) = Real.pi ^ (N + 1) / 2 ^ (N + 1) := div_pow _ _ _
  have e5 : (2 : ℝ) ^ (2 * N + 4) * 2 ^ (N + 1) = 2 ^ (2 * N + 3) * 2 ^ (N + 2) := by ring
  have e6 : Real.pi ^ (N + 2) = Real.pi ^ (N + 1) * Real.pi := pow_succ _ _
  rw [e1, e2, e4, e6]
  generalize (1 / (2 * Real.pi)) ^ (3 * N + 2) = L
  have p1 : M ^ (2 * N + 1) ≠ 0 := by positivity
  have p2 : Q ^ (2 * N) ≠ 0 := by positivity
  have p3 : Real.pi ^ (N + 1) ≠ 0 := by positivity
  have p4 : (2 : ℝ) ^ (N + 1) ≠ 0 := by positivity
  have p5 : (2 : ℝ) ^ (N + 2) ≠ 0 := by positivity
  have p6 : (2 : ℝ) ^ (2 * N + 4) ≠ 0 := by positivity
  generalize M ^ (2 * N + 1) = a1 at *
  generalize Q ^ (2 * N) = a2 at *
  generalize Real.pi ^ (N + 1) = a3 at *
  generalize (2 : ℝ) ^ (N + 1) = a4 at *
  generalize (2 : ℝ) ^ (N + 2) = a5 at *
  generalize (2 : ℝ) ^ (2 * N + 4) = a6 at *
  generalize (2 : ℝ) ^ (2 * N + 3) = a7 at *
  generalize t ^ (2 * N + 1) = b1 at *
  generalize t ^ (N + 2) = b2 at *
  generalize t ^ (3 * N + 2) = b3 at *
  have hN1 : (N : ℝ) + 1 ≠ 0 := by positivity
  field_simp
  linear_combination -L * a7 * a5 * e3 - L * b3 * t * e5

theorem en_measurable {n : ℕ} (m : Fin n → ℝ) (i : Fin n) : Measurable fun p : Fin n → V => en m p i := by
  unfold en; fun_prop

theorem wt_measurable (m : Fin (N + 1 + 1) → ℝ) : Measurable fun x : ℝ × (Fin (N + 1 + 1) → V) => wt m x.1 x.2 := by
  have he : ∀ i, Measurable fun x : ℝ × (Fin (N + 1 + 1) → V) => en m x.2 i := fun i => (en_measurable m i).comp measurable_snd
  have hn : ∀ i, Measurable fun x : ℝ × (Fin (N + 1 + 1) → V) => ‖x.2 i‖ := fun i => by fun_prop
  have h1 : Measurable fun x : ℝ × (Fin (N + 1 + 1) → V) => ∑ i, ‖x.2 i‖ / x.1 :=
    Finset.measurable_sum _ fun i _ => (hn i).div measurable_fst
  have h2 : Measurable fun x : ℝ × (Fin (N + 1 + 1) → V) => ∑ i, ‖x.2 i‖ ^ 2 / en m x.2 i :=
    Finset.measurable_sum _ fun i _ => ((hn i).pow_const 2).div (he i)
  have h3 : Measurable fun x : ℝ × (Fin (N + 1 + 1) → V) => ∏ i, ‖x.2 i‖ / en m x.2 i :=
    Finset.measurable_prod _ fun i _ => (hn i).div (he i)
  have h4 : Measurable fun x : ℝ × (Fin (N + 1 + 1) → V) => bw N x.1 := by unfold bw; fun_prop
  exact ((((h1.pow_const _).div h2).mul h3).mul measurable_fst).mul h4

/-- An observable of the massive event of energy `Q` along massless momenta `k`, with its weight. -/
noncomputable def obs (m : Fin (N + 1 + 1) → ℝ) (f : (Fin (N + 1 + 1) → V) → ℝ≥0∞) (Q : ℝ) (k : Fin (N + 1) → V) : ℝ≥0∞ :=
  f (tau m Q k • full k) * ENNReal.ofReal (wt m Q (tau m Q k • full k))

theorem obs_measurable {m : Fin (N + 1 + 1) → ℝ} (hm : ∀ i, 0 ≤ m i) {f : (Fin (N + 1 + 1) → V) → ℝ≥0∞} (hf : Measurable f) :
    Measurable fun x : ℝ × (Fin (N + 1) → V) => obs m f x.1 x.2 := by
  have h1 : Measurable fun x : ℝ × (Fin (N + 1) → V) => tau m x.1 x.2 • full x.2 :=
    (tau_measurable hm).smul (full_measurable.comp measurable_snd)
  exact (hf.comp h1).mul ((wt_measurable m).comp (measurable_fst.prodMk h1)).ennreal_ofReal

theorem obs_smul {m : Fin (N + 1 + 1) → ℝ} (hm : ∀ i, 0 ≤ m i) (f : (Fin (N + 1 + 1) → V) → ℝ≥0∞) (Q : ℝ) {t : ℝ} (ht : 0 < t)
    (k : Fin (N + 1) → V) : obs m f Q (t • k) = obs m f Q k := by
  unfold obs
  rw [tau_smul hm Q ht k]

theorem obs_measurable' {m : Fin (N + 1 + 1) → ℝ} (hm : ∀ i, 0 ≤ m i) {f : (Fin (N + 1 + 1) → V) → ℝ≥0∞} (hf : Measurable f)
    (Q : ℝ) : Measurable (obs m f Q) := by
  have h : Measurable fun k : Fin (N + 1) → V => (Q, k) := measurable_prodMk_left
  have h2 := obs_measurable hm hf
  generalize obs m f = F at h2
  exact h2.comp h

theorem ray_identity (m : Fin (N + 1 + 1) → ℝ) {w : Fin (N + 1) → V} (h : good w) (hM : 0 < Mt w) {t : ℝ} (ht : 0 < t) :
    ((4 * Real.pi) ^ (N + 2))⁻¹ * (2 ^ (2 * N + 3) * Real.pi * (N + 1).factorial * N.factorial)
        * (t * ∑ i, mags w i ^ 2 / Real.sqrt ((t * mags w i) ^ 2 + m i ^ 2)) * ((∏ i, ‖full w i‖⁻¹) / Mt w ^ (2 * N + 1))
        * wt m (etot m (mags w) t) (t • full w)
      = (1 / (2 * Real.pi)) ^ (3 * N + 2) * (t ^ (3 * N + 2) * ∏ i, (2 * en m (full (t • w)) i)⁻¹) := by
  have ha : ∀ i, 0 < mags w i := fun i => norm_pos_iff.mpr (h i)
  have hnorm : ∀ i, ‖(t • full w) i‖ = t * mags w i := fun i => by
    rw [Pi.smul_apply, norm_smul, Real.norm_eq_abs, abs_of_pos ht]; rfl
  obtain ⟨e, he⟩ : ∃ e : Fin (N + 1 + 1) → ℝ, e = fun i => Real.sqrt ((t * mags w i) ^ 2 + m i ^ 2) := ⟨_, rfl⟩
  have hen : ∀ i, en m (t • full w) i = e i := fun i => by rw [he]; unfold en; rw [hnorm]
  have hpos : ∀ i, 0 < e i := fun i => by
    rw [he]
    have := mul_pos ht (ha i)
    exact Real.sqrt_pos.mpr (by positivity)
  have hei : ∀ i, Real.sqrt ((t * mags w i) ^ 2 + m i ^ 2) = e i := fun i => by rw [he]
  have hQ : 0 < etot m (mags w) t := by
    unfold etot
    simp only [hei]
    exact Finset.sum_pos (fun i _ => hpos i) Finset.univ_nonempty
  have hS : 0 < ∑ i, mags w i ^ 2 / e i :=
    Finset.sum_pos (fun i _ => div_pos (pow_pos (ha i) 2) (hpos i)) Finset.univ_nonempty
  have hPa : 0 < ∏ i, mags w i := Finset.prod_pos fun i _ => ha i
  have hPe : 0 < ∏ i, e i := Finset.prod_pos fun i _ => hpos i
  have h0 := wt_algebra N ht hS hM hQ hPa hPe
  have q1 : ∏ i, ‖full w i‖⁻¹ = (∏ i, mags w i)⁻¹ := by rw [← Finset.prod_inv_distrib]; rfl
  have q2 : ∏ i, (2 * en m (full (t • w)) i)⁻¹ = (2 ^ (N + 2))⁻¹ * (∏ i, e i)⁻¹ := by
    rw [full_smul]
    simp only [hen, mul_inv]
    rw [Finset.prod_mul_distrib, Finset.prod_const, Finset.card_univ, Fintype.card_fin, Finset.prod_inv_distrib, inv_pow]
  have q3 : wt m (etot m (mags w) t) (t • full w) = (t * Mt w / etot m (mags w) t) ^ (2 * N + 1)
      / (t ^ 2 * ∑ i, mags w i ^ 2 / e i) * (t ^ (N + 2) * (∏ i, mags w i) / ∏ i, e i) * etot m (mags w) t
      * bw N (etot m (mags w) t) := by
    unfold wt
    simp only [hen, hnorm]
    have r1 : ∑ i, t * mags w i / etot m (mags w) t = t * Mt w / etot m (mags w) t := by
      rw [← Finset.sum_div, ← Finset.mul_sum]
      congr 2
      exact full_sum w
    have r2 : ∑ i, (t * mags w i) ^ 2 / e i = t ^ 2 * ∑ i, mags w i ^ 2 / e i := by
      rw [Finset.mul_sum]
      refine Finset.sum_congr rfl fun i _ => ?_
      ring
    have r3 : ∏ i, t * mags w i / e i = t ^ (N + 2) * (∏ i, mags w i) / ∏ i, e i := by
      rw [Finset.prod_div_distrib, Finset.prod_mul_distrib, Finset.prod_const, Finset.card_univ, Fintype.card_fin]
    rw [r1, r2, r3]
  simp only [hei]
  rw [q1, q2, q3]
  exact h0

theorem pack2 {c s d w l p q : ℝ} (g f : ℝ≥0∞) (hc : 0 ≤ c) (hs : 0 ≤ s) (hd : 0 ≤ d) (hl : 0 ≤ l) (hp : 0 ≤ p)
    (h : c * s * d * w = l * (p * q)) :
    ENNReal.ofReal c * (ENNReal.ofReal s * (g * (ENNReal.ofReal d * (f * ENNReal.ofReal w))))
      = ENNReal.ofReal l * (ENNReal.ofReal p * (ENNReal.ofReal q * (f * g))) := by
  have h1 : ENNReal.ofReal c * (ENNReal.ofReal s * (g * (ENNReal.ofReal d * (f * ENNReal.ofReal w))))
      = (ENNReal.ofReal c * ENNReal.ofReal s * ENNReal.ofReal d * ENNReal.ofReal w) * (f * g) := by ring
  have h2 : ENNReal.ofReal l * (ENNReal.ofReal p * (ENNReal.ofReal q * (f * g)))
      = (ENNReal.ofReal l * (ENNReal.ofReal p * ENNReal.ofReal q)) * (f * g) := by ring
  rw [h1, h2, ← ENNReal.ofReal_mul hc, ← ENNReal.ofReal_mul (by positivity), ← ENNReal.ofReal_mul (by positivity), h,
    ENNReal.ofReal_mul hl, ENNReal.ofReal_mul hp]

/-- Averages over the random momenta are integrals over phase space, for `N + 2` particles. -/
theorem phase_space {m : Fin (N + 1 + 1) → ℝ} (hm : ∀ i, 0 ≤ m i) {f : (Fin (N + 1 + 1) → V) → ℝ≥0∞} (hf : Measurable f)
    {g : ℝ → ℝ≥0∞} (hg : Measurable g) :
    ∫⁻ Q in Ioi (∑ i, m i), g Q * ∫⁻ q : Fin (N + 1 + 1) → V, ENNReal.ofReal (∏ i, rho (q i)) * obs m f Q (cmom q)
      = ENNReal.ofReal ((1 / (2 * Real.pi)) ^ (3 * N + 2))
        * ∫⁻ k : Fin (N + 1) → V, ENNReal.ofReal (∏ i, (2 * en m (full k) i)⁻¹) * (f (full k) * g (∑ i, en m (full k) i)) := by
  have hpi := Real.pi_pos
  obtain ⟨c, hc⟩ : ∃ c : ℝ, c = ((4 * Real.pi) ^ (N + 2))⁻¹ * (2 ^ (2 * N + 3) * Real.pi * (N + 1).factorial * N.factorial) := ⟨_, rfl⟩
  have hc0 : 0 ≤ c := by rw [hc]; positivity
  obtain ⟨D, hD⟩ : ∃ D : (Fin (N + 1) → V) → ℝ, D = fun w => (∏ i, ‖full w i‖⁻¹) / Mt w ^ (2 * N + 1) := ⟨_, rfl⟩
  have hDm : Measurable fun w => ENNReal.ofReal (D w) := by
    rw [hD]
    have h1 : Measurable fun w : Fin (N + 1) → V => ∏ i, ‖full w i‖⁻¹ :=
      Finset.measurable_prod _ fun i _ => (((measurable_pi_apply i).comp full_measurable).norm).inv
    exact (h1.div (Mt_continuous.measurable.pow_const _)).ennreal_ofReal
  have hobs := obs_measurable hm hf
  have hobsQ : ∀ Q, Measurable (obs m f Q) := obs_measurable' hm hf
  have hA : ∀ Q, ∫⁻ q : Fin (N + 1 + 1) → V, ENNReal.ofReal (∏ i, rho (q i)) * obs m f Q (cmom q)
      = ENNReal.ofReal c * ∫⁻ w in shell (N + 1), ENNReal.ofReal (D w) * obs m f Q w := by
    intro Q
    rw [hc, hD]
    exact events_lintegral (F := obs m f Q) (hobsQ Q) (fun t ht k => obs_smul hm f Q ht k)
  have hB : ∀ Q, g Q * ∫⁻ q : Fin (N + 1 + 1) → V, ENNReal.ofReal (∏ i, rho (q i)) * obs m f Q (cmom q)
      = ENNReal.ofReal c * ∫⁻ w in shell (N + 1), g Q * (ENNReal.ofReal (D w) * obs m f Q w) := by
    intro Q
    have hmq : Measurable fun w => ENNReal.ofReal (D w) * obs m f Q w := hDm.mul (hobsQ Q)
    rw [hA, lintegral_const_mul _ hmq]
    ring
  simp only [hB]
  rw [lintegral_const_mul' _ _ ENNReal.ofReal_ne_top, lintegral_lintegral_swap]
  swap
  · have : Measurable fun x : ℝ × (Fin (N + 1) → V) => g x.1 * (ENNReal.ofReal (D x.2) * obs m f x.1 x.2) :=
      (hg.comp measurable_fst).mul ((hDm.comp measurable_snd).mul hobs)
    exact this.aemeasurable
  have hes : Measurable fun k : Fin (N + 1) → V => ∑ i, en m (full k) i :=
    Finset.measurable_sum _ fun i _ => (en_measurable m i).comp full_measurable
  have hR : Measurable fun k : Fin (N + 1) → V =>
      ENNReal.ofReal (∏ i, (2 * en m (full k) i)⁻¹) * (f (full k) * g (∑ i, en m (full k) i)) := by
    refine Measurable.mul ?_ ((hf.comp full_measurable).mul (hg.comp hes))
    refine (Finset.measurable_prod _ fun i _ => ?_).ennreal_ofReal
    exact (((en_measurable m i).comp full_measurable).const_mul 2).inv
  rw [shell_lintegral (Nat.succ_pos N) hR, ← lintegral_const_mul' _ _ ENNReal.ofReal_ne_top,
    ← lintegral_const_mul' _ _ ENNReal.ofReal_ne_top]
  refine setLIntegral_congr_fun_ae shell_measurable ?_
  filter_upwards [good_ae (Nat.succ_pos N)] with w hw hws
  have hM : 0 < Mt w := lt_trans one_pos hws.1
  have hE := energy_lintegral hm hw (fun Q t => g Q * (ENNReal.ofReal (D w) * (f (t • full w) * ENNReal.ofReal (wt m Q (t • full w)))))
  have hlhs : ∫⁻ Q in Ioi (∑ i, m i), g Q * (ENNReal.ofReal (D w) * obs m f Q w)
      = ∫⁻ Q in Ioi (∑ i, m i), (fun Q t => g Q * (ENNReal.ofReal (D w) * (f (t • full w) * ENNReal.ofReal (wt m Q (t • full w))))) Q (tau m Q w) := rfl
  rw [hlhs, hE, ← lintegral_const_mul' _ _ ENNReal.ofReal_ne_top, ← lintegral_const_mul' _ _ ENNReal.ofReal_ne_top]
  refine setLIntegral_congr_fun measurableSet_Ioi fun t ht => ?_
  have ht0 : 0 < t := ht
  have hen : ∑ i, en m (full (t • w)) i = etot m (mags w) t := by
    unfold etot
    refine Finset.sum_congr rfl fun i _ => ?_
    unfold en mags
    rw [full_smul, Pi.smul_apply, norm_smul, Real.norm_eq_abs, abs_of_pos ht0]
  have hsub : 3 * (N + 1) - 1 = 3 * N + 2 := by omega
  simp only [hsub]
  rw [hen, full_smul]
  refine pack2 _ _ hc0 ?_ ?_ (by positivity) (by positivity) ?_
  · exact mul_nonneg ht0.le (Finset.sum_nonneg fun i _ => by positivity)
  · rw [hD]
    exact div_nonneg (Finset.prod_nonneg fun i _ => by positivity) (pow_nonneg hM.le _)
  · have := ray_identity m hw hM ht0
    rw [full_smul] at this
    rw [hc, hD]
    exact this

end Hazma.RamboMeasure
