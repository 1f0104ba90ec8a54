import Verif.Props.DecayChain
import Verif.Props.PhotonMuon
import Mathlib.Tactic

/-!
# Photons of decay chains (C309)

Radiation diverges at small photon energies, so the rest-frame spectra are only integrable above every positive energy, and the
code's closed forms become negative next to their end points.  Both are covered here: gains and losses are counted separately.
-/

namespace Hazma.BoostLorentz

open MeasureTheory Set Hazma.Boost Hazma.RamboMeasure
open scoped ENNReal

/-- Integrable above every positive energy. -/
def Soft (f : ℝ → ℝ) : Prop := ∀ δ, 0 < δ → IntegrableOn f (Ioi δ)

theorem lower_pos {b e : ℝ} (h0 : 0 < b) (h1 : b < 1) (he : 0 < e) :
    0 < lorentz b * (e - b * momentum e 0) ∧ lorentz b * (e - b * momentum e 0) ≤ lorentz b * (e + b * momentum e 0) := by
  have hg := lorentz_pos h0 h1
  rw [Spectra.momentum_zero he.le]
  refine ⟨mul_pos hg (by nlinarith), mul_le_mul_of_nonneg_left (by nlinarith [mul_pos h0 he]) hg.le⟩

theorem window_integrable {f : ℝ → ℝ} (hs : Soft f) {b e : ℝ} (h0 : 0 < b) (h1 : b < 1) (he : 0 < e) :
    IntervalIntegrable (fun x => f x / (2 * lorentz b * b * momentum x 0)) volume (lorentz b * (e - b * momentum e 0))
      (lorentz b * (e + b * momentum e 0)) := by
  obtain ⟨hl, hle⟩ := lower_pos h0 h1 he
  have hg := lorentz_pos h0 h1
  obtain ⟨lo, hlo⟩ : ∃ t, t = lorentz b * (e - b * momentum e 0) := ⟨_, rfl⟩
  rw [← hlo] at hl hle ⊢
  have h2 : IntervalIntegrable f volume lo (lorentz b * (e + b * momentum e 0)) := by
    rw [intervalIntegrable_iff_integrableOn_Ioc_of_le hle]
    exact (hs lo hl).mono_set Ioc_subset_Ioi_self
  simp only [div_eq_mul_inv]
  refine h2.mul_continuousOn ?_
  refine ContinuousOn.inv₀ ?_ ?_
  · unfold momentum
    fun_prop
  · intro x hx
    rw [uIcc_of_le hle] at hx
    have hx0 : 0 < x := lt_of_lt_of_le hl hx.1
    rw [Spectra.momentum_zero hx0.le]
    positivity

theorem boosted_sub {f g : ℝ → ℝ} (hf : Soft f) (hg : Soft g) {b e : ℝ} (h0 : 0 < b) (h1 : b < 1) (he : 0 < e) :
    Spectra.boosted (fun x => f x - g x) 0 b e = Spectra.boosted f 0 b e - Spectra.boosted g 0 b e := by
  unfold Spectra.boosted
  rw [← intervalIntegral.integral_sub (window_integrable hf h0 h1 he) (window_integrable hg h0 h1 he)]
  simp only [sub_div]

theorem boosted_add {f g : ℝ → ℝ} (hf : Soft f) (hg : Soft g) {b e : ℝ} (h0 : 0 < b) (h1 : b < 1) (he : 0 < e) :
    Spectra.boosted (fun x => f x + g x) 0 b e = Spectra.boosted f 0 b e + Spectra.boosted g 0 b e := by
  unfold Spectra.boosted
  rw [← intervalIntegral.integral_add (window_integrable hf h0 h1 he) (window_integrable hg h0 h1 he)]
  simp only [add_div]

theorem boosted_mul (c : ℝ) (f : ℝ → ℝ) (b e : ℝ) : Spectra.boosted (fun x => c * f x) 0 b e = c * Spectra.boosted f 0 b e := by
  unfold Spectra.boosted
  rw [← intervalIntegral.integral_const_mul]
  simp only [mul_div_assoc]

theorem boosted_mono {f g : ℝ → ℝ} (hf : Soft f) (hg : Soft g) (hfg : ∀ x, f x ≤ g x) {b e : ℝ} (h0 : 0 < b) (h1 : b < 1) (he : 0 < e) :
    Spectra.boosted f 0 b e ≤ Spectra.boosted g 0 b e := by
  obtain ⟨hl, hle⟩ := lower_pos h0 h1 he
  have hgp := lorentz_pos h0 h1
  unfold Spectra.boosted
  refine intervalIntegral.integral_mono_on hle (window_integrable hf h0 h1 he) (window_integrable hg h0 h1 he) fun x hx => ?_
  have hx0 : 0 < x := lt_of_lt_of_le hl hx.1
  rw [Spectra.momentum_zero hx0.le]
  exact div_le_div_of_nonneg_right (hfg x) (by positivity)

/-- Energies that cannot reach `e` do not matter. -/
theorem boosted_cut (f : ℝ → ℝ) {δ b e : ℝ} (h0 : 0 < b) (h1 : b < 1) (he : 0 < e) (hδ : δ ≤ lorentz b * (e - b * momentum e 0)) :
    Spectra.boosted ((Ioi δ).indicator f) 0 b e = Spectra.boosted f 0 b e := by
  obtain ⟨hl, hle⟩ := lower_pos h0 h1 he
  unfold Spectra.boosted
  rw [intervalIntegral.integral_of_le hle, intervalIntegral.integral_of_le hle]
  refine setIntegral_congr_fun measurableSet_Ioc fun x hx => ?_
  have : x ∈ Ioi δ := lt_of_le_of_lt hδ hx.1
  simp only [indicator_of_mem this]

theorem Soft.cut {f : ℝ → ℝ} (hs : Soft f) {δ : ℝ} (hδ : 0 < δ) : Integrable ((Ioi δ).indicator f) :=
  (integrable_indicator_iff measurableSet_Ioi).mpr (hs δ hδ)

theorem Soft.of_integrable {f : ℝ → ℝ} (h : IntegrableOn f (Ioi 0)) : Soft f := fun _ hδ => h.mono_set (Ioi_subset_Ioi hδ.le)

theorem Soft.boosted {f : ℝ → ℝ} (hs : Soft f) {b : ℝ} (h0 : 0 < b) (h1 : b < 1) : Soft (Spectra.boosted f 0 b) := by
  intro δ hδ
  obtain ⟨hl, -⟩ := lower_pos h0 h1 hδ
  have hg := lorentz_pos h0 h1
  have h2 := Spectra.boosted_integrable h0 h1 le_rfl (hs.cut hl).integrableOn
  refine (h2.mono_set (Ioi_subset_Ioi hδ.le)).congr ?_
  filter_upwards [ae_restrict_mem measurableSet_Ioi] with e he
  have he0 : 0 < e := lt_trans hδ he
  refine boosted_cut f h0 h1 he0 ?_
  rw [Spectra.momentum_zero hδ.le, Spectra.momentum_zero he0.le]
  have : δ < e := he
  exact mul_le_mul_of_nonneg_left (by nlinarith) hg.le

theorem Soft.add {f g : ℝ → ℝ} (hf : Soft f) (hg : Soft g) : Soft fun e => f e + g e := fun δ hδ => (hf δ hδ).add (hg δ hδ)

theorem Soft.mul {f : ℝ → ℝ} (hf : Soft f) (c : ℝ) : Soft fun e => c * f e := fun δ hδ => (hf δ hδ).const_mul c

theorem Soft.congr {f g : ℝ → ℝ} (hf : Soft f) (h : ∀ e, 0 < e → f e = g e) : Soft g := by
  intro δ hδ
  refine (hf δ hδ).congr ?_
  filter_upwards [ae_restrict_mem measurableSet_Ioi] with e he
  exact h e (lt_trans hδ he)

theorem Soft.pos {f : ℝ → ℝ} (hf : Soft f) : Soft fun e => max (f e) 0 := fun δ hδ => (hf δ hδ).pos_part

theorem Soft.neg {f : ℝ → ℝ} (hf : Soft f) : Soft fun e => max (-f e) 0 := fun δ hδ => (hf δ hδ).neg_part

theorem Soft.aemeasurable {f : ℝ → ℝ} (hf : Soft f) : AEMeasurable f (volume.restrict (Ioi 0)) := by
  have hU : Ioi (0 : ℝ) = ⋃ n : ℕ, Ioi (1 / ((n : ℝ) + 1)) := by
    ext x
    simp only [mem_Ioi, mem_iUnion]
    refine ⟨fun h => exists_nat_one_div_lt h, fun ⟨n, h⟩ => lt_trans (by positivity) h⟩
  rw [hU, aemeasurable_iUnion_iff]
  exact fun n => (hf _ (by positivity)).aestronglyMeasurable.aemeasurable

theorem Soft.density {f : ℝ → ℝ} (hf : Soft f) {H : ℝ → ℝ≥0∞} (hH : Measurable H) :
    AEMeasurable (fun e => ENNReal.ofReal (f e) * H e) (volume.restrict (Ioi 0)) :=
  hf.aemeasurable.ennreal_ofReal.mul hH.aemeasurable

theorem energies_measurable {v : V} (h0 : 0 < ‖v‖) (m : ℝ) {H : ℝ → ℝ≥0∞} (hH : Measurable H) :
    Measurable fun e => isotropic fun n => H (boostedEnergy v m e n) := by
  simp only [isotropic_lab h0 hH]
  refine Measurable.const_mul ?_ _
  refine Measurable.lintegral_prod_right' (f := fun p : ℝ × ℝ => H (labEnergy p.1 m ‖v‖ p.2)) (hH.comp ?_)
  unfold labEnergy momentum
  fun_prop

theorem cut_sup {f g : ℝ → ℝ} {e : ℝ} {F : ℕ → ℝ} (A : ℝ≥0∞) (hle : ∀ n, F n ≤ f e) {n : ℕ} (hn : F n = f e) :
    ⨆ n, ENNReal.ofReal (F n) * A = ENNReal.ofReal (f e) * A := by
  refine le_antisymm (iSup_le fun k => ?_) ?_
  · gcongr
    exact hle k
  · refine le_iSup_of_le n ?_
    rw [hn]

/-- The laboratory energies of a divergent spectrum. -/
theorem soft_spectrum {v : V} (h0 : 0 < ‖v‖) (h1 : ‖v‖ < 1) {f : ℝ → ℝ} (hpos : ∀ e, 0 ≤ f e) (hs : Soft f) {H : ℝ → ℝ≥0∞}
    (hH : Measurable H) :
    ∫⁻ e in Ioi 0, ENNReal.ofReal (f e) * isotropic (fun x => H (boostedEnergy v 0 e x))
      = ∫⁻ e in Ioi 0, ENNReal.ofReal (Spectra.boosted f 0 ‖v‖ e) * H e := by
  obtain ⟨F, hF⟩ : ∃ F : ℕ → ℝ → ℝ, F = fun n : ℕ => (Ioi (1 / ((n : ℝ) + 1))).indicator f := ⟨_, rfl⟩
  have hFi : ∀ n, Integrable (F n) := fun n => by rw [hF]; exact hs.cut (by positivity)
  have hFs : ∀ n, Soft (F n) := fun n => Soft.of_integrable (hFi n).integrableOn
  have hFp : ∀ n e, 0 ≤ F n e := fun n e => by rw [hF]; exact indicator_nonneg (fun x _ => hpos x) e
  have hFf : ∀ n e, F n e ≤ f e := fun n e => by rw [hF]; exact indicator_le_self' (fun x _ => hpos x) e
  have hmono : ∀ e, Monotone fun n => F n e := by
    intro e n k hnk
    simp only [hF]
    refine indicator_le_indicator_of_subset (Ioi_subset_Ioi ?_) hpos e
    exact one_div_le_one_div_of_le (by positivity) (by exact_mod_cast Nat.succ_le_succ hnk)
  have key : ∀ n, ∫⁻ e in Ioi 0, ENNReal.ofReal (F n e) * isotropic (fun x => H (boostedEnergy v 0 e x))
      = ∫⁻ e in Ioi 0, ENNReal.ofReal (Spectra.boosted (F n) 0 ‖v‖ e) * H e :=
    fun n => boosted_spectrum h0 h1 le_rfl (fun e _ => hFp n e) (hFi n).integrableOn hH
  have hA := energies_measurable h0 0 hH
  have hL : ∫⁻ e in Ioi 0, ENNReal.ofReal (f e) * isotropic (fun x => H (boostedEnergy v 0 e x))
      = ∫⁻ e in Ioi 0, ⨆ n, ENNReal.ofReal (F n e) * isotropic (fun x => H (boostedEnergy v 0 e x)) := by
    refine setLIntegral_congr_fun measurableSet_Ioi fun e he => ?_
    obtain ⟨n, hn⟩ := exists_nat_one_div_lt (show (0 : ℝ) < e from he)
    refine (cut_sup (f := f) (g := f) _ (fun n => hFf n e) (n := n) ?_).symm
    rw [hF]
    exact indicator_of_mem (show e ∈ Ioi _ from hn) f
  have hR : ∫⁻ e in Ioi 0, ENNReal.ofReal (Spectra.boosted f 0 ‖v‖ e) * H e
      = ∫⁻ e in Ioi 0, ⨆ n, ENNReal.ofReal (Spectra.boosted (F n) 0 ‖v‖ e) * H e := by
    refine setLIntegral_congr_fun measurableSet_Ioi fun e he => ?_
    have he0 : (0 : ℝ) < e := he
    obtain ⟨hl, -⟩ := lower_pos h0 h1 he0
    obtain ⟨n, hn⟩ := exists_nat_one_div_lt hl
    refine (cut_sup (f := Spectra.boosted f 0 ‖v‖) (g := f) _ (fun n => boosted_mono (hFs n) hs (hFf n) h0 h1 he0) (n := n) ?_).symm
    rw [hF]
    exact boosted_cut f h0 h1 he0 hn.le
  rw [hL, hR, lintegral_iSup', lintegral_iSup']
  · simp only [key]
  · intro n
    exact ((hFs n).boosted h0 h1).aemeasurable.ennreal_ofReal.mul hH.aemeasurable
  · filter_upwards [ae_restrict_mem measurableSet_Ioi] with e he n k hnk
    have := boosted_mono (hFs n) (hFs k) (fun x => hmono x hnk) h0 h1 (show (0 : ℝ) < e from he)
    exact mul_le_mul' (ENNReal.ofReal_le_ofReal this) le_rfl
  · intro n
    exact (hFs n).aemeasurable.ennreal_ofReal.mul hA.aemeasurable
  · refine Filter.Eventually.of_forall fun e n k hnk => ?_
    have := hmono e hnk
    exact mul_le_mul' (ENNReal.ofReal_le_ofReal this) le_rfl

/-- The laboratory energies of a two-step chain that ends in a divergent spectrum. -/
theorem soft_chain {v : V} (h0 : 0 < ‖v‖) (h1 : ‖v‖ < 1) {b : ℝ} (hb0 : 0 < b) (hb1 : b < 1) {f : ℝ → ℝ} (hpos : ∀ e, 0 ≤ f e)
    (hs : Soft f) {H : ℝ → ℝ≥0∞} (hH : Measurable H) :
    ∫⁻ e in Ioi 0, ENNReal.ofReal (f e) * isotropic (fun x => isotropic fun y => H (chainEnergy v b 0 e x y))
      = ∫⁻ e in Ioi 0, ENNReal.ofReal (Spectra.boosted (Spectra.boosted f 0 b) 0 ‖v‖ e) * H e := by
  have hbx : ∀ x : S2, ‖b • (x : V)‖ = b := fun x => by rw [norm_smul]; simp [abs_of_pos hb0]
  have hA := energies_measurable h0 0 hH
  obtain ⟨n0⟩ : Nonempty S2 := ⟨⟨vec 0 0 1, by rw [mem_sphere_zero_iff_norm, vec_norm]; simp⟩⟩
  have e1 : ∀ e ∈ Ioi (0 : ℝ), ENNReal.ofReal (f e) * isotropic (fun x => isotropic fun y => H (chainEnergy v b 0 e x y))
      = ENNReal.ofReal (f e) * isotropic fun y => isotropic fun n => H (boostedEnergy v 0 (boostedEnergy (b • (n0 : V)) 0 e y) n) := by
    intro e he
    rw [chain_isotropic h0 hb0 hb1 le_rfl he hH]
    congr 1
    have e2 : ∀ x : S2, (isotropic fun y => isotropic fun n => H (boostedEnergy v 0 (boostedEnergy (b • (x : V)) 0 e y) n))
        = isotropic fun y => isotropic fun n => H (boostedEnergy v 0 (boostedEnergy (b • (n0 : V)) 0 e y) n) := by
      intro x
      have hx := isotropic_lab (v := b • (x : V)) (by rw [hbx]; exact hb0) (m := 0) (e := e) hA
      have hn := isotropic_lab (v := b • (n0 : V)) (by rw [hbx]; exact hb0) (m := 0) (e := e) hA
      rw [hbx] at hx hn
      rw [hx, hn]
    simp only [e2]
    exact isotropic_const _
  rw [setLIntegral_congr_fun measurableSet_Ioi e1]
  rw [soft_spectrum (v := b • (n0 : V)) (by rw [hbx]; exact hb0) (by rw [hbx]; exact hb1) hpos hs hA, hbx,
    soft_spectrum h0 h1 (f := Spectra.boosted f 0 b) (fun e => Spectra.boost_nonneg _ _ _ _ hb0 hb1 hpos) (hs.boosted hb0 hb1) hH]

/-- Concrete case: the spectrum `1/e` up to 1 stays `1/e` below the Doppler-shifted end point, although the number of photons is
infinite in both frames. -/
example {b e : ℝ} (h0 : 0 < b) (h1 : b < 1) (he : 0 < e) (hsmall : lorentz b * (e + b * e) ≤ 1) :
    Spectra.boosted (fun x => if x ≤ 1 then 1 / x else 0) 0 b e = 1 / e := by
  obtain ⟨hl, hle⟩ := lower_pos h0 h1 he
  rw [Spectra.momentum_zero he.le] at hl hle
  have hg := lorentz_pos h0 h1
  have hg2 := lorentz_gamma h0.le h1
  unfold Spectra.boosted
  rw [Spectra.momentum_zero he.le]
  have hlhi : 0 < lorentz b * (e + b * e) := lt_of_lt_of_le hl hle
  have hcongr : ∀ x ∈ uIcc (lorentz b * (e - b * e)) (lorentz b * (e + b * e)),
      (if x ≤ 1 then 1 / x else 0) / (2 * lorentz b * b * momentum x 0) = (1 / (2 * lorentz b * b)) * x ^ (-2 : ℤ) := by
    intro x hx
    rw [uIcc_of_le hle] at hx
    have hx0 : 0 < x := lt_of_lt_of_le hl hx.1
    rw [if_pos (hx.2.trans hsmall), Spectra.momentum_zero hx0.le]
    have : x ^ (-2 : ℤ) = 1 / (x * x) := by rw [zpow_neg]; norm_cast; rw [pow_two, one_div]
    rw [this]
    field_simp
  rw [intervalIntegral.integral_congr hcongr, intervalIntegral.integral_const_mul,
    integral_zpow (Or.inr ⟨by norm_num, by rw [uIcc_of_le hle]; exact fun h => absurd h.1 (not_le.mpr hl)⟩)]
  have e1 : e - b * e = e * (1 - b) := by ring
  have e2 : e + b * e = e * (1 + b) := by ring
  rw [e1, e2] at *
  have h3 : (0 : ℝ) < 1 - b := by linarith
  norm_num
  field_simp
  nlinarith

/-! ### Gains and losses -/

theorem balance_point {p n s : ℝ} (hp : 0 ≤ p) (hn : 0 ≤ n) (h : p - n = s) (A : ℝ≥0∞) :
    ENNReal.ofReal p * A + ENNReal.ofReal (-s) * A = ENNReal.ofReal n * A + ENNReal.ofReal s * A := by
  rw [← add_mul, ← add_mul]
  congr 1
  rcases le_total 0 s with h0 | h0
  · rw [ENNReal.ofReal_of_nonpos (by linarith : -s ≤ 0), add_zero, ← ENNReal.ofReal_add hn h0]
    congr 1
    linarith
  · rw [ENNReal.ofReal_of_nonpos h0, add_zero, ← ENNReal.ofReal_add hp (by linarith)]
    congr 1
    linarith

theorem balance {P N S : ℝ → ℝ} {H : ℝ → ℝ≥0∞} (hH : Measurable H) (hP : Soft P) (hN : Soft N) (hP0 : ∀ e, 0 < e → 0 ≤ P e)
    (hN0 : ∀ e, 0 < e → 0 ≤ N e) (h : ∀ e, 0 < e → P e - N e = S e) :
    (∫⁻ e in Ioi 0, ENNReal.ofReal (P e) * H e) + ∫⁻ e in Ioi 0, ENNReal.ofReal (-S e) * H e
      = (∫⁻ e in Ioi 0, ENNReal.ofReal (N e) * H e) + ∫⁻ e in Ioi 0, ENNReal.ofReal (S e) * H e := by
  rw [← lintegral_add_left' (hP.density hH),
    ← lintegral_add_left' (hN.density hH)]
  exact setLIntegral_congr_fun measurableSet_Ioi fun e he => balance_point (hP0 e he) (hN0 e he) (h e he) (H e)

theorem ofReal_max (x : ℝ) : ENNReal.ofReal (max x 0) = ENNReal.ofReal x := by
  rcases le_total 0 x with h | h
  · rw [max_eq_left h]
  · rw [max_eq_right h, ENNReal.ofReal_of_nonpos h, ENNReal.ofReal_zero]

theorem parts (x : ℝ) : max x 0 - max (-x) 0 = x := by
  rcases le_total 0 x with h | h
  · rw [max_eq_left h, max_eq_right (by linarith), sub_zero]
  · rw [max_eq_right h, max_eq_left (by linarith)]; ring

theorem boosted_parts {f : ℝ → ℝ} (hs : Soft f) {b e : ℝ} (h0 : 0 < b) (h1 : b < 1) (he : 0 < e) :
    Spectra.boosted (fun x => max (f x) 0) 0 b e - Spectra.boosted (fun x => max (-f x) 0) 0 b e = Spectra.boosted f 0 b e := by
  rw [← boosted_sub hs.pos hs.neg h0 h1 he]
  simp only [parts]

theorem chain_parts {f : ℝ → ℝ} (hs : Soft f) {b c e : ℝ} (h0 : 0 < b) (h1 : b < 1) (hc0 : 0 < c) (hc1 : c < 1) (he : 0 < e) :
    Spectra.boosted (Spectra.boosted (fun x => max (f x) 0) 0 c) 0 b e - Spectra.boosted (Spectra.boosted (fun x => max (-f x) 0) 0 c) 0 b e
      = Spectra.boosted (Spectra.boosted f 0 c) 0 b e := by
  rw [← boosted_sub (hs.pos.boosted hc0 hc1) (hs.neg.boosted hc0 hc1) h0 h1 he]
  exact boosted_congr h0 h1 le_rfl (fun x hx => boosted_parts hs hc0 hc1 hx) he

/-- A spectrum emitted by a moving particle itself (`g`) and by a particle it sends out with speed `c` (`f`): gains and losses of the
laboratory spectrum `S` and of the rest-frame spectra balance. -/
theorem chain_balance {v : V} (h0 : 0 < ‖v‖) (h1 : ‖v‖ < 1) {c : ℝ} (hc0 : 0 < c) (hc1 : c < 1) {f g : ℝ → ℝ} (hf : Soft f) (hg : Soft g)
    {A : ℝ} (hA : 0 ≤ A) {S : ℝ → ℝ}
    (hS : ∀ e, 0 < e → S e = A * Spectra.boosted (Spectra.boosted f 0 c) 0 ‖v‖ e + Spectra.boosted g 0 ‖v‖ e) {H : ℝ → ℝ≥0∞}
    (hH : Measurable H) :
    ENNReal.ofReal A * (∫⁻ e in Ioi 0, ENNReal.ofReal (f e) * isotropic (fun x => isotropic fun y => H (chainEnergy v c 0 e x y)))
        + (∫⁻ e in Ioi 0, ENNReal.ofReal (g e) * isotropic (fun x => H (boostedEnergy v 0 e x)))
        + ∫⁻ e in Ioi 0, ENNReal.ofReal (-S e) * H e
      = ENNReal.ofReal A * (∫⁻ e in Ioi 0, ENNReal.ofReal (-f e) * isotropic (fun x => isotropic fun y => H (chainEnergy v c 0 e x y)))
        + (∫⁻ e in Ioi 0, ENNReal.ofReal (-g e) * isotropic (fun x => H (boostedEnergy v 0 e x)))
        + ∫⁻ e in Ioi 0, ENNReal.ofReal (S e) * H e := by
  have comb : ∀ {a d : ℝ → ℝ}, (∀ e, 0 ≤ a e) → (∀ e, 0 ≤ d e) → Soft a → Soft d →
      ENNReal.ofReal A * (∫⁻ e in Ioi 0, ENNReal.ofReal (a e) * isotropic (fun x => isotropic fun y => H (chainEnergy v c 0 e x y)))
        + (∫⁻ e in Ioi 0, ENNReal.ofReal (d e) * isotropic (fun x => H (boostedEnergy v 0 e x)))
      = ∫⁻ e in Ioi 0, ENNReal.ofReal (A * Spectra.boosted (Spectra.boosted a 0 c) 0 ‖v‖ e + Spectra.boosted d 0 ‖v‖ e) * H e := by
    intro a d ha hd has hds
    rw [soft_chain h0 h1 hc0 hc1 ha has hH, soft_spectrum h0 h1 hd hds hH, ← lintegral_const_mul' _ _ ENNReal.ofReal_ne_top,
      ← lintegral_add_right' _ ((hds.boosted h0 h1).density hH)]
    refine lintegral_congr fun e => ?_
    have n1 : 0 ≤ Spectra.boosted (Spectra.boosted a 0 c) 0 ‖v‖ e :=
      Spectra.boost_nonneg _ _ _ _ h0 h1 fun x => Spectra.boost_nonneg _ _ _ _ hc0 hc1 ha
    have n2 : 0 ≤ Spectra.boosted d 0 ‖v‖ e := Spectra.boost_nonneg _ _ _ _ h0 h1 hd
    rw [ENNReal.ofReal_add (mul_nonneg hA n1) n2, ENNReal.ofReal_mul hA]
    ring
  have c1 := comb (fun e => le_max_right (f e) 0) (fun e => le_max_right (g e) 0) hf.pos hg.pos
  have c2 := comb (fun e => le_max_right (-f e) 0) (fun e => le_max_right (-g e) 0) hf.neg hg.neg
  simp only [ofReal_max] at c1 c2
  rw [c1, c2]
  have nn : ∀ {a d : ℝ → ℝ}, (∀ e, 0 ≤ a e) → (∀ e, 0 ≤ d e) → ∀ e : ℝ,
      0 ≤ A * Spectra.boosted (Spectra.boosted a 0 c) 0 ‖v‖ e + Spectra.boosted d 0 ‖v‖ e := fun ha hd e =>
    add_nonneg (mul_nonneg hA (Spectra.boost_nonneg _ _ _ _ h0 h1 fun x => Spectra.boost_nonneg _ _ _ _ hc0 hc1 ha))
      (Spectra.boost_nonneg _ _ _ _ h0 h1 hd)
  refine balance hH ((((hf.pos.boosted hc0 hc1).boosted h0 h1).mul A).add (hg.pos.boosted h0 h1))
    ((((hf.neg.boosted hc0 hc1).boosted h0 h1).mul A).add (hg.neg.boosted h0 h1))
    (fun e _ => nn (fun e => le_max_right (f e) 0) (fun e => le_max_right (g e) 0) e)
    (fun e _ => nn (fun e => le_max_right (-f e) 0) (fun e => le_max_right (-g e) 0) e) fun e he => ?_
  have q1 := chain_parts hf h0 h1 hc0 hc1 he
  have q2 := boosted_parts hg h0 h1 he
  rw [hS e he, ← q1, ← q2]
  ring

/-- The case without a second step. -/
theorem emission_balance {v : V} (h0 : 0 < ‖v‖) (h1 : ‖v‖ < 1) {f S : ℝ → ℝ} (hf : Soft f)
    (hS : ∀ e, 0 < e → S e = Spectra.boosted f 0 ‖v‖ e) {H : ℝ → ℝ≥0∞} (hH : Measurable H) :
    (∫⁻ e in Ioi 0, ENNReal.ofReal (f e) * isotropic (fun x => H (boostedEnergy v 0 e x))) + ∫⁻ e in Ioi 0, ENNReal.ofReal (-S e) * H e
      = (∫⁻ e in Ioi 0, ENNReal.ofReal (-f e) * isotropic (fun x => H (boostedEnergy v 0 e x)))
        + ∫⁻ e in Ioi 0, ENNReal.ofReal (S e) * H e := by
  have c1 := soft_spectrum h0 h1 (fun e => le_max_right (f e) 0) hf.pos hH
  have c2 := soft_spectrum h0 h1 (fun e => le_max_right (-f e) 0) hf.neg hH
  simp only [ofReal_max] at c1 c2
  rw [c1, c2]
  refine balance hH (hf.pos.boosted h0 h1) (hf.neg.boosted h0 h1)
    (fun e _ => Spectra.boost_nonneg _ _ _ _ h0 h1 fun e => le_max_right (f e) 0)
    (fun e _ => Spectra.boost_nonneg _ _ _ _ h0 h1 fun e => le_max_right (-f e) 0) fun e he => ?_
  rw [hS e he, boosted_parts hf h0 h1 he]

/-! ### The spectra at rest -/

theorem soft_of_continuous {f : ℝ → ℝ} {b : ℝ} (hc : ∀ δ, 0 < δ → ContinuousOn f (Icc δ b)) (hz : ∀ x, b < x → f x = 0) : Soft f := by
  intro δ hδ
  have hsub : Ioi δ ⊆ Icc δ b ∪ Ioi b := by
    intro x hx
    rcases le_or_gt x b with h | h
    · exact Or.inl ⟨le_of_lt hx, h⟩
    · exact Or.inr h
  refine IntegrableOn.mono_set (IntegrableOn.union (hc δ hδ).integrableOn_Icc ?_) hsub
  exact (integrableOn_congr_fun (fun x hx => hz x hx) measurableSet_Ioi).mpr integrableOn_zero

theorem photonRestFull_soft : Soft Spectra.photonRestFull := by
  have hm := Spectra.massMu_pos
  have hr := Spectra.rr_pos
  have hs : Soft fun e => if 2 / Spectra.massMu * e ≤ 1 - Spectra.rr ^ 2 then
      2 * Spectra.alphaEM / (3 * Real.pi * Spectra.massMu) * (Spectra.radBracket (2 / Spectra.massMu * e) / (2 / Spectra.massMu * e)) else 0 := by
    refine soft_of_continuous (b := Spectra.massMu / 2 * (1 - Spectra.rr ^ 2)) (fun δ hδ => ?_) fun x hx => ?_
    · have hc : ContinuousOn (fun e => 2 * Spectra.alphaEM / (3 * Real.pi * Spectra.massMu)
          * (Spectra.radBracket (2 / Spectra.massMu * e) / (2 / Spectra.massMu * e))) (Icc δ (Spectra.massMu / 2 * (1 - Spectra.rr ^ 2))) := by
        unfold Spectra.radBracket
        have hx1 : ∀ x ∈ Icc δ (Spectra.massMu / 2 * (1 - Spectra.rr ^ 2)), (1 - 2 / Spectra.massMu * x) / Spectra.rr ^ 2 ≠ 0 := by
          intro x hx
          have : 2 / Spectra.massMu * x ≤ 1 - Spectra.rr ^ 2 := by
            rw [← Spectra.nu_xmax]
            exact mul_le_mul_of_nonneg_left hx.2 (by positivity)
          have h3 : 0 < Spectra.rr ^ 2 := by positivity
          exact (div_pos (by linarith) h3).ne'
        have hx2 : ∀ x ∈ Icc δ (Spectra.massMu / 2 * (1 - Spectra.rr ^ 2)), 2 / Spectra.massMu * x ≠ 0 := by
          intro x hx
          have : 0 < x := lt_of_lt_of_le hδ hx.1
          positivity
        refine ContinuousOn.mul continuousOn_const (ContinuousOn.div ?_ (by fun_prop) hx2)
        refine ContinuousOn.add (ContinuousOn.mul (by fun_prop) (ContinuousOn.log (by fun_prop) hx1)) (by fun_prop)
      refine hc.congr fun x hx => ?_
      have : 2 / Spectra.massMu * x ≤ 1 - Spectra.rr ^ 2 := by
        rw [← Spectra.nu_xmax]
        exact mul_le_mul_of_nonneg_left hx.2 (by positivity)
      simp only [if_pos this]
    · rw [if_neg]
      have : 2 / Spectra.massMu * (Spectra.massMu / 2 * (1 - Spectra.rr ^ 2)) < 2 / Spectra.massMu * x :=
        mul_lt_mul_of_pos_left hx (by positivity)
      rw [Spectra.nu_xmax] at this
      linarith
  intro δ hδ
  refine (hs δ hδ).congr ?_
  have hae : ∀ᵐ e : ℝ, e ≠ Spectra.massMu / 2 * (1 - Spectra.rr ^ 2) := measure_eq_zero_iff_ae_notMem.mp (measure_singleton _)
  filter_upwards [ae_restrict_mem measurableSet_Ioi, ae_restrict_of_ae hae] with e he hne
  have he0 : 0 < e := lt_trans hδ he
  unfold Spectra.photonRestFull
  by_cases h : 2 / Spectra.massMu * e < 1 - Spectra.rr ^ 2
  · rw [if_pos h.le, if_pos ⟨he0, h⟩]
  · rw [if_neg, if_neg fun hh => h hh.2]
    intro hle
    refine hne ?_
    have : 2 / Spectra.massMu * e = 1 - Spectra.rr ^ 2 := le_antisymm hle (not_lt.mp h)
    rw [← this]
    field_simp

theorem dndePiLNuG_soft {ml : ℝ} (h0 : 0 < ml) (h1 : ml < Spectra.massPi) : Soft fun e => Spectra.dndePiLNuG e ml := by
  have hm := Spectra.massPi_pos
  obtain ⟨r, hr⟩ : ∃ r, r = ml / Spectra.massPi * (ml / Spectra.massPi) := ⟨_, rfl⟩
  have hr0 : 0 < r := by rw [hr]; positivity
  have hr1 : r < 1 := by
    have : ml / Spectra.massPi < 1 := (div_lt_one hm).mpr h1
    have : 0 < ml / Spectra.massPi := by positivity
    rw [hr]; nlinarith
  refine soft_of_continuous (b := Spectra.massPi / 2 * (1 - r)) (fun δ hδ => ?_) fun x hx => ?_
  · have hx : ∀ e ∈ Icc δ (Spectra.massPi / 2 * (1 - r)), 0 < 2 * e / Spectra.massPi ∧ 2 * e / Spectra.massPi ≤ 1 - r := by
      intro e he
      have : 0 < e := lt_of_lt_of_le hδ he.1
      refine ⟨by positivity, ?_⟩
      rw [div_le_iff₀ hm]
      linarith [he.2]
    unfold Spectra.dndePiLNuG
    simp only [← hr]
    have hfpi : Spectra.decayConstPi * (1 / Real.sqrt 2) ≠ 0 := by
      unfold Spectra.decayConstPi
      positivity
    generalize Spectra.decayConstPi * (1 / Real.sqrt 2) = fpi at hfpi ⊢
    refine ContinuousOn.congr (f := fun e => _) ?_ fun e he => if_neg (by push Not; exact ⟨(hx e he).1.le, (hx e he).2⟩)
    refine ContinuousOn.div ?_ (by fun_prop) fun e he => ?_
    · refine ContinuousOn.mul (ContinuousOn.add (ContinuousOn.mul (by fun_prop) (ContinuousOn.mul (ContinuousOn.log ?_ ?_) (by fun_prop))) (by fun_prop))
        (by fun_prop)
      · refine ContinuousOn.div (by fun_prop) (by fun_prop) fun e he => ?_
        linarith [(hx e he).2]
      · intro e he
        have : 0 < 1 - 2 * e / Spectra.massPi := by linarith [(hx e he).2]
        positivity
    · have a1 := (hx e he).1.ne'
      have a2 : 2 * e / Spectra.massPi - 1 ≠ 0 := by linarith [(hx e he).2]
      have a3 : r - 1 ≠ 0 := by linarith
      have := Real.pi_pos
      positivity
  · unfold Spectra.dndePiLNuG
    simp only [← hr]
    rw [if_pos]
    right
    rw [lt_div_iff₀ hm]
    linarith

/-! ### The photons the code gives -/

theorem moves {m : ℝ} (hm : 0 < m) {P : V} (hP : m < Real.sqrt (m ^ 2 + ‖P‖ ^ 2)) : P ≠ 0 := by
  rintro rfl
  rw [norm_zero, zero_pow two_ne_zero, add_zero, Real.sqrt_sq hm.le] at hP
  exact lt_irrefl _ hP

/-- **C309, muons.** -/
theorem muon_photons {P : V} (hP : Spectra.f64eps ≤ Real.sqrt (Spectra.massMu ^ 2 + ‖P‖ ^ 2) - Spectra.massMu) {H : ℝ → ℝ≥0∞}
    (hH : Measurable H) :
    let E := Real.sqrt (Spectra.massMu ^ 2 + ‖P‖ ^ 2)
    let v := velocity Spectra.massMu P
    (∫⁻ e in Ioi 0, ENNReal.ofReal (Spectra.photonRestFull e) * isotropic (fun x => H (boostedEnergy v 0 e x)))
        + ∫⁻ e in Ioi 0, ENNReal.ofReal (-Spectra.dndePhotonMuon e E) * H e
      = (∫⁻ e in Ioi 0, ENNReal.ofReal (-Spectra.photonRestFull e) * isotropic (fun x => H (boostedEnergy v 0 e x)))
        + ∫⁻ e in Ioi 0, ENNReal.ofReal (Spectra.dndePhotonMuon e E) * H e := by
  intro E v
  have hep := Spectra.eps_pos
  obtain ⟨-, hv, h0, h1⟩ := velocity_norm Spectra.massMu_pos (moves Spectra.massMu_pos (by linarith) : P ≠ 0)
  refine emission_balance h0 h1 photonRestFull_soft (S := fun e => Spectra.dndePhotonMuon e E) (fun e he => ?_) hH
  rw [Spectra.photon_muon_flight_is_boost e E he hP, hv]

theorem muonPi : Spectra.f64eps ≤ Spectra.engMuPirf - Spectra.massMu := by
  unfold Spectra.f64eps Spectra.engMuPirf Spectra.massMu
  norm_num

/-- Photons a charged pion at rest emits itself: the radiative decays. -/
noncomputable def radiative (e : ℝ) : ℝ :=
  Spectra.brPiMuNu * Spectra.dndePiLNuG e Spectra.massMu + Spectra.brPiENu * Spectra.dndePiLNuG e Spectra.massE

theorem radiative_soft : Soft radiative :=
  ((dndePiLNuG_soft Spectra.massMu_pos (by unfold Spectra.massMu Spectra.massPi; norm_num)).mul _).add
    ((dndePiLNuG_soft Spectra.massE_pos (by unfold Spectra.massE Spectra.massPi; norm_num)).mul _)

theorem muonInPion : 0 < boostBeta Spectra.engMuPirf Spectra.massMu ∧ boostBeta Spectra.engMuPirf Spectra.massMu < 1 := by
  obtain ⟨h0, h1, -, -⟩ := Spectra.parent_boost Spectra.massMu_pos (by linarith [muonPi, Spectra.eps_pos] : Spectra.massMu < Spectra.engMuPirf)
  exact ⟨h0, h1⟩

theorem photonPionRest_eq {e : ℝ} (he : 0 < e) : Spectra.photonPionRest e
    = Spectra.brPiMuNu * Spectra.boosted Spectra.photonRestFull 0 (boostBeta Spectra.engMuPirf Spectra.massMu) e + radiative e := by
  unfold Spectra.photonPionRest radiative
  rw [Spectra.photon_muon_flight_is_boost e _ he muonPi]
  ring

theorem photonPionRest_soft : Soft Spectra.photonPionRest := by
  obtain ⟨hb0, hb1⟩ := muonInPion
  exact (((photonRestFull_soft.boosted hb0 hb1).mul Spectra.brPiMuNu).add radiative_soft).congr fun e he => (photonPionRest_eq he).symm

/-- **C309, charged pions.** The muon from the pion radiates in its own rest frame; the pion's radiative decays come on top. -/
theorem pion_photons {P : V} (hP : P ≠ 0) {H : ℝ → ℝ≥0∞} (hH : Measurable H) :
    let S := fun e => Spectra.dndePhotonChargedPion e (Real.sqrt (Spectra.massPi ^ 2 + ‖P‖ ^ 2))
    let v := velocity Spectra.massPi P
    let c := boostBeta Spectra.engMuPirf Spectra.massMu
    ENNReal.ofReal Spectra.brPiMuNu
          * (∫⁻ e in Ioi 0, ENNReal.ofReal (Spectra.photonRestFull e) * isotropic (fun x => isotropic fun y => H (chainEnergy v c 0 e x y)))
        + (∫⁻ e in Ioi 0, ENNReal.ofReal (radiative e) * isotropic (fun x => H (boostedEnergy v 0 e x)))
        + ∫⁻ e in Ioi 0, ENNReal.ofReal (-S e) * H e
      = ENNReal.ofReal Spectra.brPiMuNu
          * (∫⁻ e in Ioi 0, ENNReal.ofReal (-Spectra.photonRestFull e) * isotropic (fun x => isotropic fun y => H (chainEnergy v c 0 e x y)))
        + (∫⁻ e in Ioi 0, ENNReal.ofReal (-radiative e) * isotropic (fun x => H (boostedEnergy v 0 e x)))
        + ∫⁻ e in Ioi 0, ENNReal.ofReal (S e) * H e := by
  intro S v c
  obtain ⟨hb0, hb1⟩ := muonInPion
  obtain ⟨hlt, hv, h0, h1⟩ := velocity_norm Spectra.massPi_pos hP
  refine chain_balance h0 h1 hb0 hb1 photonRestFull_soft radiative_soft (by unfold Spectra.brPiMuNu; norm_num) (fun e he => ?_) hH
  change Spectra.dndePhotonChargedPion e (Real.sqrt (Spectra.massPi ^ 2 + ‖P‖ ^ 2)) = _
  rw [(Spectra.charged_pion_photon_is_boost e _ he).1 hlt, ← hv, boosted_congr h0 h1 le_rfl (fun x hx => photonPionRest_eq hx) he,
    boosted_add ((photonRestFull_soft.boosted hb0 hb1).mul _) radiative_soft h0 h1 he, boosted_mul]

theorem pionInRho {E : ℝ} (h : Spectra.massPi < E) : 0 < boostBeta E Spectra.massPi ∧ boostBeta E Spectra.massPi < 1 := by
  obtain ⟨h0, h1, -, -⟩ := Spectra.parent_boost Spectra.massPi_pos h
  exact ⟨h0, h1⟩

/-- **C309, neutral rho mesons.** Two charged pions of half the mass each, in random directions, each radiating as a pion at rest does. -/
theorem neutral_rho_photons {P : V} (hP : Spectra.f64eps ≤ Real.sqrt (Spectra.massRho ^ 2 + ‖P‖ ^ 2) - Spectra.massRho) {H : ℝ → ℝ≥0∞}
    (hH : Measurable H) :
    let S := fun e => Spectra.dndePhotonNeutralRho e (Real.sqrt (Spectra.massRho ^ 2 + ‖P‖ ^ 2))
    let v := velocity Spectra.massRho P
    let c := boostBeta (Spectra.massRho / 2) Spectra.massPi
    let f := fun e => Spectra.dndePhotonChargedPion e Spectra.massPi
    2 * (∫⁻ e in Ioi 0, ENNReal.ofReal (f e) * isotropic (fun x => isotropic fun y => H (chainEnergy v c 0 e x y)))
        + ∫⁻ e in Ioi 0, ENNReal.ofReal (-S e) * H e
      = 2 * (∫⁻ e in Ioi 0, ENNReal.ofReal (-f e) * isotropic (fun x => isotropic fun y => H (chainEnergy v c 0 e x y)))
        + ∫⁻ e in Ioi 0, ENNReal.ofReal (S e) * H e := by
  intro S v c f
  have hep := Spectra.eps_pos
  obtain ⟨hlt, hv, h0, h1⟩ := velocity_norm Spectra.massRho_pos (moves Spectra.massRho_pos (by linarith) : P ≠ 0)
  have hpi : Spectra.massPi < Spectra.massRho / 2 := by unfold Spectra.massPi Spectra.massRho; norm_num
  obtain ⟨hb0, hb1⟩ := pionInRho hpi
  have hf : ∀ e, 0 < e → f e = Spectra.photonPionRest e := fun e he => (Spectra.charged_pion_photon_is_boost e _ he).2.1 rfl
  have hfs : Soft f := photonPionRest_soft.congr fun e he => (hf e he).symm
  have hz : Soft fun _ : ℝ => (0 : ℝ) := fun δ _ => integrableOn_zero
  have key := chain_balance h0 h1 hb0 hb1 hfs hz (A := 2) (by norm_num) (S := S) (fun e he => ?_) hH
  · simpa using key
  · change Spectra.dndePhotonNeutralRho e (Real.sqrt (Spectra.massRho ^ 2 + ‖P‖ ^ 2)) = _
    have hz0 : Spectra.boosted (fun _ => (0 : ℝ)) 0 ‖velocity Spectra.massRho P‖ e = 0 := by
      unfold Spectra.boosted
      simp
    rw [(Spectra.rho_photon_flight_partial e _ he hP).1, ← hv, hz0, add_zero, ← boosted_mul]
    refine boosted_congr h0 h1 le_rfl (fun x hx => ?_) he
    unfold Spectra.neutralRhoRest
    congr 1
    change Spectra.dndePhotonChargedPion x (Spectra.massRho / 2) = _
    rw [(Spectra.charged_pion_photon_is_boost x _ hx).1 hpi]
    exact boosted_congr hb0 hb1 le_rfl (fun y hy => (hf y hy).symm) hx

theorem pi0Energy : Spectra.massPi0 < Spectra.engPi0ChargedRho := by
  unfold Spectra.engPi0ChargedRho Spectra.massPi Spectra.massRho Spectra.massPi0
  norm_num

theorem pi0_photons_nonneg (e E : ℝ) : 0 ≤ Spectra.dndePhotonNeutralPion e E := by
  unfold Spectra.dndePhotonNeutralPion
  split_ifs with h
  · exact le_rfl
  · have hE : 0 < E := lt_of_lt_of_le Spectra.massPi0_pos (not_lt.mp h)
    simp only
    split_ifs
    · exact div_nonneg (by unfold Spectra.brPi0AA; norm_num) (mul_nonneg hE.le (Real.sqrt_nonneg _))
    · exact le_rfl

theorem pi0_photons_positive {e E : ℝ} (hE : Spectra.massPi0 < E) (he : e ≤ 0) : Spectra.dndePhotonNeutralPion e E = 0 := by
  have hm := Spectra.massPi0_pos
  obtain ⟨h0, h1, -, -⟩ := Spectra.parent_boost hm hE
  unfold Spectra.dndePhotonNeutralPion
  rw [if_neg (by linarith)]
  simp only
  rw [if_neg]
  rintro ⟨h, -⟩
  have hb : Real.sqrt (1 - Spectra.massPi0 / E * (Spectra.massPi0 / E)) = boostBeta E Spectra.massPi0 := rfl
  rw [hb] at h
  have : 0 < E * (1 - boostBeta E Spectra.massPi0) := mul_pos (hm.trans hE) (by linarith)
  linarith

/-- The two photons of a neutral pion that leaves its mother with energy `E`. -/
theorem pi0_chain {v : V} (h0 : 0 < ‖v‖) {E : ℝ} (hE : Spectra.massPi0 < E) {H : ℝ → ℝ≥0∞} (hH : Measurable H) :
    ENNReal.ofReal (2 * Spectra.brPi0AA)
        * isotropic (fun x => isotropic fun y => H (chainEnergy v (boostBeta E Spectra.massPi0) 0 (Spectra.massPi0 / 2) x y))
      = ∫⁻ e in Ioi 0, ENNReal.ofReal (Spectra.dndePhotonNeutralPion e E) * isotropic (fun x => H (boostedEnergy v 0 e x)) := by
  have hm := Spectra.massPi0_pos
  have hE0 : 0 < E := hm.trans hE
  obtain ⟨hb0, hb1, -, hb⟩ := Spectra.parent_boost hm hE
  have hA := energies_measurable h0 0 hH
  have hone : ∀ x : S2, ENNReal.ofReal (2 * Spectra.brPi0AA) * isotropic (fun y => isotropic fun n =>
        H (boostedEnergy v 0 (boostedEnergy (boostBeta E Spectra.massPi0 • (x : V)) 0 (Spectra.massPi0 / 2) y) n))
      = ∫⁻ e in Ioi 0, ENNReal.ofReal (Spectra.dndePhotonNeutralPion e E) * isotropic (fun x => H (boostedEnergy v 0 e x)) := by
    intro x
    have hx : ‖(x : V)‖ = 1 := by simp
    have hnorm : ‖(E * boostBeta E Spectra.massPi0) • (x : V)‖ = E * boostBeta E Spectra.massPi0 := by
      rw [norm_smul, hx, mul_one, Real.norm_eq_abs, abs_of_pos (mul_pos hE0 hb0)]
    have hen : Real.sqrt (Spectra.massPi0 ^ 2 + ‖(E * boostBeta E Spectra.massPi0) • (x : V)‖ ^ 2) = E := by
      rw [hnorm, mul_pow, hb, show Spectra.massPi0 ^ 2 + E ^ 2 * (1 - (Spectra.massPi0 / E) ^ 2) = E ^ 2 by field_simp; ring]
      exact Real.sqrt_sq hE0.le
    have hne : (E * boostBeta E Spectra.massPi0) • (x : V) ≠ 0 := by
      rw [← norm_pos_iff, hnorm]
      exact mul_pos hE0 hb0
    have hvel : velocity Spectra.massPi0 ((E * boostBeta E Spectra.massPi0) • (x : V)) = boostBeta E Spectra.massPi0 • (x : V) := by
      unfold velocity
      rw [hen, smul_smul]
      congr 1
      field_simp
    have key := neutral_pion hne hA
    rw [hvel, hen] at key
    rw [key, ← lintegral_indicator measurableSet_Ioi]
    refine lintegral_congr fun e => ?_
    by_cases he : 0 < e
    · rw [indicator_of_mem (show e ∈ Ioi (0 : ℝ) from he)]
    · rw [indicator_of_notMem (show e ∉ Ioi (0 : ℝ) from he), pi0_photons_positive hE (not_lt.mp he), ENNReal.ofReal_zero, zero_mul]
  rw [chain_isotropic h0 hb0 hb1 le_rfl (by positivity) hH]
  obtain ⟨n0⟩ : Nonempty S2 := ⟨⟨vec 0 0 1, by rw [mem_sphere_zero_iff_norm, vec_norm]; simp⟩⟩
  have hbr : ENNReal.ofReal (2 * Spectra.brPi0AA) ≠ 0 := by
    rw [ne_eq, ENNReal.ofReal_eq_zero]
    unfold Spectra.brPi0AA
    norm_num
  have hsame : ∀ x : S2, isotropic (fun y => isotropic fun n =>
        H (boostedEnergy v 0 (boostedEnergy (boostBeta E Spectra.massPi0 • (x : V)) 0 (Spectra.massPi0 / 2) y) n))
      = isotropic (fun y => isotropic fun n =>
        H (boostedEnergy v 0 (boostedEnergy (boostBeta E Spectra.massPi0 • (n0 : V)) 0 (Spectra.massPi0 / 2) y) n)) := fun x =>
    (ENNReal.mul_right_inj hbr ENNReal.ofReal_ne_top).mp ((hone x).trans (hone n0).symm)
  simp only [hsame]
  rw [isotropic_const, hone n0]

theorem pi0_photons_soft {E : ℝ} (hE : Spectra.massPi0 < E) : Soft fun e => Spectra.dndePhotonNeutralPion e E := by
  have hm := Spectra.massPi0_pos
  refine Soft.of_integrable (Integrable.integrableOn ?_)
  have : (fun e => Spectra.dndePhotonNeutralPion e E)
      = (Icc ((E * (1 - boostBeta E Spectra.massPi0)) * 0.5) ((E * (1 + boostBeta E Spectra.massPi0)) * 0.5)).indicator
        fun _ => (Spectra.brPi0AA * 2) / (E * boostBeta E Spectra.massPi0) := by
    funext e
    unfold Spectra.dndePhotonNeutralPion
    rw [if_neg (by linarith)]
    by_cases h : e ∈ Icc ((E * (1 - boostBeta E Spectra.massPi0)) * 0.5) ((E * (1 + boostBeta E Spectra.massPi0)) * 0.5)
    · rw [indicator_of_mem h]
      exact if_pos h
    · rw [indicator_of_notMem h]
      exact if_neg h
  rw [this]
  exact (integrable_indicator_iff measurableSet_Icc).mpr (integrableOn_const (by simp))

/-- **C309, charged rho mesons.** A charged and a neutral pion, each in a random direction. -/
theorem charged_rho_photons {P : V} (hP : Spectra.f64eps ≤ Real.sqrt (Spectra.massRho ^ 2 + ‖P‖ ^ 2) - Spectra.massRho) {H : ℝ → ℝ≥0∞}
    (hH : Measurable H) :
    let S := fun e => Spectra.dndePhotonChargedRho e (Real.sqrt (Spectra.massRho ^ 2 + ‖P‖ ^ 2))
    let v := velocity Spectra.massRho P
    let c := boostBeta Spectra.engPiChargedRho Spectra.massPi
    let c0 := boostBeta Spectra.engPi0ChargedRho Spectra.massPi0
    let f := fun e => Spectra.dndePhotonChargedPion e Spectra.massPi
    (∫⁻ e in Ioi 0, ENNReal.ofReal (f e) * isotropic (fun x => isotropic fun y => H (chainEnergy v c 0 e x y)))
        + ENNReal.ofReal (2 * Spectra.brPi0AA) * isotropic (fun x => isotropic fun y => H (chainEnergy v c0 0 (Spectra.massPi0 / 2) x y))
        + ∫⁻ e in Ioi 0, ENNReal.ofReal (-S e) * H e
      = (∫⁻ e in Ioi 0, ENNReal.ofReal (-f e) * isotropic (fun x => isotropic fun y => H (chainEnergy v c 0 e x y)))
        + ∫⁻ e in Ioi 0, ENNReal.ofReal (S e) * H e := by
  intro S v c c0 f
  have hep := Spectra.eps_pos
  obtain ⟨hlt, hv, h0, h1⟩ := velocity_norm Spectra.massRho_pos (moves Spectra.massRho_pos (by linarith) : P ≠ 0)
  have hpi : Spectra.massPi < Spectra.engPiChargedRho := by
    unfold Spectra.engPiChargedRho Spectra.massPi Spectra.massRho Spectra.massPi0
    norm_num
  obtain ⟨hb0, hb1⟩ := pionInRho hpi
  have hf : ∀ e, 0 < e → f e = Spectra.photonPionRest e := fun e he => (Spectra.charged_pion_photon_is_boost e _ he).2.1 rfl
  have hfs : Soft f := photonPionRest_soft.congr fun e he => (hf e he).symm
  have hgs := pi0_photons_soft pi0Energy
  have key := chain_balance h0 h1 hb0 hb1 hfs hgs (A := 1) (by norm_num) (S := S) (fun e he => ?_) hH
  · have hneg : ∀ e, ENNReal.ofReal (-Spectra.dndePhotonNeutralPion e Spectra.engPi0ChargedRho) = 0 :=
      fun e => ENNReal.ofReal_of_nonpos (by linarith [pi0_photons_nonneg e Spectra.engPi0ChargedRho])
    simp only [hneg, zero_mul, lintegral_zero, add_zero, ENNReal.ofReal_one, one_mul] at key
    rw [pi0_chain h0 pi0Energy hH]
    exact key
  · change Spectra.dndePhotonChargedRho e (Real.sqrt (Spectra.massRho ^ 2 + ‖P‖ ^ 2)) = _
    rw [(Spectra.rho_photon_flight_partial e _ he hP).2, ← hv, one_mul, ← boosted_add (hfs.boosted hb0 hb1) hgs h0 h1 he]
    refine boosted_congr h0 h1 le_rfl (fun x hx => ?_) he
    unfold Spectra.chargedRhoRest
    congr 1
    rw [(Spectra.charged_pion_photon_is_boost x _ hx).1 hpi]
    exact boosted_congr hb0 hb1 le_rfl (fun y hy => (hf y hy).symm) hx

end Hazma.BoostLorentz
