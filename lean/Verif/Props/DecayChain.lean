import Verif.Lemmas.Isotropy
import Verif.Props.MuonSpectra
import Verif.Props.PionSpectra
import Mathlib.Tactic

/-!
# Decay chains (C308)
-/

namespace Hazma.BoostLorentz

open MeasureTheory Set Hazma.Boost Hazma.BoostFn Hazma.RamboMeasure
open scoped ENNReal

theorem emitted_continuous (m e : ℝ) {α : Type*} [TopologicalSpace α] {x : α → S2} (hx : Continuous x) :
    Continuous fun a => emitted m e (x a) := by
  unfold emitted
  fun_prop

theorem lorentzBoost_continuous {α : Type*} [TopologicalSpace α] (b : ℝ) {x : α → S2} {p : α → ℝ × V} (hx : Continuous x)
    (hp : Continuous p) : Continuous fun a => lorentzBoost (b • (x a : V)) (p a) := by
  have hn : ∀ a, ‖b • (x a : V)‖ = |b| := fun a => by rw [norm_smul]; simp
  unfold lorentzBoost
  simp only [hn]
  fun_prop

theorem energy_continuous {α : Type*} [TopologicalSpace α] (u : V) {p : α → ℝ × V} (hp : Continuous p) :
    Continuous fun a => (lorentzBoost u (p a)).1 := by
  unfold lorentzBoost
  fun_prop

theorem emitted_mass {m e : ℝ} (hm : 0 ≤ m) (he : m ≤ e) (x : S2) : (emitted m e x).1 ^ 2 - ‖(emitted m e x).2‖ ^ 2 = m ^ 2 := by
  unfold emitted
  have hx : ‖(x : V)‖ = 1 := by simp
  simp only
  rw [norm_smul, hx, mul_one, Real.norm_of_nonneg (Real.sqrt_nonneg _), Real.sq_sqrt (by nlinarith)]
  ring

/-- The energy at the end of a chain: the mother moves with velocity `v`, the intermediate particle leaves it with speed `b` in the
direction `x`, and the daughter leaves the intermediate particle with energy `e` in the direction `y`. -/
noncomputable def chainEnergy (v : V) (b m e : ℝ) (x y : S2) : ℝ :=
  (lorentzBoost v (lorentzBoost (b • (x : V)) (emitted m e y))).1

theorem chain_continuous (v : V) (b m e : ℝ) : Continuous fun q : S2 × S2 => chainEnergy v b m e q.1 q.2 :=
  energy_continuous v (lorentzBoost_continuous b continuous_fst (emitted_continuous m e continuous_snd))

theorem chain_measurable (v : V) (b m e : ℝ) (x : S2) {H : ℝ → ℝ≥0∞} (hH : Measurable H) :
    Measurable fun y => H (chainEnergy v b m e x y) :=
  hH.comp (energy_continuous v (lorentzBoost_continuous b continuous_const (emitted_continuous m e continuous_id))).measurable

theorem chain_measurable_dir (a b m e : ℝ) {H : ℝ → ℝ≥0∞} (hH : Measurable H) :
    Measurable fun q : (S2 × S2) × S2 => H (chainEnergy (a • (q.1.1 : V)) b m e q.1.2 q.2) :=
  hH.comp (lorentzBoost_continuous a continuous_fst.fst
    (lorentzBoost_continuous b continuous_fst.snd (emitted_continuous m e continuous_snd))).fst.measurable

theorem chain_measurable_fst (a b m e : ℝ) (x : S2) {H : ℝ → ℝ≥0∞} (hH : Measurable H) :
    Measurable fun q : S2 × S2 => H (chainEnergy (a • (q.1 : V)) b m e x q.2) :=
  hH.comp (lorentzBoost_continuous a continuous_fst
    (lorentzBoost_continuous b continuous_const (emitted_continuous m e continuous_snd))).fst.measurable

/-- The daughters of isotropically emitted particles are isotropic. -/
theorem chain_isotropic {v : V} (h0 : 0 < ‖v‖) {b m e : ℝ} (hb0 : 0 < b) (hb1 : b < 1) (hm : 0 ≤ m) (he : m < e)
    {H : ℝ → ℝ≥0∞} (hH : Measurable H) :
    isotropic (fun x => isotropic fun y => H (chainEnergy v b m e x y))
      = isotropic (fun x => isotropic fun y => isotropic fun n => H (boostedEnergy v m (boostedEnergy (b • (x : V)) m e y) n)) := by
  have hbx : ∀ x : S2, ‖b • (x : V)‖ = b := fun x => by rw [norm_smul]; simp [abs_of_pos hb0]
  -- rotating the mother's velocity changes nothing
  have hrot : ∀ (R : V ≃ₗᵢ[ℝ] V), isotropic (fun x => isotropic fun y => H (chainEnergy (R v) b m e x y))
      = isotropic (fun x => isotropic fun y => H (chainEnergy v b m e x y)) := by
    intro R
    have h2 : Measurable fun q : S2 × S2 => H (chainEnergy (R v) b m e q.1 q.2) :=
      hH.comp (chain_continuous (R v) b m e).measurable
    have h3 : Measurable fun x => isotropic fun y => H (chainEnergy (R v) b m e x y) := by
      unfold isotropic
      exact (Measurable.lintegral_prod_right' h2).const_mul _
    rw [← isotropic_rot R h3]
    congr 1
    funext x
    have h4 : Measurable fun y => H (chainEnergy (R v) b m e (rot R x) y) := chain_measurable (R v) b m e (rot R x) hH
    rw [← isotropic_rot R h4]
    congr 1
    funext y
    congr 1
    unfold chainEnergy
    have e1 : emitted m e (rot R y) = (e, R (emitted m e y).2) := by
      unfold emitted rot
      simp only [map_smul]
    have e2 : b • ((rot R x : S2) : V) = R (b • (x : V)) := by
      unfold rot
      simp only [map_smul]
    rw [e1, e2, lorentzBoost_rotate, lorentzBoost_rotate]
    rfl
  have hdir : ∀ n : S2, isotropic (fun x => isotropic fun y => H (chainEnergy (‖v‖ • (n : V)) b m e x y))
      = isotropic (fun x => isotropic fun y => H (chainEnergy v b m e x y)) := by
    intro n
    have hn : ‖v‖ = ‖‖v‖ • (n : V)‖ := by rw [norm_smul]; simp
    have hR : Submodule.reflection (Submodule.span ℝ {v - ‖v‖ • (n : V)})ᗮ v = ‖v‖ • (n : V) := Submodule.reflection_sub hn
    rw [← hR]
    exact hrot _
  rw [← isotropic_const (isotropic (fun x => isotropic fun y => H (chainEnergy v b m e x y)))]
  have e0 : (fun _ : S2 => isotropic (fun x => isotropic fun y => H (chainEnergy v b m e x y)))
      = fun n : S2 => isotropic (fun x => isotropic fun y => H (chainEnergy (‖v‖ • (n : V)) b m e x y)) :=
    funext fun n => (hdir n).symm
  rw [e0]
  rw [isotropic_swap]
  · congr 1
    funext x
    rw [isotropic_swap]
    · congr 1
      funext y
      -- the momentum in the mother's frame has the length that belongs to its energy
      have hmass := lorentzBoost_mass (by rw [hbx]; exact hb1) (emitted m e y) (w := b • (x : V))
      rw [emitted_mass hm he.le] at hmass
      rw [boostedEnergy_eq (b • (x : V))]
      obtain ⟨q, hq⟩ : ∃ q, q = lorentzBoost (b • (x : V)) (emitted m e y) := ⟨_, rfl⟩
      rw [← hq] at hmass ⊢
      have hk : Real.sqrt (q.1 ^ 2 - m ^ 2) = ‖q.2‖ := by
        rw [show q.1 ^ 2 - m ^ 2 = ‖q.2‖ ^ 2 by linarith, Real.sqrt_sq (norm_nonneg _)]
      rw [isotropic_lab h0 hH]
      have e1 : ∀ n : S2, H (chainEnergy (‖v‖ • (n : V)) b m e x y)
          = (fun t => H (lorentz ‖v‖ * (q.1 + ‖v‖ * t))) (inner ℝ q.2 (n : V)) := by
        intro n
        unfold chainEnergy
        rw [← hq]
        unfold lorentzBoost
        have : ‖‖v‖ • (n : V)‖ = ‖v‖ := by rw [norm_smul]; simp
        simp only [this]
        rw [real_inner_smul_left, real_inner_comm]
      simp only [e1]
      rw [isotropic_inner q.2 (g := fun t => H (lorentz ‖v‖ * (q.1 + ‖v‖ * t))) (hH.comp (by fun_prop))]
      congr 1
      refine lintegral_congr fun c => ?_
      unfold labEnergy momentum
      rw [hk]
      congr 1
      ring
    · exact chain_measurable_fst ‖v‖ b m e x hH
  · have h4 := chain_measurable_dir ‖v‖ b m e hH
    unfold isotropic Function.uncurry
    exact (Measurable.lintegral_prod_right' h4).const_mul _

/-- The energies at the end of a chain: boost the spectrum into the mother's frame, and the result into the laboratory. -/
theorem chain {v : V} (h0 : 0 < ‖v‖) (h1 : ‖v‖ < 1) {b m : ℝ} (hb0 : 0 < b) (hb1 : b < 1) (hm : 0 ≤ m) {f : ℝ → ℝ}
    (hpos : ∀ e, 0 ≤ f e) (hint : IntegrableOn f (Ioi m)) {H : ℝ → ℝ≥0∞} (hH : Measurable H) :
    ∫⁻ e in Ioi m, ENNReal.ofReal (f e) * isotropic (fun x => isotropic fun y => H (chainEnergy v b m e x y))
      = ∫⁻ e in Ioi m, ENNReal.ofReal (Spectra.boosted (Spectra.boosted f m b) m ‖v‖ e) * H e := by
  have hbx : ∀ x : S2, ‖b • (x : V)‖ = b := fun x => by rw [norm_smul]; simp [abs_of_pos hb0]
  have hA : Measurable fun e' => isotropic fun n => H (boostedEnergy v m e' n) := by
    simp only [isotropic_lab h0 hH]
    refine Measurable.const_mul ?_ _
    refine Measurable.lintegral_prod_right' (f := fun p : ℝ × ℝ => H (labEnergy p.1 m ‖v‖ p.2)) (hH.comp ?_)
    unfold labEnergy momentum
    fun_prop
  obtain ⟨n0⟩ : Nonempty S2 := ⟨⟨vec 0 0 1, by rw [mem_sphere_zero_iff_norm, vec_norm]; simp⟩⟩
  have e1 : ∀ e ∈ Ioi m, ENNReal.ofReal (f e) * isotropic (fun x => isotropic fun y => H (chainEnergy v b m e x y))
      = ENNReal.ofReal (f e) * isotropic fun y => isotropic fun n => H (boostedEnergy v m (boostedEnergy (b • (n0 : V)) m e y) n) := by
    intro e he
    rw [chain_isotropic h0 hb0 hb1 hm he hH]
    congr 1
    have e2 : ∀ x : S2, (isotropic fun y => isotropic fun n => H (boostedEnergy v m (boostedEnergy (b • (x : V)) m e y) n))
        = isotropic fun y => isotropic fun n => H (boostedEnergy v m (boostedEnergy (b • (n0 : V)) m e y) n) := by
      intro x
      have hx := isotropic_lab (v := b • (x : V)) (by rw [hbx]; exact hb0) (m := m) (e := e) hA
      have hn := isotropic_lab (v := b • (n0 : V)) (by rw [hbx]; exact hb0) (m := m) (e := e) hA
      rw [hbx] at hx hn
      rw [hx, hn]
    simp only [e2]
    exact isotropic_const _
  rw [setLIntegral_congr_fun measurableSet_Ioi e1]
  rw [boosted_spectrum (v := b • (n0 : V)) (by rw [hbx]; exact hb0) (by rw [hbx]; exact hb1) hm (fun e _ => hpos e) hint hA, hbx,
    boosted_spectrum h0 h1 hm (f := Spectra.boosted f m b) _ (Spectra.boosted_integrable hb0 hb1 hm hint) hH]
  intro e he
  exact Spectra.boost_nonneg _ _ _ _ hb0 hb1 hpos

theorem boosted_congr {f g : ℝ → ℝ} {m b : ℝ} (h0 : 0 < b) (h1 : b < 1) (hm : 0 ≤ m) (h : ∀ e, m < e → f e = g e) {e : ℝ} (he : m < e) :
    Spectra.boosted f m b e = Spectra.boosted g m b e := by
  have hg := lorentz_pos h0 h1
  have hk := momentum_pos hm he
  have hlo : m ≤ lorentz b * (e - b * momentum e m) := by
    have := mass_le_labEnergy h0 h1 hm he.le
    unfold labEnergy at this
    rwa [show e + b * (-1) * momentum e m = e - b * momentum e m by ring] at this
  have hle : lorentz b * (e - b * momentum e m) ≤ lorentz b * (e + b * momentum e m) :=
    mul_le_mul_of_nonneg_left (by nlinarith [mul_pos h0 hk]) hg.le
  unfold Spectra.boosted
  rw [intervalIntegral.integral_of_le hle, intervalIntegral.integral_of_le hle]
  refine setIntegral_congr_fun measurableSet_Ioc fun x hx => ?_
  simp only [h x (lt_of_le_of_lt hlo hx.1)]

/-- The speed of the muon from a charged pion at rest, from momentum and energy conservation: `(mπ² - mμ²)/(mπ² + mμ²)`. -/
noncomputable def muonSpeed : ℝ :=
  (Spectra.massPi ^ 2 - Spectra.massMu ^ 2) / (Spectra.massPi ^ 2 + Spectra.massMu ^ 2)

theorem muonSpeed_eq : muonSpeed = boostBeta Spectra.engMuPiRf Spectra.massMu := by
  have hp := Spectra.massPi_pos
  have hm := Spectra.massMu_pos
  have hlt : Spectra.massMu < Spectra.massPi := by unfold Spectra.massMu Spectra.massPi; norm_num
  have h0 : 0 ≤ muonSpeed := by
    unfold muonSpeed
    exact div_nonneg (by nlinarith) (by positivity)
  unfold boostBeta Spectra.engMuPiRf
  simp only
  rw [show 1 - Spectra.massMu / ((Spectra.massPi * Spectra.massPi + Spectra.massMu * Spectra.massMu) / (2 * Spectra.massPi))
      * (Spectra.massMu / ((Spectra.massPi * Spectra.massPi + Spectra.massMu * Spectra.massMu) / (2 * Spectra.massPi))) = muonSpeed ^ 2 by
    unfold muonSpeed
    field_simp
    ring, Real.sqrt_sq h0]

theorem muonSpeed_range : 0 < muonSpeed ∧ muonSpeed < 1 := by
  have hlt : Spectra.massMu < Spectra.engMuPiRf := by linarith [Spectra.engMu_eps, Spectra.eps_pos]
  obtain ⟨h0, h1, -, -⟩ := Spectra.parent_boost Spectra.massMu_pos hlt
  rw [muonSpeed_eq]
  exact ⟨h0, h1⟩

theorem pion_moves {P : V} (hP : Spectra.f64eps ≤ Real.sqrt (Spectra.massPi ^ 2 + ‖P‖ ^ 2) - Spectra.massPi) : P ≠ 0 := by
  rintro rfl
  rw [norm_zero, zero_pow two_ne_zero, add_zero, Real.sqrt_sq Spectra.massPi_pos.le] at hP
  linarith [Spectra.eps_pos]

/-- A chain and a line together: a mother of velocity `v` gives with probability `A` an intermediate particle of speed `b` in a random
direction, in whose rest frame the daughter's spectrum is `f`, and with probability `B` a daughter of energy `E` in a random direction. -/
theorem chain_and_line {v : V} (h0 : 0 < ‖v‖) (h1 : ‖v‖ < 1) {b m : ℝ} (hb0 : 0 < b) (hb1 : b < 1) (hm : 0 ≤ m) {f : ℝ → ℝ}
    (hpos : ∀ e, 0 ≤ f e) (hint : IntegrableOn f (Ioi m)) {E A B : ℝ} (hE : m < E) (hA : 0 ≤ A) (hB : 0 ≤ B) {H : ℝ → ℝ≥0∞}
    (hH : Measurable H) :
    ENNReal.ofReal A * (∫⁻ e in Ioi m, ENNReal.ofReal (f e) * isotropic (fun x => isotropic fun y => H (chainEnergy v b m e x y)))
        + ENNReal.ofReal B * isotropic (fun x => H (boostedEnergy v m E x))
      = ∫⁻ e in Ioi m, ENNReal.ofReal (A * Spectra.boosted (Spectra.boosted f m b) m ‖v‖ e + B * boostDeltaPy e E m ‖v‖) * H e := by
  rw [chain h0 h1 hb0 hb1 hm hpos hint hH, line h0 h1 hm hE hH]
  have hline : ∫⁻ e, ENNReal.ofReal (boostDeltaPy e E m ‖v‖) * H e = ∫⁻ e in Ioi m, ENNReal.ofReal (boostDeltaPy e E m ‖v‖) * H e := by
    rw [← lintegral_indicator measurableSet_Ioi]
    refine lintegral_congr fun e => ?_
    by_cases he : m < e
    · rw [indicator_of_mem (show e ∈ Ioi m from he)]
    · rw [indicator_of_notMem (show e ∉ Ioi m from he), boostDeltaPy_eq_box h0 h1 hm hE.le]
      unfold box
      rw [indicator_of_notMem, ENNReal.ofReal_zero, zero_mul]
      intro h
      exact he (lt_of_le_of_lt (mass_le_labEnergy h0 h1 hm hE.le) h.1)
  rw [hline, ← lintegral_const_mul' _ _ ENNReal.ofReal_ne_top, ← lintegral_const_mul' _ _ ENNReal.ofReal_ne_top, ← lintegral_add_right']
  · refine lintegral_congr fun e => ?_
    have hnn : 0 ≤ Spectra.boosted (Spectra.boosted f m b) m ‖v‖ e :=
      Spectra.boost_nonneg _ _ _ _ h0 h1 fun x => Spectra.boost_nonneg _ _ _ _ hb0 hb1 hpos
    have hnl : 0 ≤ boostDeltaPy e E m ‖v‖ := by
      rw [boostDeltaPy_eq_box h0 h1 hm hE.le]
      exact box_nonneg h0 h1 e
    rw [ENNReal.ofReal_add (mul_nonneg hA hnn) (mul_nonneg hB hnl), ENNReal.ofReal_mul hA, ENNReal.ofReal_mul hB]
    ring
  · have hm2 : Measurable fun e => boostDeltaPy e E m ‖v‖ := by
      rw [show (fun e => boostDeltaPy e E m ‖v‖) = box E m ‖v‖ from funext fun e => boostDeltaPy_eq_box h0 h1 hm hE.le]
      unfold box
      exact measurable_const.indicator measurableSet_Ioo
    exact ((hm2.ennreal_ofReal.mul hH).const_mul _).aemeasurable

/-- **C308, positrons.** A pion of momentum `P` decays to a muon and a neutrino or an electron and a neutrino; the muon leaves it in a
random direction and its positron leaves the muon in a random direction. -/
theorem pion_positrons {P : V} (hP : Spectra.f64eps ≤ Real.sqrt (Spectra.massPi ^ 2 + ‖P‖ ^ 2) - Spectra.massPi) {H : ℝ → ℝ≥0∞}
    (hH : Measurable H) :
    let v := velocity Spectra.massPi P
    ENNReal.ofReal Spectra.brPiMuNu * (∫⁻ e in Ioi Spectra.massE, ENNReal.ofReal (Spectra.dndePositronMuon e Spectra.massMu)
          * isotropic (fun x => isotropic fun y => H (chainEnergy v muonSpeed Spectra.massE e x y)))
        + ENNReal.ofReal Spectra.brPiENu * isotropic (fun x => H (boostedEnergy v Spectra.massE Spectra.engEPiRf x))
      = ∫⁻ e in Ioi Spectra.massE, ENNReal.ofReal (Spectra.dndePositronChargedPion e (Real.sqrt (Spectra.massPi ^ 2 + ‖P‖ ^ 2))) * H e := by
  intro v
  have hep := Spectra.eps_pos
  have hmE := Spectra.massE_pos
  obtain ⟨-, hv, h0, h1⟩ := velocity_norm Spectra.massPi_pos (pion_moves hP)
  obtain ⟨hb0, hb1⟩ := muonSpeed_range
  have hbr1 : 0 ≤ Spectra.brPiMuNu := by unfold Spectra.brPiMuNu; norm_num
  have hbr2 : 0 ≤ Spectra.brPiENu := by unfold Spectra.brPiENu; norm_num
  have hE : Spectra.massE < Spectra.engEPiRf := by unfold Spectra.engEPiRf Spectra.massPi Spectra.massE; norm_num
  have hrest : ∀ e ∈ Ioi Spectra.massE, ENNReal.ofReal (Spectra.dndePositronMuon e Spectra.massMu)
        * isotropic (fun x => isotropic fun y => H (chainEnergy v muonSpeed Spectra.massE e x y))
      = ENNReal.ofReal (Spectra.positronRestE e) * isotropic (fun x => isotropic fun y => H (chainEnergy v muonSpeed Spectra.massE e x y)) := by
    intro e he
    have : Spectra.dndePositronMuon e Spectra.massMu = Spectra.positronRestE e := by
      unfold Spectra.dndePositronMuon
      rw [if_neg (by push Not; exact ⟨le_rfl, he⟩), if_pos (by linarith)]
      rfl
    rw [this]
  rw [setLIntegral_congr_fun measurableSet_Ioi hrest,
    chain_and_line h0 h1 hb0 hb1 hmE.le Spectra.positronRestE_nonneg Spectra.positronRestE_integrable.integrableOn hE hbr1 hbr2 hH]
  refine setLIntegral_congr_fun measurableSet_Ioi fun e he => ?_
  have hin : Spectra.boosted (Spectra.boosted Spectra.positronRestE Spectra.massE muonSpeed) Spectra.massE ‖v‖ e
      = Spectra.boosted (fun x => Spectra.dndePositronMuon x Spectra.engMuPiRf) Spectra.massE ‖v‖ e := by
    refine boosted_congr h0 h1 hmE.le (fun x hx => ?_) he
    rw [Spectra.positron_muon_is_boost x _ hx Spectra.engMu_eps, muonSpeed_eq]
  change ENNReal.ofReal (_ * Spectra.boosted _ _ ‖v‖ e + _) * _ = _
  rw [Spectra.positron_pion_is_boost e _ (le_of_lt he) hP, ← hv, hin]

/-- **C308, muon neutrinos.** The muon row of a pion of momentum `P`: the neutrino that accompanies the muon, and that of the muon's decay. -/
theorem pion_muon_neutrinos {P : V} (hP : Spectra.f64eps ≤ Real.sqrt (Spectra.massPi ^ 2 + ‖P‖ ^ 2) - Spectra.massPi) {H : ℝ → ℝ≥0∞}
    (hH : Measurable H) :
    let v := velocity Spectra.massPi P
    ENNReal.ofReal Spectra.brPiMuNu * (∫⁻ e in Ioi 0, ENNReal.ofReal (Spectra.dndeNeutrinoMuon e Spectra.massMu).muon
          * isotropic (fun x => isotropic fun y => H (chainEnergy v muonSpeed 0 e x y)))
        + ENNReal.ofReal Spectra.brPiMuNu
          * isotropic (fun x => H (boostedEnergy v 0 ((Spectra.massPi ^ 2 - Spectra.massMu ^ 2) / (2 * Spectra.massPi)) x))
      = ∫⁻ e in Ioi 0, ENNReal.ofReal (Spectra.dndeNeutrinoChargedPion e (Real.sqrt (Spectra.massPi ^ 2 + ‖P‖ ^ 2))).muon * H e := by
  intro v
  have hep := Spectra.eps_pos
  obtain ⟨-, hv, h0, h1⟩ := velocity_norm Spectra.massPi_pos (pion_moves hP)
  obtain ⟨hb0, hb1⟩ := muonSpeed_range
  have hbr1 : 0 ≤ Spectra.brPiMuNu := by unfold Spectra.brPiMuNu; norm_num
  have hEe : (Spectra.massPi ^ 2 - Spectra.massMu ^ 2) / (2 * Spectra.massPi) = Spectra.enuMuPiRf := by
    unfold Spectra.enuMuPiRf
    ring
  have hE : 0 < Spectra.enuMuPiRf := by unfold Spectra.enuMuPiRf Spectra.massPi Spectra.massMu; norm_num
  have hrest : ∀ e : ℝ, (Spectra.dndeNeutrinoMuon e Spectra.massMu).muon = Spectra.numuRest e := by
    intro e
    unfold Spectra.dndeNeutrinoMuon
    rw [if_neg (lt_irrefl _), if_pos (by linarith)]
    rfl
  simp only [hrest]
  rw [hEe, chain_and_line h0 h1 hb0 hb1 le_rfl (fun e => (Spectra.nu_rest_nonneg e).2) Spectra.numuRest_integrable.integrableOn hE hbr1 hbr1 hH]
  refine setLIntegral_congr_fun measurableSet_Ioi fun e he => ?_
  have hin : Spectra.boosted (Spectra.boosted Spectra.numuRest 0 muonSpeed) 0 ‖v‖ e = Spectra.boosted Spectra.numuInPion 0 ‖v‖ e := by
    refine boosted_congr h0 h1 le_rfl (fun x hx => ?_) he
    unfold Spectra.numuInPion
    rw [(Spectra.neutrino_muon_is_boost x _ hx Spectra.engMu_eps).2.1, muonSpeed_eq]
  change ENNReal.ofReal (_ * Spectra.boosted _ _ ‖v‖ e + _) * _ = _
  rw [(Spectra.neutrino_pion_rows e _ he hP).2.1, ← hv, hin]
  congr 2
  exact add_comm _ _

/-- **C308, electron neutrinos.** The electron row: the neutrino of the muon's decay, and twice (C78) the neutrino that accompanies the
electron. -/
theorem pion_electron_neutrinos {P : V} (hP : Spectra.f64eps ≤ Real.sqrt (Spectra.massPi ^ 2 + ‖P‖ ^ 2) - Spectra.massPi) {H : ℝ → ℝ≥0∞}
    (hH : Measurable H) :
    let v := velocity Spectra.massPi P
    ENNReal.ofReal Spectra.brPiMuNu * (∫⁻ e in Ioi 0, ENNReal.ofReal (Spectra.dndeNeutrinoMuon e Spectra.massMu).electron
          * isotropic (fun x => isotropic fun y => H (chainEnergy v muonSpeed 0 e x y)))
        + ENNReal.ofReal (2 * Spectra.brPiENu)
          * isotropic (fun x => H (boostedEnergy v 0 ((Spectra.massPi ^ 2 - Spectra.massE ^ 2) / (2 * Spectra.massPi)) x))
      = ∫⁻ e in Ioi 0, ENNReal.ofReal (Spectra.dndeNeutrinoChargedPion e (Real.sqrt (Spectra.massPi ^ 2 + ‖P‖ ^ 2))).electron * H e := by
  intro v
  have hep := Spectra.eps_pos
  obtain ⟨-, hv, h0, h1⟩ := velocity_norm Spectra.massPi_pos (pion_moves hP)
  obtain ⟨hb0, hb1⟩ := muonSpeed_range
  have hbr1 : 0 ≤ Spectra.brPiMuNu := by unfold Spectra.brPiMuNu; norm_num
  have hbr2 : 0 ≤ 2 * Spectra.brPiENu := by unfold Spectra.brPiENu; norm_num
  have hEe : (Spectra.massPi ^ 2 - Spectra.massE ^ 2) / (2 * Spectra.massPi) = Spectra.enuEPiRf := by
    unfold Spectra.enuEPiRf
    ring
  have hE : 0 < Spectra.enuEPiRf := by unfold Spectra.enuEPiRf Spectra.massPi Spectra.massE; norm_num
  have hrest : ∀ e : ℝ, (Spectra.dndeNeutrinoMuon e Spectra.massMu).electron = Spectra.nueRest e := by
    intro e
    unfold Spectra.dndeNeutrinoMuon
    rw [if_neg (lt_irrefl _), if_pos (by linarith)]
    rfl
  simp only [hrest]
  rw [hEe, chain_and_line h0 h1 hb0 hb1 le_rfl (fun e => (Spectra.nu_rest_nonneg e).1) Spectra.nueRest_integrable.integrableOn hE hbr1
    hbr2 hH]
  refine setLIntegral_congr_fun measurableSet_Ioi fun e he => ?_
  have hin : Spectra.boosted (Spectra.boosted Spectra.nueRest 0 muonSpeed) 0 ‖v‖ e = Spectra.boosted Spectra.nueInPion 0 ‖v‖ e := by
    refine boosted_congr h0 h1 le_rfl (fun x hx => ?_) he
    unfold Spectra.nueInPion
    rw [(Spectra.neutrino_muon_is_boost x _ hx Spectra.engMu_eps).1, muonSpeed_eq]
  change ENNReal.ofReal (_ * Spectra.boosted _ _ ‖v‖ e + _) * _ = _
  rw [(Spectra.neutrino_pion_rows e _ he hP).1, ← hv, hin]
  congr 2
  rw [mul_assoc, add_comm]

/-- **C63, against kinematics.** A line emitted in a random direction by a particle that itself leaves its mother in a random direction:
the laboratory energies have the density `boostTwice`, which `double_boost_delta_function` returns for massless products and
multiplied by momentum over energy otherwise. -/
theorem double_line {v : V} (h0 : 0 < ‖v‖) (h1 : ‖v‖ < 1) {b m e0 : ℝ} (hb0 : 0 < b) (hb1 : b < 1) (hm : 0 ≤ m) (he : m < e0)
    {H : ℝ → ℝ≥0∞} (hH : Measurable H) :
    isotropic (fun x => isotropic fun y => H (chainEnergy v b m e0 x y))
      = ENNReal.ofReal (e0 / momentum e0 m) * ∫⁻ e in Ioi m, ENNReal.ofReal (doubleBoostDelta e e0 m b ‖v‖) * H e := by
  have hbx : ∀ x : S2, ‖b • (x : V)‖ = b := fun x => by rw [norm_smul]; simp [abs_of_pos hb0]
  have hk := momentum_pos hm he
  have hA : Measurable fun e' => isotropic fun n => H (boostedEnergy v m e' n) := by
    simp only [isotropic_lab h0 hH]
    refine Measurable.const_mul ?_ _
    refine Measurable.lintegral_prod_right' (f := fun p : ℝ × ℝ => H (labEnergy p.1 m ‖v‖ p.2)) (hH.comp ?_)
    unfold labEnergy momentum
    fun_prop
  have hline : ∀ x : S2, (isotropic fun y => isotropic fun n => H (boostedEnergy v m (boostedEnergy (b • (x : V)) m e0 y) n))
      = ∫⁻ e, ENNReal.ofReal (boostDeltaPy e e0 m b) * isotropic fun n => H (boostedEnergy v m e n) := by
    intro x
    have := line (v := b • (x : V)) (by rw [hbx]; exact hb0) (by rw [hbx]; exact hb1) hm he hA
    rwa [hbx] at this
  rw [chain_isotropic h0 hb0 hb1 hm he hH]
  simp only [hline]
  rw [isotropic_const]
  have hnn : ∀ e, 0 ≤ boostDeltaPy e e0 m b := by
    intro e
    rw [boostDeltaPy_eq_box hb0 hb1 hm he.le]
    exact box_nonneg hb0 hb1 e
  have hint : IntegrableOn (fun e => boostDeltaPy e e0 m b) (Ioi m) := by
    rw [show (fun e => boostDeltaPy e e0 m b) = box e0 m b from funext fun e => boostDeltaPy_eq_box hb0 hb1 hm he.le]
    unfold box
    refine Integrable.integrableOn ((integrable_indicator_iff measurableSet_Ioo).mpr ?_)
    exact integrableOn_const (by simp)
  have hres : ∫⁻ e, ENNReal.ofReal (boostDeltaPy e e0 m b) * isotropic (fun n => H (boostedEnergy v m e n))
      = ∫⁻ e in Ioi m, ENNReal.ofReal (boostDeltaPy e e0 m b) * isotropic (fun n => H (boostedEnergy v m e n)) := by
    rw [← lintegral_indicator measurableSet_Ioi]
    refine lintegral_congr fun e => ?_
    by_cases hem : m < e
    · rw [indicator_of_mem (show e ∈ Ioi m from hem)]
    · rw [indicator_of_notMem (show e ∉ Ioi m from hem), boostDeltaPy_eq_box hb0 hb1 hm he.le]
      unfold box
      rw [indicator_of_notMem, ENNReal.ofReal_zero, zero_mul]
      intro h
      exact hem (lt_of_le_of_lt (mass_le_labEnergy hb0 hb1 hm he.le) h.1)
  rw [hres, boosted_spectrum h0 h1 hm (fun e _ => hnn e) hint hH, ← lintegral_const_mul' _ _ ENNReal.ofReal_ne_top]
  refine setLIntegral_congr_fun measurableSet_Ioi fun e hem => ?_
  rw [← mul_assoc, ← ENNReal.ofReal_mul (div_nonneg (hm.trans he.le) hk.le), double_boost_delta_value e e0 m b ‖v‖ hb0 hb1 h0 h1 hm he hem]
  congr 2
  have : (0 : ℝ) < e0 := lt_of_le_of_lt hm he
  rw [← mul_assoc, show e0 / momentum e0 m * (momentum e0 m / e0) = 1 by field_simp, one_mul]
  unfold boostTwice Spectra.boosted
  simp only [boostDeltaPy_eq_box hb0 hb1 hm he.le]

/-- Everything forward at `0.6 c`: each step doubles the energy of a massless daughter, so the chain takes 10 MeV to 40 MeV. -/
example (z : S2) : chainEnergy ((3 / 5 : ℝ) • (z : V)) (3 / 5) 0 10 z z = 40 := by
  have hz : ‖(z : V)‖ = 1 := by simp
  have hs : lorentz (3 / 5) = 5 / 4 := by
    unfold lorentz
    rw [show (1 - (3 / 5 : ℝ) ^ 2) = (4 / 5) ^ 2 by norm_num, Real.sqrt_sq (by norm_num)]
    norm_num
  have h10 : Real.sqrt (10 ^ 2 - 0 ^ 2 : ℝ) = 10 := by
    rw [show (10 ^ 2 - 0 ^ 2 : ℝ) = 10 ^ 2 by norm_num]
    exact Real.sqrt_sq (by norm_num)
  have hw : ‖(3 / 5 : ℝ) • (z : V)‖ = 3 / 5 := by rw [norm_smul, hz]; norm_num
  unfold chainEnergy lorentzBoost emitted
  simp only [hw, hs, h10, inner_add_right, real_inner_smul_left, real_inner_smul_right, real_inner_self_eq_norm_sq, hz]
  norm_num

end Hazma.BoostLorentz
