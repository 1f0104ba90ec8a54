import Verif.Model.MediatorDecay
import Verif.Props.PhotonMuon
import Verif.Props.PionSpectra
import Verif.Props.NBodyOutcome

/-!
# Decaying mediators (C56–C60, C107, C108)
-/

namespace Hazma.Mediator

open MeasureTheory Hazma.Boost Hazma.Spectra

theorem beta_facts {E m : ℝ} (hm : 0 < m) (h : m < E) :
    0 < beta E m ∧ beta E m < 1 ∧ lorentz (beta E m) = gamma E m ∧ beta E m ^ 2 = 1 - (m / E) ^ 2 := by
  have e : beta E m = boostBeta E m := by simp only [beta, boostBeta, sq]
  rw [e]
  exact parent_boost hm h

/-! ### The angular integral is a boost -/

/-- The photon integral over the angle is the boost of the rest-frame spectrum. -/
theorem photon_integral_is_boost (f : ℝ → ℝ) {E m e : ℝ} (hm : 0 < m) (h : m < E) (he : 0 < e) :
    ∫ cl in (-1 : ℝ)..1, photonIntegrand f E m e cl = boosted f 0 (beta E m) e := by
  obtain ⟨h0, h1, hg, hb⟩ := beta_facts hm h
  have hE : 0 < E := hm.trans h
  have hgp : 0 < gamma E m := div_pos hE hm
  have hc : gamma E m * e * beta E m ≠ 0 := by positivity
  have hfun : ∀ cl, photonIntegrand f E m e cl
      = (fun x => e / (2 * |x|) * f x) (gamma E m * e - gamma E m * e * beta E m * cl) := by
    intro cl
    have e1 : gamma E m * e - gamma E m * e * beta E m * cl = e * gamma E m * (1 - beta E m * cl) := by ring
    simp only [photonIntegrand]
    rw [e1, abs_mul, abs_of_pos (mul_pos he hgp)]
    congr 1
    by_cases hz : |1 - beta E m * cl| = 0
    · rw [hz]; simp
    · field_simp
  rw [intervalIntegral.integral_congr (fun cl _ => hfun cl),
    intervalIntegral.integral_comp_sub_mul (fun x => e / (2 * |x|) * f x) hc]
  unfold boosted
  rw [hg]
  have hmom : ∀ x, momentum x 0 = |x| := fun x => by
    unfold momentum; rw [show x ^ 2 - 0 ^ 2 = x ^ 2 by ring, Real.sqrt_sq_eq_abs]
  rw [hmom e, abs_of_pos he, smul_eq_mul, ← intervalIntegral.integral_const_mul]
  rw [show gamma E m * e - gamma E m * e * beta E m * 1 = gamma E m * (e - beta E m * e) by ring,
    show gamma E m * e - gamma E m * e * beta E m * -1 = gamma E m * (e + beta E m * e) by ring]
  congr 1
  funext x
  rw [hmom]
  by_cases hx : |x| = 0
  · rw [hx]; simp
  · field_simp

/-- The positron integral over the angle is the boost of the rest-frame spectrum. -/
theorem positron_integral_is_boost (f : ℝ → ℝ) {me E m e : ℝ} (hme : 0 ≤ me) (hm : 0 < m) (h : m < E)
    (he : me < e) :
    ∫ cl in (-1 : ℝ)..1, positronIntegrand f me E m e cl = boosted f me (beta E m) e := by
  obtain ⟨h0, h1, hg, hb⟩ := beta_facts hm h
  have hE : 0 < E := hm.trans h
  have hgp : 0 < gamma E m := div_pos hE hm
  have hp : 0 < momentum e me := momentum_pos hme he
  have hps : momentum e me ^ 2 = e ^ 2 - me ^ 2 := momentum_sq hme he.le
  have hc : gamma E m * momentum e me * beta E m ≠ 0 := by positivity
  have hgb : gamma E m ^ 2 * (1 - beta E m ^ 2) = 1 := by rw [← hg]; exact lorentz_sq h0 h1
  have hpe : Real.sqrt (e * e - me * me) = momentum e me := by unfold momentum; congr 1; ring
  have hfun : ∀ cl, positronIntegrand f me E m e cl
      = (fun x => momentum e me / (2 * momentum x me) * f x)
          (gamma E m * e - gamma E m * momentum e me * beta E m * cl) := by
    intro cl
    simp only [positronIntegrand, if_neg (not_lt.mpr he.le), hpe]
    have e1 : gamma E m * (e - momentum e me * beta E m * cl)
      = gamma E m * e - gamma E m * momentum e me * beta E m * cl := by ring
    rw [e1]
    congr 2
    rw [mul_assoc 2]
    congr 1
    conv_lhs => rw [mul_comm, ← Real.sqrt_sq hgp.le]
    rw [← Real.sqrt_mul (sq_nonneg _)]
    unfold momentum at hps ⊢
    congr 1
    linear_combination -me ^ 2 * hgb - gamma E m ^ 2 * beta E m ^ 2 * cl ^ 2 * hps
  rw [intervalIntegral.integral_congr (fun cl _ => hfun cl),
    intervalIntegral.integral_comp_sub_mul (fun x => momentum e me / (2 * momentum x me) * f x) hc]
  unfold boosted
  rw [hg, smul_eq_mul, ← intervalIntegral.integral_const_mul]
  rw [show gamma E m * e - gamma E m * momentum e me * beta E m * 1
      = gamma E m * (e - beta E m * momentum e me) by ring,
    show gamma E m * e - gamma E m * momentum e me * beta E m * -1
      = gamma E m * (e + beta E m * momentum e me) by ring]
  congr 1
  funext x
  by_cases hx : momentum x me = 0
  · rw [hx]; simp
  · field_simp

/-! ### The boxes -/

theorem lab_photon {E m : ℝ} (hm : 0 < m) (h : m < E) :
    labEnergy (m / 2) 0 (beta E m) (-1) = E * (1 - beta E m) / 2
    ∧ labEnergy (m / 2) 0 (beta E m) 1 = E * (1 + beta E m) / 2
    ∧ 2 * lorentz (beta E m) * beta E m * momentum (m / 2) 0 = E * beta E m := by
  obtain ⟨h0, h1, hg, hb⟩ := beta_facts hm h
  have hmom : momentum (m / 2) 0 = m / 2 := by
    unfold momentum
    rw [show (m / 2) ^ 2 - 0 ^ 2 = (m / 2) ^ 2 by ring, Real.sqrt_sq (by positivity)]
  simp only [labEnergy, hg, hmom, gamma]
  refine ⟨?_, ?_, ?_⟩ <;> (field_simp; try ring)

/-- Away from its two end points the photon box is the boosted line at half the mediator's mass, once. -/
theorem photonBox_eq (bf : ℝ) {E m e : ℝ} (hm : 0 < m) (h : m < E)
    (h1 : e ≠ E * (1 - beta E m) / 2) (h2 : e ≠ E * (1 + beta E m) / 2) :
    photonBox bf E m e = bf * boostDeltaPy e (m / 2) 0 (beta E m) := by
  obtain ⟨hb0, hb1, hg, hb⟩ := beta_facts hm h
  obtain ⟨l1, l2, l3⟩ := lab_photon hm h
  rw [boostDeltaPy_eq_box hb0 hb1 le_rfl (by positivity)]
  unfold photonBox box
  rw [l1, l2, l3]
  by_cases hw : E * (1 - beta E m) / 2 ≤ e ∧ e ≤ E * (1 + beta E m) / 2
  · have hi : e ∈ Set.Ioo (E * (1 - beta E m) / 2) (E * (1 + beta E m) / 2) :=
      ⟨lt_of_le_of_ne hw.1 (Ne.symm h1), lt_of_le_of_ne hw.2 h2⟩
    rw [if_pos hw, Set.indicator_of_mem hi]
    ring
  · rw [if_neg hw, Set.indicator_of_notMem (fun hc => hw ⟨hc.1.le, hc.2.le⟩), mul_zero]

theorem ae_ne_two (a b : ℝ) : ∀ᵐ e : ℝ, e ≠ a ∧ e ≠ b := by
  have h : ∀ c : ℝ, ∀ᵐ e : ℝ, e ≠ c := fun c => by
    rw [ae_iff]; simp
  filter_upwards [h a, h b] with e h1 h2 using ⟨h1, h2⟩

theorem photonBox_ae (bf : ℝ) {E m : ℝ} (hm : 0 < m) (h : m < E) :
    (fun e => photonBox bf E m e) =ᵐ[volume] fun e => bf * boostDeltaPy e (m / 2) 0 (beta E m) := by
  filter_upwards [ae_ne_two (E * (1 - beta E m) / 2) (E * (1 + beta E m) / 2)] with e he
  exact photonBox_eq bf hm h he.1 he.2

theorem line_energy_integral {e0 m beta : ℝ} (h0 : 0 < beta) (h1 : beta < 1) (hm : 0 ≤ m) (he0 : m < e0) :
    ∫ e in Set.Ioi m, e * boostDeltaPy e e0 m beta = lorentz beta * e0 := by
  rw [setIntegral_eq_integral_of_forall_compl_eq_zero]
  · exact (boost_delta_normalised_box e0 m beta h0 h1 hm he0).2.2.2
  · intro e he
    have : boostDeltaPy e e0 m beta = 0 := by
      by_contra hc
      have := ((boost_delta_normalised_box e0 m beta h0 h1 hm he0).2.1 e).mp hc
      exact he (lt_of_le_of_lt (mass_le_labEnergy h0 h1 hm he0.le) this.1)
    rw [this, mul_zero]

theorem line_energy_integrable {e0 m beta : ℝ} (h0 : 0 < beta) (h1 : beta < 1) (hm : 0 ≤ m) (he0 : m < e0) :
    Integrable fun e => e * boostDeltaPy e e0 m beta := by
  have h := (boost_delta_normalised_box e0 m beta h0 h1 hm he0).2.2.2
  by_contra hc
  rw [integral_undef hc] at h
  have := mul_pos (lorentz_pos h0 h1) (lt_of_le_of_lt hm he0)
  linarith

/-- The photon box holds one photon, of energy half the mediator's on average. -/
theorem photonBox_moments (bf : ℝ) {E m : ℝ} (hm : 0 < m) (h : m < E) :
    IntegrableOn (fun e => photonBox bf E m e) (Set.Ioi 0)
    ∧ IntegrableOn (fun e => e * photonBox bf E m e) (Set.Ioi 0)
    ∧ ∫ e in Set.Ioi 0, photonBox bf E m e = bf
    ∧ ∫ e in Set.Ioi 0, e * photonBox bf E m e = bf * (E / 2) := by
  obtain ⟨h0, h1, hg, hb⟩ := beta_facts hm h
  have hae := photonBox_ae bf hm h
  have hae2 : (fun e => e * photonBox bf E m e)
      =ᵐ[volume] fun e => bf * (e * boostDeltaPy e (m / 2) 0 (beta E m)) := by
    filter_upwards [hae] with e he
    rw [he]; ring
  have h2 : (0 : ℝ) < m / 2 := by positivity
  refine ⟨?_, ?_, ?_, ?_⟩
  · exact (((line_integrable h0 h1 le_rfl h2).const_mul bf).congr hae.symm).integrableOn
  · exact (((line_energy_integrable h0 h1 le_rfl h2).const_mul bf).congr hae2.symm).integrableOn
  · rw [integral_congr_ae (ae_restrict_of_ae hae), integral_const_mul, line_integral h0 h1 le_rfl h2, mul_one]
  · rw [integral_congr_ae (ae_restrict_of_ae hae2), integral_const_mul,
      line_energy_integral h0 h1 le_rfl h2, hg]
    unfold gamma
    field_simp

/-! ### Photon numbers and energies -/

/-- A spectrum that is a boost plus a box, in the form of both `*Point` functions. -/
theorem boost_plus_box {P f : ℝ → ℝ} {g : Prop} [Decidable g] {bf E m : ℝ} (hm : 0 < m) (h : m < E)
    (hP : ∀ e, P e = (∫ cl in (-1 : ℝ)..1, photonIntegrand f E m e cl)
      + if g then photonBox bf E m e else 0)
    (hf : IntegrableOn f (Set.Ioi 0)) :
    ∫ e in Set.Ioi 0, P e = (∫ e in Set.Ioi 0, f e) + (if g then bf else 0)
    ∧ (IntegrableOn (fun e => e * f e) (Set.Ioi 0) →
        ∫ e in Set.Ioi 0, e * P e
          = E / m * (∫ e in Set.Ioi 0, e * f e) + (if g then bf * (E / 2) else 0)) := by
  obtain ⟨h0, h1, hg, hb⟩ := beta_facts hm h
  obtain ⟨i1, i2, n1, n2⟩ := photonBox_moments bf hm h
  have hPe : ∀ e ∈ Set.Ioi (0 : ℝ), P e = boosted f 0 (beta E m) e + if g then photonBox bf E m e else 0 := by
    intro e he
    rw [hP, photon_integral_is_boost f hm h he]
  have hB := boosted_integrable h0 h1 le_rfl hf
  constructor
  · rw [setIntegral_congr_fun measurableSet_Ioi hPe]
    by_cases hgg : g
    · simp only [if_pos hgg]
      rw [integral_add hB i1, boost_conserves_number f 0 _ h0 h1 le_rfl hf, n1]
    · simp only [if_neg hgg, add_zero]
      rw [boost_conserves_number f 0 _ h0 h1 le_rfl hf]
  · intro hef
    have hE := boost_scales_energy f 0 _ h0 h1 le_rfl hf hef
    have hEB := boosted_energy_integrable h0 h1 le_rfl hf hef
    rw [hg] at hE
    change _ = E / m * _ at hE
    rw [setIntegral_congr_fun (g := fun e => e * boosted f 0 (beta E m) e
      + if g then e * photonBox bf E m e else 0) measurableSet_Ioi (fun e he => by
        simp only; rw [hPe e he]; split_ifs <;> ring)]
    by_cases hgg : g
    · simp only [if_pos hgg]
      rw [integral_add hEB i2, hE, n2]
    · simp only [if_neg hgg, add_zero]
      rw [hE]

/-- C108, scalar: a moving scalar gives the photons of its rest frame, with the boosted energy, plus one
photon of energy `E / 2` per `g g` decay. -/
theorem scalar_photons (r : RestPhoton) (pws : Fin 5 → ℝ) (b : Modes) (E m : ℝ) (hm : 0 < m) (h : m < E)
    (hf : IntegrableOn (scalarRest r pws b) (Set.Ioi 0)) :
    ∫ e in Set.Ioi 0, scalarPoint r pws b e E m
        = (∫ e in Set.Ioi 0, scalarRest r pws b e) + (if b.gg then pws 4 else 0)
    ∧ (IntegrableOn (fun e => e * scalarRest r pws b e) (Set.Ioi 0) →
        ∫ e in Set.Ioi 0, e * scalarPoint r pws b e E m
          = E / m * (∫ e in Set.Ioi 0, e * scalarRest r pws b e) + (if b.gg then pws 4 * (E / 2) else 0)) :=
  boost_plus_box hm h (fun e => by simp only [scalarPoint, if_neg (not_lt.mpr h.le)]) hf

/-- C108, vector: the same with one photon of energy `E / 2` per `pi0 g` decay. -/
theorem vector_photons (r : RestPhoton) (pws : Fin 5 → ℝ) (mode : VMode) (E m : ℝ) (hm : 0 < m) (h : m < E)
    (hf : IntegrableOn (vectorRest r pws mode) (Set.Ioi 0)) :
    ∫ e in Set.Ioi 0, vectorPoint r pws mode e E m
        = (∫ e in Set.Ioi 0, vectorRest r pws mode e) + (if mode = .p0g ∨ mode = .total then pws 2 else 0)
    ∧ (IntegrableOn (fun e => e * vectorRest r pws mode e) (Set.Ioi 0) →
        ∫ e in Set.Ioi 0, e * vectorPoint r pws mode e E m
          = E / m * (∫ e in Set.Ioi 0, e * vectorRest r pws mode e)
            + (if mode = .p0g ∨ mode = .total then pws 2 * (E / 2) else 0)) :=
  boost_plus_box hm h (fun e => by simp only [vectorPoint, if_neg (not_lt.mpr h.le)]) hf

theorem scalarRest_gg (r : RestPhoton) (pws : Fin 5 → ℝ) (e : ℝ) :
    scalarRest r pws (modesOf ["g g"]) e = 0 := by
  simp [scalarRest, modesOf]

/-- C56 is false: the `g g` decay of a moving scalar gives one photon carrying half of the scalar's energy
per decay, where two photons carrying all of it are emitted. -/
theorem gg_half (r : RestPhoton) (pws : Fin 5 → ℝ) (E m : ℝ) (hm : 0 < m) (h : m < E) :
    ∫ e in Set.Ioi 0, scalarPoint r pws (modesOf ["g g"]) e E m = pws 4
    ∧ ∫ e in Set.Ioi 0, e * scalarPoint r pws (modesOf ["g g"]) e E m = pws 4 * (E / 2)
    ∧ (pws 4 ≠ 0 → ∫ e in Set.Ioi 0, scalarPoint r pws (modesOf ["g g"]) e E m ≠ 2 * pws 4
      ∧ ∫ e in Set.Ioi 0, e * scalarPoint r pws (modesOf ["g g"]) e E m ≠ pws 4 * E) := by
  have hz : scalarRest r pws (modesOf ["g g"]) = fun _ => 0 := funext (scalarRest_gg r pws)
  have hg : (modesOf ["g g"]).gg = true := by simp [modesOf]
  obtain ⟨h1, h2⟩ := scalar_photons r pws (modesOf ["g g"]) E m hm h (by rw [hz]; exact integrableOn_zero)
  have h2 := h2 (by simp only [hz, mul_zero]; exact integrableOn_zero)
  simp only [hz, mul_zero, integral_zero, zero_add, hg, if_true] at h1 h2
  refine ⟨h1, h2, fun hp => ⟨?_, ?_⟩⟩
  · rw [h1]; intro hc; apply hp; linarith
  · rw [h2]; intro hc
    have : pws 4 * E = 0 := by linarith
    rcases mul_eq_zero.mp this with h' | h'
    · exact hp h'
    · linarith

example : ∃ (r : RestPhoton) (pws : Fin 5 → ℝ),
    ∫ e in Set.Ioi 0, scalarPoint r pws (modesOf ["g g"]) e 2 1 = 0.3 :=
  ⟨⟨fun _ => 0, fun _ => 0, fun _ => 0, fun _ => 0, fun _ => 0, fun _ => 0⟩, fun _ => 0.3,
    (gg_half _ _ 2 1 one_pos (by norm_num)).1⟩

/-- C56, what holds: the shape.  Apart from the two end points the `g g` spectrum is the spectrum of a
boosted line at half the mass, so that doubling it would be right. -/
theorem gg_shape_partial (r : RestPhoton) (pws : Fin 5 → ℝ) (E m e : ℝ) (hm : 0 < m) (h : m < E)
    (he : 0 < e) (h1 : e ≠ E * (1 - beta E m) / 2) (h2 : e ≠ E * (1 + beta E m) / 2) :
    2 * scalarPoint r pws (modesOf ["g g"]) e E m = pws 4 * (2 * boostDeltaPy e (m / 2) 0 (beta E m)) := by
  have hz : scalarRest r pws (modesOf ["g g"]) = fun _ => 0 := funext (scalarRest_gg r pws)
  have hg : (modesOf ["g g"]).gg = true := by simp [modesOf]
  simp only [scalarPoint, if_neg (not_lt.mpr h.le), hz, photonIntegrand, mul_zero,
    intervalIntegral.integral_zero, zero_add, hg, if_true, photonBox_eq (pws 4) hm h h1 h2]
  ring

/-- C56 at the level of `dnde_ss`: annihilation into two scalars that always decay to two photons each gives
two photons in total. -/
theorem ss_gg_photons (r : RestPhoton) (widths : Fin 5 → ℝ) (total ecm m : ℝ) (hm : 0 < m)
    (h : 2 * m < ecm) (ht : 0 < total) (hw : widths 4 = total) :
    ∫ e in Set.Ioi 0, pairOf (fun pws E => scalarPoint r pws (modesOf ["g g"]) e E m) widths total ecm
      = 2 := by
  simp only [pairOf, if_pos ht.ne']
  rw [integral_const_mul, (gg_half r _ (ecm / 2) m hm (by linarith)).1]
  simp only [hw]
  field_simp

/-! ### The `pi0 g` line of the vector -/

/-- C107 is false: the photon from `V → π⁰ γ` is boosted as if it had half the mass of the vector.  Its mean
energy is `E / 2`, too large by `E mπ² / (2 m²)`, so that pion and photon together have more energy than the
vector. -/
theorem pi0g_energy (mpi0 E m : ℝ) (hmp : 0 < mpi0) (hm : 0 < m) (h : m < E) :
    ∫ e in Set.Ioi 0, e * photonBox 1 E m e = E / 2
    ∧ (∫ e in Set.Ioi 0, e * photonBox 1 E m e)
        = E / m * pi0gLine mpi0 m + E * mpi0 ^ 2 / (2 * m ^ 2)
    ∧ E < (∫ e in Set.Ioi 0, e * photonBox 1 E m e) + E / m * decayPion mpi0 m := by
  have hE := hm.trans h
  obtain ⟨-, -, -, n⟩ := photonBox_moments 1 hm h
  rw [one_mul] at n
  rw [n]
  refine ⟨rfl, ?_, ?_⟩
  · unfold pi0gLine; field_simp; ring
  · have e1 : E / 2 + E / m * decayPion mpi0 m = E + E * mpi0 ^ 2 / (2 * m ^ 2) := by
      unfold decayPion; field_simp; ring
    rw [e1]
    have : 0 < E * mpi0 ^ 2 / (2 * m ^ 2) := by positivity
    linarith

/-- C107 in the full spectrum: with neutral pions that turn all of their energy into photons, the `pi0 g`
spectrum contains more energy than the decaying vectors had. -/
theorem pi0g_spectrum_energy (r : RestPhoton) (pws : Fin 5 → ℝ) (mpi0 E m : ℝ) (hmp : 0 < mpi0) (hm : 0 < m)
    (h : m < E) (hp : 0 < pws 2) (hf : IntegrableOn r.pi0 (Set.Ioi 0))
    (hef : IntegrableOn (fun e => e * r.pi0 e) (Set.Ioi 0))
    (hen : ∫ e in Set.Ioi 0, e * r.pi0 e = decayPion mpi0 m) :
    pws 2 * E < ∫ e in Set.Ioi 0, e * vectorPoint r pws .p0g e E m := by
  have h2 := (vector_photons r pws .p0g E m hm h (hf.const_mul _)).2 (by
    refine (hef.const_mul (pws 2)).congr (Filter.Eventually.of_forall fun e => ?_)
    simp only [vectorRest]; ring)
  have h3 : ∫ e in Set.Ioi 0, e * vectorRest r pws .p0g e = pws 2 * decayPion mpi0 m := by
    rw [← hen, ← integral_const_mul]
    congr 1; funext e; simp only [vectorRest]; ring
  rw [h2, h3]
  simp only [true_or, if_true]
  obtain ⟨h4, -, h5⟩ := pi0g_energy mpi0 E m hmp hm h
  rw [h4] at h5
  nlinarith

/-- The hypotheses are met by the two photons of a neutral pion. -/
example : ∃ r : RestPhoton, ∃ pws : Fin 5 → ℝ,
    pws 2 * 300 < ∫ e in Set.Ioi 0, e * vectorPoint r pws .p0g e 300 200 := by
  have hd : (135 : ℝ) < decayPion 135 200 := by unfold decayPion; norm_num
  obtain ⟨h0, h1, hg, -⟩ := beta_facts (by norm_num : (0 : ℝ) < 135) hd
  obtain ⟨r, hr⟩ : ∃ r : RestPhoton,
      r = ⟨0, 0, 0, 0, fun e => 2 * boostDeltaPy e (135 / 2) 0 (beta (decayPion 135 200) 135), 0⟩ := ⟨_, rfl⟩
  refine ⟨r, fun _ => 1, pi0g_spectrum_energy r (fun _ => 1) 135 300 200 (by norm_num) (by norm_num)
    (by norm_num) (by norm_num) ?_ ?_ ?_⟩ <;> rw [hr]
  · exact ((line_integrable h0 h1 le_rfl (by norm_num)).const_mul 2).integrableOn
  · refine ((line_energy_integrable h0 h1 le_rfl (by norm_num : (0 : ℝ) < 135 / 2)).const_mul 2).congr
      (Filter.Eventually.of_forall fun e => ?_) |>.integrableOn
    simp only; ring
  · have := line_energy_integral h0 h1 le_rfl (by norm_num : (0 : ℝ) < 135 / 2)
    rw [hg] at this
    calc _ = ∫ e in Set.Ioi 0, 2 * (e * boostDeltaPy e (135 / 2) 0 (beta (decayPion 135 200) 135)) := by
          congr 1; funext e; ring
      _ = _ := by rw [integral_const_mul, this]; unfold gamma; ring

/-- C107, what holds: one photon per decay, and the right spectrum in the limit of a massless pion. -/
theorem pi0g_count_partial (pws : ℝ) (E m e : ℝ) (hm : 0 < m) (h : m < E) :
    ∫ e in Set.Ioi 0, photonBox pws E m e = pws
    ∧ (e ≠ E * (1 - beta E m) / 2 → e ≠ E * (1 + beta E m) / 2 →
      photonBox pws E m e = pws * boostDeltaPy e (pi0gLine 0 m) 0 (beta E m)) := by
  refine ⟨(photonBox_moments pws hm h).2.2.1, fun h1 h2 => ?_⟩
  rw [photonBox_eq pws hm h h1 h2]
  congr 2
  unfold pi0gLine; field_simp; ring

end Hazma.Mediator
