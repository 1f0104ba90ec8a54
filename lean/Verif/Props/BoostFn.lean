import Verif.Model.BoostFn
import Verif.Props.Boost
import Mathlib.MeasureTheory.Integral.Prod

/-!
# Boosting functions and averaging over energies (C196–C199)
-/

namespace Hazma.BoostFn

open MeasureTheory
open Hazma.Boost (lorentz momentum labEnergy box boostDeltaPy boostDeltaPy_eq_box)

/-- The spectrum in the lab (specification): every product of rest-frame energy `e0`, emitted
isotropically by a parent of velocity `beta`, contributes its boosted line. -/
noncomputable def labSpectrum (f : ℝ → ℝ) (m beta e : ℝ) : ℝ :=
  ∫ e0 in Set.Ioi m, f e0 * boostDeltaPy e e0 m beta

theorem integrand_eq (f : ℝ → ℝ) {m beta e : ℝ} (h0 : 0 < beta) (h1 : beta < 1) (hm : 0 ≤ m)
    (he : m < e) :
    0.5 * (∫ x in lorentz beta * (e - beta * momentum e m)..lorentz beta * (e + beta * momentum e m),
      f x / Real.sqrt (x ^ 2 - m ^ 2)) / (beta * lorentz beta) = labSpectrum f m beta e := by
  have hg := Boost.lorentz_pos h0 h1
  have hk := Boost.momentum_pos hm he
  have hle : lorentz beta * (e - beta * momentum e m) ≤ lorentz beta * (e + beta * momentum e m) := by
    have := mul_pos hg (mul_pos h0 hk)
    nlinarith
  have hlow : m ≤ lorentz beta * (e - beta * momentum e m) := by
    have := Boost.mass_le_labEnergy h0 h1 hm he.le
    unfold labEnergy at this
    rwa [show e + beta * (-1) * momentum e m = e - beta * momentum e m by ring] at this
  unfold labSpectrum
  have hpt : ∀ e0 ∈ Set.Ioi m, f e0 * boostDeltaPy e e0 m beta
      = (Set.Ioo (lorentz beta * (e - beta * momentum e m))
          (lorentz beta * (e + beta * momentum e m))).indicator
          (fun x => 1 / (2 * lorentz beta * beta) * (f x / Real.sqrt (x ^ 2 - m ^ 2))) e0 := by
    intro e0 he0
    rw [boostDeltaPy_eq_box h0 h1 hm (Set.mem_Ioi.mp he0).le]
    unfold box
    by_cases hw : e ∈ Set.Ioo (labEnergy e0 m beta (-1)) (labEnergy e0 m beta 1)
    · have hw' : e0 ∈ Set.Ioo (lorentz beta * (e - beta * momentum e m))
          (lorentz beta * (e + beta * momentum e m)) :=
        (Boost.window_symm h0 h1 hm he.le (Set.mem_Ioi.mp he0).le).mpr hw
      rw [Set.indicator_of_mem hw, Set.indicator_of_mem hw']
      have hk0 := Boost.momentum_pos hm (Set.mem_Ioi.mp he0)
      rw [show Real.sqrt (e0 ^ 2 - m ^ 2) = momentum e0 m from rfl]
      field_simp
    · rw [Set.indicator_of_notMem hw, Set.indicator_of_notMem, mul_zero]
      intro h
      exact hw ((Boost.window_symm h0 h1 hm he.le (Set.mem_Ioi.mp he0).le).mp h)
  rw [setIntegral_congr_fun measurableSet_Ioi hpt, setIntegral_indicator measurableSet_Ioo,
    Set.inter_eq_right.mpr (fun x hx => Set.mem_Ioi.mpr (lt_of_le_of_lt hlow hx.1)),
    ← integral_Ioc_eq_integral_Ioo, ← intervalIntegral.integral_of_le hle,
    intervalIntegral.integral_const_mul]
  field_simp
  ring

theorem labSpectrum_below (f : ℝ → ℝ) {m beta e : ℝ} (h0 : 0 < beta) (h1 : beta < 1) (hm : 0 ≤ m)
    (he : e ≤ m) : labSpectrum f m beta e = 0 := by
  unfold labSpectrum
  refine (setIntegral_congr_fun (g := fun _ => (0 : ℝ)) measurableSet_Ioi ?_).trans (by simp)
  intro e0 he0
  show f e0 * boostDeltaPy e e0 m beta = 0
  rw [boostDeltaPy_eq_box h0 h1 hm (Set.mem_Ioi.mp he0).le, box, Set.indicator_of_notMem, mul_zero]
  intro h
  have := Boost.mass_le_labEnergy h0 h1 hm (Set.mem_Ioi.mp he0).le
  linarith [h.1]

/-- **C196.** For a velocity between the machine epsilon and one the function returned by
`make_boost_function` (and `dnde_boost`) gives, at every energy, the lab spectrum of the decay of
the moving parent: the superposition of the boosted lines of the rest-frame spectrum, with the
extra arguments passed on. -/
theorem boosted_value (simps : List ℝ → List ℝ → ℝ) (unit : List ℝ → Except Err (List ℝ))
    (eps : ℝ) (heps : 0 < eps) (fn : Fn) (mass : ℝ) (hm : 0 ≤ mass) (energies : List ℝ)
    (beta : ℝ) (hb : eps ≤ beta) (hb1 : beta < 1) (args : List ℝ) (ha : args.length = fn.arity)
    (npts : ℕ) :
    fnBoosted simps unit eps fn mass energies beta "quad" args npts
        = .ok (energies.map (labSpectrum (fun e => fn.eval e args) mass beta)) ∧
      dndeBoost simps unit eps fn energies beta mass "quadrature" args npts
        = fnBoosted simps unit eps fn mass energies beta "quad" args npts := by
  have h0 : 0 < beta := heps.trans_le hb
  have key : ∀ method : String, (method = "quad" ∨ method = "quadrature") →
      fnBoosted simps unit eps fn mass energies beta method args npts
        = .ok (energies.map (labSpectrum (fun e => fn.eval e args) mass beta)) := by
    intro method hmeth
    unfold fnBoosted
    rw [if_neg (by rcases hmeth with h | h <;> subst h <;> simp), if_neg (not_lt.mpr hb),
      if_neg (by rintro (h | h) <;> linarith), if_neg hb1.ne]
    simp only
    rw [if_neg (fun h => h.2 ha)]
    refine congrArg _ (List.map_congr_left fun e _ => ?_)
    rw [show 1 / Real.sqrt (1 - beta ^ 2) = lorentz beta from rfl]
    by_cases he : e > mass
    · rw [if_pos he, show Real.sqrt (e ^ 2 - mass ^ 2) = momentum e mass from rfl]
      unfold integrator
      rw [if_pos hmeth]
      exact integrand_eq (fun e => fn.eval e args) h0 hb1 hm he
    · rw [if_neg he, labSpectrum_below _ h0 hb1 hm (not_lt.mp he)]
      simp
  exact ⟨key _ (.inl rfl), by
    unfold dndeBoost
    rw [key _ (.inr rfl), key _ (.inl rfl)]⟩

theorem box_measurable (m beta : ℝ) : Measurable fun p : ℝ × ℝ => box p.1 m beta p.2 := by
  have hl : ∀ c : ℝ, Measurable fun p : ℝ × ℝ => labEnergy p.1 m beta c := by
    intro c
    unfold labEnergy momentum
    fun_prop
  have hv : Measurable fun p : ℝ × ℝ => 1 / (2 * lorentz beta * beta * momentum p.1 m) := by
    unfold momentum
    fun_prop
  have hs : MeasurableSet {p : ℝ × ℝ | labEnergy p.1 m beta (-1) < p.2 ∧ p.2 < labEnergy p.1 m beta 1} :=
    (measurableSet_lt (hl _) measurable_snd).inter (measurableSet_lt measurable_snd (hl _))
  have : (fun p : ℝ × ℝ => box p.1 m beta p.2)
      = {p : ℝ × ℝ | labEnergy p.1 m beta (-1) < p.2 ∧ p.2 < labEnergy p.1 m beta 1}.indicator
        fun p => 1 / (2 * lorentz beta * beta * momentum p.1 m) := by
    funext p
    unfold box
    by_cases h : p.2 ∈ Set.Ioo (labEnergy p.1 m beta (-1)) (labEnergy p.1 m beta 1)
    · have h' : p ∈ {p : ℝ × ℝ | labEnergy p.1 m beta (-1) < p.2 ∧ p.2 < labEnergy p.1 m beta 1} := h
      rw [Set.indicator_of_mem h, Set.indicator_of_mem h']
    · have h' : p ∉ {p : ℝ × ℝ | labEnergy p.1 m beta (-1) < p.2 ∧ p.2 < labEnergy p.1 m beta 1} := h
      rw [Set.indicator_of_notMem h, Set.indicator_of_notMem h']
  rw [this]
  exact hv.indicator hs

theorem box_integrable (e0 m beta : ℝ) : Integrable (box e0 m beta) := by
  unfold box
  rw [integrable_indicator_iff measurableSet_Ioo]
  exact integrableOn_const (by simp) enorm_ne_top

theorem weighted_box_integrable (e0 m beta : ℝ) : Integrable fun e => e * box e0 m beta e := by
  have : (fun e => e * box e0 m beta e)
      = (Set.Ioo (labEnergy e0 m beta (-1)) (labEnergy e0 m beta 1)).indicator
        fun e => e * (1 / (2 * lorentz beta * beta * momentum e0 m)) := by
    funext e
    unfold box
    by_cases h : e ∈ Set.Ioo (labEnergy e0 m beta (-1)) (labEnergy e0 m beta 1)
    · rw [Set.indicator_of_mem h, Set.indicator_of_mem h]
    · rw [Set.indicator_of_notMem h, Set.indicator_of_notMem h, mul_zero]
  rw [this, integrable_indicator_iff measurableSet_Ioo]
  refine IntegrableOn.mono_set (t := Set.Icc (labEnergy e0 m beta (-1)) (labEnergy e0 m beta 1)) ?_
    Set.Ioo_subset_Icc_self
  exact (by fun_prop : Continuous fun e : ℝ => e * (1 / (2 * lorentz beta * beta * momentum e0 m)))
    |>.continuousOn.integrableOn_Icc

theorem box_nonneg {e0 m beta : ℝ} (h0 : 0 < beta) (h1 : beta < 1) (e : ℝ) : 0 ≤ box e0 m beta e := by
  unfold box
  refine Set.indicator_nonneg (fun _ _ => ?_) e
  have := Boost.lorentz_pos h0 h1
  have : 0 ≤ momentum e0 m := Real.sqrt_nonneg _
  positivity

theorem box_moments {e0 m beta : ℝ} (h0 : 0 < beta) (h1 : beta < 1) (hm : 0 ≤ m) (he0 : m < e0) :
    ∫ e, box e0 m beta e = 1 ∧ ∫ e, e * box e0 m beta e = lorentz beta * e0 := by
  have h := Boost.boost_delta_normalised_box e0 m beta h0 h1 hm he0
  simp only [boostDeltaPy_eq_box h0 h1 hm he0.le] at h
  exact ⟨h.2.2.1, h.2.2.2⟩

theorem moment (w : ℝ → ℝ) (hw : Measurable w) (c : ℝ → ℝ) {f : ℝ → ℝ} {m beta : ℝ} (h0 : 0 < beta)
    (h1 : beta < 1) (hm : 0 ≤ m)
    (hint : ∀ e0, m < e0 → Integrable fun e => w e * box e0 m beta e)
    (hval : ∀ e0, m < e0 → ∫ e, w e * box e0 m beta e = c e0)
    (hnn : ∀ e0 e, m < e0 → 0 ≤ w e * box e0 m beta e)
    (hf : IntegrableOn f (Set.Ioi m)) (hcf : IntegrableOn (fun e => c e * f e) (Set.Ioi m)) :
    ∫ e, w e * labSpectrum f m beta e = ∫ e0 in Set.Ioi m, c e0 * f e0 := by
  have hae : ∀ᵐ e0 ∂(volume.restrict (Set.Ioi m)), m < e0 :=
    (ae_restrict_mem measurableSet_Ioi).mono fun _ h => h
  have hmeas : AEStronglyMeasurable (fun p : ℝ × ℝ => f p.1 * (w p.2 * box p.1 m beta p.2))
      ((volume.restrict (Set.Ioi m)).prod volume) := by
    refine (hf.aestronglyMeasurable.comp_fst).mul ?_
    exact ((hw.comp measurable_snd).mul (box_measurable m beta)).aestronglyMeasurable
  have hprod : Integrable (fun p : ℝ × ℝ => f p.1 * (w p.2 * box p.1 m beta p.2))
      ((volume.restrict (Set.Ioi m)).prod volume) := by
    rw [integrable_prod_iff hmeas]
    constructor
    · filter_upwards [hae] with e0 he0
      exact (hint e0 he0).const_mul _
    · refine hcf.norm.congr ?_
      filter_upwards [hae] with e0 he0
      have hc : 0 ≤ c e0 := by
        rw [← hval e0 he0]
        exact integral_nonneg fun e => hnn e0 e he0
      simp only [norm_mul, Real.norm_eq_abs]
      have : ∀ e, |f e0| * (|w e| * |box e0 m beta e|) = |f e0| * (w e * box e0 m beta e) := by
        intro e
        rw [← abs_mul, abs_of_nonneg (hnn e0 e he0)]
      simp only [this]
      rw [integral_const_mul, hval e0 he0, abs_of_nonneg hc]
      ring
  have hswap := integral_integral_swap (f := fun e0 e => f e0 * (w e * box e0 m beta e)) hprod
  have hl : ∀ e, w e * labSpectrum f m beta e
      = ∫ e0 in Set.Ioi m, f e0 * (w e * box e0 m beta e) := by
    intro e
    unfold labSpectrum
    rw [← integral_const_mul]
    refine setIntegral_congr_fun measurableSet_Ioi fun e0 he0 => ?_
    show w e * (f e0 * boostDeltaPy e e0 m beta) = _
    rw [boostDeltaPy_eq_box h0 h1 hm (Set.mem_Ioi.mp he0).le]
    ring
  simp only [hl]
  rw [← hswap]
  refine setIntegral_congr_fun measurableSet_Ioi fun e0 he0 => ?_
  show ∫ e, f e0 * (w e * box e0 m beta e) = _
  rw [integral_const_mul, hval e0 he0]
  ring

/-- **C196.** Boosting conserves the number of particles: whatever the (integrable) rest-frame
spectrum, the lab spectrum integrates to the same number. -/
theorem boost_conserves_number (f : ℝ → ℝ) (m beta : ℝ) (h0 : 0 < beta) (h1 : beta < 1)
    (hm : 0 ≤ m) (hf : IntegrableOn f (Set.Ioi m)) :
    ∫ e, labSpectrum f m beta e = ∫ e0 in Set.Ioi m, f e0 := by
  have := moment (fun _ => 1) measurable_const (fun _ => 1) (f := f) h0 h1 hm
    (fun e0 _ => by simpa using box_integrable e0 m beta)
    (fun e0 he0 => by simpa using (box_moments h0 h1 hm he0).1)
    (fun e0 e _ => by simpa using box_nonneg h0 h1 e) hf (by simpa using hf)
  simpa using this

/-- **C196.** Boosting multiplies the energy carried by the products by the Lorentz factor of the
parent. -/
theorem boost_multiplies_energy (f : ℝ → ℝ) (m beta : ℝ) (h0 : 0 < beta) (h1 : beta < 1)
    (hm : 0 ≤ m) (hf : IntegrableOn f (Set.Ioi m))
    (hef : IntegrableOn (fun e => e * f e) (Set.Ioi m)) :
    ∫ e, e * labSpectrum f m beta e = lorentz beta * ∫ e0 in Set.Ioi m, e0 * f e0 := by
  have := moment (fun e => e) measurable_id (fun e0 => lorentz beta * e0) (f := f) h0 h1 hm
    (fun e0 _ => weighted_box_integrable e0 m beta)
    (fun e0 he0 => (box_moments h0 h1 hm he0).2)
    (fun e0 e he0 => by
      unfold box
      by_cases h : e ∈ Set.Ioo (labEnergy e0 m beta (-1)) (labEnergy e0 m beta 1)
      · rw [Set.indicator_of_mem h]
        have h2 := Boost.mass_le_labEnergy h0 h1 hm he0.le
        have hg := Boost.lorentz_pos h0 h1
        have hk : 0 ≤ momentum e0 m := Real.sqrt_nonneg _
        have : 0 ≤ e := by linarith [h.1]
        positivity
      · rw [Set.indicator_of_notMem h, mul_zero]) hf
    (by
      have h : IntegrableOn (fun e => lorentz beta * (e * f e)) (Set.Ioi m) :=
        Integrable.const_mul hef (lorentz beta)
      simpa only [mul_assoc] using h)
  rw [this, ← integral_const_mul]
  refine integral_congr_ae (Filter.Eventually.of_forall fun e => ?_)
  show lorentz beta * e * f e = lorentz beta * (e * f e)
  ring

/-- **C196.** The lab spectrum of a non-negative spectrum is non-negative; if the rest-frame
spectrum vanishes above `top`, the lab spectrum vanishes above the lab energy of forward emission
at `top`. -/
theorem boost_support (f : ℝ → ℝ) (m beta : ℝ) (h0 : 0 < beta) (h1 : beta < 1) (hm : 0 ≤ m) :
    ((∀ e, m < e → 0 ≤ f e) → ∀ e, 0 ≤ labSpectrum f m beta e) ∧
    (∀ top, m ≤ top → (∀ e, top < e → f e = 0) →
      ∀ e, labEnergy top m beta 1 ≤ e → labSpectrum f m beta e = 0) := by
  constructor
  · intro hf e
    unfold labSpectrum
    refine setIntegral_nonneg measurableSet_Ioi fun e0 he0 => ?_
    rw [boostDeltaPy_eq_box h0 h1 hm (Set.mem_Ioi.mp he0).le]
    exact mul_nonneg (hf e0 he0) (box_nonneg h0 h1 e)
  · intro top htop hf e he
    unfold labSpectrum
    refine (setIntegral_congr_fun (g := fun _ => (0 : ℝ)) measurableSet_Ioi ?_).trans (by simp)
    intro e0 he0
    show f e0 * boostDeltaPy e e0 m beta = 0
    rcases lt_or_ge top e0 with h | h
    · rw [hf e0 h, zero_mul]
    · rw [boostDeltaPy_eq_box h0 h1 hm (Set.mem_Ioi.mp he0).le, box, Set.indicator_of_notMem, mul_zero]
      intro hw
      have hmono : labEnergy e0 m beta 1 ≤ labEnergy top m beta 1 := by
        unfold labEnergy momentum
        have hs : Real.sqrt (e0 ^ 2 - m ^ 2) ≤ Real.sqrt (top ^ 2 - m ^ 2) := by
          refine Real.sqrt_le_sqrt ?_
          have : m < e0 := he0
          nlinarith
        have hg := Boost.lorentz_pos h0 h1
        have := mul_le_mul_of_nonneg_left hs h0.le
        refine mul_le_mul_of_nonneg_left ?_ hg.le
        linarith
      linarith [hw.2]

example : ∫ e, labSpectrum (Set.indicator (Set.Ioc 0 2) fun _ => 3) 0 (3 / 5) e = 6 := by
  rw [boost_conserves_number _ _ _ (by norm_num) (by norm_num) le_rfl]
  · rw [setIntegral_indicator measurableSet_Ioc,
      Set.inter_eq_right.mpr (fun x hx => hx.1)]
    simp
    norm_num
  · refine Integrable.integrableOn ?_
    rw [integrable_indicator_iff measurableSet_Ioc]
    exact integrableOn_const (by simp) (by simp)

/-- **C197.** Above the speed of light the result is zero, and a method other than the four listed
raises `ValueError` whatever the velocity. -/
theorem boost_unphysical_partial (simps : List ℝ → List ℝ → ℝ)
    (unit : List ℝ → Except Err (List ℝ)) (eps : ℝ) (heps : eps ≤ 1) (fn : Fn) (mass : ℝ)
    (energies : List ℝ) (beta : ℝ) (args : List ℝ) (npts : ℕ) :
    (1 < beta → ∀ method ∈ ["quad", "trapz", "simps", "quadrature"],
      fnBoosted simps unit eps fn mass energies beta method args npts
        = .ok (energies.map fun _ => 0)) ∧
    (∀ method, method ∉ ["quad", "trapz", "simps", "quadrature"] →
      fnBoosted simps unit eps fn mass energies beta method args npts = .error .value) := by
  constructor
  · intro hb method hmeth
    unfold fnBoosted
    rw [if_neg (not_not.mpr hmeth), if_neg (not_lt.mpr (heps.trans hb.le)), if_pos (Or.inr hb)]
  · intro method hmeth
    unfold fnBoosted
    rw [if_pos hmeth]

/-- **C197.** A negative velocity is not answered with the documented zeros but with the
rest-frame spectrum. -/
theorem boost_negative_beta (simps : List ℝ → List ℝ → ℝ) (unit : List ℝ → Except Err (List ℝ))
    (eps : ℝ) (heps : 0 < eps) (f : ℝ → ℝ) (mass : ℝ) (energies : List ℝ) (beta : ℝ)
    (hb : beta < 0) (npts : ℕ) :
    fnBoosted simps unit eps ⟨0, fun e _ => f e⟩ mass energies beta "quad" [] npts
      = .ok (energies.map f) := by
  unfold fnBoosted
  rw [if_neg (by simp), if_pos (hb.trans heps)]
  exact if_pos (Or.inr rfl)

/-- **C198.** At rest the function is called without the extra arguments: a spectrum with at least
one extra argument raises `TypeError` below the machine epsilon, though the same call succeeds for
every velocity between it and one. -/
theorem boost_at_rest_drops_args (simps : List ℝ → List ℝ → ℝ)
    (unit : List ℝ → Except Err (List ℝ)) (eps : ℝ) (heps : 0 < eps) (fn : Fn)
    (hfn : 0 < fn.arity) (mass : ℝ) (hm : 0 ≤ mass) (energies : List ℝ) (he : energies ≠ [])
    (args : List ℝ) (ha : args.length = fn.arity) (npts : ℕ) :
    (∀ beta < eps, fnBoosted simps unit eps fn mass energies beta "quad" args npts
      = .error .type) ∧
    (∀ beta, eps ≤ beta → beta < 1 →
      ∃ v, fnBoosted simps unit eps fn mass energies beta "quad" args npts = .ok v) := by
  constructor
  · intro beta hb
    unfold fnBoosted
    rw [if_neg (by simp), if_pos hb]
    unfold Fn.calls
    rw [if_neg]
    rintro (h | h)
    · exact he h
    · simp at h
      omega
  · intro beta hb hb1
    exact ⟨_, (boosted_value simps unit eps heps fn mass hm energies beta hb hb1 args ha npts).1⟩

/-- **C198.** Without extra arguments the boosted function at rest is the spectrum itself. -/
theorem boost_at_rest_partial (simps : List ℝ → List ℝ → ℝ)
    (unit : List ℝ → Except Err (List ℝ)) (eps : ℝ) (f : ℝ → ℝ) (mass : ℝ)
    (energies : List ℝ) (beta : ℝ) (hb : 0 ≤ beta) (hb1 : beta < eps) (npts : ℕ) :
    ∀ method ∈ ["quad", "trapz", "simps", "quadrature"],
      fnBoosted simps unit eps ⟨0, fun e _ => f e⟩ mass energies beta method [] npts
        = .ok (energies.map f) := by
  intro method hmeth
  unfold fnBoosted
  rw [if_neg (not_not.mpr hmeth), if_pos hb1]
  exact if_pos (Or.inr rfl)

example (simps : List ℝ → List ℝ → ℝ) (unit : List ℝ → Except Err (List ℝ)) :
    fnBoosted simps unit (1 / 2 ^ 52) ⟨1, fun e a => e * a.getD 0 0⟩ 0 [1, 2] 0 "quad" [3] 100
      = .error .type :=
  (boost_at_rest_drops_args simps unit (1 / 2 ^ 52) (by positivity) ⟨1, fun e a => e * a.getD 0 0⟩
    (by norm_num) 0 le_rfl [1, 2] (by simp) [3] rfl 100).1 0 (by positivity)

/-! ## Averaging over the centre-of-mass energy -/

theorem trapz_map_smul (xs ys : List ℝ) (c : ℝ) : trapz xs (ys.map (c * ·)) = c * trapz xs ys := by
  induction xs generalizing ys with
  | nil => cases ys <;> simp [trapz]
  | cons x0 xs ih =>
    match xs, ys with
    | [], ys => cases ys <;> simp [trapz]
    | _ :: _, [] => simp [trapz]
    | _ :: _, [_] => simp [trapz]
    | x1 :: xs, y0 :: y1 :: ys =>
      have := ih (y1 :: ys)
      simp only [List.map_cons] at this
      simp only [List.map_cons, trapz]
      rw [this]
      ring

theorem trapz_mono (xs : List ℝ) (hx : xs.Pairwise (· ≤ ·)) (ys zs : List ℝ)
    (h : List.Forall₂ (· ≤ ·) ys zs) : trapz xs ys ≤ trapz xs zs := by
  induction xs generalizing ys zs with
  | nil => cases h <;> simp [trapz]
  | cons x0 xs ih =>
    match xs, h with
    | [], h => cases h <;> simp [trapz]
    | _ :: _, .nil => simp [trapz]
    | _ :: _, .cons _ .nil => simp [trapz]
    | x1 :: xs, .cons (a := y0) (b := z0) h0 (.cons (a := y1) (b := z1) h1 ht) =>
      have hx' := List.pairwise_cons.mp hx
      have := ih hx'.2 _ _ (.cons h1 ht)
      have h01 : x0 ≤ x1 := hx'.1 x1 (by simp)
      simp only [trapz]
      have : (x1 - x0) * (y1 + y0) / 2 ≤ (x1 - x0) * (z1 + z0) / 2 := by
        have := mul_le_mul_of_nonneg_left (add_le_add h1 h0) (sub_nonneg.mpr h01)
        linarith
      linarith

theorem zipWith_table (f : ℝ → ℝ → ℝ) (cmes probs energies : List ℝ) (i : ℕ)
    (hi : i < energies.length) :
    List.zipWith (fun p (row : List ℝ) => p * row.getD i 0) probs
        (cmes.map fun cme => energies.map fun e => f e cme)
      = List.zipWith (fun p cme => p * f energies[i] cme) probs cmes := by
  rw [List.zipWith_map_right]
  congr 1
  funext p cme
  simp [List.getD, hi]

/-- What `make_marginal_fn` computes when it does not fail (specification): entry `i` is the
trapezoid rule, over the centre-of-mass energies, of probability times spectrum. -/
noncomputable def average (f : ℝ → ℝ → ℝ) (cmes probs : List ℝ) (e : ℝ) : ℝ :=
  trapz cmes (List.zipWith (fun p cme => p * f e cme) probs cmes)

theorem marginal_value (simpson : List ℝ → List ℝ → ℝ) (f : ℝ → ℝ → ℝ)
    (cmes probs energies : List ℝ) (hc : cmes ≠ []) (he : energies ≠ [])
    (hp : probs.length = cmes.length) :
    marginalFn simpson f cmes probs "trapz" false energies
      = .ok (energies.map (average f cmes probs)) := by
  unfold marginalFn integrandTable
  rw [if_neg (by simp), if_neg hc, if_neg (by simp), if_neg he]
  simp only
  rw [if_neg (by simpa using hp)]
  refine congrArg _ ?_
  apply List.ext_getElem
  · simp
  · intro i h1 h2
    simp only [List.length_map, List.length_range] at h1
    simp only [List.getElem_map, List.getElem_range, if_true]
    rw [zipWith_table f cmes probs energies i h1]
    rfl

/-- **C199.** With scalar evaluation (`vectorized=False`) and ascending centre-of-mass energies and
non-negative probabilities, the marginalised spectrum lies at every product energy between the
smallest and the largest value of the spectrum times the total probability; for a spectrum that
does not depend on the centre-of-mass energy it is that spectrum times the total probability. -/
theorem marginal_between_partial (simpson : List ℝ → List ℝ → ℝ) (f : ℝ → ℝ → ℝ)
    (cmes probs energies : List ℝ) (hc : cmes ≠ []) (he : energies ≠ [])
    (hp : probs.length = cmes.length) (hx : cmes.Pairwise (· ≤ ·)) (hpr : ∀ p ∈ probs, 0 ≤ p) :
    ∃ v : List ℝ, marginalFn simpson f cmes probs "trapz" false energies = .ok v ∧
      v.length = energies.length ∧
      ∀ i (hi : i < energies.length) (hv : i < v.length), ∀ lo hi' : ℝ,
        (∀ cme ∈ cmes, lo ≤ f energies[i] cme ∧ f energies[i] cme ≤ hi') →
        lo * trapz cmes probs ≤ v[i] ∧ v[i] ≤ hi' * trapz cmes probs := by
  refine ⟨_, marginal_value simpson f cmes probs energies hc he hp, by simp, ?_⟩
  intro i hi hv lo hi' hb
  simp only [List.getElem_map]
  have hall : ∀ (P : ℝ → ℝ → Prop) (g h : ℝ → ℝ → ℝ),
      (∀ p cme, p ∈ probs → cme ∈ cmes → g p cme ≤ h p cme) →
      List.Forall₂ (· ≤ ·) (List.zipWith g probs cmes) (List.zipWith h probs cmes) := by
    intro _ g h hgh
    rw [List.forall₂_iff_get]
    refine ⟨by simp, fun j h1 h2 => ?_⟩
    simp only [List.length_zipWith, lt_min_iff] at h1
    simp only [List.get_eq_getElem, List.getElem_zipWith]
    exact hgh _ _ (List.getElem_mem _) (List.getElem_mem _)
  have hconst : ∀ c : ℝ, List.zipWith (fun p (_ : ℝ) => c * p) probs cmes = probs.map (c * ·) := by
    intro c
    apply List.ext_getElem
    · simp [hp]
    · intro j h1 h2
      simp
  unfold average
  constructor
  · rw [← trapz_map_smul, ← hconst]
    refine trapz_mono cmes hx _ _ (hall (fun _ _ => True) _ _ fun p cme hp' hc' => ?_)
    have := mul_le_mul_of_nonneg_left (hb cme hc').1 (hpr p hp')
    linarith
  · rw [← trapz_map_smul, ← hconst]
    refine trapz_mono cmes hx _ _ (hall (fun _ _ => True) _ _ fun p cme hp' hc' => ?_)
    have := mul_le_mul_of_nonneg_left (hb cme hc').2 (hpr p hp')
    linarith

/-- **C199.** With its default arguments `marginalize` raises `ValueError` for every spectrum as
soon as there are two or more product energies. -/
theorem marginalize_default_fails (simpson : List ℝ → List ℝ → ℝ) (f : ℝ → ℝ → ℝ)
    (energies cmes probs : List ℝ) (he : 2 ≤ energies.length) :
    marginalize simpson f energies cmes probs = .error .value := by
  unfold marginalize marginalFn integrandTable
  rw [if_neg (by simp)]
  by_cases hc : cmes = []
  · rw [if_pos hc]
  · rw [if_neg hc, if_pos ⟨rfl, by omega⟩]

/-- **C199.** The documented method name `'trapezoid'` is rejected. -/
theorem trapezoid_rejected (simpson : List ℝ → List ℝ → ℝ) (f : ℝ → ℝ → ℝ)
    (energies cmes probs : List ℝ) (vectorized : Bool) :
    marginalize simpson f energies cmes probs "trapezoid" vectorized = .error .assertion := by
  unfold marginalize marginalFn
  rw [if_pos (by simp)]

example (simpson : List ℝ → List ℝ → ℝ) :
    marginalFn simpson (fun e cme => e * cme) [1, 2] [1, 1] "trapz" false [3, 4]
      = .ok [9 / 2, 6] := by
  rw [marginal_value _ _ _ _ _ (by simp) (by simp) (by simp)]
  simp [average, trapz]
  norm_num

end Hazma.BoostFn
