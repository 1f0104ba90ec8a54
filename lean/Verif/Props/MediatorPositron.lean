import Verif.Props.MediatorDecay

/-!
# Mediators: positrons, tables, wiring and two-body energies (C57–C60, C108)
-/

namespace Hazma.Mediator

open MeasureTheory Hazma.Boost Hazma.Spectra

/-! ### The positron line -/

/-- The velocity of the electron in the rest frame of the mediator. -/
noncomputable def velocity (me m : ℝ) : ℝ := Real.sqrt (1 - 4 * me * me / (m * m))

theorem velocity_facts {me m : ℝ} (hme : 0 < me) (hm : 2 * me < m) :
    0 < velocity me m ∧ velocity me m < 1 ∧ momentum (m / 2) me = m / 2 * velocity me m := by
  have hmp : 0 < m := by linarith
  have hx : 0 < 1 - 4 * me * me / (m * m) := by
    rw [sub_pos, div_lt_one (by positivity)]; nlinarith
  refine ⟨Real.sqrt_pos.mpr hx, ?_, ?_⟩
  · rw [velocity, Real.sqrt_lt' one_pos]
    have : 0 < 4 * me * me / (m * m) := by positivity
    linarith
  · unfold momentum velocity
    rw [show (m / 2) ^ 2 - me ^ 2 = (m / 2) ^ 2 * (1 - 4 * me * me / (m * m)) by field_simp; ring,
      Real.sqrt_mul (by positivity), Real.sqrt_sq (by positivity)]

/-- Apart from its end points the box is the boosted line at half the mass, times the velocity of the
electron. -/
theorem positronBox_eq (bf : ℝ) {me E m e : ℝ} (hme : 0 < me) (hm : 2 * me < m) (h : m < E)
    (h1 : e ≠ E * (1 - velocity me m * beta E m) / 2) (h2 : e ≠ E * (1 + velocity me m * beta E m) / 2) :
    positronBox bf me E m e = bf * velocity me m * boostDeltaPy e (m / 2) me (beta E m) := by
  have hmp : 0 < m := by linarith
  have hE := hmp.trans h
  obtain ⟨hb0, hb1, hg, hb⟩ := beta_facts hmp h
  obtain ⟨v0, v1, vm⟩ := velocity_facts hme hm
  have l1 : labEnergy (m / 2) me (beta E m) (-1) = E * (1 - velocity me m * beta E m) / 2 := by
    rw [labEnergy, hg, vm, gamma]; field_simp; ring
  have l2 : labEnergy (m / 2) me (beta E m) 1 = E * (1 + velocity me m * beta E m) / 2 := by
    rw [labEnergy, hg, vm, gamma]; field_simp
  have l3 : 2 * lorentz (beta E m) * beta E m * momentum (m / 2) me = E * beta E m * velocity me m := by
    rw [hg, vm, gamma]; field_simp
  rw [boostDeltaPy_eq_box hb0 hb1 hme.le (by linarith)]
  have hx : ¬ 1 - 4 * me * me / (m * m) < 0 := by
    intro hc
    have : velocity me m = 0 := Real.sqrt_eq_zero_of_nonpos hc.le
    linarith
  unfold positronBox box
  rw [l1, l2, l3, if_neg hx]
  simp only
  change (if E * (1 - velocity me m * beta E m) / 2 ≤ e ∧ e ≤ E * (1 + velocity me m * beta E m) / 2
    then _ else _) = _
  by_cases hw : E * (1 - velocity me m * beta E m) / 2 ≤ e ∧ e ≤ E * (1 + velocity me m * beta E m) / 2
  · have hi : e ∈ Set.Ioo (E * (1 - velocity me m * beta E m) / 2) (E * (1 + velocity me m * beta E m) / 2) :=
      ⟨lt_of_le_of_ne hw.1 (Ne.symm h1), lt_of_le_of_ne hw.2 h2⟩
    rw [if_pos hw, Set.indicator_of_mem hi]
    field_simp
  · rw [if_neg hw, Set.indicator_of_notMem (fun hc => hw ⟨hc.1.le, hc.2.le⟩), mul_zero]

theorem positronBox_moment (bf : ℝ) {me E m : ℝ} (hme : 0 < me) (hm : 2 * me < m) (h : m < E) :
    IntegrableOn (fun e => positronBox bf me E m e) (Set.Ioi me)
    ∧ ∫ e in Set.Ioi me, positronBox bf me E m e = bf * velocity me m := by
  have hmp : 0 < m := by linarith
  obtain ⟨h0, h1, hg, hb⟩ := beta_facts hmp h
  have hae : (fun e => positronBox bf me E m e)
      =ᵐ[volume] fun e => bf * velocity me m * boostDeltaPy e (m / 2) me (beta E m) := by
    filter_upwards [ae_ne_two (E * (1 - velocity me m * beta E m) / 2)
      (E * (1 + velocity me m * beta E m) / 2)] with e he
    exact positronBox_eq bf hme hm h he.1 he.2
  have h2 : me < m / 2 := by linarith
  refine ⟨(((line_integrable h0 h1 hme.le h2).const_mul _).congr hae.symm).integrableOn, ?_⟩
  rw [integral_congr_ae (ae_restrict_of_ae hae), integral_const_mul, line_integral h0 h1 hme.le h2, mul_one]

/-- C57 is false, normalisation: the `e e` decays of a moving mediator give `v` positrons each, where `v < 1`
is the velocity of the electron in the rest frame, instead of one. -/
theorem ee_too_few (pi mu : ℝ → ℝ) (pws : Fin 3 → ℝ) (me E m : ℝ) (hme : 0 < me) (hm : 2 * me < m)
    (h : m < E) :
    ∫ e in Set.Ioi me, positronPoint pi mu pws .ee me e E m = pws 0 * Real.sqrt (1 - 4 * me * me / (m * m))
    ∧ (0 < pws 0 → ∫ e in Set.Ioi me, positronPoint pi mu pws .ee me e E m < pws 0) := by
  have e1 : ∫ e in Set.Ioi me, positronPoint pi mu pws .ee me e E m = pws 0 * velocity me m := by
    simp only [positronPoint, if_neg (not_lt.mpr h.le), if_true]
    exact (positronBox_moment (pws 0) hme hm h).2
  refine ⟨e1, fun hp => ?_⟩
  rw [e1]
  have := (velocity_facts hme hm).2.1
  nlinarith

/-- C57, what holds: apart from the end points the `e e` spectrum, divided by the velocity, is the boosted
positron line times the branching fraction. -/
theorem ee_shape_partial (pi mu : ℝ → ℝ) (pws : Fin 3 → ℝ) (me e E m : ℝ) (hme : 0 < me) (hm : 2 * me < m)
    (h : m < E) (h1 : e ≠ E * (1 - velocity me m * beta E m) / 2)
    (h2 : e ≠ E * (1 + velocity me m * beta E m) / 2) :
    positronPoint pi mu pws .ee me e E m / velocity me m
      = pws 0 * boostDeltaPy e (m / 2) me (beta E m) := by
  have hv := (velocity_facts hme hm).1
  simp only [positronPoint, if_neg (not_lt.mpr h.le), if_true]
  rw [positronBox_eq (pws 0) hme hm h h1 h2]
  field_simp

/-- C57 is false, selection: asking for `pi pi` or `mu mu` alone also gives the positrons of `e e`. -/
theorem line_in_other_modes (pi mu : ℝ → ℝ) (pws : Fin 3 → ℝ) (me e E m : ℝ) (hme : 0 ≤ me) (hm : 0 < m)
    (h : m < E) (he : me < e) :
    positronPoint pi mu pws .pp me e E m
        = boosted (fun x => pws 2 * pi x) me (beta E m) e + positronPoint pi mu pws .ee me e E m
    ∧ positronPoint pi mu pws .mm me e E m
        = boosted (fun x => pws 1 * mu x) me (beta E m) e + positronPoint pi mu pws .ee me e E m
    ∧ positronPoint pi mu pws .total me e E m
        = boosted (fun x => pws 2 * pi x + pws 1 * mu x) me (beta E m) e
          + positronPoint pi mu pws .ee me e E m
    ∧ positronPoint pi mu pws .other me e E m = 0 := by
  simp only [positronPoint, if_neg (not_lt.mpr h.le), reduceCtorEq, if_false, if_true, or_false, or_true,
    positron_integral_is_boost _ hme hm h he]
  refine ⟨?_, ?_, ?_, trivial⟩ <;> rfl

/-- A mediator that never decays to pions still has a "pi pi" positron spectrum. -/
example : 0 < positronPoint 0 0 (fun i => if i = 0 then 1 else 0) .pp 1 10 20 10 := by
  have h0 : 0 < beta 20 10 := (beta_facts (by norm_num) (by norm_num)).1
  rw [(line_in_other_modes 0 0 _ 1 10 20 10 zero_le_one (by norm_num) (by norm_num) (by norm_num)).1]
  have hz : boosted (fun x => (if (2 : Fin 3) = 0 then (1 : ℝ) else 0) * (0 : ℝ → ℝ) x) 1 (beta 20 10) 10 = 0 := by
    unfold boosted; simp
  rw [hz, zero_add]
  simp only [positronPoint, positronBox, if_true]
  rw [if_neg (by norm_num), if_neg (by norm_num), if_pos]
  · positivity
  · have hr : 0 ≤ Real.sqrt (1 - 4 * 1 * 1 / (10 * 10 : ℝ)) := Real.sqrt_nonneg _
    have := mul_nonneg hr h0.le
    constructor <;> linarith

/-- C108, positrons: a moving mediator gives the positrons of its rest frame plus `v` times the branching
fraction into `e e`; the three exclusive spectra together count the latter three times. -/
theorem positron_numbers (pi mu : ℝ → ℝ) (pws : Fin 3 → ℝ) (me E m : ℝ) (hme : 0 < me) (hm : 2 * me < m)
    (h : m < E) (hpi : IntegrableOn pi (Set.Ioi me)) (hmu : IntegrableOn mu (Set.Ioi me)) :
    let N := fun fs => ∫ e in Set.Ioi me, positronPoint pi mu pws fs me e E m
    N .total = pws 2 * (∫ e in Set.Ioi me, pi e) + pws 1 * (∫ e in Set.Ioi me, mu e) + pws 0 * velocity me m
    ∧ N .pp = pws 2 * (∫ e in Set.Ioi me, pi e) + pws 0 * velocity me m
    ∧ N .mm = pws 1 * (∫ e in Set.Ioi me, mu e) + pws 0 * velocity me m
    ∧ N .pp + N .mm + N .ee = N .total + 2 * (pws 0 * velocity me m) := by
  have hmp : 0 < m := by linarith
  obtain ⟨h0, h1, hg, hb⟩ := beta_facts hmp h
  obtain ⟨ib, nb⟩ := positronBox_moment (pws 0) hme hm h
  have key : ∀ (f : ℝ → ℝ) (fs : PMode), IntegrableOn f (Set.Ioi me) →
      (∀ e, me < e → positronPoint pi mu pws fs me e E m
        = boosted f me (beta E m) e + positronPoint pi mu pws .ee me e E m) →
      ∫ e in Set.Ioi me, positronPoint pi mu pws fs me e E m
        = (∫ e in Set.Ioi me, f e) + pws 0 * velocity me m := by
    intro f fs hf hP
    rw [setIntegral_congr_fun measurableSet_Ioi (fun e he => hP e he)]
    simp only [positronPoint, if_neg (not_lt.mpr h.le), if_true]
    rw [integral_add (boosted_integrable h0 h1 hme.le hf) ib, nb,
      boost_conserves_number f me _ h0 h1 hme.le hf]
  have hL := fun e he => line_in_other_modes pi mu pws me e E m hme.le hmp h he
  have kt := key _ .total ((hpi.const_mul (pws 2)).add (hmu.const_mul (pws 1))) fun e he => (hL e he).2.2.1
  have kp := key _ .pp (hpi.const_mul (pws 2)) fun e he => (hL e he).1
  have km := key _ .mm (hmu.const_mul (pws 1)) fun e he => (hL e he).2.1
  have ke := (ee_too_few pi mu pws me E m hme hm h).1
  change _ = pws 0 * velocity me m at ke
  have es : ∫ e in Set.Ioi me, ((fun x => pws 2 * pi x) + fun x => pws 1 * mu x) e
      = pws 2 * (∫ e in Set.Ioi me, pi e) + pws 1 * ∫ e in Set.Ioi me, mu e := by
    simp only [Pi.add_apply]
    rw [integral_add (hpi.const_mul _) (hmu.const_mul _), integral_const_mul, integral_const_mul]
  rw [es] at kt
  rw [integral_const_mul] at kp km
  simp only
  rw [kt, kp, km, ke]
  refine ⟨rfl, rfl, rfl, ?_⟩
  ring

/-! ### The photon modes add up -/

/-- Integrable on every interval of positive energies. -/
def LocInt (f : ℝ → ℝ) : Prop := ∀ a b, 0 < a → a ≤ b → IntervalIntegrable f volume a b

theorem LocInt.add {f g : ℝ → ℝ} (hf : LocInt f) (hg : LocInt g) : LocInt fun x => f x + g x :=
  fun a b h1 h2 => (hf a b h1 h2).add (hg a b h1 h2)

theorem LocInt.smul {f : ℝ → ℝ} (c : ℝ) (hf : LocInt f) : LocInt fun x => c * f x :=
  fun a b h1 h2 => (hf a b h1 h2).const_mul c

theorem boosted_term {f : ℝ → ℝ} {b e : ℝ} (h0 : 0 < b) (h1 : b < 1) (he : 0 < e) (hf : LocInt f) :
    IntervalIntegrable (fun e' => f e' / (2 * lorentz b * b * momentum e' 0)) volume
      (lorentz b * (e - b * momentum e 0)) (lorentz b * (e + b * momentum e 0)) := by
  have hg := lorentz_pos h0 h1
  have hmom : ∀ x, momentum x 0 = |x| := fun x => by
    unfold momentum; rw [show x ^ 2 - 0 ^ 2 = x ^ 2 by ring, Real.sqrt_sq_eq_abs]
  rw [hmom e, abs_of_pos he]
  have ha : 0 < lorentz b * (e - b * e) := mul_pos hg (by nlinarith)
  have hab : lorentz b * (e - b * e) ≤ lorentz b * (e + b * e) :=
    mul_le_mul_of_nonneg_left (by nlinarith) hg.le
  have := (hf _ _ ha hab).mul_continuousOn (g := fun x => (2 * lorentz b * b * |x|)⁻¹) (by
    refine ContinuousOn.inv₀ (by fun_prop) fun x hx => ?_
    rw [Set.uIcc_of_le hab] at hx
    have : 0 < |x| := abs_pos.mpr (by linarith [hx.1])
    positivity)
  simpa only [hmom, div_eq_mul_inv] using this

theorem boosted_add {f g : ℝ → ℝ} {b e : ℝ} (h0 : 0 < b) (h1 : b < 1) (he : 0 < e) (hf : LocInt f)
    (hg : LocInt g) : boosted (fun x => f x + g x) 0 b e = boosted f 0 b e + boosted g 0 b e := by
  unfold boosted
  rw [← intervalIntegral.integral_add (boosted_term h0 h1 he hf) (boosted_term h0 h1 he hg)]
  congr 1; funext x; ring

/-- The contribution of one mode at rest: branching fraction of its channel, times the number of emitters (two
decaying particles; the radiation spectrum is that of the pair), times the spectrum of the emitter. -/
def share (r : RestPhoton) (bf : String → ℝ) (e : ℝ) : String → ℝ
  | "pi pi" => bf "pi pi" * (2 * r.pi e)
  | "mu mu" => bf "mu mu" * (2 * r.mu e)
  | "pi0 pi0" => bf "pi0 pi0" * (2 * r.pi0 e)
  | "pi0 g" => bf "pi0 g" * r.pi0 e
  | "e e g" => bf "e e" * r.fsrE e
  | "pi pi g" => bf "pi pi" * r.fsrPi e
  | "mu mu g" => bf "mu mu" * r.fsrMu e
  | _ => 0

/-- C108, modes: every mode of the scalar contributes the spectrum of its own particles with its own branching
fraction. -/
theorem scalar_mode_share (r : RestPhoton) (bf : String → ℝ) (e : ℝ) (l : List String) :
    scalarRest r ![bf "e e", bf "mu mu", bf "pi0 pi0", bf "pi pi", bf "g g"] (modesOf l) e
      = ((["e e g", "pi pi g", "pi pi", "pi0 pi0", "mu mu g", "mu mu"].filter (· ∈ l)).map (share r bf e)).sum := by
  simp only [scalarRest, modesOf]
  by_cases h1 : "e e g" ∈ l <;> by_cases h2 : "pi pi g" ∈ l <;> by_cases h3 : "pi pi" ∈ l <;>
    by_cases h4 : "pi0 pi0" ∈ l <;> by_cases h5 : "mu mu g" ∈ l <;> by_cases h6 : "mu mu" ∈ l <;>
    simp [h1, h2, h3, h4, h5, h6, share] <;> ring

/-- C108, modes: the same for the vector, mode by mode. -/
theorem vector_mode_share (r : RestPhoton) (bf : String → ℝ) (e w : ℝ) :
    let pws : Fin 5 → ℝ := ![bf "e e", bf "mu mu", bf "pi0 g", bf "pi pi", w]
    vectorRest r pws .eeg e = share r bf e "e e g" ∧ vectorRest r pws .mmg e = share r bf e "mu mu g"
    ∧ vectorRest r pws .ppg e = share r bf e "pi pi g" ∧ vectorRest r pws .pp e = share r bf e "pi pi"
    ∧ vectorRest r pws .p0g e = share r bf e "pi0 g" ∧ vectorRest r pws .mm e = share r bf e "mu mu" := by
  simp only [vectorRest, share]
  refine ⟨?_, ?_, ?_, ?_, ?_, ?_⟩ <;> simp <;> ring

/-- C108, modes: at every energy the vector's `total` photon spectrum is the sum of its six exclusive
spectra. -/
theorem vector_modes_add (r : RestPhoton) (pws : Fin 5 → ℝ) (e E m : ℝ) (hm : 0 < m) (h : m < E) (he : 0 < e)
    (h1 : LocInt r.fsrE) (h2 : LocInt r.fsrMu) (h3 : LocInt r.fsrPi) (h4 : LocInt r.pi) (h5 : LocInt r.pi0)
    (h6 : LocInt r.mu) :
    vectorPoint r pws .total e E m
      = vectorPoint r pws .eeg e E m + vectorPoint r pws .mmg e E m + vectorPoint r pws .ppg e E m
        + vectorPoint r pws .pp e E m + vectorPoint r pws .p0g e E m + vectorPoint r pws .mm e E m := by
  obtain ⟨b0, b1, -, -⟩ := beta_facts hm h
  simp only [vectorPoint, if_neg (not_lt.mpr h.le), photon_integral_is_boost _ hm h he, reduceCtorEq,
    or_false, or_true, if_true, if_false, add_zero]
  have a1 := h1.smul (pws 0)
  have a2 := h2.smul (pws 1)
  have a3 := h3.smul (pws 3)
  have a4 := h4.smul (2 * pws 3)
  have a5 := h5.smul (pws 2)
  have a6 := h6.smul (2 * pws 1)
  have e1 : boosted (vectorRest r pws .total) 0 (beta E m) e
      = boosted (vectorRest r pws .eeg) 0 (beta E m) e + boosted (vectorRest r pws .mmg) 0 (beta E m) e
        + boosted (vectorRest r pws .ppg) 0 (beta E m) e + boosted (vectorRest r pws .pp) 0 (beta E m) e
        + boosted (vectorRest r pws .p0g) 0 (beta E m) e + boosted (vectorRest r pws .mm) 0 (beta E m) e := by
    have k5 := boosted_add b0 b1 he ((((a1.add a2).add a3).add a4).add a5) a6
    have k4 := boosted_add b0 b1 he (((a1.add a2).add a3).add a4) a5
    have k3 := boosted_add b0 b1 he ((a1.add a2).add a3) a4
    have k2 := boosted_add b0 b1 he (a1.add a2) a3
    have k1 := boosted_add b0 b1 he a1 a2
    calc _ = _ := k5
      _ = _ := by rw [k4, k3, k2, k1]; rfl
  rw [e1]
  ring

/-- C108, modes: the same for the scalar: requesting all seven modes gives the sum of requesting each. -/
theorem scalar_modes_add (r : RestPhoton) (pws : Fin 5 → ℝ) (e E m : ℝ) (hm : 0 < m) (h : m < E) (he : 0 < e)
    (h1 : LocInt r.fsrE) (h2 : LocInt r.fsrMu) (h3 : LocInt r.fsrPi) (h4 : LocInt r.pi) (h5 : LocInt r.pi0)
    (h6 : LocInt r.mu) :
    let P := fun l => scalarPoint r pws (modesOf l) e E m
    P ["pi pi", "mu mu", "pi0 pi0", "g g", "e e g", "pi pi g", "mu mu g"]
      = P ["e e g"] + P ["pi pi g"] + P ["pi pi"] + P ["pi0 pi0"] + P ["mu mu g"] + P ["mu mu"] + P ["g g"]
    ∧ P [] = 0 := by
  obtain ⟨b0, b1, -, -⟩ := beta_facts hm h
  have z : boosted (fun _ => 0) 0 (beta E m) e = 0 := by unfold boosted; simp
  have a1 := h1.smul (pws 0)
  have a2 := h3.smul (pws 3)
  have a3 := h4.smul (2 * pws 3)
  have a4 := h5.smul (2 * pws 2)
  have a5 := h2.smul (pws 1)
  have a6 := h6.smul (2 * pws 1)
  have k5 := boosted_add b0 b1 he ((((a1.add a2).add a3).add a4).add a5) a6
  have k4 := boosted_add b0 b1 he (((a1.add a2).add a3).add a4) a5
  have k3 := boosted_add b0 b1 he ((a1.add a2).add a3) a4
  have k2 := boosted_add b0 b1 he (a1.add a2) a3
  have k1 := boosted_add b0 b1 he a1 a2
  rw [k4, k3, k2, k1] at k5
  simp only [scalarPoint, if_neg (not_lt.mpr h.le), photon_integral_is_boost _ hm h he]
  have q : ∀ l, scalarRest r pws (modesOf l) = fun x =>
      (if "e e g" ∈ l then pws 0 * r.fsrE x else 0) + (if "pi pi g" ∈ l then pws 3 * r.fsrPi x else 0)
      + (if "pi pi" ∈ l then 2 * pws 3 * r.pi x else 0) + (if "pi0 pi0" ∈ l then 2 * pws 2 * r.pi0 x else 0)
      + (if "mu mu g" ∈ l then pws 1 * r.fsrMu x else 0) + (if "mu mu" ∈ l then 2 * pws 1 * r.mu x else 0) := by
    intro l; funext x; simp [scalarRest, modesOf]
  simp only [q]
  simp [modesOf, z, k5]

/-! ### Tables -/

theorem cached_mass (l : List (ℝ × (Fin 3 → ℝ))) (c : Cache) (hc : c.ms = -1) :
    (l.foldl (fun c p => (call c p.1 p.2).1) c).ms = -1 := by
  induction l generalizing c with
  | nil => exact hc
  | cons p t ih =>
    refine ih _ ?_
    simp only [call, setSpectra]
    split_ifs <;> exact hc

/-- The cache exists to avoid recomputing, but no call with a positive mass ever hits it. -/
theorem cache_never_hit (hist : List (ℝ × (Fin 3 → ℝ))) (ms : ℝ) (pws : Fin 3 → ℝ) (hms : 0 < ms) :
    recompute (hist.foldl (fun c p => (call c p.1 p.2).1) Cache.initial) ms pws = true := by
  unfold recompute
  rw [cached_mass hist Cache.initial rfl, if_pos (Or.inl (by linarith))]

/-- C58: whatever was computed before, the tables used are those of the mass in the call. -/
theorem tables_current (hist : List (ℝ × (Fin 3 → ℝ))) (ms : ℝ) (pws : Fin 3 → ℝ) (hms : 0 < ms) :
    (call (hist.foldl (fun c p => (call c p.1 p.2).1) Cache.initial) ms pws).2 = some ms := by
  have hr := cache_never_hit hist ms pws hms
  generalize hist.foldl (fun c p => (call c p.1 p.2).1) Cache.initial = c at hr ⊢
  simp only [call, hr, if_true, setSpectra]

/-- Going back to an earlier mass. -/
example : (call (call (call Cache.initial 200 fun _ => 0.1).1 300 fun _ => 0.1).1 200 fun _ => 0.1).2
    = some 200 :=
  tables_current [(200, fun _ => 0.1), (300, fun _ => 0.1)] 200 (fun _ => 0.1) (by norm_num)

/-! ### Wiring -/

/-- C59 is false: for every centre-of-mass energy above threshold there is an energy at which the vector
mediator's `mu mu` positron spectrum is not the positron spectrum of a muon with half that energy; it is even
negative somewhere. -/
theorem vector_mumu_is_photons (ecm : ℝ) (h : f64eps ≤ ecm / 2 - massMu) :
    ∃ e, vectorPosMuMu dndePhotonMuon e ecm < 0 ∧ 0 ≤ dndePositronMuon e (ecm / 2)
      ∧ vectorPosMuMu dndePhotonMuon e ecm ≠ dndePositronMuon e (ecm / 2) := by
  have h1 := photon_muon_negative (ecm / 2) h
  have h2 := (muon_spectra_nonneg ((ecm / 2) * (1 - 2 * rr ^ 2) / 2 * (1 + boostBeta (ecm / 2) massMu))
    (ecm / 2)).1
  exact ⟨_, h1, h2, (lt_of_lt_of_le h1 h2).ne⟩

example : f64eps ≤ (300 : ℝ) / 2 - massMu := by unfold f64eps massMu; norm_num

/-- C59, what holds: the scalar mediator's function is the positron spectrum; the single-channel and n-body
functions return exactly twice it for the same pair. -/
theorem scalar_mumu_partial (env : NBody.Env) (e ecm : ℝ) (h : 0 < ecm) (m : ℝ)
    (hm : smMasses.get? "mu" = some m) (fsr : Bool) :
    scalarPosMuMu (fun e' emu => dndePositronMuon e' emu) e ecm = dndePositronMuon e (ecm / 2)
    ∧ NBody.twoBody env e ecm "mu" "mu" .positron fsr
      = .ok (2 * scalarPosMuMu (fun e' emu => env.positron "mu" e' emu) e ecm) :=
  ⟨rfl, NBody.pair_positrons_doubled env e ecm h "mu" m hm (by simp) fsr⟩

/-! ### Two-body energies -/

/-- Two energies are those of a pair with masses `m1`, `m2` and total energy `ecm` (specification): they add
up, and the momenta are equal. -/
def IsTwoBody (ecm m1 m2 e1 e2 : ℝ) : Prop :=
  e1 + e2 = ecm ∧ e1 ^ 2 - m1 ^ 2 = e2 ^ 2 - m2 ^ 2

/-- There is only one such pair of energies. -/
theorem isTwoBody_unique {ecm m1 m2 e1 e2 e1' e2' : ℝ} (h : 0 < ecm) (h1 : IsTwoBody ecm m1 m2 e1 e2)
    (h2 : IsTwoBody ecm m1 m2 e1' e2') : e1 = e1' ∧ e2 = e2' := by
  obtain ⟨a, b⟩ := h1
  obtain ⟨c, d⟩ := h2
  have key : ecm * (e1 - e2) = ecm * (e1' - e2') := by
    have p1 : ecm * (e1 - e2) = m1 ^ 2 - m2 ^ 2 := by rw [← a]; linarith
    have p2 : ecm * (e1' - e2') = m1 ^ 2 - m2 ^ 2 := by rw [← c]; linarith
    rw [p1, p2]
  have := mul_left_cancel₀ h.ne' key
  constructor <;> linarith

/-- C60: photon and pion, pion and vector, equal pairs, and the single-channel energies are the energies of
two-body states; the energy of the pion in the decay of the vector is the same formula at the vector's mass. -/
theorem two_body_states (mpi0 mv ecm m1 m2 : ℝ) (h : 0 < ecm) :
    IsTwoBody ecm mpi0 0 (pi0gPion mpi0 ecm) (pi0gLine mpi0 ecm)
    ∧ IsTwoBody ecm mpi0 mv (pi0vPion mpi0 mv ecm) (pi0vVector mpi0 mv ecm)
    ∧ IsTwoBody ecm m1 m1 (ecm / 2) (ecm / 2)
    ∧ IsTwoBody ecm m1 m2 (NBody.energy1 ecm m1 m2) (NBody.energy2 ecm m1 m2)
    ∧ decayPion mpi0 ecm = pi0gPion mpi0 ecm := by
  refine ⟨⟨?_, ?_⟩, ⟨?_, ?_⟩, ⟨?_, rfl⟩, ⟨?_, ?_⟩, ?_⟩
  · unfold pi0gPion pi0gLine; field_simp; ring
  · unfold pi0gPion pi0gLine; field_simp; ring
  · unfold pi0vPion pi0vVector; field_simp; ring
  · unfold pi0vPion pi0vVector; field_simp; ring
  · ring
  · exact (NBody.two_body_energies ecm m1 m2 h).1
  · exact (NBody.two_body_energies ecm m1 m2 h).2.1
  · unfold decayPion pi0gPion; ring

/-- Pion and photon at 300 MeV: 180.4 + 119.6 with a pion of 135 MeV. -/
example : pi0gPion 135 300 = 180.375 ∧ pi0gLine 135 300 = 119.625 := by
  unfold pi0gPion pi0gLine; norm_num

/-- The energies are above the masses whenever the channel is open. -/
theorem two_body_on_shell (mpi0 mv ecm : ℝ) (h1 : 0 ≤ mpi0) (h2 : 0 ≤ mv) (h : mpi0 + mv ≤ ecm) (h0 : 0 < ecm) :
    mpi0 ≤ pi0vPion mpi0 mv ecm ∧ mv ≤ pi0vVector mpi0 mv ecm
    ∧ mpi0 ≤ pi0gPion mpi0 ecm ∧ 0 ≤ pi0gLine mpi0 ecm := by
  unfold pi0vPion pi0vVector pi0gPion pi0gLine
  rw [le_div_iff₀ (by linarith), le_div_iff₀ (by linarith), le_div_iff₀ (by linarith),
    le_div_iff₀ (by linarith)]
  refine ⟨by nlinarith, by nlinarith, by nlinarith [sq_nonneg (ecm - mpi0)], by nlinarith⟩

end Hazma.Mediator
