import Verif.Props.ElasticXs

/-!
# Elastic scattering off mediators where the crossed channel has no pole (C213)
-/

namespace Hazma.Xs

open Hazma MeasureTheory Filter Topology

/-- Spin-averaged squared amplitude (specification) of `x S -> x S` over `g ^ 4`: the trace of
`α k + β` between the dark-matter spinors, with `α` and `β` from the two propagators of the dark matter. -/
noncomputable def compton (mx ms s t : ℝ) : ℝ :=
  let x := s - mx ^ 2
  let y := 2 * ms ^ 2 + mx ^ 2 - s - t
  let al := 1 / x - 1 / y
  let be := 2 * mx * (1 / x + 1 / y)
  let pk := (x - ms ^ 2) / 2
  let pk' := (ms ^ 2 - y) / 2
  let pp := mx ^ 2 - t / 2
  2 * (al ^ 2 * (2 * pk * pk' - ms ^ 2 * pp + mx ^ 2 * ms ^ 2) + 2 * al * be * mx * (pk + pk')
    + be ^ 2 * (pp + mx ^ 2))

/-- It is a sum of squares where the two propagators have opposite signs. -/
theorem compton_squares {mx ms s t : ℝ} (hx : s - mx ^ 2 ≠ 0) (hy : 2 * ms ^ 2 + mx ^ 2 - s - t ≠ 0) :
    compton mx ms s t
      = ((2 * (s - mx ^ 2) * (2 * ms ^ 2 + mx ^ 2 - s - t) - (ms ^ 2 - 4 * mx ^ 2) * (2 * ms ^ 2 - t)) ^ 2
          - (s - mx ^ 2) * (2 * ms ^ 2 + mx ^ 2 - s - t) * t ^ 2)
        / ((s - mx ^ 2) * (2 * ms ^ 2 + mx ^ 2 - s - t)) ^ 2 := by
  obtain ⟨x, hxd⟩ : ∃ x, x = s - mx ^ 2 := ⟨_, rfl⟩
  obtain ⟨y, hyd⟩ : ∃ y, y = 2 * ms ^ 2 + mx ^ 2 - s - t := ⟨_, rfl⟩
  have ht : t = 2 * ms ^ 2 - x - y := by rw [hxd, hyd]; ring
  unfold compton
  simp only
  rw [← hxd] at hx ⊢
  rw [← hyd] at hy ⊢
  rw [ht]
  field_simp
  ring

theorem compton_nonneg {mx ms s t : ℝ} (hx : 0 < s - mx ^ 2) (hy : 2 * ms ^ 2 + mx ^ 2 - s - t < 0) :
    0 ≤ compton mx ms s t := by
  rw [compton_squares hx.ne' hy.ne]
  refine div_nonneg ?_ (sq_nonneg _)
  have := mul_pos hx (neg_pos.mpr hy)
  nlinarith [sq_nonneg (2 * (s - mx ^ 2) * (2 * ms ^ 2 + mx ^ 2 - s - t)
    - (ms ^ 2 - 4 * mx ^ 2) * (2 * ms ^ 2 - t)), mul_nonneg this.le (sq_nonneg t)]

/-- Closed form of the integral over momentum transfers. -/
theorem compton_integral {mx ms s T : ℝ} (hx : 0 < s - mx ^ 2) (hb : 2 * ms ^ 2 + mx ^ 2 - s < 0)
    (ha : 2 * ms ^ 2 + mx ^ 2 - s - T < 0) :
    ∫ t in (0 : ℝ)..T, compton mx ms s t
      = (((ms ^ 2 - 4 * mx ^ 2 - 2 * (s - mx ^ 2)) ^ 2 + 2 * (s - mx ^ 2) * (2 * ms ^ 2 - (s - mx ^ 2))) * T
          - (s - mx ^ 2) * ((2 * ms ^ 2 + mx ^ 2 - s) * T - T ^ 2 / 2)
          - (s - mx ^ 2) * (18 * mx ^ 2 * s + 15 * mx ^ 4 - 2 * ms ^ 4 - 16 * ms ^ 2 * mx ^ 2 - s ^ 2)
            * (Real.log (2 * ms ^ 2 + mx ^ 2 - s - T) - Real.log (2 * ms ^ 2 + mx ^ 2 - s))
          + (ms ^ 2 - 4 * mx ^ 2) ^ 2 * (s - mx ^ 2) ^ 2
            * (1 / (2 * ms ^ 2 + mx ^ 2 - s - T) - 1 / (2 * ms ^ 2 + mx ^ 2 - s))) / (s - mx ^ 2) ^ 2 := by
  obtain ⟨x, hxd⟩ : ∃ x, x = s - mx ^ 2 := ⟨_, rfl⟩
  obtain ⟨b, hbd⟩ : ∃ b, b = 2 * ms ^ 2 + mx ^ 2 - s := ⟨_, rfl⟩
  obtain ⟨l, hl⟩ : ∃ l, l = 18 * mx ^ 2 * s + 15 * mx ^ 4 - 2 * ms ^ 4 - 16 * ms ^ 2 * mx ^ 2 - s ^ 2 :=
    ⟨_, rfl⟩
  have hneg : ∀ t ∈ Set.uIcc 0 T, b - t < 0 := by
    intro t ht
    rw [← hbd] at ha hb
    rcases Set.mem_uIcc.mp ht with h | h <;> linarith [h.1, h.2]
  have hF : ∀ t ∈ Set.uIcc 0 T, HasDerivAt (fun t : ℝ =>
      (((ms ^ 2 - 4 * mx ^ 2 - 2 * x) ^ 2 + 2 * x * (2 * ms ^ 2 - x)) * t - x * (b * t - t ^ 2 / 2)
        - x * l * Real.log (b - t) + (ms ^ 2 - 4 * mx ^ 2) ^ 2 * x ^ 2 * (b - t)⁻¹) / x ^ 2)
      (compton mx ms s t) t := by
    intro t ht
    have hy := (hneg t ht).ne
    have e0 : HasDerivAt (fun t : ℝ => b - t) (-1) t := by simpa using (hasDerivAt_id t).const_sub b
    have e1 := ((hasDerivAt_id t).const_mul ((ms ^ 2 - 4 * mx ^ 2 - 2 * x) ^ 2 + 2 * x * (2 * ms ^ 2 - x)))
    have e2 := ((((hasDerivAt_id t).const_mul b).sub ((hasDerivAt_pow 2 t).div_const 2)).const_mul x)
    have e3 := ((e0.log hy).const_mul (x * l))
    have e4 := ((e0.inv hy).const_mul ((ms ^ 2 - 4 * mx ^ 2) ^ 2 * x ^ 2))
    have := (((e1.sub e2).sub e3).add e4).div_const (x ^ 2)
    refine this.congr_deriv ?_
    rw [compton_squares hx.ne' (by rw [← hbd]; exact hy), ← hxd, ← hbd]
    have hx0 : x ≠ 0 := by rw [hxd]; exact hx.ne'
    obtain ⟨y, hyd⟩ : ∃ y, y = b - t := ⟨_, rfl⟩
    have ht' : t = 2 * ms ^ 2 - x - y := by rw [hyd, hbd, hxd]; ring
    have hb' : b = 2 * ms ^ 2 - x := by rw [hbd, hxd]; ring
    have hs : s = x + mx ^ 2 := by rw [hxd]; ring
    rw [← hyd] at hy ⊢
    rw [hl, hs, hb', ht']
    simp only [Nat.cast_ofNat, mul_one]
    field_simp
    ring
  have hc : ContinuousOn (compton mx ms s) (Set.uIcc 0 T) := by
    have : ContinuousOn (fun t : ℝ => 1 / (2 * ms ^ 2 + mx ^ 2 - s - t)) (Set.uIcc 0 T) :=
      ContinuousOn.div (by fun_prop) (by fun_prop) fun t ht => by rw [← hbd]; exact (hneg t ht).ne
    unfold compton
    simp only
    fun_prop
  rw [intervalIntegral.integral_eq_sub_of_hasDerivAt hF hc.intervalIntegrable, ← hxd, ← hbd, ← hl]
  simp only [sub_zero, one_div]
  ring

/-- **C213**: without a pole in the crossed channel the mediator kernel is the mean of the squared amplitude over
the momentum transfers of annihilation kinematics. -/
theorem xs_is_compton {e mx ms g : ℝ} (hmx : 0 < mx) (hms : 0 < ms) (hl : 2 * ms ^ 2 < 3 * mx ^ 2)
    (he : mx + ms ≤ e) (hne : e ≠ 2 * mx) :
    scalarXS e mx ms g
      = some (g ^ 4 / (16 * Real.pi * e ^ 2) * mean (compton mx ms (e ^ 2)) (4 * mx ^ 2 - e ^ 2)) := by
  have hpi := Real.pi_pos
  have he0 : 0 < e := by linarith
  have hx : 0 < e ^ 2 - mx ^ 2 := by nlinarith
  have hlt : ms < 2 * mx := by nlinarith
  have hb : 2 * ms ^ 2 + mx ^ 2 - e ^ 2 < 0 := by nlinarith
  have hT : 4 * mx ^ 2 - e ^ 2 ≠ 0 := by
    intro h'
    have : (2 * mx - e) * (2 * mx + e) = 0 := by linarith
    rcases mul_eq_zero.mp this with h' | h'
    · exact hne (by linarith)
    · linarith
  have hab : 2 * ms ^ 2 + mx ^ 2 - e ^ 2 - (4 * mx ^ 2 - e ^ 2) = 2 * ms ^ 2 + -(3 * mx ^ 2) := by ring
  have ha : 2 * ms ^ 2 + -(3 * mx ^ 2) < 0 := by linarith
  unfold scalarXS mean
  rw [if_neg (not_lt.mpr he), if_neg hne, compton_integral hx hb (by rw [hab]; exact ha), hab]
  simp only
  rw [← sub_eq_add_neg (4 * mx ^ 2) (e ^ 2), if_neg (by
    simp only [not_or]
    exact ⟨ha.ne, hb.ne, hT, by
      have : mx ^ 2 - e ^ 2 ≠ 0 := by linarith
      simp [hpi.ne', he0.ne', this]⟩), Real.log_abs, Real.log_div ha.ne hb.ne]
  congr 1
  obtain ⟨la, hla⟩ : ∃ l, l = Real.log (2 * ms ^ 2 + -(3 * mx ^ 2)) := ⟨_, rfl⟩
  obtain ⟨lb, hlb⟩ : ∃ l, l = Real.log (2 * ms ^ 2 + mx ^ 2 - e ^ 2) := ⟨_, rfl⟩
  rw [← hla, ← hlb]
  have hq : 0 < e ^ 2 := by positivity
  clear hne he he0 hla hlb hab
  generalize e ^ 2 = q at *
  obtain ⟨a, had⟩ : ∃ a, a = 2 * ms ^ 2 + -(3 * mx ^ 2) := ⟨_, rfl⟩
  obtain ⟨b, hbd⟩ : ∃ b, b = 2 * ms ^ 2 + mx ^ 2 - q := ⟨_, rfl⟩
  obtain ⟨T, hTd⟩ : ∃ T, T = 4 * mx ^ 2 - q := ⟨_, rfl⟩
  obtain ⟨x, hxd⟩ : ∃ x, x = q - mx ^ 2 := ⟨_, rfl⟩
  have hx' : mx ^ 2 - q = -x := by rw [hxd]; ring
  have hee : q = x + mx ^ 2 := by rw [hxd]; ring
  have hT' : T = 3 * mx ^ 2 - x := by rw [hTd, hee]; ring
  have hb' : b = 2 * ms ^ 2 - x := by rw [hbd, hee]; ring
  rw [hx', ← hxd, ← had, ← hbd, ← hTd]
  rw [← hxd] at hx
  rw [← had] at ha
  rw [← hbd] at hb
  rw [← hTd] at hT
  have h1 := ha.ne
  have h2 := hb.ne
  have h3 := hx.ne'
  field_simp
  rw [hee, hb', hT']
  ring

/-- **C213**, the part that holds: for mediators lighter than `√(3/2) mx` the cross section is a number and never
negative, at every energy. -/
theorem xs_light_nonneg_partial {mx ms : ℝ} (g e : ℝ) (hmx : 0 < mx) (hms : 0 < ms)
    (hl : 2 * ms ^ 2 < 3 * mx ^ 2) : ∃ v, scalarXS e mx ms g = some v ∧ 0 ≤ v := by
  have hpi := Real.pi_pos
  rcases lt_or_ge e (mx + ms) with h | he
  · exact ⟨0, if_pos h, le_rfl⟩
  by_cases hne : e = 2 * mx
  · obtain ⟨v, hv⟩ : ∃ v, scalarXS e mx ms g = some v := by
      have ha : 2 * ms ^ 2 + -(3 * mx ^ 2) ≠ 0 := by linarith
      have : e ≠ 0 := by linarith
      unfold scalarXS checkedDiv
      rw [if_neg (not_lt.mpr he), if_pos hne, if_neg (by simp [hmx.ne', ha, hpi.ne', this])]
      exact ⟨_, rfl⟩
    refine ⟨v, hv, ?_⟩
    rw [hne] at hv
    exact (xs_nonneg_partial e mx ms g).2 v hv
  · refine ⟨_, xs_is_compton hmx hms hl he hne, ?_⟩
    have hx : 0 < e ^ 2 - mx ^ 2 := by nlinarith
    have hlt : ms < 2 * mx := by nlinarith
    have hb : 2 * ms ^ 2 + mx ^ 2 - e ^ 2 < 0 := by nlinarith
    have hpos : ∀ t ∈ Set.uIcc 0 (4 * mx ^ 2 - e ^ 2), 0 ≤ compton mx ms (e ^ 2) t := by
      intro t ht
      refine compton_nonneg hx ?_
      rcases Set.mem_uIcc.mp ht with h | h <;> linarith [h.1, h.2]
    have h4 : (0 : ℝ) ≤ g ^ 4 := by positivity
    refine mul_nonneg (by positivity) ?_
    unfold mean
    rcases le_total 0 (4 * mx ^ 2 - e ^ 2) with hT | hT
    · rw [Set.uIcc_of_le hT] at hpos
      exact div_nonneg (intervalIntegral.integral_nonneg hT hpos) hT
    · rw [Set.uIcc_of_ge hT] at hpos
      rw [intervalIntegral.integral_symm]
      exact div_nonneg_of_nonpos (neg_nonpos.mpr (intervalIntegral.integral_nonneg hT hpos)) hT

/-- A mediator of 200 MeV and dark matter of 250 MeV at 1 GeV. -/
example : ∃ v, scalarXS 1000 250 200 1 = some v ∧ 0 ≤ v :=
  xs_light_nonneg_partial 1 1000 (by norm_num) (by norm_num) (by norm_num)

/-- **C213** is false for every mediator heavier than `2 mx`: just above `√(2 ms² + mx²)`, an open energy, the
cross section is negative. -/
theorem xs_heavy_negative {mx ms g : ℝ} (hmx : 0 < mx) (h : 2 * mx < ms) (hg : g ≠ 0) :
    mx + ms < Real.sqrt (2 * ms ^ 2 + mx ^ 2) ∧
    ∀ᶠ e in 𝓝[>] Real.sqrt (2 * ms ^ 2 + mx ^ 2), ∃ v, scalarXS e mx ms g = some v ∧ v < 0 := by
  have hpi := Real.pi_pos
  have hms : 0 < ms := by linarith
  have hs0 : (0 : ℝ) ≤ 2 * ms ^ 2 + mx ^ 2 := by positivity
  have hthr : mx + ms < Real.sqrt (2 * ms ^ 2 + mx ^ 2) := by
    refine Real.lt_sqrt_of_sq_lt ?_
    nlinarith
  refine ⟨hthr, ?_⟩
  obtain ⟨a, had⟩ : ∃ a, a = 2 * ms ^ 2 + -(3 * mx ^ 2) := ⟨_, rfl⟩
  have ha : 0 < a := by rw [had]; nlinarith
  -- the numerator times `b`, a continuous function of the energy
  let φ : ℝ → ℝ := fun e =>
    (2 * ms ^ 2 + mx ^ 2 - e ^ 2) * (10 * (e ^ 2) ^ 2 + (50 * mx ^ 2 * e ^ 2 + (-(8 * ms ^ 2) * e ^ 2
        + (4 * mx ^ 4 + (4 * ms ^ 4 + -(24 * ms ^ 2 * mx ^ 2))
          + 4 * (-4 * mx ^ 2 + ms ^ 2) ^ 2 * (mx ^ 2 - e ^ 2) ^ 2 / (a * (4 * mx ^ 2 + -e ^ 2))))))
      - 4 * (-4 * mx ^ 2 + ms ^ 2) ^ 2 * (mx ^ 2 - e ^ 2) ^ 2 / (4 * mx ^ 2 + -e ^ 2)
      + 4 * (mx ^ 2 - e ^ 2) * (18 * mx ^ 2 * e ^ 2 + (15 * mx ^ 4 + (-2 * ms ^ 4
          + -(16 * ms ^ 2 * mx ^ 2))) - (e ^ 2) ^ 2)
        * ((2 * ms ^ 2 + mx ^ 2 - e ^ 2) * Real.log a
          - (2 * ms ^ 2 + mx ^ 2 - e ^ 2) * Real.log (2 * ms ^ 2 + mx ^ 2 - e ^ 2)) / (4 * mx ^ 2 + -e ^ 2)
  have hsq := Real.sq_sqrt hs0
  have hd0 : 4 * mx ^ 2 + -Real.sqrt (2 * ms ^ 2 + mx ^ 2) ^ 2 < 0 := by rw [hsq]; nlinarith
  have hcont : ContinuousAt φ (Real.sqrt (2 * ms ^ 2 + mx ^ 2)) := by
    have hlog : Continuous fun e : ℝ =>
        (2 * ms ^ 2 + mx ^ 2 - e ^ 2) * Real.log (2 * ms ^ 2 + mx ^ 2 - e ^ 2) :=
      Real.continuous_mul_log.comp (by fun_prop : Continuous fun e : ℝ => 2 * ms ^ 2 + mx ^ 2 - e ^ 2)
    have hd := hd0.ne
    refine ContinuousAt.add (ContinuousAt.sub (ContinuousAt.mul (by fun_prop) ?_) ?_) ?_
    · have : ContinuousAt (fun e : ℝ => 4 * (-4 * mx ^ 2 + ms ^ 2) ^ 2 * (mx ^ 2 - e ^ 2) ^ 2
          / (a * (4 * mx ^ 2 + -e ^ 2))) (Real.sqrt (2 * ms ^ 2 + mx ^ 2)) :=
        ContinuousAt.div (by fun_prop) (by fun_prop) (mul_ne_zero ha.ne' hd)
      fun_prop
    · exact ContinuousAt.div (by fun_prop) (by fun_prop) hd
    · exact ContinuousAt.div (ContinuousAt.mul (by fun_prop)
        (ContinuousAt.sub (by fun_prop) hlog.continuousAt)) (by fun_prop) hd
  have hpos : 0 < φ (Real.sqrt (2 * ms ^ 2 + mx ^ 2)) := by
    have h1 : 2 * ms ^ 2 + mx ^ 2 - Real.sqrt (2 * ms ^ 2 + mx ^ 2) ^ 2 = 0 := by rw [hsq]; ring
    simp only [φ, h1, zero_mul, sub_zero, mul_zero, zero_div, add_zero, zero_sub]
    rw [← div_neg]
    have h2 : mx ^ 2 - Real.sqrt (2 * ms ^ 2 + mx ^ 2) ^ 2 ≠ 0 := by rw [hsq]; nlinarith
    have h3 : -4 * mx ^ 2 + ms ^ 2 ≠ 0 := by nlinarith
    have := neg_pos.mpr hd0
    positivity
  have hd : ∀ᶠ e in 𝓝 (Real.sqrt (2 * ms ^ 2 + mx ^ 2)), 4 * mx ^ 2 + -e ^ 2 < 0 :=
    (by fun_prop : Continuous fun e : ℝ => 4 * mx ^ 2 + -e ^ 2).continuousAt.eventually (gt_mem_nhds hd0)
  filter_upwards [(hcont.eventually (lt_mem_nhds hpos)).filter_mono nhdsWithin_le_nhds,
    hd.filter_mono nhdsWithin_le_nhds, self_mem_nhdsWithin] with e he hde hgt
  have hgt : Real.sqrt (2 * ms ^ 2 + mx ^ 2) < e := hgt
  have he0 : 0 < e := by linarith
  have hb : 2 * ms ^ 2 + mx ^ 2 - e ^ 2 < 0 := by
    have := (Real.sqrt_lt' he0).mp hgt
    linarith
  have hx : mx ^ 2 - e ^ 2 < 0 := by nlinarith
  have hne : e ≠ 2 * mx := by
    intro h'
    rw [h'] at hde
    nlinarith
  have hg4 : 0 < g ^ 4 := by positivity
  have hx2 : 0 < (mx ^ 2 - e ^ 2) ^ 2 := by have := hx.ne; positivity
  unfold scalarXS
  rw [if_neg (not_lt.mpr (by linarith)), if_neg hne]
  simp only
  rw [← had, if_neg (by
    simp only [not_or]
    exact ⟨ha.ne', hb.ne, hde.ne, by positivity⟩)]
  refine ⟨_, rfl, div_neg_of_neg_of_pos (mul_neg_of_pos_of_neg hg4 ?_) (by positivity)⟩
  rw [Real.log_abs, Real.log_div ha.ne' hb.ne]
  by_contra hcon
  have hcon := not_lt.mp hcon
  have := mul_nonpos_of_nonpos_of_nonneg hb.le hcon
  refine absurd he (not_lt.mpr (le_trans (le_of_eq ?_) this))
  simp only [φ]
  have h1 := hb.ne
  have h2 := hde.ne
  have h3 := ha.ne'
  field_simp
  ring

/-- Dark matter of 1 MeV and a mediator of 3 MeV. -/
example : ∀ᶠ e in 𝓝[>] Real.sqrt 19, ∃ v, scalarXS e 1 3 1 = some v ∧ v < 0 := by
  have := (xs_heavy_negative (mx := 1) (ms := 3) (g := 1) one_pos (by norm_num) one_ne_zero).2
  norm_num at this
  exact this

end Hazma.Xs
