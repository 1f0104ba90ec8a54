import Verif.Props.Equilibrium
import Mathlib.Analysis.SpecialFunctions.Sqrt
import Mathlib.MeasureTheory.Integral.IntervalIntegral.FundThmCalculus

/-! # Boltzmann equation, freeze-out and thermal averages -/

namespace Hazma.Relic

open MeasureTheory Set Filter Topology

/-- C42: the Jacobian handed to the stiff solver is the exact derivative of the right-hand side. -/
theorem boltzmann_jacobian (sm : Sm) (mpl : ℝ) (d : Dm) (logx w : ℝ) :
    HasDerivAt (boltzmannEqn sm mpl d logx) (boltzmannJac sm mpl d logx w) w := by
  obtain ⟨we, hwe⟩ : ∃ we, we = weq sm (d.mx / Real.exp logx) d.mx 2 true := ⟨_, rfl⟩
  have hE : HasDerivAt (expTwice we) (-expTwice we w) w := by
    cases we with
    | none =>
      have e : expTwice none = fun _ => 0 := rfl
      rw [e]
      exact (hasDerivAt_const w (0 : ℝ)).congr_deriv (by simp)
    | some a =>
      have := ((hasDerivAt_id w).const_sub (2 * a)).exp
      refine this.congr_deriv ?_
      simp [expTwice]
  have h := ((Real.hasDerivAt_exp w).sub hE).const_mul
    (boltzmannPf sm mpl d.mx (Real.exp logx) * tcs d (Real.exp logx))
  have e : boltzmannEqn sm mpl d logx = fun w =>
      boltzmannPf sm mpl d.mx (Real.exp logx) * tcs d (Real.exp logx) * (Real.exp w - expTwice we w) := by
    funext w; simp only [boltzmannEqn, hwe]
  rw [e]
  refine h.congr_deriv ?_
  simp only [boltzmannJac, ← hwe]
  ring

theorem weq_some (sm : Sm) (T m : ℝ) (hT : 0 < T) (hm : 0 < m) :
    weq sm T m 2 true = some (Real.log (yeq sm T m 2 true)) := by
  unfold weq yeq
  rw [if_pos (neq_pos T m 2 hT hm two_pos true)]

theorem yeq_pos (sm : Sm) (T m : ℝ) (hT : 0 < T) (hm : 0 < m) (hh : 0 < sm.heff T) :
    0 < yeq sm T m 2 true := by
  unfold yeq entropy
  have := neq_pos T m 2 hT hm two_pos true
  have := Real.pi_pos
  positivity

/-- C42: the abundance `Y = exp w` obeys `dY/dlog x = −√(π/45) M √g* m/x ⟨σv⟩ (Y² − Yeq²)`; equilibrium is
the only fixed point, it attracts from both sides, and the Jacobian is negative. -/
theorem boltzmann_drive (sm : Sm) (mpl : ℝ) (d : Dm) (logx w : ℝ) (hM : 0 < mpl) (hm : 0 < d.mx)
    (hg : 0 < sm.sqrtGstar (d.mx / Real.exp logx)) (hh : 0 < sm.heff (d.mx / Real.exp logx))
    (hs : 0 < tcs d (Real.exp logx)) :
    let x := Real.exp logx
    let Yeq := yeq sm (d.mx / x) d.mx 2 true
    Real.exp w * boltzmannEqn sm mpl d logx w
        = -(Real.sqrt (Real.pi / 45) * mpl * sm.sqrtGstar (d.mx / x) * d.mx / x * tcs d x
          * (Real.exp w ^ 2 - Yeq ^ 2))
    ∧ (boltzmannEqn sm mpl d logx w = 0 ↔ Real.exp w = Yeq)
    ∧ (boltzmannEqn sm mpl d logx w < 0 ↔ Yeq < Real.exp w)
    ∧ (0 < boltzmannEqn sm mpl d logx w ↔ Real.exp w < Yeq)
    ∧ boltzmannJac sm mpl d logx w < 0 := by
  intro x Yeq
  have hx : 0 < x := Real.exp_pos _
  have hT : 0 < d.mx / x := by positivity
  have hY : 0 < Yeq := yeq_pos sm _ _ hT hm hh
  have hpi := Real.pi_pos
  have hsq : 0 < Real.sqrt (Real.pi / 45) := Real.sqrt_pos.mpr (by positivity)
  obtain ⟨c, hc⟩ : ∃ c, c = Real.sqrt (Real.pi / 45) * mpl * sm.sqrtGstar (d.mx / x) * d.mx / x * tcs d x :=
    ⟨_, rfl⟩
  have hcpos : 0 < c := by rw [hc]; positivity
  have hE : expTwice (weq sm (d.mx / x) d.mx 2 true) w = Yeq ^ 2 / Real.exp w := by
    rw [weq_some sm _ _ hT hm]
    simp only [expTwice]
    rw [Real.exp_sub, two_mul, Real.exp_add, Real.exp_log hY, sq]
  have hB : boltzmannEqn sm mpl d logx w = -(c * ((Real.exp w ^ 2 - Yeq ^ 2) / Real.exp w)) := by
    simp only [boltzmannEqn, boltzmannPf]
    change _ * (Real.exp w - expTwice (weq sm (d.mx / x) d.mx 2 true) w) = _
    rw [hE, hc]
    have := (Real.exp_pos w).ne'
    field_simp
    ring
  have hJ : boltzmannJac sm mpl d logx w = -(c * ((Real.exp w ^ 2 + Yeq ^ 2) / Real.exp w)) := by
    simp only [boltzmannJac, boltzmannPf]
    change _ * (Real.exp w + expTwice (weq sm (d.mx / x) d.mx 2 true) w) = _
    rw [hE, hc]
    have := (Real.exp_pos w).ne'
    field_simp
    ring
  rw [hB, hJ, ← hc]
  have hw := Real.exp_pos w
  generalize Real.exp w = y at hw ⊢
  generalize Yeq = q at hY ⊢
  have hfac : -(c * ((y ^ 2 - q ^ 2) / y)) = (q - y) * (c * (y + q) / y) := by field_simp; ring
  have hk : 0 < c * (y + q) / y := by positivity
  refine ⟨by field_simp, ?_, ?_, ?_, ?_⟩
  · rw [hfac, mul_eq_zero, or_iff_left hk.ne', sub_eq_zero, eq_comm]
  · rw [hfac, mul_neg_iff_of_pos_right' hk]
    exact sub_neg
  · rw [hfac, mul_pos_iff_of_pos_right hk]
    exact sub_pos
  · have : 0 < c * ((y ^ 2 + q ^ 2) / y) := by positivity
    linarith
where
  mul_neg_iff_of_pos_right' {a b : ℝ} (hb : 0 < b) : a * b < 0 ↔ a < 0 := by
    constructor
    · intro h; by_contra hc; push Not at hc; nlinarith [mul_nonneg hc hb.le]
    · intro h; exact mul_neg_of_neg_of_pos h hb

/-- The abundance after freeze-out as a function of the end point. -/
noncomputable def freezeOut (sm : Sm) (mpl : ℝ) (d : Dm) (ystar xstar b : ℝ) : ℝ :=
  ystar / (1 + ystar * alphaTo sm mpl d xstar b)

/-- C43: the semi-analytic result is the value at `100 xstar` of the exact solution of
`dY/dx = −√(π/45) M m √g* ⟨σv⟩ / x² Y²` started from the equilibrium abundance at `xstar`; it is positive
and below the starting value. -/
theorem semi_analytic_solution (sm : Sm) (k : Consts) (d : Dm) (delta : Option ℝ) (x0 : ℝ) (xf : Option ℝ)
    (root : (ℝ → ℝ) → ℝ → ℝ → ℝ)
    (solver : Option ℝ → ℝ → ℝ → (ℝ → ℝ → ℝ) → (ℝ → ℝ → ℝ) → ℝ)
    (hM : 0 < k.mpl) (hm : 0 < d.mx) :
    let xs := root (xstarRootEqn sm k.mpl d delta) 0.01 100
    let ys := yeq sm (d.mx / xs) d.mx 2 true
    let Y := freezeOut sm k.mpl d ys xs
    0 < xs → 0 < sm.heff (d.mx / xs) →
    ContinuousOn (fun x => sm.sqrtGstar (d.mx / x) * tcs d x / x ^ 2) (Icc xs (100 * xs)) →
    (∀ x ∈ Ioo xs (100 * xs), 0 < sm.sqrtGstar (d.mx / x) * tcs d x) →
    relicDensity sm k d true delta x0 xf root solver = Y (100 * xs) * d.mx * k.s0 / k.rhoCrit
    ∧ Y xs = ys
    ∧ (∀ b ∈ Ioo xs (100 * xs), HasDerivAt Y
        (-(Real.sqrt (Real.pi / 45) * d.mx * k.mpl * sm.sqrtGstar (d.mx / b) * tcs d b / b ^ 2 * Y b ^ 2)) b)
    ∧ 0 < Y (100 * xs) ∧ Y (100 * xs) < ys := by
  intro xs ys Y hxs hh hcont hpos
  have hpi := Real.pi_pos
  have hsq : 0 < Real.sqrt (Real.pi / 45) := Real.sqrt_pos.mpr (by positivity)
  have hys : 0 < ys := yeq_pos sm _ _ (by positivity) hm hh
  have hlt : xs < 100 * xs := by linarith
  have hint : ∀ b ∈ Icc xs (100 * xs), IntervalIntegrable
      (fun x => sm.sqrtGstar (d.mx / x) * tcs d x / x ^ 2) volume xs b := by
    intro b hb
    apply ContinuousOn.intervalIntegrable
    rw [uIcc_of_le hb.1]
    exact hcont.mono (Icc_subset_Icc le_rfl hb.2)
  have hnn : ∀ b ∈ Ioc xs (100 * xs), 0 < alphaTo sm k.mpl d xs b := by
    intro b hb
    unfold alphaTo
    refine mul_pos (by positivity) ?_
    apply intervalIntegral.intervalIntegral_pos_of_pos_on (hint b ⟨hb.1.le, hb.2⟩) _ hb.1
    intro x hx
    have := hpos x ⟨hx.1, lt_of_lt_of_le hx.2 hb.2⟩
    have hx0 : 0 < x := hxs.trans hx.1
    positivity
  refine ⟨rfl, ?_, ?_, ?_, ?_⟩
  · simp only [Y, freezeOut, alphaTo, intervalIntegral.integral_same, mul_zero, add_zero, div_one]
  · intro b hb
    have hb0 : 0 < b := hxs.trans hb.1
    have hcb : ContinuousAt (fun x => sm.sqrtGstar (d.mx / x) * tcs d x / x ^ 2) b :=
      hcont.continuousAt (Icc_mem_nhds hb.1 hb.2)
    have hmeas : StronglyMeasurableAtFilter (fun x => sm.sqrtGstar (d.mx / x) * tcs d x / x ^ 2) (𝓝 b) volume :=
      ContinuousOn.stronglyMeasurableAtFilter isOpen_Ioo (hcont.mono Ioo_subset_Icc_self) b hb
    have hd := intervalIntegral.integral_hasDerivAt_right (hint b ⟨hb.1.le, hb.2.le⟩) hmeas hcb
    have hA : HasDerivAt (alphaTo sm k.mpl d xs)
        (Real.sqrt (Real.pi / 45) * d.mx * k.mpl * (sm.sqrtGstar (d.mx / b) * tcs d b / b ^ 2)) b :=
      hd.const_mul _
    have hden : 1 + ys * alphaTo sm k.mpl d xs b ≠ 0 := by
      have := hnn b ⟨hb.1, hb.2.le⟩
      positivity
    have h2 := (hasDerivAt_const b ys).div ((hA.const_mul ys).const_add 1) hden
    refine h2.congr_deriv ?_
    simp only [Y, freezeOut]
    field_simp
    ring
  · have := hnn (100 * xs) ⟨hlt, le_rfl⟩
    simp only [Y, freezeOut]
    positivity
  · have := hnn (100 * xs) ⟨hlt, le_rfl⟩
    simp only [Y, freezeOut]
    rw [div_lt_iff₀ (by positivity)]
    have : 0 < ys * (ys * alphaTo sm k.mpl d xs (100 * xs)) := by positivity
    nlinarith

/-- C43: a larger annihilation rate after freeze-out leaves a smaller abundance. -/
theorem semi_analytic_monotone (sm : Sm) (mpl ys xs : ℝ) (d1 d2 : Dm) (hM : 0 < mpl) (hm : 0 < d1.mx)
    (hmx : d1.mx = d2.mx) (hxs : 0 < xs) (hys : 0 < ys)
    (h1 : IntervalIntegrable (fun x => sm.sqrtGstar (d1.mx / x) * tcs d1 x / x ^ 2) volume xs (100 * xs))
    (h2 : IntervalIntegrable (fun x => sm.sqrtGstar (d2.mx / x) * tcs d2 x / x ^ 2) volume xs (100 * xs))
    (hg : ∀ x ∈ Icc xs (100 * xs), 0 ≤ sm.sqrtGstar (d1.mx / x))
    (h0 : ∀ x ∈ Icc xs (100 * xs), 0 ≤ tcs d1 x)
    (hle : ∀ x ∈ Icc xs (100 * xs), tcs d1 x ≤ tcs d2 x) :
    freezeOut sm mpl d2 ys xs (100 * xs) ≤ freezeOut sm mpl d1 ys xs (100 * xs) := by
  have hsq : 0 ≤ Real.sqrt (Real.pi / 45) := Real.sqrt_nonneg _
  have hlt : xs ≤ 100 * xs := by linarith
  have hA : alphaTo sm mpl d1 xs (100 * xs) ≤ alphaTo sm mpl d2 xs (100 * xs) := by
    unfold alphaTo
    rw [← hmx] at h2 ⊢
    have := intervalIntegral.integral_mono_on hlt h1 h2 fun x hx => by
      have h3 := hg x hx
      have h4 := hle x hx
      gcongr
    gcongr
  have hn : 0 ≤ alphaTo sm mpl d1 xs (100 * xs) := by
    unfold alphaTo
    apply mul_nonneg (by positivity)
    apply intervalIntegral.integral_nonneg hlt
    intro x hx
    have h3 := hg x hx
    have h4 := h0 x hx
    positivity
  unfold freezeOut
  gcongr

/-- C95 (the part that holds): a root of the freeze-out equation is exactly a point at which
`Y = (1 + δ) Yeq`, followed at constant `δ`, satisfies the Boltzmann equation; without `delta` the value is
the golden-ratio one. -/
theorem xstar_meaning_partial (sm : Sm) (mpl : ℝ) (d : Dm) (x : ℝ) (hx : 0 < x) :
    (∀ delta : ℝ, 0 < delta →
      (xstarRootEqn sm mpl d (some delta) x = 0 ↔
        (1 + delta) * yeqDerivX sm x d.mx 2 true
          = -(Real.sqrt (Real.pi / 45) * d.mx * mpl * sm.sqrtGstar (d.mx / x) * tcs d x / x ^ 2
            * (((1 + delta) * yeq sm (d.mx / x) d.mx 2 true) ^ 2 - yeq sm (d.mx / x) d.mx 2 true ^ 2))))
    ∧ xstarRootEqn sm mpl d none x = xstarRootEqn sm mpl d (some ((Real.sqrt 5 - 1) / 2)) x := by
  constructor
  · intro delta hd
    have h1 : 1 + delta ≠ 0 := by linarith
    simp only [xstarRootEqn, deltabar]
    generalize yeqDerivX sm x d.mx 2 true = D
    generalize yeq sm (d.mx / x) d.mx 2 true = Y
    generalize tcs d x = s
    generalize sm.sqrtGstar (d.mx / x) = g
    generalize Real.sqrt (Real.pi / 45) = r
    constructor
    · intro h
      field_simp at h ⊢
      linear_combination h
    · intro h
      field_simp at h ⊢
      linear_combination h
  · have h5 : Real.sqrt 5 ^ 2 = 5 := Real.sq_sqrt (by norm_num)
    have hp : 0 < Real.sqrt 5 := Real.sqrt_pos.mpr (by norm_num)
    have : deltabar (some ((Real.sqrt 5 - 1) / 2)) = deltabar none := by
      simp only [deltabar]
      rw [div_eq_one_iff_eq (by linarith)]
      nlinarith
    simp only [xstarRootEqn, this]

/-- C95 is false in its last clause: the evolution after freeze-out starts from `Yeq`, not from the
abundance `(1 + δ) Yeq` that defines `xstar`, and so ends below the matched solution. -/
theorem start_not_matched (sm : Sm) (mpl : ℝ) (d : Dm) (delta x b : ℝ) (hd : 0 < delta) (hx : 0 < x)
    (hm : 0 < d.mx) (hh : 0 < sm.heff (d.mx / x)) (hA : 0 ≤ alphaTo sm mpl d x b) :
    freezeOut sm mpl d (yeq sm (d.mx / x) d.mx 2 true) x b
      < freezeOut sm mpl d ((1 + delta) * yeq sm (d.mx / x) d.mx 2 true) x b := by
  have hy := yeq_pos sm (d.mx / x) d.mx (by positivity) hm hh
  unfold freezeOut
  generalize yeq sm (d.mx / x) d.mx 2 true = y at hy ⊢
  generalize alphaTo sm mpl d x b = A at hA ⊢
  rw [div_lt_div_iff₀ (by positivity) (by positivity)]
  have : 0 < delta * y := by positivity
  nlinarith

/-- C96: the documentation says `delta` is ignored when `semi_analytic` is true.  It is the other way
round: with `semi_analytic = False` the result does not depend on it, … -/
theorem delta_ignored_numerically (sm : Sm) (k : Consts) (d : Dm) (x0 : ℝ) (xf : Option ℝ)
    (root : (ℝ → ℝ) → ℝ → ℝ → ℝ)
    (solver : Option ℝ → ℝ → ℝ → (ℝ → ℝ → ℝ) → (ℝ → ℝ → ℝ) → ℝ) (d1 d2 : Option ℝ) :
    relicDensity sm k d false d1 x0 xf root solver = relicDensity sm k d false d2 x0 xf root solver := by
  simp only [relicDensity, Bool.false_eq_true, if_false]

/-- … and with `semi_analytic = True` every change of `delta` moves the freeze-out point: no `x` solves
the equation for two positive values of `delta`. -/
theorem delta_moves_freeze_out (sm : Sm) (mpl : ℝ) (d : Dm) (x a b : ℝ) (hx : 0 < x) (hM : 0 < mpl)
    (hm : 0 < d.mx) (hh : 0 < sm.heff (d.mx / x)) (hg : 0 < sm.sqrtGstar (d.mx / x)) (hs : 0 < tcs d x)
    (ha : 0 < a) (hb : 0 < b) (hab : a ≠ b) :
    ¬(xstarRootEqn sm mpl d (some a) x = 0 ∧ xstarRootEqn sm mpl d (some b) x = 0) := by
  rintro ⟨h1, h2⟩
  have hy := yeq_pos sm (d.mx / x) d.mx (by positivity) hm hh
  have hsq : 0 < Real.sqrt (Real.pi / 45) := Real.sqrt_pos.mpr (by have := Real.pi_pos; positivity)
  simp only [xstarRootEqn] at h1 h2
  generalize yeq sm (d.mx / x) d.mx 2 true = y at *
  have hc : 0 < Real.sqrt (Real.pi / 45) * d.mx * mpl * sm.sqrtGstar (d.mx / x) * tcs d x * y ^ 2 := by positivity
  have h3 : (deltabar (some a) - deltabar (some b))
      * (Real.sqrt (Real.pi / 45) * d.mx * mpl * sm.sqrtGstar (d.mx / x) * tcs d x * y ^ 2) = 0 := by
    linear_combination h1 - h2
  have h4 : deltabar (some a) = deltabar (some b) :=
    sub_eq_zero.mp ((mul_eq_zero.mp h3).resolve_right hc.ne')
  simp only [deltabar] at h4
  rw [div_eq_div_iff (by linarith) (by linarith)] at h4
  have : (a - b) * (2 + a + b + a * b) = 0 := by linear_combination h4
  rcases mul_eq_zero.mp this with h | h
  · exact hab (sub_eq_zero.mp h)
  · have : 0 < a * b := by positivity
    linarith

/-- C97: the documentation gives the default final `x` as 1000 times the initial one; it is `e⁷ > 1096`
times. -/
theorem default_span (sm : Sm) (d : Dm) (x0 : ℝ) (hx : 0 < x0) :
    Real.exp (solveSpan sm d x0 none).2.2 = Real.exp 7 * x0 ∧ 1096 * x0 < Real.exp (solveSpan sm d x0 none).2.2
    ∧ (∀ xf, 0 < xf → Real.exp (solveSpan sm d x0 (some xf)).2.2 = xf)
    ∧ Real.exp (solveSpan sm d x0 none).2.1 = x0 := by
  have h7 : (1096 : ℝ) < Real.exp 7 := by
    have h1 := Real.exp_one_gt_d9
    have h2 : Real.exp 7 = Real.exp 1 ^ 7 := by rw [← Real.exp_nat_mul]; norm_num
    rw [h2]
    calc (1096 : ℝ) < 2.718281 ^ 7 := by norm_num
      _ ≤ Real.exp 1 ^ 7 := pow_le_pow_left₀ (by norm_num) (by linarith) 7
  have e : Real.exp (solveSpan sm d x0 none).2.2 = Real.exp 7 * x0 := by
    simp only [solveSpan]
    rw [Real.exp_add, Real.exp_log hx, mul_comm]
  refine ⟨e, ?_, fun xf h => ?_, ?_⟩
  · rw [e]; gcongr
  · simp only [solveSpan]; exact Real.exp_log h
  · simp only [solveSpan]; exact Real.exp_log hx

/-! ## Thermal averages -/

/-- A cross section that vanishes below the pair threshold and is positive above it. -/
structure Annihilates (sigma : ℝ → ℝ) (mx : ℝ) : Prop where
  below : ∀ e, e < 2 * mx → sigma e = 0
  above : ∀ e, 2 * mx < e → 0 < sigma e

theorem integrand_pos {sigma : ℝ → ℝ} {mx x z : ℝ} (h : Annihilates sigma mx) (hm : 0 < mx) (hx : 0 < x)
    (hz : 2 < z) : 0 < tcsIntegrand sigma mx x z := by
  unfold tcsIntegrand
  have h1 := h.above (mx * z) (by nlinarith)
  have h2 := besselK_one_pos (show 0 < x * z by positivity)
  have h3 : 0 < z ^ 2 - 4 := by nlinarith
  positivity

theorem average_pos {sigma : ℝ → ℝ} {mx x u : ℝ} (h : Annihilates sigma mx) (hm : 0 < mx) (hx : 0 < x)
    (hu : 2 < u) (hi : IntervalIntegrable (tcsIntegrand sigma mx x) volume 2 u) :
    0 < x / (2 * besselK 2 x) ^ 2 * ∫ z in (2 : ℝ)..u, tcsIntegrand sigma mx x z := by
  have := besselK_two_pos hx
  refine mul_pos (by positivity) ?_
  exact intervalIntegral.intervalIntegral_pos_of_pos_on hi (fun z hz => integrand_pos h hm hx hz.1) hu

/-- C98 (the part that holds): the generic thermal average of an annihilating model is positive for
`x < 25`. -/
theorem generic_average_pos_partial (sigma : ℝ → ℝ) (mx x : ℝ) (h : Annihilates sigma mx) (hm : 0 < mx)
    (hx : 0 < x) (hx2 : x < 25) (hi : IntervalIntegrable (tcsIntegrand sigma mx x) volume 2 (50 / x)) :
    0 < genericTcs sigma mx x := by
  unfold genericTcs
  rw [if_neg (by linarith)]
  exact average_pos h hm hx (by rw [lt_div_iff₀ hx]; linarith) hi

/-- C98 is false: from `x = 25` on, around and after typical freeze-out, the upper end `50 / x` of the
integral is at or below the threshold `z = 2` and the average is zero whatever the cross section. -/
theorem generic_average_vanishes (sigma : ℝ → ℝ) (mx x : ℝ) (hm : 0 < mx)
    (hs : ∀ e, e < 2 * mx → sigma e = 0) (hx : 25 ≤ x) : genericTcs sigma mx x = 0 := by
  unfold genericTcs
  split
  · rfl
  · have hle : 50 / x ≤ 2 := by rw [div_le_iff₀ (by linarith)]; linarith
    rw [intervalIntegral.integral_symm, intervalIntegral.integral_of_le hle, ← integral_Ioc_eq_integral_Ioo',
      setIntegral_eq_zero_of_forall_eq_zero, neg_zero, mul_zero]
    intro z hz
    unfold tcsIntegrand
    rw [hs _ (by nlinarith [hz.2]), zero_mul]
where
  integral_Ioc_eq_integral_Ioo' {f : ℝ → ℝ} {a b : ℝ} : ∫ t in Ioo a b, f t = ∫ t in Ioc a b, f t :=
    (integral_Ioc_eq_integral_Ioo).symm

/-- Consequently a model without its own thermal average has no annihilation after `x = 25` in the
semi-analytic relic density: the integral stops there. -/
theorem generic_alpha_cut (sm : Sm) (mpl : ℝ) (d : Dm) (xs : ℝ) (hown : d.own = none) (hm : 0 < d.mx)
    (hs : ∀ e, e < 2 * d.mx → d.total e = 0) (hxs : 25 ≤ xs) :
    computeAlpha sm mpl d xs = 0 := by
  unfold computeAlpha alphaTo
  rw [intervalIntegral.integral_congr (g := fun _ => 0), intervalIntegral.integral_zero, mul_zero]
  intro x hx
  rw [uIcc_of_le (by linarith)] at hx
  have : tcs d x = 0 := by
    simp only [tcs, hown]
    exact generic_average_vanishes d.total d.mx x hm hs (hxs.trans hx.1)
  simp only [this, mul_zero, zero_div]

/-- C99: the mediator models' own thermal averages are positive for every `x ≤ 300`; above 300 the scalar
model's is zero and the vector model's constant. -/
theorem mediator_averages (sigma : ℝ → ℝ) (mx x : ℝ) (h : Annihilates sigma mx) (hm : 0 < mx) (hx : 0 < x)
    (hi : ∀ x u, 0 < x → 2 < u → IntervalIntegrable (tcsIntegrand sigma mx x) volume 2 u) :
    (x ≤ 300 → 0 < scalarTcs sigma mx x)
    ∧ (300 < x → scalarTcs sigma mx x = 0)
    ∧ 0 < vectorTcs sigma mx x
    ∧ (300 ≤ x → vectorTcs sigma mx x = vectorTcs sigma mx 300) := by
  refine ⟨fun h3 => ?_, fun h3 => ?_, ?_, fun h3 => ?_⟩
  · unfold scalarTcs
    rw [if_neg (by linarith)]
    have hu : (2 : ℝ) < if 100 > 50 / x then 100 else 50 / x := by split <;> linarith
    exact average_pos h hm hx hu (hi _ _ hx hu)
  · unfold scalarTcs; rw [if_pos h3]
  · have hxn : 0 < (if x < 300 then x else 300) := by split <;> linarith
    unfold vectorTcs
    simp only
    generalize (if x < 300 then x else 300) = y at hxn ⊢
    have hu : (2 : ℝ) < if 150 > 50 / y then 150 else 50 / y := by split <;> linarith
    exact average_pos h hm hxn hu (hi _ _ hxn hu)
  · unfold vectorTcs
    rw [if_neg (by linarith), if_neg (lt_irrefl _)]

/-- The three averages agree where their integration ranges do. -/
theorem averages_agree (sigma : ℝ → ℝ) (mx x : ℝ) (hx : 0 < x) (hx2 : x < 1 / 3) :
    genericTcs sigma mx x = scalarTcs sigma mx x ∧ scalarTcs sigma mx x = vectorTcs sigma mx x := by
  have h : 150 < 50 / x := by rw [lt_div_iff₀ hx]; linarith
  have h3 : ¬ x > 300 := by linarith
  simp only [genericTcs, scalarTcs, vectorTcs, if_pos (show x < 300 by linarith), if_neg h3,
    if_neg (show ¬ (100 : ℝ) > 50 / x by linarith), if_neg (show ¬ (150 : ℝ) > 50 / x by linarith), and_self]

/-- A step cross section: positive average at `x = 20`, zero at `x = 30`. -/
example : 0 < genericTcs (fun e => if e < 200 then 0 else 1) 100 20
    ∧ genericTcs (fun e => if e < 200 then 0 else 1) 100 30 = 0 := by
  have hA : Annihilates (fun e => if e < 200 then 0 else 1) 100 :=
    ⟨fun e he => by rw [if_pos (by linarith)], fun e he => by rw [if_neg (by linarith)]; exact one_pos⟩
  refine ⟨generic_average_pos_partial _ 100 20 hA (by norm_num) (by norm_num) (by norm_num) ?_,
    generic_average_vanishes _ 100 30 (by norm_num) hA.below (by norm_num)⟩
  have hc : ContinuousOn (fun z : ℝ => 1 * (z ^ 2 * (z ^ 2 - 4) * besselK 1 (20 * z))) (Icc 2 (50 / 20)) := by
    have hK : ContinuousOn (fun z : ℝ => besselK 1 (20 * z)) (Icc 2 (50 / 20)) := by
      intro z hz
      have h20 : (0 : ℝ) < 20 * z := by linarith [hz.1]
      have : ContinuousAt (mom 1) (20 * z) := (mom_hasDerivAt 1 h20).continuousAt
      have h2 : ContinuousAt (fun z : ℝ => mom 1 (20 * z)) z :=
        ContinuousAt.comp (f := fun z : ℝ => 20 * z) this (by fun_prop)
      simp only [besselK_one]
      exact h2.continuousWithinAt
    exact continuousOn_const.mul ((by fun_prop : ContinuousOn (fun z : ℝ => z ^ 2 * (z ^ 2 - 4)) _).mul hK)
  have := (hc.intervalIntegrable_of_Icc (μ := volume) (by norm_num))
  refine this.congr ?_
  rw [uIoc_of_le (by norm_num)]
  intro z hz
  simp only [tcsIntegrand]
  rw [if_neg (by linarith [hz.1])]

end Hazma.Relic
