import Verif.Model.LeptonTables
import Verif.Props.BoostFn
import Mathlib.Tactic

/-!
# Tabulated positron and neutrino spectra of mesons (C202–C205)
-/

namespace Hazma.LeptonTables

open MeasureTheory
open Hazma.Boost (lorentz momentum labEnergy)
open Hazma.BoostFn (labSpectrum)

/-- The rest-frame spectrum a table stands for (specification): the interpolated points times the
momentum inside the table, nothing outside. -/
noncomputable def tableSpectrum (s : Spline) (m e : ℝ) : ℝ :=
  (Set.Icc s.lo s.hi).indicator (fun x => s.eval x * momentum x m) e

theorem gamma_eq {beta M P : ℝ} (hM : 0 < M) (hP : P = M * lorentz beta) :
    gammaOf P M = lorentz beta := by
  unfold gammaOf
  rw [hP]
  field_simp

theorem beta_eq {beta M P : ℝ} (h0 : 0 < beta) (h1 : beta < 1) (hM : 0 < M)
    (hP : P = M * lorentz beta) : betaOf P M = beta := by
  unfold betaOf
  rw [gamma_eq hM hP]
  unfold lorentz
  have h := Boost.one_sub_sq_pos h0 h1
  rw [div_pow, one_pow, Real.sq_sqrt h.le]
  rw [show 1 - (1 / (1 - beta ^ 2))⁻¹ = beta ^ 2 by field_simp; ring, Real.sqrt_sq h0.le]

theorem inFlight_eq (s : Spline) {beta m e M P : ℝ} (h0 : 0 < beta) (h1 : beta < 1) (hM : 0 < M)
    (hP : P = M * lorentz beta) (hm : 0 ≤ m) (he : m ≤ e) :
    inFlight s (momentum e m) e P M = labSpectrum (tableSpectrum s m) m beta e := by
  unfold inFlight
  rw [gamma_eq hM hP, beta_eq h0 h1 hM hP]
  simp only
  rcases he.eq_or_lt with heq | hlt
  · subst heq
    rw [BoostFn.labSpectrum_below _ h0 h1 hm le_rfl]
    have : momentum m m = 0 := by simp [momentum]
    rw [this]
    simp [Spline.integral]
  · rw [← BoostFn.integrand_eq (tableSpectrum s m) h0 h1 hm hlt]
    have hg := Boost.lorentz_pos h0 h1
    have hk := Boost.momentum_pos hm hlt
    have hle : lorentz beta * (e - beta * momentum e m) ≤ lorentz beta * (e + beta * momentum e m) := by
      have := mul_pos hg (mul_pos h0 hk)
      nlinarith
    have hlow : m ≤ lorentz beta * (e - beta * momentum e m) := by
      have := Boost.mass_le_labEnergy h0 h1 hm hlt.le
      unfold labEnergy at this
      rwa [show e + beta * (-1) * momentum e m = e - beta * momentum e m by ring] at this
    have hint : s.integral (lorentz beta * (e - beta * momentum e m))
        (lorentz beta * (e + beta * momentum e m))
        = ∫ x in lorentz beta * (e - beta * momentum e m)..lorentz beta * (e + beta * momentum e m),
          tableSpectrum s m x / Real.sqrt (x ^ 2 - m ^ 2) := by
      unfold Spline.integral
      rw [intervalIntegral.integral_of_le hle, intervalIntegral.integral_of_le hle]
      refine setIntegral_congr_fun measurableSet_Ioc fun x hx => ?_
      have hx' : 0 < momentum x m := Boost.momentum_pos hm (lt_of_le_of_lt hlow hx.1)
      show (Set.Icc s.lo s.hi).indicator s.eval x = tableSpectrum s m x / momentum x m
      unfold tableSpectrum
      by_cases h : x ∈ Set.Icc s.lo s.hi
      · rw [Set.indicator_of_mem h, Set.indicator_of_mem h]
        field_simp
      · rw [Set.indicator_of_notMem h, Set.indicator_of_notMem h, zero_div]
    rw [hint]
    have hb : beta * lorentz beta ≠ 0 := (mul_pos h0 hg).ne'
    rw [show 2 * beta * lorentz beta = 2 * (beta * lorentz beta) by ring]
    field_simp
    norm_num
    ring

theorem positronPointwise_eq (s : Spline) {me eps beta e M P : ℝ} (h0 : 0 < beta) (h1 : beta < 1)
    (hM : 0 < M) (hP : P = M * lorentz beta) (hme : 0 ≤ me) (heps : 0 < eps) (hfly : eps ≤ P - M) :
    positronPointwise me eps s e P M = labSpectrum (tableSpectrum s me) me beta e := by
  unfold positronPointwise
  by_cases he : e < me
  · rw [if_pos (Or.inr he), BoostFn.labSpectrum_below _ h0 h1 hme he.le]
  · rw [if_neg (by rintro (h | h) <;> linarith), if_neg (by linarith)]
    exact inFlight_eq s h0 h1 hM hP hme (not_lt.mp he)

/-- **C202.** For a parent of velocity `beta` that moves faster than the rest-frame cut, the
positron functions of the mesons return, for one energy or an array of energies, the spectrum of
the tabulated decay boosted isotropically to the lab. -/
theorem positron_in_flight (s : Spline) (me eps beta M P : ℝ) (h0 : 0 < beta) (h1 : beta < 1)
    (hM : 0 < M) (hP : P = M * lorentz beta) (hme : 0 ≤ me) (heps : 0 < eps) (hfly : eps ≤ P - M) :
    (∀ es, dndePositron me eps s (.array es) P M
        = .array (es.map fun e => some (labSpectrum (tableSpectrum s me) me beta e))) ∧
      ∀ e, dndePositron me eps s (.float e) P M
        = .scalar (labSpectrum (tableSpectrum s me) me beta e) := by
  have hPM : ¬ P < M := by linarith
  constructor
  · intro es
    unfold dndePositron
    rw [if_neg hPM]
    simp only
    unfold positronArray
    rw [if_neg hPM, if_neg (by linarith)]
    refine congrArg _ (List.map_congr_left fun e _ => ?_)
    rw [positronPointwise_eq s h0 h1 hM hP hme heps hfly]
  · intro e
    unfold dndePositron
    rw [if_neg hPM]
    simp only
    rw [positronPointwise_eq s h0 h1 hM hP hme heps hfly]

theorem neutrinoPointwise_eq (s : Spline) {eps beta e M P : ℝ} (h0 : 0 < beta) (h1 : beta < 1)
    (hM : 0 < M) (hP : P = M * lorentz beta) (heps : 0 < eps) (hfly : eps ≤ P - M)
    (hlo : 0 < s.lo) :
    neutrinoPointwise eps s e P M = labSpectrum (tableSpectrum s 0) 0 beta e := by
  unfold neutrinoPointwise
  rw [if_neg (by linarith), if_neg (by linarith)]
  by_cases he : 0 ≤ e
  · have := inFlight_eq s h0 h1 hM hP le_rfl he
    rwa [show momentum e 0 = e by simp [momentum, Real.sqrt_sq he]] at this
  · rw [BoostFn.labSpectrum_below _ h0 h1 le_rfl (not_le.mp he).le]
    unfold inFlight
    rw [gamma_eq hM hP, beta_eq h0 h1 hM hP]
    simp only
    have hg := Boost.lorentz_pos h0 h1
    have hub : lorentz beta * (e + beta * e) ≤ 0 :=
      mul_nonpos_of_nonneg_of_nonpos hg.le (by nlinarith)
    have hlb : lorentz beta * (e - beta * e) ≤ 0 :=
      mul_nonpos_of_nonneg_of_nonpos hg.le (by nlinarith)
    have hz : s.integral (lorentz beta * (e - beta * e)) (lorentz beta * (e + beta * e)) = 0 := by
      unfold Spline.integral
      refine (intervalIntegral.integral_congr (g := fun _ => (0 : ℝ)) fun x hx => ?_).trans
        (by simp)
      rw [Set.mem_uIcc] at hx
      show (Set.Icc s.lo s.hi).indicator s.eval x = 0
      refine Set.indicator_of_notMem (fun h => ?_) _
      have := h.1
      rcases hx with ⟨_, h2⟩ | ⟨_, h2⟩ <;> linarith
    rw [hz, zero_div]

/-- **C202.** Likewise for the neutrino functions, flavour by flavour: the electron and muon rows
are the two tables boosted to the lab, the tau row is zero. -/
theorem neutrino_in_flight (se smu : Spline) (eps beta M P : ℝ) (h0 : 0 < beta) (h1 : beta < 1)
    (hM : 0 < M) (hP : P = M * lorentz beta) (heps : 0 < eps) (hfly : eps ≤ P - M)
    (hlo : 0 < se.lo) (hlo' : 0 < smu.lo) (es : List ℝ) :
    dndeNeutrino eps se smu (.array es) P M none
      = .rows (es.map (labSpectrum (tableSpectrum se 0) 0 beta))
          (es.map (labSpectrum (tableSpectrum smu 0) 0 beta)) (es.map fun _ => 0) := by
  unfold dndeNeutrino
  simp only [reduceCtorEq, if_false, Arg.atleast1d, Arg.isScalar]
  rw [if_pos (show wants none "e" from Or.inl rfl), if_pos (show wants none "mu" from Or.inl rfl)]
  unfold finish
  rw [if_neg (by simp)]
  have h : ∀ s : Spline, 0 < s.lo → (es.map fun e => neutrinoPointwise eps s e P M)
      = es.map (labSpectrum (tableSpectrum s 0) 0 beta) := fun s hs =>
    List.map_congr_left fun e _ => neutrinoPointwise_eq s h0 h1 hM hP heps hfly hs
  rw [h se hlo, h smu hlo']

/-! ### The straight-line spline -/

theorem segment_left (p q : ℝ × ℝ) : segment p q p.1 = p.2 := by simp [segment]

theorem segment_right {p q : ℝ × ℝ} (h : p.1 < q.1) : segment p q q.1 = q.2 := by
  unfold segment
  have : q.1 - p.1 ≠ 0 := by linarith
  field_simp
  ring

theorem segment_nonneg {p q : ℝ × ℝ} (h : p.1 < q.1) (hp : 0 ≤ p.2) (hq : 0 ≤ q.2) {x : ℝ}
    (h1 : p.1 ≤ x) (h2 : x ≤ q.1) : 0 ≤ segment p q x := by
  unfold segment
  have hd : 0 < q.1 - p.1 := by linarith
  rw [show p.2 + (q.2 - p.2) / (q.1 - p.1) * (x - p.1)
    = (p.2 * (q.1 - x) + q.2 * (x - p.1)) / (q.1 - p.1) by field_simp; ring]
  exact div_nonneg (add_nonneg (mul_nonneg hp (by linarith)) (mul_nonneg hq (by linarith))) hd.le

/-- Increasing energies. -/
abbrev Increasing (pts : List (ℝ × ℝ)) : Prop := pts.Pairwise fun p q => p.1 < q.1

theorem linEval_head (p q : ℝ × ℝ) (rest : List (ℝ × ℝ)) (h : Increasing (p :: q :: rest)) :
    linEval (p :: q :: rest) p.1 = p.2 := by
  have hpq : p.1 < q.1 := (List.pairwise_cons.mp h).1 q (by simp)
  cases rest with
  | nil => exact segment_left p q
  | cons r rest =>
    simp only [linEval]
    rw [if_pos hpq.le, segment_left]

theorem linEval_knot (pts : List (ℝ × ℝ)) (h : Increasing pts) (h2 : 2 ≤ pts.length) :
    ∀ p ∈ pts, linEval pts p.1 = p.2 := by
  induction pts with
  | nil => simp
  | cons a pts ih =>
    match pts, h, h2, ih with
    | [q], h, _, _ =>
      intro p hp
      have haq : a.1 < q.1 := (List.pairwise_cons.mp h).1 q (by simp)
      rcases List.mem_pair.mp hp with rfl | rfl
      · exact segment_left _ _
      · exact segment_right haq
    | q :: r :: rest, h, _, ih =>
      intro p hp
      have haq : a.1 < q.1 := (List.pairwise_cons.mp h).1 q (by simp)
      have htl := (List.pairwise_cons.mp h).2
      rcases List.mem_cons.mp hp with rfl | hp
      · exact linEval_head _ q _ h
      · simp only [linEval]
        rcases List.mem_cons.mp hp with rfl | hp'
        · rw [if_pos le_rfl, segment_right haq]
        · have : q.1 < p.1 := (List.pairwise_cons.mp htl).1 p hp'
          rw [if_neg (not_le.mpr this)]
          exact ih htl (by simp) p hp

theorem linEval_nonneg (pts : List (ℝ × ℝ)) (h : Increasing pts) (h0 : ∀ p ∈ pts, 0 ≤ p.2) (x : ℝ)
    (hlo : ∀ p ∈ pts.head?, p.1 ≤ x) (hhi : ∀ p ∈ pts.getLast?, x ≤ p.1) : 0 ≤ linEval pts x := by
  induction pts with
  | nil => simp [linEval]
  | cons a pts ih =>
    match pts, h, h0, hlo, hhi, ih with
    | [], _, _, _, _, _ => simp [linEval]
    | [q], h, h0, hlo, hhi, _ =>
      have haq : a.1 < q.1 := (List.pairwise_cons.mp h).1 q (by simp)
      exact segment_nonneg haq (h0 a (by simp)) (h0 q (by simp)) (hlo a (by simp)) (hhi q (by simp))
    | q :: r :: rest, h, h0, hlo, hhi, ih =>
      have haq : a.1 < q.1 := (List.pairwise_cons.mp h).1 q (by simp)
      simp only [linEval]
      split_ifs with hx
      · exact segment_nonneg haq (h0 a (by simp)) (h0 q (by simp)) (hlo a (by simp)) hx
      · refine ih (List.pairwise_cons.mp h).2 (fun p hp => h0 p (List.mem_cons_of_mem _ hp)) ?_ ?_
        · intro p hp
          simp only [List.head?_cons, Option.mem_some_iff] at hp
          subst hp
          exact (not_le.mp hx).le
        · intro p hp
          exact hhi p (by simpa using hp)

theorem linEval_beyond (pre : List (ℝ × ℝ)) (p q : ℝ × ℝ) (h : Increasing (pre ++ [p, q])) {x : ℝ}
    (hx : p.1 < x) : linEval (pre ++ [p, q]) x = segment p q x := by
  induction pre with
  | nil => rfl
  | cons a pre ih =>
    have htl : Increasing (pre ++ [p, q]) := (List.pairwise_cons.mp h).2
    have hlt : ∀ b ∈ (pre ++ [p, q]).head?, b.1 < x := by
      intro b hb
      cases pre with
      | nil => simp at hb; subst hb; exact hx
      | cons c pre =>
        simp at hb
        subst hb
        exact ((List.pairwise_cons.mp htl).1 p (by simp)).trans hx
    rw [← ih htl]
    rcases hl : pre ++ [p, q] with _ | ⟨b, _ | ⟨c, rest⟩⟩
    · simp at hl
    · have := congrArg List.length hl
      simp at this
    · have hb := hlt b (by rw [hl]; rfl)
      show linEval (a :: (pre ++ [p, q])) x = _
      rw [hl]
      simp only [linEval]
      rw [if_neg (not_le.mpr hb)]

theorem segment_continuous (p q : ℝ × ℝ) : Continuous (segment p q) := by
  unfold segment
  fun_prop

theorem linEval_continuous (pts : List (ℝ × ℝ)) (h : Increasing pts) : Continuous (linEval pts) := by
  induction pts with
  | nil =>
    have : linEval [] = fun _ => 0 := by funext x; simp [linEval]
    rw [this]; fun_prop
  | cons a pts ih =>
    match pts, h, ih with
    | [], _, _ =>
      have : linEval [a] = fun _ => 0 := by funext x; simp [linEval]
      rw [this]; fun_prop
    | [q], _, _ => exact segment_continuous a q
    | q :: r :: rest, h, ih =>
      have haq : a.1 < q.1 := (List.pairwise_cons.mp h).1 q (by simp)
      have htl := (List.pairwise_cons.mp h).2
      have : linEval (a :: q :: r :: rest)
          = fun x => if x ≤ q.1 then segment a q x else linEval (q :: r :: rest) x := by
        funext x; simp [linEval]
      rw [this]
      refine Continuous.if_le (segment_continuous a q) (ih htl) continuous_id continuous_const ?_
      rintro x rfl
      show segment a q q.1 = linEval (q :: r :: rest) q.1
      rw [segment_right haq, linEval_head q r rest htl]

theorem loadPositron_increasing (me : ℝ) (rows : List Row)
    (h : rows.Pairwise fun p q => p.1 < q.1) : Increasing (rows.map (positronPoint me)) := by
  rw [Increasing, List.pairwise_map]
  exact h

/-- **C202.** Boosting conserves the number of positrons: for a table with increasing energies
above the electron mass, the in-flight spectrum integrates to the integral of the interpolated
table. -/
theorem positron_number (rows : List Row) (hrows : rows.Pairwise fun p q => p.1 < q.1)
    (me eps beta M P : ℝ) (h0 : 0 < beta) (h1 : beta < 1)
    (hM : 0 < M) (hP : P = M * lorentz beta) (hme : 0 ≤ me) (heps : 0 < eps) (hfly : eps ≤ P - M)
    (first last : Row) (hfirst : rows.head? = some first) (hlast : rows.getLast? = some last)
    (hlo : me ≤ first.1) (hle : first.1 ≤ last.1) (dnde : ℝ → ℝ)
    (hd : ∀ e, dndePositron me eps (loadPositron me rows) (.float e) P M = .scalar (dnde e)) :
    ∫ e, dnde e = ∫ e in first.1..last.1,
      linEval (rows.map (positronPoint me)) e * Real.sqrt (e ^ 2 - me ^ 2) := by
  have hde : dnde = fun e =>
      labSpectrum (tableSpectrum (loadPositron me rows) me) me beta e := by
    funext e
    have h := hd e
    rw [(positron_in_flight (loadPositron me rows) me eps beta M P h0 h1 hM hP hme heps hfly).2 e]
      at h
    injection h with h
    exact h.symm
  have hcont : Continuous fun x =>
      linEval (rows.map (positronPoint me)) x * Real.sqrt (x ^ 2 - me ^ 2) :=
    (linEval_continuous _ (loadPositron_increasing me rows hrows)).mul (by fun_prop)
  have hlo' : (loadPositron me rows).lo = first.1 := by
    show (rows.headD (0, [])).1 = _
    rw [List.headD_eq_head?_getD, hfirst]; rfl
  have hhi' : (loadPositron me rows).hi = last.1 := by
    show (rows.getLastD (0, [])).1 = _
    rw [List.getLastD_eq_getLast?, hlast]; rfl
  have hts : tableSpectrum (loadPositron me rows) me
      = (Set.Icc first.1 last.1).indicator fun x =>
        linEval (rows.map (positronPoint me)) x * Real.sqrt (x ^ 2 - me ^ 2) := by
    funext e
    unfold tableSpectrum
    rw [hlo', hhi']
    rfl
  have hint : Integrable (tableSpectrum (loadPositron me rows) me) := by
    rw [hts, integrable_indicator_iff measurableSet_Icc]
    exact hcont.continuousOn.integrableOn_Icc
  rw [hde, BoostFn.boost_conserves_number _ me beta h0 h1 hme hint.integrableOn, hts,
    setIntegral_indicator measurableSet_Icc, intervalIntegral.integral_of_le hle]
  refine (setIntegral_congr_set ?_).trans integral_Icc_eq_integral_Ioc
  have h := (Ioi_ae_eq_Ici (μ := volume) (a := me)).inter
    (Filter.EventuallyEq.refl (ae volume) (Set.Icc first.1 last.1))
  rwa [Set.inter_eq_right.mpr fun x (hx : x ∈ Set.Icc first.1 last.1) =>
    Set.mem_Ici.mpr (hlo.trans hx.1)] at h

/-- A parent of mass 4 and energy 5 moves with velocity 3/5. -/
example (s : Spline) (e : ℝ) : dndePositron 0.5 (2 ^ (-52 : ℤ)) s (.float e) 5 4
    = .scalar (labSpectrum (tableSpectrum s 0.5) 0.5 (3 / 5) e) := by
  have h : lorentz (3 / 5) = 5 / 4 := by
    unfold lorentz
    rw [show (1 - (3 / 5 : ℝ) ^ 2) = (4 / 5) ^ 2 by norm_num, Real.sqrt_sq (by norm_num)]
    norm_num
  exact (positron_in_flight s 0.5 _ (3 / 5) 4 5 (by norm_num) (by norm_num) (by norm_num)
    (by rw [h]; norm_num) (by norm_num) (by positivity) (by norm_num)).2 e

/-! ### At rest -/

/-- **C203 (true part).** For a parent at rest the positron spectrum equals the tabulated one at
every energy of the table, and between the ends of the table it is non-negative if the table is.
Missing: energies outside the table, see `rest_negative_beyond` and `rest_array_nan`. -/
theorem positron_at_rest_partial (rows : List Row) (hrows : rows.Pairwise fun p q => p.1 < q.1)
    (hlen : 2 ≤ rows.length) (me eps M P : ℝ) (hme : 0 ≤ me) (hP : M ≤ P) (hrest : P - M < eps) :
    (∀ row ∈ rows, me < row.1 →
      dndePositron me eps (loadPositron me rows) (.float row.1) P M = .scalar row.2.sum) ∧
    ((∀ row ∈ rows, 0 ≤ row.2.sum) → ∀ first last : Row, rows.head? = some first →
      rows.getLast? = some last → ∀ e, first.1 ≤ e → e ≤ last.1 → ∃ v,
        dndePositron me eps (loadPositron me rows) (.float e) P M = .scalar v ∧ 0 ≤ v) := by
  have hinc := loadPositron_increasing me rows hrows
  constructor
  · intro row hrow hlt
    unfold dndePositron
    rw [if_neg (not_lt.mpr hP)]
    simp only
    unfold positronPointwise
    rw [if_neg (by rintro (h | h) <;> linarith), if_pos hrest]
    have hk : 0 < momentum row.1 me := Boost.momentum_pos hme hlt
    have := linEval_knot _ hinc (by simpa using hlen) (positronPoint me row)
      (List.mem_map_of_mem hrow)
    show Res.scalar (linEval (rows.map (positronPoint me)) row.1 * momentum row.1 me) = _
    rw [show linEval (rows.map (positronPoint me)) row.1 = row.2.sum / momentum row.1 me from this]
    field_simp
  · intro hnn first last hfirst hlast e h1 h2
    unfold dndePositron
    rw [if_neg (not_lt.mpr hP)]
    refine ⟨_, rfl, ?_⟩
    unfold positronPointwise
    split_ifs with h3
    · exact le_rfl
    · refine mul_nonneg (linEval_nonneg _ hinc ?_ e ?_ ?_) (Real.sqrt_nonneg _)
      · intro p hp
        obtain ⟨row, hrow, rfl⟩ := List.mem_map.mp hp
        exact div_nonneg (hnn row hrow) (Real.sqrt_nonneg _)
      · intro p hp
        rw [List.head?_map, hfirst] at hp
        simp at hp
        subst hp
        exact h1
      · intro p hp
        rw [List.getLast?_map, hlast] at hp
        simp at hp
        subst hp
        exact h2

/-- **C203 (finding).** Beyond the end of the table the spectrum at rest is the straight line of
the last cell continued: for a table that ends in a zero after a positive entry it is *negative* at
every energy above the end point, although the same table gives zero there for the slightest motion
of the parent that leaves the energy out of reach. -/
theorem rest_negative_beyond (pre : List Row) (p q : Row)
    (hrows : (pre ++ [p, q]).Pairwise fun p q => p.1 < q.1) (me eps M P : ℝ) (hme : 0 ≤ me)
    (hmp : me < p.1) (hP : M ≤ P) (hrest : P - M < eps) (hp : 0 < p.2.sum) (hq : q.2.sum = 0)
    (e : ℝ) (he : q.1 < e) :
    ∃ v, dndePositron me eps (loadPositron me (pre ++ [p, q])) (.float e) P M = .scalar v ∧
      v < 0 := by
  have hpq : p.1 < q.1 := by
    have := (List.pairwise_append.mp hrows).2.1
    exact (List.pairwise_cons.mp this).1 q (by simp)
  have hinc := loadPositron_increasing me _ hrows
  unfold dndePositron
  rw [if_neg (not_lt.mpr hP)]
  refine ⟨_, rfl, ?_⟩
  unfold positronPointwise
  rw [if_neg (by rintro (h | h) <;> linarith), if_pos hrest]
  show linEval ((pre ++ [p, q]).map (positronPoint me)) e * momentum e me < 0
  rw [List.map_append] at hinc ⊢
  rw [show [p, q].map (positronPoint me) = [positronPoint me p, positronPoint me q] from rfl] at *
  rw [linEval_beyond _ _ _ hinc (show (positronPoint me p).1 < e from hpq.trans he)]
  refine mul_neg_of_neg_of_pos ?_ (Boost.momentum_pos hme (by linarith))
  have hk : 0 < momentum p.1 me := Boost.momentum_pos hme hmp
  show p.2.sum / momentum p.1 me
    + (q.2.sum / momentum q.1 me - p.2.sum / momentum p.1 me) / (q.1 - p.1) * (e - p.1) < 0
  rw [hq, zero_div]
  have hd : 0 < q.1 - p.1 := by linarith
  have hy : 0 < p.2.sum / momentum p.1 me := div_pos hp hk
  rw [show p.2.sum / momentum p.1 me
      + (0 - p.2.sum / momentum p.1 me) / (q.1 - p.1) * (e - p.1)
      = -(p.2.sum / momentum p.1 me * ((e - q.1) / (q.1 - p.1))) by field_simp; ring]
  have : 0 < (e - q.1) / (q.1 - p.1) := div_pos (by linarith) hd
  nlinarith [mul_pos hy this]

/-- The charged kaon's table is such a table: at rest, 300 MeV positrons have a negative
spectrum. -/
example (pre : List Row) (hrows : (pre ++ kaonEnd).Pairwise fun p q => p.1 < q.1) :
    ∃ v, dndePositron 0.5109989461 (2 ^ (-52 : ℤ)) (loadPositron 0.5109989461 (pre ++ kaonEnd))
      (.float 300) 493.677 493.677 = .scalar v ∧ v < 0 := by
  unfold kaonEnd at hrows ⊢
  exact rest_negative_beyond pre _ _ hrows _ _ _ _ (by norm_num) (by norm_num) le_rfl
    (by rw [sub_self]; positivity) (by norm_num) (by norm_num) 300 (by norm_num)

/-- **C203 (contrast).** In flight nothing is found beyond the boosted end of the table, whatever
the table. -/
theorem in_flight_zero_beyond (s : Spline) (me eps beta M P : ℝ) (h0 : 0 < beta) (h1 : beta < 1)
    (hM : 0 < M) (hP : P = M * lorentz beta) (hme : 0 ≤ me) (heps : 0 < eps) (hfly : eps ≤ P - M)
    (hhi : me ≤ s.hi) (e : ℝ) (he : labEnergy s.hi me beta 1 ≤ e) :
    dndePositron me eps s (.float e) P M = .scalar 0 := by
  rw [(positron_in_flight s me eps beta M P h0 h1 hM hP hme heps hfly).2 e,
    (BoostFn.boost_support (tableSpectrum s me) me beta h0 h1 hme).2 s.hi hhi ?_ e he]
  intro x hx
  unfold tableSpectrum
  exact Set.indicator_of_notMem (fun h => not_lt.mpr h.2 hx) _

/-- **C203 (finding).** Below the electron mass a single energy gives zero but an array gives NaN,
for a parent at rest; for a moving parent both give zero. -/
theorem rest_array_nan (s : Spline) (me eps M P e : ℝ) (hP : M ≤ P) (he0 : 0 ≤ e) (he : e < me) :
    dndePositron me eps s (.float e) P M = .scalar 0 ∧
      dndePositron me eps s (.array [e]) P M
        = .array [if P - M < eps then none else some 0] := by
  have hpt : positronPointwise me eps s e P M = 0 := if_pos (Or.inr he)
  unfold dndePositron
  rw [if_neg (not_lt.mpr hP)]
  simp only [hpt, true_and]
  rw [if_neg (not_lt.mpr hP)]
  unfold positronArray
  rw [if_neg (not_lt.mpr hP)]
  by_cases h : P - M < eps
  · rw [if_pos h, if_pos h]
    have hneg : e ^ 2 - me ^ 2 < 0 := by nlinarith
    have : timesSqrt (s.eval e) (e ^ 2 - me ^ 2) = none := if_pos hneg
    simp [this]
  · rw [if_neg h, if_neg h]
    simp [hpt]

/-- **C203.** A parent with less energy than its mass gives zeros, but a Python integer as the
energy of the positron is refused. -/
theorem positron_edge_cases (s : Spline) (me eps M P : ℝ) :
    (P < M → (∀ e, dndePositron me eps s (.float e) P M = .scalar 0) ∧
      ∀ es, dndePositron me eps s (.array es) P M = .array (es.map fun _ => some 0)) ∧
    (M ≤ P → ∀ e, dndePositron me eps s (.otherScalar e) P M = .assertion) := by
  refine ⟨fun h => ⟨fun e => ?_, fun es => ?_⟩, fun h e => ?_⟩ <;> unfold dndePositron
  · rw [if_pos h]; rfl
  · rw [if_pos h]; rfl
  · rw [if_neg (not_lt.mpr h)]

/-! ### Flavours -/

/-- **C204 (true part).** For an array of energies asking for one flavour gives the row of that
flavour in the table of all flavours, and for a single energy without flavour the three numbers are
those of the one-element array.  Missing: `scalar_flavour_is_array`, `unknown_flavour_zero`. -/
theorem flavour_rows_partial (se smu : Spline) (eps M P : ℝ) (es : List ℝ) :
    ∃ e mu tau, dndeNeutrino eps se smu (.array es) P M none = .rows e mu tau ∧
      dndeNeutrino eps se smu (.array es) P M (some "e") = .row e ∧
      dndeNeutrino eps se smu (.array es) P M (some "mu") = .row mu ∧
      dndeNeutrino eps se smu (.array es) P M (some "tau") = .row tau ∧
      tau = es.map (fun _ => 0) ∧
      ∀ x, es = [x] → ∃ a b, e = [a] ∧ mu = [b] ∧
        dndeNeutrino eps se smu (.float x) P M none = .flavours a b 0 := by
  refine ⟨es.map fun e => neutrinoPointwise eps se e P M,
    es.map fun e => neutrinoPointwise eps smu e P M, es.map fun _ => 0, ?_, ?_, ?_, ?_, rfl, ?_⟩
  · unfold dndeNeutrino
    simp only [reduceCtorEq, if_false, Arg.atleast1d, Arg.isScalar]
    rw [if_pos (show wants none "e" from Or.inl rfl), if_pos (show wants none "mu" from Or.inl rfl)]
    exact if_neg (by simp)
  · unfold dndeNeutrino
    simp [Arg.atleast1d]
  · unfold dndeNeutrino
    simp [Arg.atleast1d]
  · unfold dndeNeutrino
    simp [Arg.atleast1d]
  · rintro x rfl
    refine ⟨neutrinoPointwise eps se x P M, neutrinoPointwise eps smu x P M, rfl, rfl, ?_⟩
    unfold dndeNeutrino
    simp only [reduceCtorEq, if_false, Arg.atleast1d, Arg.isScalar]
    rw [if_pos (show wants none "e" from Or.inl rfl), if_pos (show wants none "mu" from Or.inl rfl)]
    exact if_pos rfl

/-- **C204 (finding).** With a flavour, a single energy does not give a number but an array of one
element, for every meson, flavour and energy. -/
theorem scalar_flavour_is_array (se smu : Spline) (eps M P e : ℝ) (flavor : String)
    (hf : flavor ∈ ["e", "mu", "tau"]) :
    ∃ v, dndeNeutrino eps se smu (.float e) P M (some flavor) = .row [v] := by
  unfold dndeNeutrino
  simp only [List.mem_cons, List.not_mem_nil, or_false] at hf
  rcases hf with rfl | rfl | rfl <;> simp [Arg.atleast1d]

/-- **C204 (finding).** A flavour that is not one of the three is not refused: all three rows are
zero. -/
theorem unknown_flavour_zero (se smu : Spline) (eps M P : ℝ) (es : List ℝ) (flavor : String)
    (hf : flavor ∉ ["", "e", "mu", "tau"]) :
    dndeNeutrino eps se smu (.array es) P M (some flavor)
      = .rows (es.map fun _ => 0) (es.map fun _ => 0) (es.map fun _ => 0) := by
  simp only [List.mem_cons, List.not_mem_nil, or_false, not_or] at hf
  obtain ⟨h0, h1, h2, h3⟩ := hf
  unfold dndeNeutrino
  simp only [Option.some.injEq, h1, h2, h3, if_false, Arg.atleast1d, Arg.isScalar]
  rw [if_neg (show ¬ wants (some flavor) "e" by simp [wants, h0, h1]),
    if_neg (show ¬ wants (some flavor) "mu" by simp [wants, h0, h2])]
  exact if_neg (by simp)

/-- The name used elsewhere in hazma's documentation for a muon neutrino, for one. -/
example (se smu : Spline) : dndeNeutrino 0 se smu (.array [10]) 600 500 (some "muon")
    = .rows [0] [0] [0] :=
  unknown_flavour_zero se smu 0 500 600 [10] "muon" (by decide)

/-! ### Charges -/

/-- The total charges (up to sign) a set of particles can have when every charged one may be
positive or negative (specification). -/
def totals : List ℕ → List ℤ
  | [] => [0]
  | c :: cs => (totals cs).flatMap fun t => [t + c, t - c]

/-- A decay mode that can conserve charge. -/
def conserves (parent : ℕ) (mode : List String) : Prop :=
  ∃ t ∈ totals (mode.map charge), t.natAbs = parent

instance (parent : ℕ) (mode : List String) : Decidable (conserves parent mode) := by
  unfold conserves; infer_instance

/-- **C205 (true part).** In every table file but the four of the ρ every column is a decay mode
that conserves the charge of the meson whose function reads it. -/
theorem columns_conserve_charge_partial :
    ∀ t ∈ tableFiles, t.name ∉ ["charged_rho_neutrino_e.csv", "charged_rho_neutrino_mu.csv",
      "neutral_rho_neutrino_e.csv", "neutral_rho_neutrino_mu.csv"] →
      ∀ mode ∈ t.modes, conserves t.parentCharge mode := by
  decide

/-- **C205 (finding).** The neutrino tables of the charged and the neutral ρ are interchanged: the
only mode of each violates charge conservation, and is one of the other meson. -/
theorem rho_tables_interchanged :
    ∀ t ∈ tableFiles, t.name ∈ ["charged_rho_neutrino_e.csv", "charged_rho_neutrino_mu.csv",
      "neutral_rho_neutrino_e.csv", "neutral_rho_neutrino_mu.csv"] →
      ∀ mode ∈ t.modes, ¬ conserves t.parentCharge mode ∧ conserves (1 - t.parentCharge) mode := by
  decide

example : conserves 1 ["pi", "pi", "pi"] ∧ ¬ conserves 1 ["pi", "pi"] := by decide

end Hazma.LeptonTables
