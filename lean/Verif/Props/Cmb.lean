import Verif.Model.Cmb
import Mathlib.MeasureTheory.Integral.IntervalIntegral.FundThmCalculus
import Mathlib.Tactic

/-!
# CMB limits

C55, C118 and C119.
-/

namespace Hazma.Cmb

open Hazma MeasureTheory

/-- The sum of the line terms, written without the loop. -/
noncomputable def lineTotal (t : Table) (fs : String) (ecm : ℝ) (l : Dict (ℝ × ℝ)) : ℝ :=
  (l.map fun p => if t.lo < p.2.1 then p.2.1 * p.2.2 * t.f p.2.1 * (if p.1 = fs then 2 else 1) / ecm else 0).sum

theorem lineLoop_eq (t : Table) (fs : String) (ecm : ℝ) (l : Dict (ℝ × ℝ)) (h : ∀ p ∈ l, p.2.1 ≤ t.hi) :
    ∀ acc, lineLoop t fs ecm acc l = .ok (acc + lineTotal t fs ecm l) := by
  induction l with
  | nil => intro acc; simp [lineLoop, lineTotal]
  | cons p l ih =>
    obtain ⟨ch, e, bf⟩ := p
    intro acc
    have he : e ≤ t.hi := h (ch, e, bf) (by simp)
    have ih' := ih fun p hp => h p (by simp [hp])
    by_cases hlo : t.lo < e
    · simp only [lineLoop, if_pos hlo, Table.eval, if_pos (And.intro hlo.le he), ih', lineTotal, List.map_cons,
        List.sum_cons]
      congr 1
      ring
    · simp only [lineLoop, if_neg hlo, ih', lineTotal, List.map_cons, List.sum_cons, zero_add]

theorem lineLoop_range (t : Table) (fs : String) (ecm : ℝ) (l : Dict (ℝ × ℝ)) (hlh : t.lo ≤ t.hi)
    (h : ∃ p ∈ l, t.hi < p.2.1) : ∀ acc, lineLoop t fs ecm acc l = .error .range := by
  induction l with
  | nil => obtain ⟨p, hp, -⟩ := h; simp at hp
  | cons p l ih =>
    obtain ⟨ch, e, bf⟩ := p
    intro acc
    by_cases he : t.hi < e
    · have h1 : t.lo < e := lt_of_le_of_lt hlh he
      simp only [lineLoop, if_pos h1, Table.eval, if_neg (fun h : t.lo ≤ e ∧ e ≤ t.hi => absurd h.2 (not_le.mpr he))]
    · have hex : ∃ p ∈ l, t.hi < p.2.1 := by
        obtain ⟨q, hq, hq'⟩ := h
        simp only [List.mem_cons] at hq
        rcases hq with rfl | hq
        · exact absurd hq' he
        · exact ⟨q, hq, hq'⟩
      by_cases h1 : t.lo < e
      · simp only [lineLoop, if_pos h1, Table.eval, if_pos (And.intro h1.le (not_lt.mp he)), ih hex]
      · simp only [lineLoop, if_neg h1, ih hex]

/-- The spectrum and lines one final state contributes. -/
noncomputable def specOf (m : Model) (fs : String) (ecm e : ℝ) : ℝ :=
  if fs = "g g" then m.spectrum e ecm else 2 * m.positronSpectrum e ecm
noncomputable def linesOf (m : Model) (fs : String) (ecm : ℝ) : Dict (ℝ × ℝ) :=
  if fs = "g g" then m.gammaLines ecm else m.positronLines ecm
noncomputable def tableOf (g ep : Table) (fs : String) : Table := if fs = "g g" then g else ep

theorem helper_eq (g ep : Table) (m : Model) (fs : String) (hfs : fs = "g g" ∨ fs = "e e") (ecm : ℝ)
    (h1 : (tableOf g ep fs).lo ≤ ecm / 2) (h2 : ecm / 2 ≤ (tableOf g ep fs).hi)
    (h3 : ∀ p ∈ linesOf m fs ecm, p.2.1 ≤ (tableOf g ep fs).hi) :
    helper g ep m fs ecm = .ok ((∫ e in (tableOf g ep fs).lo..ecm / 2,
        e * specOf m fs ecm e * (tableOf g ep fs).f e) / ecm
      + lineTotal (tableOf g ep fs) fs ecm (linesOf m fs ecm)) := by
  rcases hfs with rfl | rfl
  · simp only [tableOf, linesOf, specOf, if_true] at *
    simp only [helper, if_true, continuum, if_pos (And.intro h1 h2), lineLoop_eq g "g g" ecm _ h3, bind,
      Except.bind, pure, Except.pure, zero_add]
  · have hne : ("e e" : String) ≠ "g g" := by decide
    simp only [tableOf, linesOf, specOf, if_neg hne] at *
    simp only [helper, if_neg hne, if_true, continuum, if_pos (And.intro h1 h2),
      lineLoop_eq ep "e e" ecm _ h3, bind, Except.bind, pure, Except.pure, zero_add]

/-- The fraction of the centre-of-mass energy a theory puts into photons, or into electrons and positrons, above
the lowest energy of the table: continuum plus lines, a line of the pair channel itself counting both
particles. -/
noncomputable def energyFraction (t : Table) (m : Model) (fs : String) (ecm : ℝ) : ℝ :=
  (∫ e in t.lo..ecm / 2, e * specOf m fs ecm e) / ecm
    + ((linesOf m fs ecm).map fun p =>
        if t.lo < p.2.1 then (if p.1 = fs then 2 else 1) * p.2.2 * (p.2.1 / ecm) else 0).sum

/-- C55: the deposited fraction lies between the smallest and the largest tabulated efficiency times the energy
fraction carried by the particles, whatever the spectra and the lines. -/
theorem deposition_bounds (g ep : Table) (m : Model) (fs : String) (hfs : fs = "g g" ∨ fs = "e e") (ecm : ℝ)
    (hecm : 0 < ecm) (h1 : (tableOf g ep fs).lo ≤ ecm / 2) (h2 : ecm / 2 ≤ (tableOf g ep fs).hi)
    (h3 : ∀ p ∈ linesOf m fs ecm, p.2.1 ≤ (tableOf g ep fs).hi) (h0 : 0 ≤ (tableOf g ep fs).lo)
    (hspec : ∀ e, 0 ≤ specOf m fs ecm e) (hbf : ∀ p ∈ linesOf m fs ecm, 0 ≤ p.2.2)
    (a b : ℝ) (hab : ∀ e, (tableOf g ep fs).lo ≤ e → e ≤ (tableOf g ep fs).hi →
      a ≤ (tableOf g ep fs).f e ∧ (tableOf g ep fs).f e ≤ b)
    (hi1 : IntervalIntegrable (fun e => e * specOf m fs ecm e) volume (tableOf g ep fs).lo (ecm / 2))
    (hi2 : IntervalIntegrable (fun e => e * specOf m fs ecm e * (tableOf g ep fs).f e) volume
      (tableOf g ep fs).lo (ecm / 2)) :
    ∃ v, helper g ep m fs ecm = .ok v ∧ a * energyFraction (tableOf g ep fs) m fs ecm ≤ v
      ∧ v ≤ b * energyFraction (tableOf g ep fs) m fs ecm := by
  refine ⟨_, helper_eq g ep m fs hfs ecm h1 h2 h3, ?_⟩
  generalize tableOf g ep fs = t at *
  have hint : ∀ k, (∀ e ∈ Set.Icc t.lo (ecm / 2), k * (e * specOf m fs ecm e) ≤ e * specOf m fs ecm e * t.f e) →
      k * ∫ e in t.lo..ecm / 2, e * specOf m fs ecm e ≤ ∫ e in t.lo..ecm / 2, e * specOf m fs ecm e * t.f e := by
    intro k hk
    rw [← intervalIntegral.integral_const_mul]
    exact intervalIntegral.integral_mono_on h1 (hi1.const_mul k) hi2 hk
  have hint' : ∀ k, (∀ e ∈ Set.Icc t.lo (ecm / 2), e * specOf m fs ecm e * t.f e ≤ k * (e * specOf m fs ecm e)) →
      ∫ e in t.lo..ecm / 2, e * specOf m fs ecm e * t.f e ≤ k * ∫ e in t.lo..ecm / 2, e * specOf m fs ecm e := by
    intro k hk
    rw [← intervalIntegral.integral_const_mul]
    exact intervalIntegral.integral_mono_on h1 hi2 (hi1.const_mul k) hk
  have hI1 := hint a (by
    intro e he
    have hn : 0 ≤ e * specOf m fs ecm e := mul_nonneg (h0.trans he.1) (hspec e)
    have := (hab e he.1 (he.2.trans h2)).1
    nlinarith)
  have hI2 := hint' b (by
    intro e he
    have hn : 0 ≤ e * specOf m fs ecm e := mul_nonneg (h0.trans he.1) (hspec e)
    have := (hab e he.1 (he.2.trans h2)).2
    nlinarith)
  have hL : a * ((linesOf m fs ecm).map fun p =>
        if t.lo < p.2.1 then (if p.1 = fs then 2 else 1) * p.2.2 * (p.2.1 / ecm) else 0).sum
      ≤ lineTotal t fs ecm (linesOf m fs ecm)
      ∧ lineTotal t fs ecm (linesOf m fs ecm) ≤ b * ((linesOf m fs ecm).map fun p =>
        if t.lo < p.2.1 then (if p.1 = fs then 2 else 1) * p.2.2 * (p.2.1 / ecm) else 0).sum := by
    generalize linesOf m fs ecm = l at h3 hbf ⊢
    unfold lineTotal
    induction l with
    | nil => simp
    | cons p l ih =>
      have ih' := ih (fun q hq => h3 q (by simp [hq])) (fun q hq => hbf q (by simp [hq]))
      simp only [List.map_cons, List.sum_cons, mul_add]
      have hp3 := h3 p (by simp)
      have hpb := hbf p (by simp)
      have key : a * (if t.lo < p.2.1 then (if p.1 = fs then 2 else 1) * p.2.2 * (p.2.1 / ecm) else 0)
          ≤ (if t.lo < p.2.1 then p.2.1 * p.2.2 * t.f p.2.1 * (if p.1 = fs then 2 else 1) / ecm else 0)
        ∧ (if t.lo < p.2.1 then p.2.1 * p.2.2 * t.f p.2.1 * (if p.1 = fs then 2 else 1) / ecm else 0)
          ≤ b * (if t.lo < p.2.1 then (if p.1 = fs then 2 else 1) * p.2.2 * (p.2.1 / ecm) else 0) := by
        by_cases hlo : t.lo < p.2.1
        · simp only [if_pos hlo]
          have hf := hab p.2.1 hlo.le hp3
          have hk : ∃ k : ℝ, 0 ≤ k ∧ k = (if p.1 = fs then (2 : ℝ) else 1) * p.2.2 * (p.2.1 / ecm) := by
            refine ⟨_, ?_, rfl⟩
            have : 0 ≤ p.2.1 := h0.trans hlo.le
            split <;> positivity
          obtain ⟨k, hk0, hk⟩ := hk
          have e : p.2.1 * p.2.2 * t.f p.2.1 * (if p.1 = fs then (2 : ℝ) else 1) / ecm = k * t.f p.2.1 := by
            rw [hk]; ring
          rw [e, ← hk]
          constructor <;> nlinarith
        · simp [if_neg hlo]
      exact ⟨by linarith [key.1, ih'.1], by linarith [key.2, ih'.2]⟩
  unfold energyFraction
  have hd : ∀ x y : ℝ, x ≤ y → x / ecm ≤ y / ecm := fun x y h => div_le_div_of_nonneg_right h hecm.le
  have d1 := hd _ _ hI1
  have d2 := hd _ _ hI2
  rw [mul_div_assoc] at d1 d2
  constructor
  · rw [mul_add]; linarith [hL.1]
  · rw [mul_add]; linarith [hL.2]

/-- C55: a theory that only annihilates to a pair of photons (or of electron and positron), each with half of the
centre-of-mass energy, deposits exactly the tabulated efficiency at that energy. -/
theorem pair_line (g ep : Table) (m : Model) (fs : String) (hfs : fs = "g g" ∨ fs = "e e") (ecm : ℝ)
    (hecm : 0 < ecm) (h1 : (tableOf g ep fs).lo < ecm / 2) (h2 : ecm / 2 ≤ (tableOf g ep fs).hi)
    (hspec : ∀ e, specOf m fs ecm e = 0) (hl : linesOf m fs ecm = [(fs, ecm / 2, 1)]) :
    helper g ep m fs ecm = .ok ((tableOf g ep fs).f (ecm / 2)) := by
  rw [helper_eq g ep m fs hfs ecm h1.le h2 (by rw [hl]; simpa using h2)]
  congr 1
  simp only [hspec, mul_zero, zero_mul, intervalIntegral.integral_zero, zero_div, zero_add, hl, lineTotal,
    List.map_cons, List.map_nil, List.sum_cons, List.sum_nil, if_pos h1, add_zero, if_true]
  field_simp

/-- C55: a line of another channel, such as a photon recoiling against a pion, counts one particle. -/
theorem single_line (g ep : Table) (m : Model) (fs ch : String) (hfs : fs = "g g" ∨ fs = "e e") (hch : ch ≠ fs)
    (ecm e bf : ℝ) (h1 : (tableOf g ep fs).lo ≤ ecm / 2) (h2 : ecm / 2 ≤ (tableOf g ep fs).hi)
    (he : (tableOf g ep fs).lo < e) (he2 : e ≤ (tableOf g ep fs).hi)
    (hspec : ∀ e, specOf m fs ecm e = 0) (hl : linesOf m fs ecm = [(ch, e, bf)]) :
    helper g ep m fs ecm = .ok (bf * (e / ecm) * (tableOf g ep fs).f e) := by
  rw [helper_eq g ep m fs hfs ecm h1 h2 (by rw [hl]; simpa using he2)]
  congr 1
  simp only [hspec, mul_zero, zero_mul, intervalIntegral.integral_zero, zero_div, zero_add, hl, lineTotal,
    List.map_cons, List.map_nil, List.sum_cons, List.sum_nil, if_pos he, add_zero, if_neg hch, mul_one]
  ring

/-- C55: `f_eff` counts electrons, positrons and photons: it lies between the smallest and the largest efficiency
of the two tables times the energy fraction carried by all of them. -/
theorem total_deposition_bounds (g ep : Table) (m : Model) (xkd a b : ℝ) (hecm : 0 < ecmTheory m.mx xkd)
    (h1 : ∀ fs ∈ ["g g", "e e"], (tableOf g ep fs).lo ≤ ecmTheory m.mx xkd / 2)
    (h2 : ∀ fs ∈ ["g g", "e e"], ecmTheory m.mx xkd / 2 ≤ (tableOf g ep fs).hi)
    (h3 : ∀ fs ∈ ["g g", "e e"], ∀ p ∈ linesOf m fs (ecmTheory m.mx xkd), p.2.1 ≤ (tableOf g ep fs).hi)
    (h0 : ∀ fs ∈ ["g g", "e e"], 0 ≤ (tableOf g ep fs).lo)
    (hspec : ∀ fs ∈ ["g g", "e e"], ∀ e, 0 ≤ specOf m fs (ecmTheory m.mx xkd) e)
    (hbf : ∀ fs ∈ ["g g", "e e"], ∀ p ∈ linesOf m fs (ecmTheory m.mx xkd), 0 ≤ p.2.2)
    (hab : ∀ fs ∈ ["g g", "e e"], ∀ e, (tableOf g ep fs).lo ≤ e → e ≤ (tableOf g ep fs).hi →
      a ≤ (tableOf g ep fs).f e ∧ (tableOf g ep fs).f e ≤ b)
    (hi1 : ∀ fs ∈ ["g g", "e e"], IntervalIntegrable (fun e => e * specOf m fs (ecmTheory m.mx xkd) e) volume
      (tableOf g ep fs).lo (ecmTheory m.mx xkd / 2))
    (hi2 : ∀ fs ∈ ["g g", "e e"], IntervalIntegrable
      (fun e => e * specOf m fs (ecmTheory m.mx xkd) e * (tableOf g ep fs).f e) volume
      (tableOf g ep fs).lo (ecmTheory m.mx xkd / 2)) :
    ∃ v, fEff g ep m xkd = .ok v
      ∧ a * (energyFraction g m "g g" (ecmTheory m.mx xkd) + energyFraction ep m "e e" (ecmTheory m.mx xkd)) ≤ v
      ∧ v ≤ b * (energyFraction g m "g g" (ecmTheory m.mx xkd)
        + energyFraction ep m "e e" (ecmTheory m.mx xkd)) := by
  have hne : ("e e" : String) ≠ "g g" := by decide
  have tg : tableOf g ep "g g" = g := by simp [tableOf]
  have te : tableOf g ep "e e" = ep := by simp [tableOf]
  have mg : "g g" ∈ ["g g", "e e"] := by simp
  have me : "e e" ∈ ["g g", "e e"] := by simp
  obtain ⟨x, x1, x2, x3⟩ := deposition_bounds g ep m "g g" (Or.inl rfl) _ hecm (h1 _ mg) (h2 _ mg) (h3 _ mg)
    (h0 _ mg) (hspec _ mg) (hbf _ mg) a b (hab _ mg) (hi1 _ mg) (hi2 _ mg)
  obtain ⟨y, y1, y2, y3⟩ := deposition_bounds g ep m "e e" (Or.inr rfl) _ hecm (h1 _ me) (h2 _ me) (h3 _ me)
    (h0 _ me) (hspec _ me) (hbf _ me) a b (hab _ me) (hi1 _ me) (hi2 _ me)
  rw [tg] at x2 x3
  rw [te] at y2 y3
  refine ⟨y + x, ?_, by linarith, by linarith⟩
  simp only [fEff, fEffEp, fEffG, x1, y1, bind, Except.bind, pure, Except.pure]

/-- C55: a total cross section is allowed, `f_eff <sigma v> / mx < p_ann`, exactly when it is below the returned
limit; the limit is positive; and of two theories with the same mass the one depositing more has the smaller
limit. -/
theorem cmb_limit_meaning (g ep : Table) (m : Model) (xkd pann f : ℝ) (hm : 0 < m.mx) (hp : 0 < pann)
    (hf : fEff g ep m xkd = .ok f) (hf0 : 0 < f) :
    ∃ v : ℝ, cmbLimit g ep m xkd pann = .ok (v : WithTop ℝ) ∧ 0 < v
      ∧ (∀ sv, f * sv / m.mx < pann ↔ sv < v)
      ∧ ∀ (m' : Model) (f' : ℝ), m'.mx = m.mx → fEff g ep m' xkd = .ok f' → f < f' →
          ∃ v' : ℝ, cmbLimit g ep m' xkd pann = .ok (v' : WithTop ℝ) ∧ v' < v := by
  refine ⟨pann * m.mx / f, ?_, by positivity, fun sv => ?_, fun m' f' hmx hf' hlt => ?_⟩
  · simp [cmbLimit, hf, hf0.ne', bind, Except.bind, pure, Except.pure]
  · rw [div_lt_iff₀ hm, lt_div_iff₀ hf0, mul_comm]
  · have h' : 0 < f' := hf0.trans hlt
    refine ⟨pann * m.mx / f', ?_, ?_⟩
    · simp [cmbLimit, hf', h'.ne', hmx, bind, Except.bind, pure, Except.pure]
    · exact div_lt_div_of_pos_left (by positivity) hf0 hlt

/-- C55: a theory without visible particles is not constrained. -/
theorem invisible_unconstrained (g ep : Table) (m : Model) (xkd pann : ℝ) (hf : fEff g ep m xkd = .ok 0) :
    cmbLimit g ep m xkd pann = .ok ⊤ := by
  simp [cmbLimit, hf, bind, Except.bind, pure, Except.pure]

/-- C118: the deposited fraction of a theory whose spectrum and lines are the average of those of its channels is
the average of the channels' deposited fractions. -/
theorem deposition_average {ι : Type} (s : Finset ι) (w : ι → ℝ) (ms : ι → Model) (g ep : Table) (m : Model)
    (fs : String) (hfs : fs = "g g" ∨ fs = "e e") (ecm : ℝ)
    (h1 : (tableOf g ep fs).lo ≤ ecm / 2) (h2 : ecm / 2 ≤ (tableOf g ep fs).hi)
    (h3 : ∀ p ∈ linesOf m fs ecm, p.2.1 ≤ (tableOf g ep fs).hi)
    (h3' : ∀ i ∈ s, ∀ p ∈ linesOf (ms i) fs ecm, p.2.1 ≤ (tableOf g ep fs).hi)
    (hspec : ∀ e, specOf m fs ecm e = ∑ i ∈ s, w i * specOf (ms i) fs ecm e)
    (hint : ∀ i ∈ s, IntervalIntegrable (fun e => e * specOf (ms i) fs ecm e * (tableOf g ep fs).f e) volume
      (tableOf g ep fs).lo (ecm / 2))
    (hlines : ∀ F : String → ℝ → ℝ, ((linesOf m fs ecm).map fun p => p.2.2 * F p.1 p.2.1).sum
      = ∑ i ∈ s, w i * ((linesOf (ms i) fs ecm).map fun p => p.2.2 * F p.1 p.2.1).sum) :
    ∃ v, ∃ vs : ι → ℝ, helper g ep m fs ecm = .ok v ∧ (∀ i ∈ s, helper g ep (ms i) fs ecm = .ok (vs i))
      ∧ v = ∑ i ∈ s, w i * vs i := by
  refine ⟨_, _, helper_eq g ep m fs hfs ecm h1 h2 h3,
    fun i hi => helper_eq g ep (ms i) fs hfs ecm h1 h2 (h3' i hi), ?_⟩
  generalize tableOf g ep fs = t at *
  have hL : ∀ l : Dict (ℝ × ℝ), lineTotal t fs ecm l = (l.map fun p => p.2.2 *
      (if t.lo < p.2.1 then p.2.1 * t.f p.2.1 * (if p.1 = fs then 2 else 1) / ecm else 0)).sum := by
    intro l
    unfold lineTotal
    congr 1
    apply List.map_congr_left
    intro p _
    split <;> ring
  have hS : ∫ e in t.lo..ecm / 2, e * specOf m fs ecm e * t.f e
      = ∑ i ∈ s, w i * ∫ e in t.lo..ecm / 2, e * specOf (ms i) fs ecm e * t.f e := by
    have e1 : (fun e => e * specOf m fs ecm e * t.f e)
        = fun e => ∑ i ∈ s, w i * (e * specOf (ms i) fs ecm e * t.f e) := by
      funext e
      rw [hspec, Finset.mul_sum, Finset.sum_mul]
      exact Finset.sum_congr rfl fun i _ => by ring
    rw [e1, intervalIntegral.integral_finsetSum fun i hi => (hint i hi).const_mul (w i)]
    exact Finset.sum_congr rfl fun i _ => intervalIntegral.integral_const_mul _ _
  rw [hS, hL, hlines fun ch e => if t.lo < e then e * t.f e * (if ch = fs then 2 else 1) / ecm else 0,
    Finset.sum_div, ← Finset.sum_add_distrib]
  exact Finset.sum_congr rfl fun i _ => by rw [hL]; ring

/-- C119 (violated): `CMBLimit.constrain` raises `AttributeError` for every non-empty list of models, whatever
the models, where `cmb_limit` gives a limit. -/
theorem cmb_limit_class_raises (g ep : Table) (xkd pann : ℝ) (m : Model) (ms : List Model) :
    limitConstrainAll g ep xkd pann (m :: ms) = .error .attribute := by
  simp [limitConstrainAll, limitConstrain, limitFEff, limitHelper, bind, Except.bind]

/-- C119 (violated): even with the model passed on, the class would use another centre-of-mass energy: it squares
the velocity twice.  The two agree only for `v = 0` and `v = 1`. -/
theorem cmb_limit_class_energy (mx xkd : ℝ) (hm : 0 < mx) (hx : 0 < xkd) :
    (ecmLimit mx xkd = ecmTheory mx xkd ↔ vxCmb mx xkd = 1)
      ∧ (vxCmb mx xkd < 1 → ecmLimit mx xkd < ecmTheory mx xkd) := by
  have hs : 0 < Real.sqrt (1.0e-4 / xkd) := Real.sqrt_pos.mpr (by positivity)
  have hv : 0 < vxCmb mx xkd := by unfold vxCmb tempCmb; positivity
  unfold ecmLimit ecmTheory
  generalize vxCmb mx xkd = v at *
  simp only
  constructor
  · constructor
    · intro h
      have h' : mx * (v ^ 2 * ((v - 1) * (v + 1))) = 0 := by linear_combination h
      have : v ^ 2 * ((v - 1) * (v + 1)) = 0 := by
        rcases mul_eq_zero.mp h' with h | h
        · linarith
        · exact h
      rcases mul_eq_zero.mp this with h | h
      · exact absurd h (by positivity)
      · rcases mul_eq_zero.mp h with h | h <;> linarith
    · intro h; rw [h]; norm_num
  · intro h
    have : v ^ 2 * (1 - v ^ 2) > 0 := by
      have : 0 < 1 - v ^ 2 := by nlinarith
      positivity
    nlinarith

/-- C119 (the part that holds): given the model, the class computes the same deposited fractions as the theory
methods at its own centre-of-mass energy. -/
theorem cmb_limit_class_partial (g ep : Table) (xkd : ℝ) (m : Model) (fs : String)
    (h : vxCmb m.mx xkd = 1 ∨ vxCmb m.mx xkd = 0) :
    limitHelper g ep xkd fs (.theory m) = helper g ep m fs (ecmTheory m.mx xkd) := by
  have : ecmLimit m.mx xkd = ecmTheory m.mx xkd := by
    unfold ecmLimit ecmTheory
    rcases h with h | h <;> rw [h] <;> norm_num
  simp only [limitHelper, this]

/-- C55: the default velocity is tiny but not negligible for light dark matter: it is inversely proportional to
the mass and to the root of the decoupling temperature. -/
theorem vx_scaling (mx xkd k : ℝ) (hk : 0 < k) :
    vxCmb (k * mx) xkd = vxCmb mx xkd / k ∧ vxCmb mx (k ^ 2 * xkd) = vxCmb mx xkd / k := by
  unfold vxCmb
  constructor
  · field_simp
  · rw [show (1.0e-4 : ℝ) / (k ^ 2 * xkd) = (1.0e-4 / xkd) / k ^ 2 by field_simp,
      Real.sqrt_div' _ (by positivity), Real.sqrt_sq hk.le]
    ring

/-! ## Examples -/

/-- A table with constant efficiency one half between 0.005 and 1000 MeV. -/
noncomputable def halfTable : Table := ⟨0.005, 1000, fun _ => 1 / 2⟩

/-- Dark matter annihilating to two photons, efficiency one half: at a given energy the photons deposit one
half. -/
example : helper halfTable halfTable
    ⟨100, fun ecm => [("g g", ecm / 2, 1)], fun _ => [], fun _ _ => 0, fun _ _ => 0⟩ "g g" 200 = .ok (1 / 2) :=
  pair_line halfTable halfTable _ "g g" (Or.inl rfl) 200 (by norm_num)
    (by norm_num [tableOf, halfTable]) (by norm_num [tableOf, halfTable]) (by simp [specOf]) (by simp [linesOf])

/-- A photon recoiling against a pion with 80 of 200 MeV deposits 1/2 * 80/200. -/
example : helper halfTable halfTable
    ⟨100, fun _ => [("pi0 g", 80, 1)], fun _ => [], fun _ _ => 0, fun _ _ => 0⟩ "g g" 200 = .ok (1 / 5) := by
  rw [single_line halfTable halfTable _ "g g" "pi0 g" (Or.inl rfl) (by decide) 200 80 1
    (by norm_num [tableOf, halfTable]) (by norm_num [tableOf, halfTable]) (by norm_num [tableOf, halfTable])
    (by norm_num [tableOf, halfTable]) (by simp [specOf]) (by simp [linesOf])]
  norm_num [tableOf, halfTable]

/-- For 10 MeV dark matter the velocity is below one, so the class and the method disagree. -/
example : vxCmb 10 1e-4 < 1 := by
  unfold vxCmb tempCmb
  norm_num

end Hazma.Cmb
