import Verif.Model.Special
import Verif.Model.Spectra
import Verif.Lemmas.RatPoly
import Verif.Lemmas.Bessel

/-!
# Special functions (C194, C195)
-/

namespace Hazma.Special

open MeasureTheory Set Filter Topology

/-! ## C194: the dilogarithm -/

theorem polevl_A (w : ℝ) : polevl w spenceA = ev coeffsA w := by
  unfold polevl spenceA coeffsA
  simp only [List.foldl_cons, List.foldl_nil, ev]
  push_cast
  ring

theorem polevl_B (w : ℝ) : polevl w spenceB = ev coeffsB w := by
  unfold polevl spenceB coeffsB
  simp only [List.foldl_cons, List.foldl_nil, ev]
  push_cast
  ring

theorem ev_errPoly (w : ℝ) : ev errPoly w = ev coeffsA w - partialSum 56 w * ev coeffsB w := by
  unfold errPoly
  rw [ev_padd, ev_pscale, ev_pmul, ev_seriesCoeffs]
  push_cast
  ring

theorem cell_bound {c : ℚ} (hc : cellOk c = true) {w : ℝ} (hw : |w - c| ≤ 1 / 16) :
    0 < ev coeffsB w ∧ |ev coeffsA w / ev coeffsB w - partialSum 56 w| ≤ 5.5e-16 := by
  unfold cellOk at hc
  have hQ := ev_pshift (c - 1 / 16) (w - c + 1 / 16) coeffsB
  split at hc
  · exact absurd hc (by simp)
  · rename_i q qs heq
    rw [heq] at hQ
    simp only [Bool.and_eq_true, decide_eq_true_eq, List.all_eq_true] at hc
    obtain ⟨⟨hq, hqs⟩, hb⟩ := hc
    have hlow := ev_ge_head (u := w - c + 1 / 16) (by linarith [(abs_le.mp hw).1]) q qs
      (fun b hb => by simpa using hqs b hb)
    rw [hQ, show ((c - 1 / 16 : ℚ) : ℝ) + (w - c + 1 / 16) = w by push_cast; ring] at hlow
    have hq' : (0 : ℝ) < q := by exact_mod_cast hq
    have hBpos : 0 < ev coeffsB w := hq'.trans_le hlow
    have hE := abs_ev_le (r := 1 / 16) (u := w - c) (by push_cast; exact hw) (pshift c errPoly)
    rw [ev_pshift, show (c : ℝ) + (w - c) = w by ring, ev_errPoly] at hE
    obtain ⟨r, hr⟩ : ∃ r, r = pabs (1 / 16) (pshift c errPoly) := ⟨_, rfl⟩
    rw [← hr] at hb hE
    have hb' : (r : ℝ) ≤ 5.5e-16 * q := by
      have := (Rat.cast_le (K := ℝ)).mpr hb
      push_cast at this
      exact this
    refine ⟨hBpos, ?_⟩
    rw [show ev coeffsA w / ev coeffsB w - partialSum 56 w
      = (ev coeffsA w - partialSum 56 w * ev coeffsB w) / ev coeffsB w by field_simp,
      abs_div, abs_of_pos hBpos, div_le_iff₀ hBpos]
    refine hE.trans (hb'.trans ?_)
    gcongr

theorem core_bound {w : ℝ} (hw : |w| ≤ 1 / 2) :
    |ev coeffsA w / ev coeffsB w - partialSum 56 w| ≤ 5.5e-16 := by
  obtain ⟨h1, h2⟩ := abs_le.mp hw
  have key : ∀ k : ℕ, k < 8 → |w - ((-7 / 16 + (k : ℚ) / 8 : ℚ) : ℝ)| ≤ 1 / 16 →
      |ev coeffsA w / ev coeffsB w - partialSum 56 w| ≤ 5.5e-16 := fun k hk h =>
    (cell_bound (cells_ok k (List.mem_range.mpr hk)) h).2
  rcases le_total w (-3 / 8) with h | h
  · exact key 0 (by norm_num) (by push_cast; rw [abs_le]; constructor <;> linarith)
  rcases le_total w (-1 / 4) with h' | h'
  · exact key 1 (by norm_num) (by push_cast; rw [abs_le]; constructor <;> linarith)
  rcases le_total w (-1 / 8) with h | h
  · exact key 2 (by norm_num) (by push_cast; rw [abs_le]; constructor <;> linarith)
  rcases le_total w 0 with h' | h'
  · exact key 3 (by norm_num) (by push_cast; rw [abs_le]; constructor <;> linarith)
  rcases le_total w (1 / 8) with h | h
  · exact key 4 (by norm_num) (by push_cast; rw [abs_le]; constructor <;> linarith)
  rcases le_total w (1 / 4) with h' | h'
  · exact key 5 (by norm_num) (by push_cast; rw [abs_le]; constructor <;> linarith)
  rcases le_total w (3 / 8) with h | h
  · exact key 6 (by norm_num) (by push_cast; rw [abs_le]; constructor <;> linarith)
  · exact key 7 (by norm_num) (by push_cast; rw [abs_le]; constructor <;> linarith)

/-- The rational approximation on its interval. -/
theorem approximant_bound {w : ℝ} (hw : |w| ≤ 1 / 2) :
    |-w * polevl w spenceA / polevl w spenceB - dilog (1 + w)| ≤ 6e-16 * |w| := by
  have h1 := core_bound hw
  have h2 := dilog_series_bound (w := w) (by linarith) 56 (by norm_num)
  have h3 : |w| ^ 56 / (1 - |w|) ≤ 0.5e-16 := by
    have ha : |w| ^ 56 ≤ (1 / 2) ^ 56 := by gcongr
    have hb : (1 : ℝ) / 2 ≤ 1 - |w| := by linarith
    calc |w| ^ 56 / (1 - |w|) ≤ (1 / 2) ^ 56 / (1 / 2) := by gcongr
      _ ≤ 0.5e-16 := by norm_num
  rw [polevl_A, polevl_B]
  have e : -w * ev coeffsA w / ev coeffsB w - dilog (1 + w)
      = -(w * (ev coeffsA w / ev coeffsB w - partialSum 56 w))
        - (dilog (1 + w) + w * partialSum 56 w) := by ring
  rw [e]
  refine (abs_sub _ _).trans ?_
  rw [abs_neg, abs_mul]
  have h4 : |w| * |ev coeffsA w / ev coeffsB w - partialSum 56 w| ≤ |w| * 5.5e-16 := by gcongr
  have h5 : |w| ^ 56 / (1 - |w|) * |w| ≤ 0.5e-16 * |w| := by gcongr
  linarith

/-- **C194.** For every argument `x ≥ 0`, in all four branches of the code, `spence x` is
`Li₂(1 - x)` to an absolute error of `3·10⁻¹⁶` (before rounding); negative arguments give NaN. -/
theorem spence_accurate (x : ℝ) :
    (x < 0 → spence x = .nan) ∧
    (0 ≤ x → ∃ v, spence x = .num v ∧ |v - dilog x| ≤ 3e-16) := by
  constructor
  · intro h; unfold spence; rw [if_pos h]
  intro h
  unfold spence
  rw [if_neg (not_lt.mpr h)]
  by_cases h1 : x = 1
  · subst h1
    exact ⟨0, by rw [if_pos rfl], by rw [dilog_one]; norm_num⟩
  rw [if_neg h1]
  by_cases h0 : x = 0
  · subst h0
    refine ⟨_, by rw [if_pos rfl], ?_⟩
    rw [dilog_zero, show Real.pi * Real.pi / 6 - Real.pi ^ 2 / 6 = 0 by ring]
    norm_num
  rw [if_neg h0]
  have hx : 0 < x := lt_of_le_of_ne h (Ne.symm h0)
  refine ⟨_, rfl, ?_⟩
  have hhalf : (0.5 : ℝ) = 1 / 2 := by norm_num
  by_cases h2 : x > 2
  · -- both maps
    have hi : invertLarge x = (1 / x, true) := by unfold invertLarge; rw [if_pos h2]
    simp only [hi]
    obtain ⟨z, hz⟩ : ∃ z, z = 1 / x := ⟨_, rfl⟩
    have hz0 : 0 < z := by rw [hz]; positivity
    have hz2 : z < 1 / 2 := by
      rw [hz, div_lt_div_iff₀ hx (by norm_num)]; linarith
    have hxz : x = 1 / z := by rw [hz]; field_simp
    rw [← hz]
    have c1 : ¬ z > 1.5 := by norm_num; linarith
    have c2 : z < 0.5 := by rw [hhalf]; exact hz2
    simp only [if_neg c1, if_pos c2, if_true]
    have hb := approximant_bound (w := -z) (by rw [abs_neg, abs_of_pos hz0]; exact hz2.le)
    rw [abs_neg, abs_of_pos hz0, ← sub_eq_add_neg] at hb
    rw [hxz, dilog_inv (by positivity), one_div_one_div, dilog_reflect hz0 (by linarith),
      Real.log_div one_ne_zero hz0.ne', Real.log_one, hhalf]
    have e : -(1 / 2) * Real.log z * Real.log z
          + -(-Real.log z * Real.log (1 - z) + Real.pi * Real.pi / 6
            - - -z * polevl (-z) spenceA / polevl (-z) spenceB)
          - (-(1 / 2) * (0 - Real.log z) ^ 2 - (Real.pi ^ 2 / 6 - Real.log z * Real.log (1 - z)
            - dilog (1 - z)))
        = - -z * polevl (-z) spenceA / polevl (-z) spenceB - dilog (1 - z) := by ring
    rw [e]
    refine hb.trans ?_
    linarith
  · have hi : invertLarge x = (x, false) := by unfold invertLarge; rw [if_neg h2]
    simp only [hi]
    by_cases c1 : x > 1.5
    · simp only [if_pos c1, if_true]
      have hx15 : (3 : ℝ) / 2 < x := by norm_num at c1; linarith
      obtain ⟨z, hz⟩ : ∃ z, z = 1 / x := ⟨_, rfl⟩
      have hz1 : z ≤ 1 := by rw [hz, div_le_one hx]; linarith
      have hz2 : 1 / 2 ≤ z := by
        rw [hz, div_le_div_iff₀ (by norm_num) hx]; linarith [not_lt.mp h2]
      have hb := approximant_bound (w := z - 1) (by rw [abs_of_nonpos (by linarith)]; linarith)
      rw [add_sub_cancel] at hb
      have hsm : |z - 1| ≤ 1 / 2 := by rw [abs_of_nonpos (by linarith)]; linarith
      rw [dilog_inv hx, ← hz, hhalf]
      have e : -(1 / 2) * Real.log x * Real.log x
            + -(-(z - 1) * polevl (z - 1) spenceA / polevl (z - 1) spenceB)
            - (-(1 / 2) * Real.log x ^ 2 - dilog z)
          = -(-(z - 1) * polevl (z - 1) spenceA / polevl (z - 1) spenceB - dilog z) := by ring
      simp only [Bool.false_eq_true, if_false]
      rw [e, abs_neg]
      refine hb.trans ?_
      linarith
    · simp only [if_neg c1, Bool.false_eq_true, if_false]
      by_cases c2 : x < 0.5
      · simp only [if_pos c2, if_true]
        have hx2 : x < 1 / 2 := by rw [← hhalf]; exact c2
        have hb := approximant_bound (w := -x) (by rw [abs_neg, abs_of_pos hx]; exact hx2.le)
        rw [abs_neg, abs_of_pos hx, ← sub_eq_add_neg] at hb
        rw [dilog_reflect hx (by linarith)]
        have e : -Real.log x * Real.log (1 - x) + Real.pi * Real.pi / 6
              - - -x * polevl (-x) spenceA / polevl (-x) spenceB
              - (Real.pi ^ 2 / 6 - Real.log x * Real.log (1 - x) - dilog (1 - x))
            = -(- -x * polevl (-x) spenceA / polevl (-x) spenceB - dilog (1 - x)) := by ring
        rw [e, abs_neg]
        refine hb.trans ?_
        linarith
      · simp only [if_neg c2, Bool.false_eq_true, if_false]
        have hx1 : 1 / 2 ≤ x := by rw [← hhalf]; exact not_lt.mp c2
        have hx2 : x ≤ 3 / 2 := by have := not_lt.mp c1; norm_num at this; linarith
        have hsm : |x - 1| ≤ 1 / 2 := by rw [abs_le]; constructor <;> linarith
        have hb := approximant_bound hsm
        rw [add_sub_cancel] at hb
        refine hb.trans ?_
        linarith

/-- **C194.** Near its zero at 1 the function keeps its relative accuracy: the error is at most
`6·10⁻¹⁶ |x - 1|`. -/
theorem spence_accurate_near_one (x : ℝ) (h1 : 1 / 2 ≤ x) (h2 : x ≤ 3 / 2) :
    ∃ v, spence x = .num v ∧ |v - dilog x| ≤ 6e-16 * |x - 1| := by
  unfold spence
  rw [if_neg (not_lt.mpr (by linarith))]
  by_cases hx : x = 1
  · subst hx
    exact ⟨0, by rw [if_pos rfl], by rw [dilog_one]; norm_num⟩
  rw [if_neg hx, if_neg (by linarith)]
  have hi : invertLarge x = (x, false) := by
    unfold invertLarge; rw [if_neg (by linarith)]
  have c1 : ¬ x > 1.5 := by norm_num; linarith
  have c2 : ¬ x < 0.5 := by norm_num; linarith
  refine ⟨_, rfl, ?_⟩
  simp only [hi, if_neg c1, if_neg c2, Bool.false_eq_true, if_false]
  have hb := approximant_bound (w := x - 1) (by rw [abs_le]; constructor <;> linarith)
  rwa [add_sub_cancel] at hb

/-- **C194.** `dilog` is the integral which the model of the muon's photon spectrum uses, so that
spectrum's exactness (C25) carries over up to this error. -/
theorem spence_is_spectra_spence (x : ℝ) (hx : 0 ≤ x) :
    ∃ v, spence x = .num v ∧ |v - Spectra.spence x| ≤ 3e-16 :=
  (spence_accurate x).2 hx

/-- Concrete case: `Li₂(-3)`, through both maps. -/
example : ∃ v, spence 4 = .num v ∧ |v - dilog 4| ≤ 3e-16 := (spence_accurate 4).2 (by norm_num)

example : spence (-1) = .nan := (spence_accurate (-1)).1 (by norm_num)

/-! ## C195: modified Bessel functions -/

open Relic (besselK mom_bound mom_integrable)

theorem cosh_le_pow (n : ℕ) (t : ℝ) : Real.cosh (n * t) ≤ 2 ^ n * Real.cosh t ^ n := by
  rw [← mul_pow]
  have h1 : Real.exp t ≤ 2 * Real.cosh t := by
    rw [Real.cosh_eq]; have := Real.exp_pos (-t); linarith
  have h2 : Real.exp (-t) ≤ 2 * Real.cosh t := by
    rw [Real.cosh_eq]; have := Real.exp_pos t; linarith
  have h3 : Real.exp (n * t) ≤ (2 * Real.cosh t) ^ n := by
    rw [Real.exp_nat_mul]; gcongr
  have h4 : Real.exp (-(n * t)) ≤ (2 * Real.cosh t) ^ n := by
    rw [← mul_neg, Real.exp_nat_mul]; gcongr
  rw [Real.cosh_eq]
  linarith

theorem bessel_integrable (n : ℕ) {x : ℝ} (hx : 0 < x) :
    IntegrableOn (fun t => Real.exp (-(x * Real.cosh t)) * Real.cosh (n * t)) (Ioi 0) := by
  apply Integrable.mono' ((mom_integrable n hx).const_mul (2 ^ n))
  · exact Continuous.aestronglyMeasurable (by fun_prop)
  · refine ae_of_all _ fun t => ?_
    rw [Real.norm_eq_abs, abs_of_pos (mul_pos (Real.exp_pos _) (Real.cosh_pos _))]
    have := cosh_le_pow n t
    have := Real.exp_pos (-(x * Real.cosh t))
    calc Real.exp (-(x * Real.cosh t)) * Real.cosh (n * t)
        ≤ Real.exp (-(x * Real.cosh t)) * (2 ^ n * Real.cosh t ^ n) := by gcongr
      _ = _ := by ring

/-- The recurrence of the integrals. -/
theorem bessel_recurrence (m : ℕ) {x : ℝ} (hx : 0 < x) :
    besselK (m + 2) x = besselK m x + 2 * ((m : ℝ) + 1) * besselK (m + 1) x / x := by
  let F : ℝ → ℝ := fun t => Real.exp (-(x * Real.cosh t)) * Real.sinh ((m + 1 : ℕ) * t)
  let F' : ℝ → ℝ := fun t =>
    ((m : ℝ) + 1) * (Real.exp (-(x * Real.cosh t)) * Real.cosh ((m + 1 : ℕ) * t))
      - x / 2 * (Real.exp (-(x * Real.cosh t)) * Real.cosh ((m + 2 : ℕ) * t)
        - Real.exp (-(x * Real.cosh t)) * Real.cosh (m * t))
  have hF : ∀ t, HasDerivAt F (F' t) t := by
    intro t
    have hlin : HasDerivAt (fun t : ℝ => ((m + 1 : ℕ) : ℝ) * t) ((m + 1 : ℕ) : ℝ) t := by
      simpa using (hasDerivAt_id t).const_mul ((m + 1 : ℕ) : ℝ)
    have d := (((Real.hasDerivAt_cosh t).const_mul x).neg.exp).mul hlin.sinh
    refine d.congr_deriv ?_
    have hp : Real.cosh ((m + 2 : ℕ) * t) - Real.cosh (m * t)
        = 2 * (Real.sinh ((m + 1 : ℕ) * t) * Real.sinh t) := by
      rw [show ((m + 2 : ℕ) : ℝ) * t = (m + 1 : ℕ) * t + t by push_cast; ring,
        show (m : ℝ) * t = (m + 1 : ℕ) * t - t by push_cast; ring, Real.cosh_add, Real.cosh_sub]
      ring
    simp only [F', Pi.neg_apply]
    have : Real.cosh ((m + 2 : ℕ) * t) = Real.cosh (m * t)
      + 2 * (Real.sinh ((m + 1 : ℕ) * t) * Real.sinh t) := by linarith
    rw [this]
    push_cast
    ring
  have i1 := bessel_integrable (m + 1) hx
  have i2 := bessel_integrable (m + 2) hx
  have i3 := bessel_integrable m hx
  have hint : IntegrableOn F' (Ioi 0) := (i1.const_mul _).sub ((i2.sub i3).const_mul _)
  have hlim : Tendsto F atTop (𝓝 0) := by
    have hb : Tendsto (fun t : ℝ => 2 ^ (m + 1) *
        (((m + 1 + 1).factorial / x ^ (m + 1 + 1) * 2) * Real.exp (-t))) atTop (𝓝 0) := by
      have := (Real.tendsto_exp_neg_atTop_nhds_zero).const_mul
        (2 ^ (m + 1) * (((m + 1 + 1).factorial : ℝ) / x ^ (m + 1 + 1) * 2))
      rw [mul_zero] at this
      refine this.congr fun t => ?_
      ring
    refine squeeze_zero_norm (fun t => ?_) hb
    have hs : |Real.sinh ((m + 1 : ℕ) * t)| ≤ Real.cosh ((m + 1 : ℕ) * t) := by
      rw [abs_le]; constructor
      · have := Real.sinh_lt_cosh (-(((m + 1 : ℕ) : ℝ) * t))
        rw [Real.sinh_neg, Real.cosh_neg] at this
        linarith
      · exact (Real.sinh_lt_cosh _).le
    have h1 := cosh_le_pow (m + 1) t
    have h2 := mom_bound (m + 1) hx t
    simp only [F, norm_mul, Real.norm_eq_abs, Real.abs_exp]
    have he := Real.exp_pos (-(x * Real.cosh t))
    calc Real.exp (-(x * Real.cosh t)) * |Real.sinh ((m + 1 : ℕ) * t)|
        ≤ Real.exp (-(x * Real.cosh t)) * (2 ^ (m + 1) * Real.cosh t ^ (m + 1)) := by
          gcongr; exact hs.trans h1
      _ = 2 ^ (m + 1) * (Real.exp (-(x * Real.cosh t)) * Real.cosh t ^ (m + 1)) := by ring
      _ ≤ _ := by gcongr
  have h := integral_Ioi_of_hasDerivAt_of_tendsto (hF 0).continuousAt.continuousWithinAt
    (fun t _ => hF t) hint hlim
  have hF0 : F 0 = 0 := by simp [F]
  rw [hF0, sub_zero] at h
  have h3 : ∫ t in Ioi (0 : ℝ), F' t = ((m : ℝ) + 1) * besselK (m + 1) x
      - x / 2 * (besselK (m + 2) x - besselK m x) := by
    simp only [F', besselK]
    rw [integral_sub, integral_const_mul, integral_const_mul, integral_sub i2 i3]
    · exact i1.const_mul _
    · exact (i2.sub i3).const_mul _
  rw [h3] at h
  field_simp
  linarith

theorem besselLoop_spec {x : ℝ} (hx : 0 < x) : ∀ steps m : ℕ,
    besselLoop x steps (m + 1) (besselK m x) (besselK (m + 1) x) = besselK (m + 1 + steps) x
  | 0, m => rfl
  | steps + 1, m => by
    have h := bessel_recurrence m hx
    rw [besselLoop, show besselK m x + 2 * ((m + 1 : ℕ) : ℝ) * besselK (m + 1) x / x
      = besselK (m + 1 + 1) x by rw [h]; push_cast; ring, besselLoop_spec hx steps (m + 1)]
    congr 1
    ring

/-- **C195.** Given exact `K₀` and `K₁`, `bessel_kn(n, x)` is
`K_|n|(x) = ∫₀^∞ exp(-x cosh t) cosh(n t) dt` for every integer order and every positive argument; it
is infinite at zero and NaN below. -/
theorem bessel_kn_spec (k0 k1 : ℝ → ℝ) (h0 : ∀ x, 0 < x → k0 x = besselK 0 x)
    (h1 : ∀ x, 0 < x → k1 x = besselK 1 x) (n : ℤ) (x : ℝ) :
    (0 < x → besselKn k0 k1 n x
      = .num (∫ t in Ioi (0 : ℝ), Real.exp (-(x * Real.cosh t)) * Real.cosh (n * t))) ∧
    (x = 0 → besselKn k0 k1 n x = .pinf) ∧ (x < 0 → besselKn k0 k1 n x = .nan) := by
  refine ⟨fun hx => ?_, fun hx => ?_, fun hx => ?_⟩
  · have habs : ∀ t : ℝ, Real.cosh ((n : ℝ) * t) = Real.cosh ((n.natAbs : ℝ) * t) := by
      intro t
      rw [Nat.cast_natAbs, Int.cast_abs]
      rcases abs_choice (n : ℝ) with h | h
      · rw [h]
      · rw [h, neg_mul, Real.cosh_neg]
    have hK : (∫ t in Ioi (0 : ℝ), Real.exp (-(x * Real.cosh t)) * Real.cosh (n * t))
        = besselK n.natAbs x := by
      unfold besselK
      simp only [habs]
    rw [hK]
    unfold besselKn
    rw [if_neg hx.ne', if_neg (not_lt.mpr hx.le)]
    cases n.natAbs with
    | zero => rw [h0 x hx]
    | succ k =>
      cases k with
      | zero => rw [h1 x hx]
      | succ order =>
        simp only
        rw [h0 x hx, h1 x hx, besselLoop_spec hx (order + 1) 0]
        congr 2
        ring
  · subst hx; simp [besselKn]
  · unfold besselKn; rw [if_neg hx.ne, if_pos hx]

/-- **C195.** Order and sign: even in `n`, and increasing with `|n|`. -/
theorem bessel_order (n : ℤ) (m : ℕ) {x : ℝ} (hx : 0 < x) (k0 k1 : ℝ → ℝ) :
    besselKn k0 k1 (-n) x = besselKn k0 k1 n x ∧ besselK m x ≤ besselK (m + 1) x := by
  constructor
  · unfold besselKn; rw [Int.natAbs_neg]
  · unfold besselK
    apply setIntegral_mono_on (bessel_integrable m hx) (bessel_integrable (m + 1) hx)
      measurableSet_Ioi
    intro t ht
    have ht : 0 < t := ht
    gcongr
    rw [Real.cosh_le_cosh, abs_of_nonneg (by positivity), abs_of_nonneg (by positivity)]
    gcongr
    simp

/-- Concrete case: the order the thermal cross sections use. -/
example (x : ℝ) (hx : 0 < x) : besselKn (besselK 0) (besselK 1) 2 x
    = .num (besselK 0 x + 2 * besselK 1 x / x) := by
  have h := (bessel_kn_spec (besselK 0) (besselK 1) (fun _ _ => rfl) (fun _ _ => rfl) 2 x).1 hx
  have hr := bessel_recurrence 0 hx
  rw [h]
  congr 1
  have : (∫ t in Ioi (0 : ℝ), Real.exp (-(x * Real.cosh t)) * Real.cosh ((2 : ℤ) * t))
      = besselK 2 x := by
    unfold besselK; simp
  rw [this]
  simpa using hr

end Hazma.Special
