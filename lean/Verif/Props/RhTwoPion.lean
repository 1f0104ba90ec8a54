import Verif.Props.RhNeutrino
import Mathlib.Tactic

/-! # C128: the channels with two pions -/

namespace Hazma.RhNeutrino

open Set MeasureTheory Hazma Hazma.Kinematics

theorem beta_continuous {a b : ℝ} (ha : 0 < a) :
    ContinuousOn (fun s : ℝ => (1 - 4 * mPi ^ 2 / s) ^ (1.5 : ℝ)) (Icc a b) := by
  refine ContinuousOn.rpow_const ?_ fun s _ => Or.inr (by norm_num)
  refine continuousOn_const.sub (continuousOn_const.div continuousOn_id fun s hs => ?_)
  exact (lt_of_lt_of_le ha hs.1).ne'

theorem ff_continuous {ff : ℝ → ℂ} (hff : ContinuousOn ff (Ioi 0)) {a b : ℝ} (ha : 0 < a) :
    ContinuousOn (fun s : ℝ => ‖ff (Real.sqrt s)‖ ^ 2) (Icc a b) := by
  refine ContinuousOn.pow (ContinuousOn.norm ?_) 2
  exact hff.comp Real.continuous_sqrt.continuousOn fun s hs => Real.sqrt_pos.2 (lt_of_lt_of_le ha hs.1)

/-- The neutrino channel is open exactly above twice the pion mass. -/
theorem vpipi_pos (env : Env) (hff : ContinuousOn env.ff (Ioi 0)) (hne : ∀ q, 2 * mPi < q → env.ff q ≠ 0) (c : Core)
    (hu : c.u ≠ 0) (h : 2 * mPi < c.mx) : 0 < widthVPiPi env c := by
  have hp := mPi_pos
  have hm : 0 < c.mx := by linarith
  simp only [widthVPiPi]
  rw [if_neg (not_lt.2 h.le)]
  have hle : 4 * mPi ^ 2 < c.mx ^ 2 := by nlinarith
  have ha : 0 < 4 * mPi ^ 2 := by positivity
  have hgf : 0 < gf := by unfold gf; norm_num
  have hsw : 0 < (1 - 2 * sw2) := by unfold sw2; norm_num
  have hu2 : 0 < c.u ^ 2 := by positivity
  refine mul_pos (by positivity) (intervalIntegral.intervalIntegral_pos_of_pos_on ?_ (fun s hs => ?_) hle)
  · apply ContinuousOn.intervalIntegrable
    rw [uIcc_of_le hle.le]
    unfold integrandVPiPi
    refine ((ff_continuous hff ha).mul (beta_continuous ha)).mul ?_
    fun_prop
  · have hs0 : 0 < s := lt_trans ha hs.1
    have hb : 0 < 1 - 4 * mPi ^ 2 / s := by
      rw [sub_pos, div_lt_one hs0]; exact hs.1
    have hq : 2 * mPi < Real.sqrt s := by
      rw [Real.lt_sqrt (by positivity)]
      nlinarith [hs.1]
    have hf : 0 < ‖env.ff (Real.sqrt s)‖ := norm_pos_iff.2 (hne _ hq)
    have hz : 0 < 1 - s / c.mx ^ 2 := by
      rw [sub_pos, div_lt_one (by positivity)]; exact hs.2
    have hz0 : 0 < s / c.mx ^ 2 := by positivity
    simp only [integrandVPiPi]
    have := Real.rpow_pos_of_pos hb 1.5
    positivity

/-- The charged-lepton channel is open above the mass of the lepton and twice the charged-pion mass. -/
theorem lpipi0_pos (env : Env) (hff : ContinuousOn env.ff (Ioi 0)) (hne : ∀ q, 2 * mPi < q → env.ff q ≠ 0)
    (hud : env.vud ≠ 0) (c : Core) (hu : c.u ≠ 0) (h : lepMass c.gen + 2 * mPi < c.mx) : 0 < widthLPi0Pi env c := by
  have hp := mPi_pos
  have hl := lepMass_pos c.gen
  have hm : 0 < c.mx := by linarith
  simp only [widthLPi0Pi]
  rw [if_neg (not_lt.2 h.le)]
  have hle : 4 * mPi ^ 2 < (c.mx - lepMass c.gen) ^ 2 := by nlinarith
  have ha : 0 < 4 * mPi ^ 2 := by positivity
  have hgf : 0 < gf := by unfold gf; norm_num
  have hu2 : 0 < c.u ^ 2 := by positivity
  have hv : 0 < ‖env.vud‖ := norm_pos_iff.2 hud
  refine mul_pos (by positivity) (intervalIntegral.intervalIntegral_pos_of_pos_on ?_ (fun s hs => ?_) hle)
  · apply ContinuousOn.intervalIntegrable
    rw [uIcc_of_le hle.le]
    unfold integrandLPi0Pi
    refine ((ContinuousOn.mul ?_ (ff_continuous hff ha)).mul ?_).mul (beta_continuous ha)
    · fun_prop
    · unfold kallenLambda
      fun_prop
  · have hs0 : 0 < s := lt_trans ha hs.1
    have hb : 0 < 1 - 4 * mPi ^ 2 / s := by
      rw [sub_pos, div_lt_one hs0]; exact hs.1
    have hq : 2 * mPi < Real.sqrt s := by
      rw [Real.lt_sqrt (by positivity)]
      nlinarith [hs.1]
    have hf : 0 < ‖env.ff (Real.sqrt s)‖ := norm_pos_iff.2 (hne _ hq)
    simp only [integrandLPi0Pi]
    obtain ⟨x, hx⟩ : ∃ x, x = lepMass c.gen / c.mx := ⟨_, rfl⟩
    obtain ⟨z, hzz⟩ : ∃ z, z = Real.sqrt s / c.mx := ⟨_, rfl⟩
    have hx0 : 0 < x := by rw [hx]; positivity
    have hsq : 0 < Real.sqrt s := Real.sqrt_pos.2 hs0
    have hz0 : 0 < z := by rw [hzz]; positivity
    have hz2 : s / c.mx ^ 2 = z ^ 2 := by rw [hzz, div_pow, Real.sq_sqrt hs0.le]
    have hxz : z + x < 1 := by
      rw [hx, hzz, ← add_div, div_lt_one hm]
      have : Real.sqrt s < c.mx - lepMass c.gen := by
        rw [Real.sqrt_lt' (by linarith)]; exact hs.2
      linarith
    rw [← hx, hz2]
    have k := kallen_pos hz0 hx0 hxz
    have hpoly : 0 < (1 - x ^ 2) ^ 2 + z ^ 2 * (1 + x ^ 2) - 2 * (z ^ 2) ^ 2 := by
      have e : (1 - x ^ 2) ^ 2 + z ^ 2 * (1 + x ^ 2) - 2 * (z ^ 2) ^ 2
          = kallenLambda 1 (z ^ 2) (x ^ 2) + 3 * z ^ 2 * (1 + x ^ 2 - z ^ 2) := by unfold kallenLambda; ring
      rw [e]
      have : 0 < 1 + x ^ 2 - z ^ 2 := by nlinarith
      positivity
    have := Real.rpow_pos_of_pos hb 1.5
    have := Real.sqrt_pos.2 k
    positivity

/-- **C128, complete.** For a form factor that is continuous and does not vanish above the two-pion threshold, nonzero
mixing and CKM elements, the entries of a constructed model with positive width are exactly the final states whose
masses sum to less than the mass of the neutrino, with one exception: `ℓ π π0` is closed up to `m_ℓ + 2 m_π`. -/
theorem positive_iff_open_partial {env : Env} {mx th : ℝ} {f : String} {m : Model}
    (h : init env mx th f = some m) (hmx : 0 < mx) (hu : Real.tan (2 * th) ≠ 0)
    (hud : env.vud ≠ 0) (hus : env.vus ≠ 0) (hff : ContinuousOn env.ff (Ioi 0))
    (hne : ∀ q, 2 * mPi < q → env.ff q ≠ 0) {k : String} {a : Attrs} (ha : (k, a) ∈ m.config)
    (hopen : a.masses.sum < mx) :
    0 < a.width m.toCore ↔ ¬ (k = lepStr m.gen ++ " pi pi0" ∧ mx ≤ lepMass m.gen + 2 * mPi) := by
  obtain ⟨h1, h2, -, -, hc, -⟩ := init_spec h
  have hu' : m.toCore.u ≠ 0 := by
    unfold Core.u; rw [h2]; norm_num; exact hu
  have hget : ∀ a', (k, a') ∈ m.config → a' = a := by
    intro a' ha'
    have hn : (m.config.map Prod.fst).Nodup := by
      have := configure_keys env m.gen
      rw [hc]
      change (configure env m.gen).keys.Nodup
      rw [this]
      exact keyList_nodup _
    have := List.inj_on_of_nodup_map hn ha' ha rfl
    exact (Prod.mk.inj this).2
  have hent : ∀ e, e ∈ mesonEntries env m.gen → e ∈ m.config := by
    intro e he
    rw [hc, configure_eq, entries]
    simp [he]
  by_cases k2 : k = lepStr m.gen ++ " pi pi0"
  · have e2 : a.width = widthLPi0Pi env := by
      have := hget ⟨_, widthLPi0Pi env, _, _⟩ (hent _ (by
        rw [k2]
        simp only [mesonEntries, List.mem_cons, List.not_mem_nil, or_false]
        right; right; right; right; right; right; right; right; right; right
        rfl))
      rw [← this]
    rw [e2]
    constructor
    · rintro hw ⟨-, hle⟩
      rcases hle.lt_or_eq with hl | hl
      · have : widthLPi0Pi env m.toCore = 0 := by
          simp only [widthLPi0Pi]
          rw [if_pos (by rw [h1]; exact hl)]
        rw [this] at hw
        exact lt_irrefl _ hw
      · have : widthLPi0Pi env m.toCore = 0 := by
          simp only [widthLPi0Pi]
          have e3 : m.toCore.mx - lepMass m.gen = 2 * mPi := by rw [h1, hl]; ring
          rw [e3, show (2 * mPi) ^ 2 = 4 * mPi ^ 2 by ring, intervalIntegral.integral_same, mul_zero, ite_self]
        rw [this] at hw
        exact lt_irrefl _ hw
    · intro hn
      refine lpipi0_pos env hff hne hud m.toCore hu' ?_
      rw [h1]
      by_contra hcon
      exact hn ⟨k2, not_lt.1 hcon⟩
  · refine iff_of_true ?_ fun hc => k2 hc.1
    by_cases k1 : k = nuStr m.gen ++ " pi pi"
    · have e1 := hget ⟨_, widthVPiPi env, _, [0, mPi, mPi]⟩ (hent _ (by
        rw [k1]
        simp only [mesonEntries, List.mem_cons, List.not_mem_nil, or_false]
        right; right; right; right; right; right; right; right; right; left
        rfl))
      rw [← e1] at hopen ⊢
      refine vpipi_pos env hff hne m.toCore hu' ?_
      rw [h1]
      simp at hopen
      linarith
    · exact open_channels_positive_partial h hmx hu hud hus ha k1 k2 hopen

/-- A constant form factor and a neutrino of 400 MeV mixing with the electron. -/
example : 0 < widthVPiPi ⟨fun _ => 1, 1, 1⟩ ⟨400, Real.pi / 16, .fst⟩
    ∧ 0 < widthLPi0Pi ⟨fun _ => 1, 1, 1⟩ ⟨400, Real.pi / 16, .fst⟩ := by
  have hu : Core.u ⟨400, Real.pi / 16, .fst⟩ ≠ 0 := by
    unfold Core.u
    have : 0 < Real.tan (2 * (Real.pi / 16)) :=
      Real.tan_pos_of_pos_of_lt_pi_div_two (by positivity) (by linarith [Real.pi_pos])
    simp only
    positivity
  exact ⟨vpipi_pos _ continuousOn_const (fun _ _ => one_ne_zero) _ hu (by unfold mPi; norm_num),
    lpipi0_pos _ continuousOn_const (fun _ _ => one_ne_zero) one_ne_zero _ hu (by unfold mPi lepMass; norm_num)⟩

end Hazma.RhNeutrino
