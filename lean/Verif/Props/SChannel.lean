import Verif.Props.CrossSections

/-! # s-channel cross sections: factorisation through the widths, signs, constants, units -/

namespace Hazma.Xs

open Hazma
open Hazma.ScalarModel (rpow32_nonneg)

/-! ### Factorisation -/

/-- The production factor of an off-shell scalar: everything in `σ(x x → S* → f)` except the decay
`S* → f`. -/
noncomputable def scalarProduction (s : ScalarModel.Base) (e : ℝ) : ℝ :=
  s.gsxx ^ 2 * Real.sqrt (e ^ 2 - 4 * s.mx ^ 2) / (2 * ((e ^ 2 - s.ms ^ 2) ^ 2 + s.ms ^ 2 * s.width ^ 2))

/-- The production factor of an off-shell vector. -/
noncomputable def vectorProduction (s : VectorModel.Base) (e : ℝ) : ℝ :=
  s.gvxx ^ 2 * (e ^ 2 + 2 * s.mx ^ 2)
    / (Real.sqrt (e ^ 2 - 4 * s.mx ^ 2) * ((e ^ 2 - s.mv ^ 2) ^ 2 + s.mv ^ 2 * s.width ^ 2))

theorem prop_comm (m e w : ℝ) : (e ^ 2 - m ^ 2) ^ 2 + m ^ 2 * w ^ 2 = propagator m e w := by
  unfold propagator; ring

theorem rpow32_zero : (0 : ℝ) ^ (3 / 2 : ℝ) = 0 := Real.zero_rpow (by norm_num)

/-- Leptons: `σ(x x → S* → f f)` is the production factor times the width of a mediator of mass
`e`, as computed by `width_s_to_ff`. -/
theorem scalar_ff_factorises (c k : ScalarModel.Consts) (s : ScalarModel.Base) (e mf : ℝ) (f : String)
    (hf : f = "e" ∧ mf = c.me ∨ f = "mu" ∧ mf = c.mmu) (hm : 0 < mf) (hvh : k.vh = c.vh)
    (hv0 : c.vh ≠ 0) (he : 0 < e) (hx : 2 * s.mx ≤ e) (hp : 0 < propagator s.ms e s.width) :
    ∃ w, ScalarModel.widthFF c { s with ms := e } f = .ok w ∧ 0 ≤ w ∧ (e ≤ 2 * mf → w = 0)
      ∧ sigmaScalarFF c k s e f = .ok (scalarProduction s e * w) := by
  obtain ⟨w, hw, hw0, hwt, -, hwf⟩ := ScalarModel.widthFF_spec c { s with ms := e } f mf hv0 hf hm
  simp only at hwt hwf
  refine ⟨w, hw, hw0, hwt, ?_⟩
  have hpi := Real.pi_pos
  have h1 : f = "e" ∨ f = "mu" := by rcases hf with h | h <;> simp [h.1]
  have h2 : (if f = "e" then c.me else c.mmu) = mf := by
    rcases hf with ⟨rfl, rfl⟩ | ⟨rfl, rfl⟩
    · simp
    · rw [if_neg (by decide)]
  unfold sigmaScalarFF scalarFF scalarProduction
  rw [if_pos h1, h2, prop_comm]
  by_cases hlt : e < 2 * mf
  · rw [if_pos (Or.inl hlt), hwt hlt.le, mul_zero]
  · rw [if_neg (by push Not; exact ⟨not_lt.mp hlt, hx⟩), quotient_ok (by rw [hvh]; positivity)]
    rcases (not_lt.mp hlt).eq_or_lt with h | h
    · rw [hwt h.symm.le, ← h]
      rw [show -4 * mf ^ 2 + (2 * mf) ^ 2 = 0 by ring, rpow32_zero]
      simp
    · rw [hwf h, hvh, show -4 * mf ^ 2 + e ^ 2 = e ^ 2 - 4 * mf ^ 2 by ring,
        show -4 * s.mx ^ 2 + e ^ 2 = e ^ 2 - 4 * s.mx ^ 2 by ring]
      congr 1
      generalize (e ^ 2 - 4 * mf ^ 2) ^ (3 / 2 : ℝ) = A
      generalize Real.sqrt (e ^ 2 - 4 * s.mx ^ 2) = B
      generalize propagator s.ms e s.width = P at hp ⊢
      field_simp
      ring

/-- Photons: the same. -/
theorem scalar_gg_factorises (c k : ScalarModel.Consts) (s : ScalarModel.Base) (e : ℝ)
    (ha : k.alpha = c.alpha) (hl : s.lam ≠ 0) (he : 0 < e) (hx : 2 * s.mx ≤ e)
    (hp : 0 < propagator s.ms e s.width) :
    ∃ w, ScalarModel.widthGG c { s with ms := e } = .ok w ∧ 0 ≤ w
      ∧ scalarGG k s e = scalarProduction s e * w := by
  have hpi := Real.pi_pos
  refine ⟨c.alpha ^ 2 * s.gsFF ^ 2 * e ^ 3 / (64 * s.lam ^ 2 * Real.pi ^ 3),
    ScalarModel.pydiv_ok (by positivity), by positivity, ?_⟩
  unfold scalarGG scalarProduction
  rw [if_neg (not_lt.mpr hx), ha, prop_comm, show -4 * s.mx ^ 2 + e ^ 2 = e ^ 2 - 4 * s.mx ^ 2 by ring]
  field_simp
  ring

/-- Pions: the same, with the kernel's own constants in the width. -/
theorem scalar_pi_factorises (k : ScalarModel.Consts) (m norm : ℝ) (s : ScalarModel.Base) (e : ℝ)
    (hvh : k.vh ≠ 0) (hm : 0 < m) (hn : 0 < norm) (hl : s.lam ≠ 0) (hvs : s.vs = 0) (hx : 2 * s.mx ≤ e)
    (hp : 0 < propagator s.ms e s.width) :
    ∃ w, ScalarModel.widthPi k m norm { s with ms := e } = .ok w ∧ 0 ≤ w ∧ (e ≤ 2 * m → w = 0)
      ∧ scalarPi k m (2 * norm) s e = scalarProduction s e * w := by
  obtain ⟨w, hw, hw0, hwt, hwf⟩ :=
    ScalarModel.widthPi_spec k m norm { s with ms := e } hvh hm hn hl hvs
  simp only at hwt hwf
  refine ⟨w, hw, hw0, hwt, ?_⟩
  have hpi := Real.pi_pos
  unfold scalarPi scalarProduction
  rw [prop_comm]
  by_cases hlt : e < 2 * m
  · rw [if_pos (Or.inl hlt), hwt hlt.le, mul_zero]
  · rw [if_neg (by push Not; exact ⟨not_lt.mp hlt, hx⟩)]
    rcases (not_lt.mp hlt).eq_or_lt with h | h
    · rw [hwt h.symm.le, ← h]
      rw [show -4 * m ^ 2 + (2 * m) ^ 2 = 0 by ring, zero_mul, Real.sqrt_zero]
      simp
    · have he : 0 < e := by linarith
      rw [hwf h, hvs, show -4 * m ^ 2 + e ^ 2 = e ^ 2 - 4 * m ^ 2 by ring,
        Real.sqrt_mul (by nlinarith), show -4 * s.mx ^ 2 + e ^ 2 = e ^ 2 - 4 * s.mx ^ 2 by ring]
      simp only [mul_zero, add_zero, sub_zero, zero_add]
      generalize Real.sqrt (e ^ 2 - 4 * m ^ 2) = A
      generalize Real.sqrt (e ^ 2 - 4 * s.mx ^ 2) = B
      generalize propagator s.ms e s.width = P at hp ⊢
      field_simp
      ring

/-- C88 (scalar): every s-channel scalar cross section is one common production factor times the
partial width of a mediator of mass `e` into that channel, so the ratio of two channels is the ratio
of branching fractions.  Leptons and photons use the widths of `parameters.py` exactly as the code
does; pions use the kernels' own constant table. -/
theorem scalar_factorisation_partial (c k : ScalarModel.Consts) (hc : c.Physical) (hk : k.Physical)
    (hvh : k.vh = c.vh) (ha : k.alpha = c.alpha) (s : ScalarModel.Base) (hvs : s.vs = 0)
    (hl : s.lam ≠ 0) (e : ℝ) (he : 0 < e) (hx : 2 * s.mx ≤ e) (hms : 0 < s.ms)
    (hw : 0 < s.width ∨ e ≠ s.ms) :
    ∃ ee mumu gg pi0 pi,
      ScalarModel.widthFF c { s with ms := e } "e" = .ok ee
      ∧ ScalarModel.widthFF c { s with ms := e } "mu" = .ok mumu
      ∧ ScalarModel.widthGG c { s with ms := e } = .ok gg
      ∧ ScalarModel.widthPi k k.mpi0 209952 { s with ms := e } = .ok pi0
      ∧ ScalarModel.widthPi k k.mpi 104976 { s with ms := e } = .ok pi
      ∧ sigmaScalarFF c k s e "e" = .ok (scalarProduction s e * ee)
      ∧ sigmaScalarFF c k s e "mu" = .ok (scalarProduction s e * mumu)
      ∧ scalarGG k s e = scalarProduction s e * gg
      ∧ scalarPi0Pi0 k s e = scalarProduction s e * pi0
      ∧ scalarPiPi k s e = scalarProduction s e * pi := by
  have hp : 0 < propagator s.ms e s.width := propagator_pos hms (hw.imp id fun h => ⟨he, h⟩)
  obtain ⟨w1, a1, -, -, b1⟩ := scalar_ff_factorises c k s e c.me "e" (Or.inl ⟨rfl, rfl⟩) hc.me hvh hc.vh
    he hx hp
  obtain ⟨w2, a2, -, -, b2⟩ := scalar_ff_factorises c k s e c.mmu "mu" (Or.inr ⟨rfl, rfl⟩) hc.mmu hvh
    hc.vh he hx hp
  obtain ⟨w3, a3, -, b3⟩ := scalar_gg_factorises c k s e ha hl he hx hp
  obtain ⟨w4, a4, -, -, b4⟩ := scalar_pi_factorises k k.mpi0 209952 s e hk.vh hk.mpi0 (by norm_num) hl
    hvs hx hp
  obtain ⟨w5, a5, -, -, b5⟩ := scalar_pi_factorises k k.mpi 104976 s e hk.vh hk.mpi (by norm_num) hl
    hvs hx hp
  refine ⟨w1, w2, w3, w4, w5, a1, a2, a3, a4, a5, b1, b2, b3, ?_, ?_⟩
  · rw [← b4]; norm_num [scalarPi0Pi0]
  · rw [← b5]; norm_num [scalarPiPi]

theorem kernelConsts_physical : kernelConsts.Physical := by
  constructor <;> norm_num [kernelConsts]
theorem pythonConsts_physical : pythonConsts.Physical := by
  constructor <;> norm_num [pythonConsts]

example : ∃ ee, ScalarModel.widthFF pythonConsts ⟨200, 500, 1, 1, 1, 1, 1000, 0, 1⟩ "e" = .ok ee ∧
    sigmaScalarFF pythonConsts kernelConsts ⟨200, 500, 1, 1, 1, 1, 1000, 0, 1⟩ 500 "e"
      = .ok (scalarProduction ⟨200, 500, 1, 1, 1, 1, 1000, 0, 1⟩ 500 * ee) := by
  obtain ⟨ee, -, -, -, -, h1, -, -, -, -, h2, -⟩ := scalar_factorisation_partial pythonConsts kernelConsts
    pythonConsts_physical kernelConsts_physical rfl rfl ⟨200, 500, 1, 1, 1, 1, 1000, 0, 1⟩ rfl
    (by norm_num) 500 (by norm_num) (by norm_num) (by norm_num) (Or.inl one_pos)
  exact ⟨ee, h1, h2⟩

/-- C88 is false of the code for pions: the kernels were compiled with an older constant table than
the widths use, so in the window between the two charged-pion masses the cross section into pions
is open while a mediator of that mass cannot decay to pions. -/
theorem pion_threshold_mismatch (e mx ms gsxx gsGG gsFF lam w : ℝ) (h1 : 2 * kernelConsts.mpi < e)
    (h2 : e ≤ 2 * pythonConsts.mpi) (hmx0 : 0 ≤ mx) (hmx : 2 * mx < e) (hms : 0 < ms) (hw : 0 < w)
    (hg : gsxx ≠ 0) (hG : gsGG ≠ 0) (hl : 0 < lam) :
    ScalarModel.widthPi pythonConsts pythonConsts.mpi 104976 ⟨mx, e, gsxx, 0, gsGG, gsFF, lam, 0, w⟩ = .ok 0
    ∧ 0 < scalarPiPi kernelConsts ⟨mx, ms, gsxx, 0, gsGG, gsFF, lam, 0, w⟩ e := by
  have hpi := Real.pi_pos
  have hm : 0 < kernelConsts.mpi := kernelConsts_physical.mpi
  have hv := kernelConsts_physical.vh
  have he : 0 < e := by linarith
  have hq : 0 < kernelConsts.b0 * (kernelConsts.mdq + kernelConsts.muq) := by norm_num [kernelConsts]
  constructor
  · unfold ScalarModel.widthPi
    rw [if_neg (not_lt.mpr h2)]
  · unfold scalarPiPi scalarPi
    rw [if_neg (by push Not; exact ⟨h1.le, hmx.le⟩)]
    have hp := propagator_pos (m := ms) (e := e) (w := w) hms (Or.inl hw)
    have p1 := sub_sq_pos hm.le h1
    have p2 := sub_sq_pos hmx0 hmx
    have hr : 0 < Real.sqrt ((-4 * kernelConsts.mpi ^ 2 + e ^ 2) * (-4 * mx ^ 2 + e ^ 2)) :=
      Real.sqrt_pos.mpr (mul_pos p1 p2)
    simp only [mul_zero, add_zero, sub_zero, zero_add]
    have hX : 162 * gsGG * lam ^ 3 * (2 * kernelConsts.mpi ^ 2 - e ^ 2) * kernelConsts.vh ^ 2
        + kernelConsts.b0 * (kernelConsts.mdq + kernelConsts.muq) * (9 * lam)
          * (-3 * lam * kernelConsts.vh)
          * (2 * gsGG * kernelConsts.vh * (9 * lam) + 0 * lam * (3 * lam)) ≠ 0 := by
      have : 162 * gsGG * lam ^ 3 * (2 * kernelConsts.mpi ^ 2 - e ^ 2) * kernelConsts.vh ^ 2
          + kernelConsts.b0 * (kernelConsts.mdq + kernelConsts.muq) * (9 * lam)
            * (-3 * lam * kernelConsts.vh)
            * (2 * gsGG * kernelConsts.vh * (9 * lam) + 0 * lam * (3 * lam))
          = -(162 * gsGG * lam ^ 3 * kernelConsts.vh ^ 2
            * ((e ^ 2 - 2 * kernelConsts.mpi ^ 2)
              + 3 * (kernelConsts.b0 * (kernelConsts.mdq + kernelConsts.muq)))) := by ring
      rw [this]
      apply neg_ne_zero.mpr
      have h3 : 0 < (e ^ 2 - 2 * kernelConsts.mpi ^ 2)
          + 3 * (kernelConsts.b0 * (kernelConsts.mdq + kernelConsts.muq)) := by nlinarith
      positivity
    have hX2 := sq_pos_of_ne_zero hX
    have hg2 : 0 < gsxx ^ 2 := by positivity
    have hv4 : 0 < kernelConsts.vh ^ 4 := by positivity
    exact div_pos (mul_pos (mul_pos hg2 hr) hX2) (by positivity)

/-- The window is not empty. -/
example : 2 * kernelConsts.mpi < 279.1406 ∧ (279.1406 : ℝ) ≤ 2 * pythonConsts.mpi := by
  norm_num [kernelConsts, pythonConsts]

/-! ### Signs and thresholds -/

theorem scalarProduction_nonneg (s : ScalarModel.Base) (e : ℝ) : 0 ≤ scalarProduction s e := by
  unfold scalarProduction; positivity

theorem scalarProduction_pos (s : ScalarModel.Base) (e : ℝ) (hmx : 0 ≤ s.mx) (hg : s.gsxx ≠ 0)
    (hx : 2 * s.mx < e) (hp : 0 < propagator s.ms e s.width) : 0 < scalarProduction s e := by
  unfold scalarProduction
  rw [prop_comm]
  have : 0 < Real.sqrt (e ^ 2 - 4 * s.mx ^ 2) := Real.sqrt_pos.mpr (by nlinarith)
  positivity

/-- C41 (scalar): every annihilation cross section is defined and non-negative, closes at its
threshold (twice the dark-matter mass or the final-state mass, whichever is larger), and the lepton,
photon and mediator channels are open as soon as the threshold is crossed and the couplings are not
zero. -/
theorem scalar_annihilation_signs (c k : ScalarModel.Consts) (hc : c.Physical) (hk : k.Physical)
    (hvh : k.vh = c.vh) (s : ScalarModel.Base) (hvs : s.vs = 0) (hl : s.lam ≠ 0) (e : ℝ)
    (hmx : 0 < s.mx) (hms : 0 < s.ms) (hw : 0 < s.width) :
    (∀ f mf, (f = "e" ∧ mf = c.me ∨ f = "mu" ∧ mf = c.mmu) →
      ∃ v, sigmaScalarFF c k s e f = .ok v ∧ 0 ≤ v
        ∧ (0 < v ↔ 2 * mf < e ∧ 2 * s.mx < e ∧ s.gsff ≠ 0 ∧ s.gsxx ≠ 0))
    ∧ (0 ≤ scalarGG k s e
        ∧ (k.alpha ≠ 0 → (0 < scalarGG k s e ↔ 2 * s.mx < e ∧ s.gsFF ≠ 0 ∧ s.gsxx ≠ 0)))
    ∧ (0 ≤ scalarPi0Pi0 k s e ∧ (e ≤ 2 * k.mpi0 ∨ e ≤ 2 * s.mx → scalarPi0Pi0 k s e = 0))
    ∧ (0 ≤ scalarPiPi k s e ∧ (e ≤ 2 * k.mpi ∨ e ≤ 2 * s.mx → scalarPiPi k s e = 0))
    ∧ (e ≠ 2 * s.mx → 0 ≤ scalarSS e s.mx s.ms s.gsxx
        ∧ (0 < scalarSS e s.mx s.ms s.gsxx ↔ 2 * s.ms < e ∧ 2 * s.mx < e ∧ s.gsxx ≠ 0)) := by
  have hpi := Real.pi_pos
  have hp : 0 < propagator s.ms e s.width := propagator_pos hms (Or.inl hw)
  have pion : ∀ m norm, 0 < m → 0 < norm → 0 ≤ scalarPi k m (2 * norm) s e
      ∧ (e ≤ 2 * m ∨ e ≤ 2 * s.mx → scalarPi k m (2 * norm) s e = 0) := by
    intro m norm hm hn
    by_cases hx : e < 2 * s.mx
    · have : scalarPi k m (2 * norm) s e = 0 := by unfold scalarPi; rw [if_pos (Or.inr hx)]
      rw [this]; exact ⟨le_rfl, fun _ => rfl⟩
    · obtain ⟨w, -, w0, wt, hs⟩ := scalar_pi_factorises k m norm s e hk.vh hm hn hl hvs (not_lt.mp hx) hp
      rw [hs]
      refine ⟨mul_nonneg (scalarProduction_nonneg s e) w0, ?_⟩
      rintro (h | h)
      · rw [wt h, mul_zero]
      · have : e = 2 * s.mx := le_antisymm h (not_lt.mp hx)
        unfold scalarProduction
        rw [this, show (2 * s.mx) ^ 2 - 4 * s.mx ^ 2 = 0 by ring, Real.sqrt_zero]
        simp
  refine ⟨?_, ?_, ?_, ?_, fun hne => scalarSS_sign e s.mx s.ms s.gsxx hmx hms.le hne⟩
  · intro f mf hf
    have hm : 0 < mf := by rcases hf with ⟨-, rfl⟩ | ⟨-, rfl⟩; exacts [hc.me, hc.mmu]
    by_cases hx : e < 2 * s.mx
    · have h1 : f = "e" ∨ f = "mu" := by rcases hf with h | h <;> simp [h.1]
      refine ⟨0, ?_, le_rfl, fun h => absurd h (lt_irrefl _), fun h => absurd h.2.1 (by linarith)⟩
      unfold sigmaScalarFF scalarFF
      rw [if_pos h1, if_pos (Or.inr hx)]
    · have he : 0 < e := by linarith [not_lt.mp hx]
      obtain ⟨w, hw1, w0, wt, hs⟩ := scalar_ff_factorises c k s e mf f hf hm hvh hc.vh he (not_lt.mp hx) hp
      obtain ⟨w', hw1', -, -, wz, wf⟩ :=
        ScalarModel.widthFF_spec c { s with ms := e } f mf hc.vh hf hm
      simp only at wz wf
      have : w' = w := by rw [hw1] at hw1'; exact (Except.ok.inj hw1').symm
      subst this
      refine ⟨_, hs, mul_nonneg (scalarProduction_nonneg s e) w0, ?_⟩
      constructor
      · intro h
        have h1 : scalarProduction s e ≠ 0 := fun h0 => by simp [h0] at h
        have h2 : w' ≠ 0 := fun h0 => by simp [h0] at h
        refine ⟨?_, ?_, fun h0 => h2 (wz h0), ?_⟩
        · by_contra h'; exact h2 (wt (not_lt.mp h'))
        · refine lt_of_le_of_ne (not_lt.mp hx) fun h0 => h1 ?_
          unfold scalarProduction
          rw [← h0, show (2 * s.mx) ^ 2 - 4 * s.mx ^ 2 = 0 by ring, Real.sqrt_zero]
          simp
        · intro h0; apply h1; unfold scalarProduction; rw [h0]; simp
      · rintro ⟨h1, h2, h3, h4⟩
        apply mul_pos (scalarProduction_pos s e hmx.le h4 h2 hp)
        rw [wf h1]
        have : 0 < (e ^ 2 - 4 * mf ^ 2) ^ (3 / 2 : ℝ) := Real.rpow_pos_of_pos (by nlinarith) _
        have := hc.vh
        positivity
  · unfold scalarGG
    by_cases hx : e < 2 * s.mx
    · rw [if_pos hx]
      exact ⟨le_rfl, fun _ => ⟨fun h => absurd h (lt_irrefl _), fun h => absurd h.1 (by linarith)⟩⟩
    · rw [if_neg hx]
      have he : 0 < e := by linarith [not_lt.mp hx]
      refine ⟨by positivity, fun ha => ⟨fun h => ?_, fun ⟨h1, h2, h3⟩ => ?_⟩⟩
      · refine ⟨lt_of_le_of_ne (not_lt.mp hx) fun h0 => ?_, fun h0 => ?_, fun h0 => ?_⟩
        · rw [← h0, show -4 * s.mx ^ 2 + (2 * s.mx) ^ 2 = 0 by ring, Real.sqrt_zero] at h
          simp at h
        · rw [h0] at h; simp at h
        · rw [h0] at h; simp at h
      · have := Real.sqrt_pos.mpr (sub_sq_pos hmx.le h1)
        positivity
  · have := pion k.mpi0 209952 hk.mpi0 (by norm_num)
    norm_num at this
    exact this
  · have := pion k.mpi 104976 hk.mpi (by norm_num)
    norm_num at this
    exact this

end Hazma.Xs
