import Verif.Props.SChannel

/-! # Vector-mediator annihilation: factorisation, signs and thresholds -/

namespace Hazma.Xs

open Hazma
open Hazma.ScalarModel (rpow32_nonneg)
open Hazma.VectorModel (bind_ok)

/-- Leptons. -/
theorem vector_ff_factorises (c : VectorModel.Consts) (s : VectorModel.Base) (e mf g : ℝ) (f : String)
    (hf : f = "e" ∧ mf = c.me ∧ g = s.gvee ∨ f = "mu" ∧ mf = c.mmu ∧ g = s.gvmumu) (hm : 0 < mf)
    (hmx : 0 ≤ s.mx) (hx : 2 * s.mx < e) (hp : 0 < propagator s.mv e s.width) :
    ∃ w, VectorModel.widthFF c { s with mv := e } f = .ok w ∧ 0 ≤ w ∧ (e ≤ 2 * mf → w = 0)
      ∧ vectorFF e s.mx s.mv s.gvxx g s.width mf = vectorProduction s e * w := by
  obtain ⟨w, hw, hw0, hwt, -, hwf⟩ := VectorModel.widthFF_spec c { s with mv := e } f mf g hf hm
  simp only at hwt hwf
  refine ⟨w, hw, hw0, hwt, ?_⟩
  have hpi := Real.pi_pos
  have he : 0 < e := by linarith
  have p1 := sub_sq_pos hmx hx
  unfold vectorFF vectorProduction
  rw [prop_comm]
  by_cases hlt : e < 2 * mf
  · rw [if_pos (Or.inl hlt), hwt hlt.le, mul_zero]
  · rw [if_neg (by push Not; exact ⟨not_lt.mp hlt, hx.le⟩)]
    have p2 := sub_sq_nonneg hm.le (not_lt.mp hlt)
    rcases (not_lt.mp hlt).eq_or_lt with h | h
    · rw [hwt h.symm.le, ← h]
      rw [show -4 * mf ^ 2 + (2 * mf) ^ 2 = 0 by ring]
      simp
    · rw [hwf h, Real.sqrt_div p2, show -4 * mf ^ 2 + e ^ 2 = e ^ 2 - 4 * mf ^ 2 by ring,
        show -4 * s.mx ^ 2 + e ^ 2 = e ^ 2 - 4 * s.mx ^ 2 by ring]
      have hr : 0 < Real.sqrt (e ^ 2 - 4 * s.mx ^ 2) := Real.sqrt_pos.mpr (by linarith)
      generalize Real.sqrt (e ^ 2 - 4 * mf ^ 2) = A
      generalize Real.sqrt (e ^ 2 - 4 * s.mx ^ 2) = B at hr ⊢
      generalize propagator s.mv e s.width = P at hp ⊢
      field_simp
      ring

/-- Charged pions. -/
theorem vector_pipi_factorises (k : VectorModel.Consts) (hk : k.Physical) (s : VectorModel.Base) (e : ℝ)
    (hmx : 0 ≤ s.mx) (hx : 2 * s.mx < e) (hp : 0 < propagator s.mv e s.width) :
    ∃ w, VectorModel.widthPiPi k { s with mv := e } = .ok w ∧ 0 ≤ w ∧ (e ≤ 2 * k.mpi → w = 0)
      ∧ vectorPiPi k e s.mx s.mv s.gvxx s.gvuu s.gvdd s.width = .ok (vectorProduction s e * w) := by
  obtain ⟨w, hw, hw0, hwt, hwf⟩ := VectorModel.widthPiPi_spec k hk { s with mv := e }
  simp only at hwt hwf
  refine ⟨w, hw, hw0, hwt, ?_⟩
  have hpi := Real.pi_pos
  have he : 0 < e := by linarith
  have p1 := sub_sq_pos hmx hx
  have hr : 0 < Real.sqrt (-4 * s.mx ^ 2 + e ^ 2) := Real.sqrt_pos.mpr p1
  unfold vectorPiPi vectorProduction
  rw [prop_comm]
  by_cases hlt : e < 2 * k.mpi
  · rw [if_pos (Or.inr hlt), hwt hlt.le, mul_zero]
  · rw [if_neg (by push Not; exact ⟨hx.le, not_lt.mp hlt⟩), quotient_ok (by positivity)]
    congr 1
    have p2 := sub_sq_nonneg hk.mpi.le (not_lt.mp hlt)
    rcases (not_lt.mp hlt).eq_or_lt with h | h
    · rw [hwt h.symm.le, ← h]
      rw [show -4 * k.mpi ^ 2 + (2 * k.mpi) ^ 2 = 0 by ring, rpow32_zero]
      simp
    · rw [hwf h]
      have hpow : (1 - 4 * k.mpi ^ 2 / e ^ 2) ^ (3 / 2 : ℝ)
          = (-4 * k.mpi ^ 2 + e ^ 2) ^ (3 / 2 : ℝ) / e ^ 3 := by
        rw [show 1 - 4 * k.mpi ^ 2 / e ^ 2 = (-4 * k.mpi ^ 2 + e ^ 2) / e ^ 2 by field_simp; ring,
          Real.div_rpow p2 (by positivity)]
        congr 1
        rw [← Real.rpow_natCast e 2, ← Real.rpow_mul he.le, ← Real.rpow_natCast e 3]
        norm_num
      rw [hpow, show e ^ 2 - 4 * s.mx ^ 2 = -4 * s.mx ^ 2 + e ^ 2 by ring]
      generalize Real.sqrt (-4 * s.mx ^ 2 + e ^ 2) = B at hr ⊢
      generalize propagator s.mv e s.width = P at hp ⊢
      generalize (-4 * k.mpi ^ 2 + e ^ 2) ^ (3 / 2 : ℝ) = A
      field_simp
      ring

/-- Neutral pion and photon: the cross section is one ninth of what the width implies. -/
theorem vector_pi0g_ninth (k : VectorModel.Consts) (hk : k.Physical) (s : VectorModel.Base) (e : ℝ)
    (hmx : 0 ≤ s.mx) (hx : 2 * s.mx < e) (hp : 0 < propagator s.mv e s.width) :
    ∃ w, VectorModel.widthPi0G k { s with mv := e } = .ok w ∧ 0 ≤ w ∧ (e ≤ k.mpi0 → w = 0)
      ∧ 9 * vectorPi0G k e s.mx s.mv s.gvxx s.gvuu s.gvdd s.width = vectorProduction s e * w := by
  obtain ⟨w, hw, hw0, hwt, hwf⟩ := VectorModel.widthPi0G_spec k hk { s with mv := e }
  simp only at hwt hwf
  refine ⟨w, hw, hw0, hwt, ?_⟩
  have hpi := Real.pi_pos
  have he : 0 < e := by linarith
  have p1 := sub_sq_pos hmx hx
  have hr : 0 < Real.sqrt (-4 * s.mx ^ 2 + e ^ 2) := Real.sqrt_pos.mpr p1
  have hfp := hk.fpi
  unfold vectorPi0G vectorProduction
  rw [prop_comm]
  by_cases hlt : e < k.mpi0
  · rw [if_pos (Or.inl hlt), hwt hlt.le, mul_zero, mul_zero]
  · rw [if_neg (by push Not; exact ⟨not_lt.mp hlt, hx.le⟩)]
    rcases (not_lt.mp hlt).eq_or_lt with h | h
    · rw [hwt h.symm.le, ← h]
      simp
    · rw [hwf h, show e ^ 2 - 4 * s.mx ^ 2 = -4 * s.mx ^ 2 + e ^ 2 by ring]
      generalize Real.sqrt (-4 * s.mx ^ 2 + e ^ 2) = B at hr ⊢
      generalize propagator s.mv e s.width = P at hp ⊢
      field_simp
      ring

/-- C88 (vector): leptons and charged pions factorise through one common production factor. -/
theorem vector_factorisation_partial (c k : VectorModel.Consts) (hc : c.Physical) (hk : k.Physical)
    (s : VectorModel.Base) (e : ℝ) (hmx : 0 ≤ s.mx) (hx : 2 * s.mx < e) (hmv : 0 < s.mv)
    (hw : 0 < s.width ∨ e ≠ s.mv) :
    ∃ ee mumu pi,
      VectorModel.widthFF c { s with mv := e } "e" = .ok ee
      ∧ VectorModel.widthFF c { s with mv := e } "mu" = .ok mumu
      ∧ VectorModel.widthPiPi k { s with mv := e } = .ok pi
      ∧ vectorFF e s.mx s.mv s.gvxx s.gvee s.width c.me = vectorProduction s e * ee
      ∧ vectorFF e s.mx s.mv s.gvxx s.gvmumu s.width c.mmu = vectorProduction s e * mumu
      ∧ vectorPiPi k e s.mx s.mv s.gvxx s.gvuu s.gvdd s.width = .ok (vectorProduction s e * pi) := by
  have he : 0 < e := by linarith
  have hp : 0 < propagator s.mv e s.width := propagator_pos hmv (hw.imp id fun h => ⟨he, h⟩)
  obtain ⟨w1, a1, -, -, b1⟩ := vector_ff_factorises c s e c.me s.gvee "e" (Or.inl ⟨rfl, rfl, rfl⟩) hc.me
    hmx hx hp
  obtain ⟨w2, a2, -, -, b2⟩ := vector_ff_factorises c s e c.mmu s.gvmumu "mu" (Or.inr ⟨rfl, rfl, rfl⟩)
    hc.mmu hmx hx hp
  obtain ⟨w3, a3, -, -, b3⟩ := vector_pipi_factorises k hk s e hmx hx hp
  exact ⟨w1, w2, w3, a1, a2, a3, b1, b2, b3⟩

/-- C88 fails for the neutral pion and photon: above threshold the cross section differs from
production times width by exactly the factor nine, hence is not equal to it. -/
theorem pi0g_not_factorised (k : VectorModel.Consts) (hk : k.Physical) (s : VectorModel.Base) (e : ℝ)
    (hmx : 0 ≤ s.mx) (hx : 2 * s.mx < e) (hpi0 : k.mpi0 < e) (hmv : 0 < s.mv) (hw : 0 < s.width)
    (hg : s.gvxx ≠ 0) (hi : s.gvdd + 2 * s.gvuu ≠ 0) :
    ∃ w, VectorModel.widthPi0G k { s with mv := e } = .ok w ∧ 0 < w
      ∧ vectorPi0G k e s.mx s.mv s.gvxx s.gvuu s.gvdd s.width = vectorProduction s e * w / 9
      ∧ vectorPi0G k e s.mx s.mv s.gvxx s.gvuu s.gvdd s.width ≠ vectorProduction s e * w := by
  have he : 0 < e := by linarith
  have hp : 0 < propagator s.mv e s.width := propagator_pos hmv (Or.inl hw)
  obtain ⟨w, a, -, -, b⟩ := vector_pi0g_ninth k hk s e hmx hx hp
  obtain ⟨w', a', -, -, f⟩ := VectorModel.widthPi0G_spec k hk { s with mv := e }
  have : w' = w := by rw [a] at a'; exact (Except.ok.inj a').symm
  subst this
  have hpi := Real.pi_pos
  have hal := hk.alpha
  have hfp := hk.fpi
  have hwp : 0 < w' := by
    rw [f hpi0]
    simp only
    have hm := hk.mpi0
    have : 0 < e ^ 2 - k.mpi0 ^ 2 := by nlinarith
    positivity
  have hprod : 0 < vectorProduction s e := by
    unfold vectorProduction
    rw [prop_comm]
    have : 0 < Real.sqrt (e ^ 2 - 4 * s.mx ^ 2) := Real.sqrt_pos.mpr (by nlinarith)
    positivity
  have := mul_pos hprod hwp
  exact ⟨w', a, hwp, by linarith, by intro h; linarith⟩

/-- C41 (vector): every annihilation cross section is defined away from `e = 2 mx`, non-negative,
and closes at threshold; the pion-pair and pion-mediator kernels raise exactly at `e = 2 mx` (when
their final state is open). -/
theorem vector_annihilation_signs (k : VectorModel.Consts) (hk : k.Physical)
    (e mx mv gvxx gvll gvuu gvdd w mf : ℝ) (hmx : 0 < mx) (hmv : 0 < mv) (hw : 0 < w) (hmf : 0 < mf) :
    (e ≠ 2 * mx →
      0 ≤ vectorFF e mx mv gvxx gvll w mf
      ∧ (0 < vectorFF e mx mv gvxx gvll w mf ↔ 2 * mf < e ∧ 2 * mx < e ∧ gvll ≠ 0 ∧ gvxx ≠ 0)
      ∧ (∃ v, vectorPiPi k e mx mv gvxx gvuu gvdd w = .ok v ∧ 0 ≤ v
        ∧ (0 < v ↔ 2 * k.mpi < e ∧ 2 * mx < e ∧ gvdd ≠ gvuu ∧ gvxx ≠ 0))
      ∧ (0 ≤ vectorPi0G k e mx mv gvxx gvuu gvdd w
        ∧ (0 < vectorPi0G k e mx mv gvxx gvuu gvdd w
          ↔ k.mpi0 < e ∧ 2 * mx < e ∧ 2 * gvuu + gvdd ≠ 0 ∧ gvxx ≠ 0))
      ∧ (∃ v, vectorPi0V k e mx mv gvxx gvuu gvdd w = .ok v ∧ 0 ≤ v
        ∧ (0 < v ↔ k.mpi0 + mv < e ∧ 2 * mx < e ∧ gvdd ≠ gvuu ∧ gvuu + gvdd ≠ 0 ∧ gvxx ≠ 0))
      ∧ (0 ≤ vectorVV e mx mv gvxx
        ∧ (0 < vectorVV e mx mv gvxx ↔ 2 * mv < e ∧ 2 * mx < e ∧ gvxx ≠ 0)))
    ∧ (e = 2 * mx → 2 * k.mpi ≤ e → vectorPiPi k e mx mv gvxx gvuu gvdd w = .error .nonReal)
    ∧ (e = 2 * mx → k.mpi0 + mv ≤ e → vectorPi0V k e mx mv gvxx gvuu gvdd w = .error .nonReal) := by
  have hpi := Real.pi_pos
  have hp : 0 < propagator mv e w := propagator_pos hmv (Or.inl hw)
  have hm := hk.mpi
  have hm0 := hk.mpi0
  have hfp := hk.fpi
  have hal := hk.alpha
  refine ⟨fun hne => ?_, ?_, ?_⟩
  · rcases lt_or_gt_of_ne hne with hx | hx
    · have z1 : vectorFF e mx mv gvxx gvll w mf = 0 := by unfold vectorFF; rw [if_pos (Or.inr hx)]
      have z2 : vectorPiPi k e mx mv gvxx gvuu gvdd w = .ok 0 := by
        unfold vectorPiPi; rw [if_pos (Or.inl hx)]
      have z3 : vectorPi0G k e mx mv gvxx gvuu gvdd w = 0 := by
        unfold vectorPi0G; rw [if_pos (Or.inr hx)]
      have z4 : vectorPi0V k e mx mv gvxx gvuu gvdd w = .ok 0 := by
        unfold vectorPi0V; rw [if_pos (Or.inr hx)]
      rw [z1, z2, z3, z4]
      refine ⟨le_rfl, ⟨fun h => absurd h (lt_irrefl _), fun h => absurd h.2.1 (by linarith)⟩,
        ⟨0, rfl, le_rfl, ⟨fun h => absurd h (lt_irrefl _), fun h => absurd h.2.1 (by linarith)⟩⟩,
        ⟨le_rfl, ⟨fun h => absurd h (lt_irrefl _), fun h => absurd h.2.1 (by linarith)⟩⟩,
        ⟨0, rfl, le_rfl, ⟨fun h => absurd h (lt_irrefl _), fun h => absurd h.2.1 (by linarith)⟩⟩,
        vectorVV_sign e mx mv gvxx hmx.le hmv hne⟩
    · have he : 0 < e := by linarith
      have p1 := sub_sq_pos hmx.le hx
      have hr : 0 < Real.sqrt (-4 * mx ^ 2 + e ^ 2) := Real.sqrt_pos.mpr p1
      refine ⟨?_, ?_, ?_, ?_, ?_, vectorVV_sign e mx mv gvxx hmx.le hmv hne⟩
      · unfold vectorFF; split_ifs
        · exact le_rfl
        · positivity
      · unfold vectorFF
        split_ifs with h
        · refine ⟨fun h => absurd h (lt_irrefl _), fun h' => ?_⟩
          rcases h with h | h
          · linarith [h'.1]
          · linarith
        · push Not at h
          constructor
          · intro hpos
            refine ⟨lt_of_le_of_ne h.1 fun h0 => ?_, hx, fun h0 => ?_, fun h0 => ?_⟩
            · rw [← h0, show -4 * mf ^ 2 + (2 * mf) ^ 2 = 0 by ring] at hpos
              simp at hpos
            · rw [h0] at hpos; simp at hpos
            · rw [h0] at hpos; simp at hpos
          · rintro ⟨h1, -, h3, h4⟩
            have := Real.sqrt_pos.mpr (div_pos (sub_sq_pos hmf.le h1) p1)
            positivity
      · unfold vectorPiPi
        split_ifs with h
        · refine ⟨0, rfl, le_rfl, fun h => absurd h (lt_irrefl _), fun h' => ?_⟩
          rcases h with h | h
          · linarith
          · linarith [h'.1]
        · push Not at h
          have hnn := rpow32_nonneg (-4 * k.mpi ^ 2 + e ^ 2)
          refine ⟨_, quotient_ok (by positivity), by positivity, ?_⟩
          constructor
          · intro hpos
            refine ⟨lt_of_le_of_ne h.2 fun h0 => ?_, hx, fun h0 => ?_, fun h0 => ?_⟩
            · rw [← h0, show -4 * k.mpi ^ 2 + (2 * k.mpi) ^ 2 = 0 by ring, rpow32_zero] at hpos
              simp at hpos
            · rw [h0] at hpos; simp at hpos
            · rw [h0] at hpos; simp at hpos
          · rintro ⟨h1, -, h3, h4⟩
            have := Real.rpow_pos_of_pos (sub_sq_pos hm.le h1) (3 / 2 : ℝ)
            have : gvdd - gvuu ≠ 0 := sub_ne_zero.mpr h3
            positivity
      · unfold vectorPi0G
        split_ifs with h
        · refine ⟨le_rfl, fun h => absurd h (lt_irrefl _), fun h' => ?_⟩
          rcases h with h | h
          · linarith [h'.1]
          · linarith
        · push Not at h
          have hd : 0 ≤ e ^ 2 - k.mpi0 ^ 2 := by nlinarith [h.1]
          refine ⟨by positivity, ?_⟩
          constructor
          · intro hpos
            refine ⟨lt_of_le_of_ne h.1 fun h0 => ?_, hx, fun h0 => ?_, fun h0 => ?_⟩
            · rw [← h0] at hpos
              simp at hpos
            · rw [h0] at hpos; simp at hpos
            · rw [h0] at hpos; simp at hpos
          · rintro ⟨h1, -, h3, h4⟩
            have : 0 < e ^ 2 - k.mpi0 ^ 2 := by nlinarith
            positivity
      · unfold vectorPi0V
        split_ifs with h
        · refine ⟨0, rfl, le_rfl, fun h => absurd h (lt_irrefl _), fun h' => ?_⟩
          rcases h with h | h
          · linarith [h'.1]
          · linarith
        · push Not at h
          simp only
          have hnn := rpow32_nonneg
            ((k.mpi0 - mv - e) * (mv + k.mpi0 - e) * (e + (k.mpi0 - mv)) * (e + (mv + k.mpi0)))
          refine ⟨_, quotient_ok (by positivity), by positivity, ?_⟩
          constructor
          · intro hpos
            refine ⟨lt_of_le_of_ne h.1 fun h0 => ?_, hx, fun h0 => ?_, fun h0 => ?_, fun h0 => ?_⟩
            · have : mv + k.mpi0 - e = 0 := by linarith
              rw [this] at hpos
              simp [rpow32_zero] at hpos
            · rw [h0] at hpos; simp at hpos
            · rw [h0] at hpos; simp at hpos
            · rw [h0] at hpos; simp at hpos
          · rintro ⟨h1, -, h3, h4, h5⟩
            have hk0 : 0 < (k.mpi0 - mv - e) * (mv + k.mpi0 - e) * (e + (k.mpi0 - mv))
                * (e + (mv + k.mpi0)) := by
              have a1 : 0 < -(k.mpi0 - mv - e) := by linarith
              have a2 : 0 < -(mv + k.mpi0 - e) := by linarith
              have a3 : 0 < e + (k.mpi0 - mv) := by linarith
              have a4 : 0 < e + (mv + k.mpi0) := by linarith
              have := mul_pos a1 a2
              rw [neg_mul_neg] at this
              positivity
            have := Real.rpow_pos_of_pos hk0 (3 / 2 : ℝ)
            have : gvdd - gvuu ≠ 0 := sub_ne_zero.mpr h3
            positivity
  · intro h h'
    unfold vectorPiPi
    rw [if_neg (by push Not; exact ⟨h.symm.le, h'⟩), show -4 * mx ^ 2 + e ^ 2 = 0 by rw [h]; ring,
      Real.sqrt_zero]
    unfold quotient
    rw [if_pos (by ring)]
  · intro h h'
    unfold vectorPi0V
    rw [if_neg (by push Not; exact ⟨h', h.symm.le⟩), show -4 * mx ^ 2 + e ^ 2 = 0 by rw [h]; ring,
      Real.sqrt_zero]
    unfold quotient
    simp only
    rw [if_pos (by ring)]

/-- Constants of the vector kernels (`vector_xs.rs:122-134`). -/
noncomputable def vectorKernelConsts : VectorModel.Consts where
  alpha := 1 / 137.04
  qe := Real.sqrt (4 * Real.pi / 137.04)
  fpi := 92.2138
  mpi := 139.57018
  mpi0 := 134.9766
  me := 0.510998928
  mmu := 105.6583715

theorem vectorKernelConsts_physical : vectorKernelConsts.Physical := by
  have := Real.pi_pos
  constructor <;> first | norm_num [vectorKernelConsts] | (simp only [vectorKernelConsts]; positivity)

example : 0 < vectorVV 600 250 200 1 ∧ 0 < vectorPi0G vectorKernelConsts 600 250 200 1 1 1 1 :=
  ⟨(vectorVV_sign 600 250 200 1 (by norm_num) (by norm_num) (by norm_num)).2.mpr
    ⟨by norm_num, by norm_num, one_ne_zero⟩,
   ((vector_annihilation_signs vectorKernelConsts vectorKernelConsts_physical 600 250 200 1 1 1 1 1 1
      (by norm_num) (by norm_num) one_pos one_pos).1 (by norm_num)).2.2.2.1.2.mpr
    ⟨by norm_num [vectorKernelConsts], by norm_num, by norm_num, one_ne_zero⟩⟩

end Hazma.Xs
