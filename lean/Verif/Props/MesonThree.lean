import Verif.Model.MesonThree
import Verif.Props.MesonFF
import Verif.Props.VectorThree
import Mathlib.Tactic

/-!
# Form factors of three mesons

Where the form factors are numbers, their exchange and isospin symmetries, how they depend
on the couplings, their thresholds, arrays of energies and integer energies.
-/

namespace Hazma.MesonThree

open Hazma.MesonFF (Couplings ci0 ci1 cs comb mPi0 mPi mEta mK mK0 mOmega)
open Hazma.Resonance (bwFW bwPwave)
open Hazma.Rambo (P4)
open Hazma.VectorThree (mdot add)

/-! ### Three pions: where the form factor is a number -/

theorem den_plus (a b : ℝ) : ((a : ℂ) + Complex.I * (b : ℂ)) = 0 ↔ a = 0 ∧ b = 0 := by
  constructor
  · intro h
    have h1 := congrArg Complex.re h
    have h2 := congrArg Complex.im h
    simp only [Complex.add_re, Complex.mul_re, Complex.add_im, Complex.mul_im, Complex.I_re,
      Complex.I_im, Complex.ofReal_re, Complex.ofReal_im, Complex.zero_re, Complex.zero_im] at h1 h2
    exact ⟨by linarith, by linarith⟩
  · rintro ⟨rfl, rfl⟩; simp

theorem den_minus (a b : ℝ) : ((a : ℂ) - Complex.I * (b : ℂ)) = 0 ↔ a = 0 ∧ b = 0 := by
  have h := den_plus a (-b)
  rw [Complex.ofReal_neg, mul_neg, ← sub_eq_add_neg] at h
  rw [h, neg_eq_zero]

theorem bwRho_isSome {m g mj mk : ℝ} (Q2 : ℝ) (hsum : 0 < mj + mk) (hm : mj + mk < m) (hg : 0 < g) :
    (bwRho Q2 m g mj mk).isSome ↔ (mj + mk) ^ 2 ≤ Q2 := by
  have h1 : 0 < m ^ 2 - (mj + mk) ^ 2 := by nlinarith
  have h2 : 0 < (mj + mk) ^ 2 := by positivity
  unfold bwRho gammaRho npSqrt pow15
  constructor
  · intro h
    by_contra hc
    push Not at hc
    have : (Q2 - (mj + mk) ^ 2) / (m ^ 2 - (mj + mk) ^ 2) < 0 := div_neg_of_neg_of_pos (by linarith) h1
    simp only [h1.ne', if_false, this, if_true, Option.map_none, ite_self, Option.bind_none,
      Option.bind_fun_none] at h
    exact absurd h (by simp)
  · intro h
    have hQ : 0 < Q2 := lt_of_lt_of_le h2 h
    have hr : ¬ (Q2 - (mj + mk) ^ 2) / (m ^ 2 - (mj + mk) ^ 2) < 0 := by
      push Not; exact div_nonneg (by linarith) h1.le
    simp only [not_lt.mpr hQ.le, if_false, h1.ne', hQ.ne', hr, Option.map_some, Option.bind_some, cdiv]
    rw [if_neg]
    · rfl
    rw [den_plus]
    rintro ⟨h3, h4⟩
    have hQ' : Q2 = m ^ 2 := by linarith
    rw [hQ', div_self h1.ne', Real.one_rpow] at h4
    have : 0 < m := by linarith
    have : 0 < √(m ^ 2) * (g * m ^ 2 / m ^ 2 * 1) := by positivity
    linarith

theorem bwFW_isSome {s m w : ℝ} (hm : 0 < m) (hw : 0 < w) : (bwFW? s m w).isSome := by
  unfold bwFW? cdiv
  rw [if_neg]
  · rfl
  rw [den_minus]
  rintro ⟨-, h⟩
  have : 0 < m * w := by positivity
  linarith

theorem bwFW_value {s m w : ℝ} (hm : 0 < m) (hw : 0 < w) : bwFW? s m w = some (bwFW s m w) := by
  unfold bwFW? cdiv bwFW
  rw [if_neg]
  rw [den_minus]
  rintro ⟨-, h⟩
  have : 0 < m * w := by positivity
  linarith

theorem oadd_isSome (a b : Option ℂ) : (oadd a b).isSome ↔ a.isSome ∧ b.isSome := by
  unfold oadd; cases a <;> cases b <;> simp

theorem oadd_swap (a b c : Option ℂ) : oadd (oadd a b) c = oadd (oadd a c) b := by
  unfold oadd; cases a <;> cases b <;> cases c <;> simp [add_right_comm]

/-- Fits whose resonances have a positive mass and width and whose rho mesons can decay. -/
structure Good (f : Fit3) : Prop where
  masses : ∀ i, 0 < f.masses i
  widths : ∀ i, 0 < f.widths i
  massesRho0 : ∀ i, 2 * gPi < f.massesRho0 i
  widthsRho0 : ∀ i, 0 < f.widthsRho0 i
  massesRho1 : ∀ i, 2 * gPi < f.massesRho1 i
  widthsRho1 : ∀ i, 0 < f.widthsRho1 i
  massOmega : 0 < f.massOmega
  widthOmega : 0 < f.widthOmega

/-- The fit of the code is one of them. -/
theorem default_good : Good fit3Default := by
  constructor
  · intro i; fin_cases i <;> norm_num [fit3Default]
  · intro i; fin_cases i <;> norm_num [fit3Default]
  · intro i; fin_cases i <;> norm_num [fit3Default, gPi, mPi]
  · intro i; fin_cases i <;> norm_num [fit3Default]
  · intro i; fin_cases i <;> norm_num [fit3Default, gPi, mPi]
  · intro i; fin_cases i <;> norm_num [fit3Default]
  · norm_num [fit3Default]
  · norm_num [fit3Default]

theorem pi_masses : 0 < gPi + gPi ∧ 0 < gPi0 + gPi ∧ gPi0 + gPi < 2 * gPi := by
  norm_num [gPi, gPi0, mPi, mPi0]

theorem hrho_isSome {m g : ℝ} (s t u : ℝ) (hm : 2 * gPi < m) (hg : 0 < g) :
    (hrho s t u m g).isSome ↔
      (gPi + gPi) ^ 2 ≤ s ∧ (gPi0 + gPi) ^ 2 ≤ t ∧ (gPi0 + gPi) ^ 2 ≤ u := by
  obtain ⟨h1, h2, h3⟩ := pi_masses
  unfold hrho
  rw [oadd_isSome, oadd_isSome, bwRho_isSome s h1 (by linarith) hg,
    bwRho_isSome t h2 (by linarith) hg, bwRho_isSome u h2 (by linarith) hg, and_assoc]

/-- The isoscalar part, when it is a number, is linear in the two isoscalar couplings. -/
theorem isoZero_linear {f : Fit3} (hf : Good f) {q2 s t u : ℝ}
    (hs : (gPi + gPi) ^ 2 ≤ s) (ht : (gPi0 + gPi) ^ 2 ≤ t) (hu : (gPi0 + gPi) ^ 2 ≤ u) :
    ∃ A B : ℂ, ∀ c0 cstr : ℝ, isoZero f q2 s t u c0 cstr = some (c0 * A + cstr * B) := by
  have hh : ∀ i, ∃ h, hrho s t u (f.massesRho0 i) (f.widthsRho0 i) = some h := fun i =>
    Option.isSome_iff_exists.mp
      ((hrho_isSome s t u (hf.massesRho0 i) (hf.widthsRho0 i)).mpr ⟨hs, ht, hu⟩)
  choose H hH using hh
  have hb : ∀ i, bwFW? q2 (f.masses i) (f.widths i) = some (bwFW q2 (f.masses i) (f.widths i)) :=
    fun i => bwFW_value (hf.masses i) (hf.widths i)
  obtain ⟨b, hbd⟩ : ∃ b : Fin 4 → ℂ, b = fun i => bwFW q2 (f.masses i) (f.widths i) := ⟨_, rfl⟩
  have hb' : ∀ i, bwFW? q2 (f.masses i) (f.widths i) = some (b i) := by
    intro i; rw [hb i, hbd]
  refine ⟨(f.couplings 0 * b 0 + f.couplings 2 * b 2 + f.couplings 3 * b 3) * H 0 +
      f.couplingsRho0 2 * b 3 * H 2,
    f.couplings 1 * b 1 * H 0 + f.couplingsRho0 1 * b 1 * H 1, fun c0 cstr => ?_⟩
  unfold isoZero sum4
  simp only [hb', hH, Option.map_some, Option.bind_some, oadd]
  congr 1
  simp only [show (0 : Fin 4) ≠ 1 by decide, show (2 : Fin 4) ≠ 1 by decide,
    show (3 : Fin 4) ≠ 1 by decide, if_false, if_true]
  push_cast
  ring

/-- The isovector part is linear in its coupling, the shortcut at zero included. -/
theorem isoOne_linear {f : Fit3} (hf : Good f) {q2 s : ℝ} (hs : (gPi + gPi) ^ 2 ≤ s) :
    ∃ K : ℂ, ∀ c1 : ℝ, isoOne f q2 s c1 = some (c1 * K) := by
  obtain ⟨h1, h2, h3⟩ := pi_masses
  have hh : ∀ i, ∃ h, bwRho s (f.massesRho1 i) (f.widthsRho1 i) gPi gPi = some h := fun i =>
    Option.isSome_iff_exists.mp
      ((bwRho_isSome s h1 (by linarith [hf.massesRho1 i]) (hf.widthsRho1 i)).mpr hs)
  choose H hH using hh
  obtain ⟨w, hw⟩ := Option.isSome_iff_exists.mp (bwFW_isSome (s := q2) hf.massOmega hf.widthOmega)
  refine ⟨(H 0 / ((f.massesRho1 0 ^ 2 : ℝ) : ℂ) + (f.sigma : ℂ) * H 1 / ((f.massesRho1 1 ^ 2 : ℝ) : ℂ)) *
    (((f.couplingPre * f.massesRho1 0 ^ 2 * f.couplingPiPi : ℝ) : ℂ) * w /
      ((f.massOmega ^ 2 : ℝ) : ℂ)), fun c1 => ?_⟩
  unfold isoOne
  by_cases hc : c1 = 0
  · rw [if_pos hc, hc]; simp
  · rw [if_neg hc]
    simp only [hH, hw, Option.map_some, Option.bind_some, oadd]
    congr 1
    push_cast
    ring

/-- The allowed region in MeV². -/
def Allowed (q s t : ℝ) : Prop :=
  (mPi + mPi) ^ 2 ≤ s ∧ (mPi0 + mPi) ^ 2 ≤ t ∧
    (mPi0 + mPi) ^ 2 ≤ q ^ 2 + mPi0 ^ 2 + 2 * mPi ^ 2 - s - t

theorem allowed_iff (q s t : ℝ) : Allowed q s t ↔
    (gPi + gPi) ^ 2 ≤ s * 1e-6 ∧ (gPi0 + gPi) ^ 2 ≤ t * 1e-6 ∧
      (gPi0 + gPi) ^ 2 ≤ thirdInvariant (q ^ 2 * 1e-6) (s * 1e-6) (t * 1e-6) := by
  have e1 : (gPi + gPi) ^ 2 = (mPi + mPi) ^ 2 * 1e-6 := by unfold gPi; ring
  have e2 : (gPi0 + gPi) ^ 2 = (mPi0 + mPi) ^ 2 * 1e-6 := by unfold gPi gPi0; ring
  have e3 : thirdInvariant (q ^ 2 * 1e-6) (s * 1e-6) (t * 1e-6) =
      (q ^ 2 + mPi0 ^ 2 + 2 * mPi ^ 2 - s - t) * 1e-6 := by
    unfold thirdInvariant gPi gPi0; ring
  have h : (0 : ℝ) < 1e-6 := by norm_num
  unfold Allowed
  rw [e1, e2, e3, mul_le_mul_iff_of_pos_right h, mul_le_mul_iff_of_pos_right h,
    mul_le_mul_iff_of_pos_right h]

/-- **Where the three-pion form factor is a number.** Exactly where each of the three pairs
of pions has at least the sum of its masses as invariant mass; elsewhere it is NaN. -/
theorem three_pion_finite_iff (f : Fit3) (hf : Good f) (q s t : ℝ) (g : Couplings) :
    (threePion f q s t g).isSome ↔ Allowed q s t := by
  rw [allowed_iff]
  unfold threePion
  simp only [Option.isSome_map, oadd_isSome]
  constructor
  · rintro ⟨h, -⟩
    unfold isoZero at h
    simp only [oadd_isSome] at h
    have h2 := h.1.2
    rw [Option.isSome_iff_exists] at h2
    obtain ⟨a, ha⟩ := h2
    rw [Option.bind_eq_some_iff] at ha
    obtain ⟨b, -, hb⟩ := ha
    rw [Option.map_eq_some_iff] at hb
    obtain ⟨z, hz, -⟩ := hb
    exact (hrho_isSome _ _ _ (hf.massesRho0 1) (hf.widthsRho0 1)).mp
      (Option.isSome_iff_exists.mpr ⟨z, hz⟩)
  · rintro ⟨hs, ht, hu⟩
    obtain ⟨A, B, h1⟩ := isoZero_linear hf (q2 := q ^ 2 * 1e-6) hs ht hu
    obtain ⟨K, h2⟩ := isoOne_linear hf (q2 := q ^ 2 * 1e-6) hs
    rw [h1, h2]
    exact ⟨rfl, rfl⟩

/-- **Three pions: the couplings.** On the allowed region the form factor is one linear
function of the couplings to the quarks; the shortcut for `gvuu = gvdd` makes no
difference. -/
theorem three_pion_linear (f : Fit3) (hf : Good f) (q s t : ℝ) (h : Allowed q s t) :
    ∃ F : Couplings → ℂ, (∀ g, threePion f q s t g = some (F g)) ∧
      ∀ a b g g', F (comb a g b g') = a * F g + b * F g' := by
  rw [allowed_iff] at h
  obtain ⟨hs, ht, hu⟩ := h
  obtain ⟨A, B, h1⟩ := isoZero_linear hf (q2 := q ^ 2 * 1e-6) hs ht hu
  obtain ⟨K, h2⟩ := isoOne_linear hf (q2 := q ^ 2 * 1e-6) hs
  refine ⟨fun g => (ci0 g * A + cs g * B + ci1 g * K) * 1e-9, fun g => ?_, fun a b g g' => ?_⟩
  · unfold threePion
    simp only [h1, h2, oadd, Option.bind_some, Option.map_some]
  · simp only [ci0, ci1, cs, comb]
    push_cast
    ring

/-- **Charge conjugation.** Exchanging the two charged pions does not change the three-pion
form factor: `t` is replaced by the invariant mass of the neutral pion and the other
charged pion. -/
theorem three_pion_charge_conjugation (f : Fit3) (q s t : ℝ) (g : Couplings) :
    threePion f q s (q ^ 2 + mPi0 ^ 2 + 2 * mPi ^ 2 - s - t) g = threePion f q s t g := by
  have e1 : (q ^ 2 + mPi0 ^ 2 + 2 * mPi ^ 2 - s - t) * 1e-6 =
      thirdInvariant (q ^ 2 * 1e-6) (s * 1e-6) (t * 1e-6) := by
    unfold thirdInvariant gPi gPi0; ring
  have e2 : ∀ a b c : ℝ, thirdInvariant a b (thirdInvariant a b c) = c := by
    intro a b c; unfold thirdInvariant; ring
  have hsw : ∀ s t u m g, hrho s t u m g = hrho s u t m g := by
    intro s t u m g; unfold hrho; exact oadd_swap _ _ _
  unfold threePion
  simp only [e1, e2]
  unfold isoZero
  simp only [hsw (s * 1e-6) (thirdInvariant (q ^ 2 * 1e-6) (s * 1e-6) (t * 1e-6)) (t * 1e-6)]

theorem dot_bound {p k : P4} {m n : ℝ} (hm : 0 < m) (hn : 0 < n) (hp : mdot p p = m ^ 2)
    (hk : mdot k k = n ^ 2) (ep : 0 < p.e) (ek : 0 < k.e) : m * n ≤ mdot p k := by
  simp only [mdot] at *
  obtain ⟨A, hA⟩ : ∃ A, A = p.x ^ 2 + p.y ^ 2 + p.z ^ 2 := ⟨_, rfl⟩
  obtain ⟨B, hB⟩ : ∃ B, B = k.x ^ 2 + k.y ^ 2 + k.z ^ 2 := ⟨_, rfl⟩
  obtain ⟨d, hd⟩ : ∃ d, d = p.x * k.x + p.y * k.y + p.z * k.z := ⟨_, rfl⟩
  have hcs : d ^ 2 ≤ A * B := by
    rw [hA, hB, hd]
    nlinarith [sq_nonneg (p.x * k.y - p.y * k.x), sq_nonneg (p.x * k.z - p.z * k.x),
      sq_nonneg (p.y * k.z - p.z * k.y)]
  have h1 : p.e ^ 2 = m ^ 2 + A := by rw [hA]; linarith
  have h2 : k.e ^ 2 = n ^ 2 + B := by rw [hB]; linarith
  have hA0 : 0 ≤ A := by rw [hA]; positivity
  have hB0 : 0 ≤ B := by rw [hB]; positivity
  have hgoal : m * n + d ≤ p.e * k.e := by
    apply le_of_sq_le_sq _ (by positivity)
    rw [mul_pow, h1, h2]
    have hd2 : 2 * (m * n) * d ≤ m ^ 2 * B + n ^ 2 * A := by
      have hsq : (2 * (m * n) * d) ^ 2 ≤ (m ^ 2 * B + n ^ 2 * A) ^ 2 := by
        have : (m ^ 2 * B + n ^ 2 * A) ^ 2 - 4 * (m * n) ^ 2 * (A * B) =
          (m ^ 2 * B - n ^ 2 * A) ^ 2 := by ring
        nlinarith [sq_nonneg (m ^ 2 * B - n ^ 2 * A), mul_le_mul_of_nonneg_left hcs
          (show 0 ≤ 4 * (m * n) ^ 2 by positivity)]
      exact le_of_sq_le_sq hsq (by positivity)
    nlinarith
  linarith

theorem pair_mass {p k : P4} {m n : ℝ} (hm : 0 < m) (hn : 0 < n) (hp : mdot p p = m ^ 2)
    (hk : mdot k k = n ^ 2) (ep : 0 < p.e) (ek : 0 < k.e) :
    (m + n) ^ 2 ≤ mdot (add p k) (add p k) := by
  have h := dot_bound hm hn hp hk ep ek
  have e : mdot (add p k) (add p k) = mdot p p + mdot k k + 2 * mdot p k := by
    simp only [mdot, add]; ring
  rw [e, hp, hk]
  nlinarith

/-- **No NaN on phase space.** For the momenta of any three pions, the three-pion form
factor at their invariants is a number, the same one for the two charged pions
exchanged. -/
theorem three_pion_phase_space (f : Fit3) (hf : Good f) (p0 p1 p2 : P4) (q : ℝ) (g : Couplings)
    (h0 : mdot p0 p0 = mPi0 ^ 2) (h1 : mdot p1 p1 = mPi ^ 2) (h2 : mdot p2 p2 = mPi ^ 2)
    (e0 : 0 < p0.e) (e1 : 0 < p1.e) (e2 : 0 < p2.e)
    (hq : q ^ 2 = mdot (add p0 (add p1 p2)) (add p0 (add p1 p2))) :
    (threePion f q (mdot (add p1 p2) (add p1 p2)) (mdot (add p0 p2) (add p0 p2)) g).isSome ∧
      threePion f q (mdot (add p2 p1) (add p2 p1)) (mdot (add p0 p1) (add p0 p1)) g =
        threePion f q (mdot (add p1 p2) (add p1 p2)) (mdot (add p0 p2) (add p0 p2)) g := by
  have hp : 0 < mPi := by norm_num [mPi]
  have hp0 : 0 < mPi0 := by norm_num [mPi0]
  have hu : q ^ 2 + mPi0 ^ 2 + 2 * mPi ^ 2 - mdot (add p1 p2) (add p1 p2) -
      mdot (add p0 p2) (add p0 p2) = mdot (add p0 p1) (add p0 p1) := by
    rw [hq, ← h0]
    have : 2 * mPi ^ 2 = mdot p1 p1 + mdot p2 p2 := by rw [h1, h2]; ring
    rw [this]
    simp only [mdot, add]; ring
  constructor
  · rw [three_pion_finite_iff f hf]
    refine ⟨pair_mass hp hp h1 h2 e1 e2, pair_mass hp0 hp h0 h2 e0 e2, ?_⟩
    rw [hu]
    exact pair_mass hp0 hp h0 h1 e0 e1
  · rw [show mdot (add p2 p1) (add p2 p1) = mdot (add p1 p2) (add p1 p2) by
      simp only [mdot, add]; ring, ← hu]
    exact three_pion_charge_conjugation f q _ _ g

/-- Three pions of 1 GeV: a number in the middle of the Dalitz plot, NaN for a pair of
charged pions of 100 MeV. -/
example (g : Couplings) : (threePion fit3Default 1000 300000 300000 g).isSome ∧
    threePion fit3Default 1000 10000 300000 g = none := by
  constructor
  · rw [three_pion_finite_iff _ default_good]
    norm_num [Allowed, mPi, mPi0]
  · rw [← Option.not_isSome_iff_eq_none, three_pion_finite_iff _ default_good]
    norm_num [Allowed, mPi, mPi0]

/-! ### Two pions and an eta -/

/-- **Isovector channel.** The form factors of two pions and an eta or eta' depend on the
couplings through `gvuu - gvdd` only, and vanish where they are numbers if the two are
equal. -/
theorem eta_isovector (f : FitEta) (q s : ℝ) (g : Couplings) (c : ℝ) (x : ℝ) :
    piPiEta f q s ⟨g.u + c, g.d + c, x⟩ = piPiEta f q s g ∧
      piPiEtap f q s ⟨g.u + c, g.d + c, x⟩ = piPiEtap f q s g ∧
      (g.u = g.d → (∀ z, piPiEta f q s g = some z → z = 0) ∧
        ∀ z, piPiEtap f q s g = some z → z = 0) := by
  have hc : ∀ pre a b, etaCore pre f a b ⟨g.u + c, g.d + c, x⟩ = etaCore pre f a b g := by
    intro pre a b; unfold etaCore; simp only [add_sub_add_right_eq_sub]
  have hz : g.u = g.d → ∀ pre a b z, etaCore pre f a b g = some z → z = 0 := by
    intro hg pre a b z h
    unfold etaCore at h
    simp only [hg, sub_self, mul_zero, Complex.ofReal_zero, zero_mul] at h
    rw [Option.bind_eq_some_iff] at h
    obtain ⟨w, -, hw⟩ := h
    rw [Option.map_eq_some_iff] at hw
    obtain ⟨v, -, hv⟩ := hw
    exact hv.symm
  refine ⟨by unfold piPiEta; rw [hc], by unfold piPiEtap; rw [hc], fun hg => ⟨fun z h => ?_, fun z h => ?_⟩⟩
  · unfold piPiEta at h
    split_ifs at h with h1
    · exact (Option.some.inj h).symm
    · rw [Option.map_eq_some_iff] at h
      obtain ⟨w, hw, rfl⟩ := h
      rw [hz hg _ _ _ _ hw, zero_mul]
  · unfold piPiEtap at h
    rw [Option.map_eq_some_iff] at h
    obtain ⟨w, hw, rfl⟩ := h
    rw [hz hg _ _ _ _ hw, zero_mul]

/-- **Normalised amplitudes.** Only the ratios of the fitted amplitudes matter. -/
theorem eta_amplitude_scale (f : FitEta) (c : ℝ) (hc : c ≠ 0) (q s : ℝ) (g : Couplings) :
    piPiEta { f with amps := fun i => c * f.amps i } q s g = piPiEta f q s g ∧
      piPiEtap { f with amps := fun i => c * f.amps i } q s g = piPiEtap f q s g := by
  have hamp : ∀ i, etaAmp { f with amps := fun i => c * f.amps i } i = c * etaAmp f i := by
    intro i; unfold etaAmp; push_cast; ring
  have hc' : (c : ℂ) ≠ 0 := by exact_mod_cast hc
  have hdiv : ∀ a b : ℂ, cdiv (c * a) (c * b) = cdiv a b := by
    intro a b
    unfold cdiv
    by_cases hb : b = 0
    · rw [hb]; simp
    · rw [if_neg (mul_ne_zero hc' hb), if_neg hb, mul_div_mul_left _ _ hc']
  have hcore : ∀ pre a b, etaCore pre { f with amps := fun i => c * f.amps i } a b g =
      etaCore pre f a b g := by
    intro pre a b
    unfold etaCore
    simp only [hamp, ← mul_add, hdiv]
    rfl
  exact ⟨by unfold piPiEta; rw [hcore], by unfold piPiEtap; rw [hcore]⟩

/-- **Eta and eta'.** Above the threshold of the eta the two classes, given the same fit,
differ by the factor `√2` of the mixing of octet and singlet. -/
theorem etap_ratio (f : FitEta) (q s : ℝ) (g : Couplings) (hq : etaThreshold ≤ q) :
    piPiEtap f q s g = (piPiEta f q s g).map fun z => ((√2 : ℝ) : ℂ) * z := by
  unfold piPiEtap piPiEta
  rw [if_neg (not_lt.mpr hq), Option.map_map]
  have hp : etapPre = √2 * etaPre := by unfold etapPre etaPre; ring
  unfold etaCore
  rw [hp]
  cases etaBw0 f (s * 1e-6) with
  | none => rfl
  | some b =>
    simp only [Option.bind_some, Option.map_map]
    congr 1
    funext z
    simp only [Function.comp]
    push_cast
    ring

theorem etaBw0_isSome {f : FitEta} (hm : 2 * gPi < f.masses 0) (hw : 0 < f.widths 0) (s : ℝ) :
    (etaBw0 f s).isSome ↔ 4 * gPi ^ 2 ≤ s := by
  have hg : 0 < gPi := by norm_num [gPi, mPi]
  have h1 : 0 < f.masses 0 ^ 2 - 4 * gPi ^ 2 := by nlinarith
  unfold etaBw0
  constructor
  · intro h
    by_contra hc
    push Not at hc
    have hn : (s - 4 * gPi ^ 2) / (f.masses 0 ^ 2 - 4 * gPi ^ 2) < 0 :=
      div_neg_of_neg_of_pos (by linarith) h1
    simp only [pow15, hn, if_true, Option.bind_none, ite_self] at h
    exact absurd h (by simp)
  · intro h
    have hs : 0 < s := lt_of_lt_of_le (by positivity) h
    have hn : ¬ (s - 4 * gPi ^ 2) / (f.masses 0 ^ 2 - 4 * gPi ^ 2) < 0 := by
      push Not; exact div_nonneg (by linarith) h1.le
    simp only [hs.ne', h1.ne', or_self, if_false, pow15, hn, npSqrt, not_lt.mpr hs.le,
      Option.bind_some, cdiv]
    rw [if_neg]
    · rfl
    rw [den_minus]
    rintro ⟨h3, h4⟩
    have hs' : s = f.masses 0 ^ 2 := by linarith
    rw [hs', div_self h1.ne', Real.one_rpow] at h4
    have : 0 < f.masses 0 := by linarith
    have : 0 < √(f.masses 0 ^ 2) * (f.widths 0 * f.masses 0 ^ 2 / f.masses 0 ^ 2 * 1) := by positivity
    linarith

/-- Fits with positive masses and widths and amplitudes that do not cancel. -/
structure GoodEta (f : FitEta) : Prop where
  rho : 2 * gPi < f.masses 0
  masses : ∀ i, 0 < f.masses i
  widths : ∀ i, 0 < f.widths i
  total : etaAmp f 0 + etaAmp f 1 + etaAmp f 2 + etaAmp f 3 ≠ 0

theorem etaAmp_re (f : FitEta) (i : Fin 4) : (etaAmp f i).re = f.amps i * Real.cos (f.phases i) := by
  unfold etaAmp
  rw [mul_comm Complex.I, Complex.re_ofReal_mul, Complex.exp_ofReal_mul_I_re]

theorem default_good_eta : GoodEta fitEtaDefault := by
  refine ⟨by norm_num [fitEtaDefault, gPi, mPi], fun i => by fin_cases i <;> norm_num [fitEtaDefault],
    fun i => by fin_cases i <;> norm_num [fitEtaDefault], fun h => ?_⟩
  have h1 := congrArg Complex.re h
  simp only [Complex.add_re, etaAmp_re, Complex.zero_re] at h1
  have e : fitEtaDefault.amps 0 = 1 ∧ fitEtaDefault.amps 1 = 0.326 ∧ fitEtaDefault.amps 2 = 0.0115 ∧
    fitEtaDefault.amps 3 = 0 ∧ fitEtaDefault.phases 0 = 0 := ⟨rfl, rfl, rfl, rfl, rfl⟩
  rw [e.1, e.2.1, e.2.2.1, e.2.2.2.1, e.2.2.2.2, Real.cos_zero] at h1
  have := Real.neg_one_le_cos (fitEtaDefault.phases 1)
  have := Real.neg_one_le_cos (fitEtaDefault.phases 2)
  nlinarith

theorem default_good_etap : GoodEta fitEtapDefault := by
  refine ⟨by norm_num [fitEtapDefault, gPi, mPi], fun i => by fin_cases i <;> norm_num [fitEtapDefault],
    fun i => by fin_cases i <;> norm_num [fitEtapDefault], fun h => ?_⟩
  have h1 := congrArg Complex.re h
  simp only [Complex.add_re, etaAmp_re, Complex.zero_re] at h1
  have e : fitEtapDefault.amps 0 = 1 ∧ fitEtapDefault.amps 1 = 0 ∧ fitEtapDefault.amps 2 = 0 ∧
    fitEtapDefault.amps 3 = 0.02 ∧ fitEtapDefault.phases 0 = 0 := ⟨rfl, rfl, rfl, rfl, rfl⟩
  rw [e.1, e.2.1, e.2.2.1, e.2.2.2.1, e.2.2.2.2, Real.cos_zero] at h1
  have := Real.neg_one_le_cos (fitEtapDefault.phases 3)
  nlinarith

theorem etaBw_isSome {f : FitEta} (hf : GoodEta f) {s : ℝ} (hs : 4 * gPi ^ 2 ≤ s) (i : Fin 4) :
    (etaBw f s i).isSome := by
  have hg : 0 < gPi := by norm_num [gPi, mPi]
  have hs0 : 0 < s := lt_of_lt_of_le (by positivity) hs
  unfold etaBw
  split_ifs with h1 h2
  · exact (etaBw0_isSome hf.rho (hf.widths 0) s).mpr hs
  · exact absurd h2 (hf.masses i).ne'
  · simp only [npSqrt, not_lt.mpr hs0.le, if_false, Option.bind_some, cdiv]
    rw [if_neg]
    · rfl
    rw [den_minus]
    rintro ⟨-, h4⟩
    have := hf.masses i
    have := hf.widths i
    have : 0 < √s * (f.widths i * s / f.masses i ^ 2) := by positivity
    linarith

theorem etaCore_isSome {f : FitEta} (hf : GoodEta f) {pre q s : ℝ} (g : Couplings)
    (hq : 4 * gPi ^ 2 ≤ q ^ 2) : (etaCore pre f q s g).isSome ↔ 4 * gPi ^ 2 ≤ s := by
  have hsum : (sum4 fun i => (cdiv (etaAmp f i)
      (etaAmp f 0 + etaAmp f 1 + etaAmp f 2 + etaAmp f 3)).bind fun a =>
        (etaBw f (q ^ 2) i).map fun z => a * z).isSome := by
    unfold sum4 cdiv
    simp only [hf.total, if_false, Option.bind_some, oadd_isSome, Option.isSome_map,
      etaBw_isSome hf hq, and_self]
  rw [← etaBw0_isSome hf.rho (hf.widths 0) s]
  unfold etaCore
  obtain ⟨w, hw⟩ := Option.isSome_iff_exists.mp hsum
  simp only [hw]
  cases etaBw0 f s <;> simp

/-- **Where the eta form factors are numbers.** Above the threshold of the eta they are
numbers exactly when the pair of pions has at least twice the pion mass. -/
theorem eta_finite_iff (f : FitEta) (hf : GoodEta f) (q s : ℝ) (g : Couplings) (hq : mEta + 2 * mPi ≤ q) :
    ((piPiEta f q s g).isSome ↔ (2 * mPi) ^ 2 ≤ s) ∧
      ((piPiEtap f q s g).isSome ↔ (2 * mPi) ^ 2 ≤ s) := by
  have hq' : 4 * gPi ^ 2 ≤ (q * 1e-3) ^ 2 := by
    have h0 : 2 * mPi ≤ q := le_trans (by norm_num [mEta, mPi]) hq
    have h1 : 0 < mPi := by norm_num [mPi]
    have : (2 * mPi) ^ 2 ≤ q ^ 2 := pow_le_pow_left₀ (by positivity) h0 2
    unfold gPi
    nlinarith
  have hs : 4 * gPi ^ 2 ≤ s * 1e-6 ↔ (2 * mPi) ^ 2 ≤ s := by
    have e : 4 * gPi ^ 2 = (2 * mPi) ^ 2 * 1e-6 := by unfold gPi; ring
    rw [e, mul_le_mul_iff_of_pos_right (by norm_num)]
  unfold piPiEta piPiEtap
  rw [if_neg (not_lt.mpr (by unfold etaThreshold; linarith)), Option.isSome_map, Option.isSome_map, etaCore_isSome hf g hq',
    etaCore_isSome hf g hq', hs]
  exact ⟨Iff.rfl, Iff.rfl⟩

/-- Below its threshold the form factor of the eta is zero, whatever the other argument. -/
theorem eta_closed_partial (f : FitEta) (q s : ℝ) (g : Couplings) (hq : q < mEta + 2 * mPi) :
    piPiEta f q s g = some 0 := by
  unfold piPiEta; rw [if_pos (by unfold etaThreshold; linarith)]

/-- Only the rho in the first propagator. -/
noncomputable def onlyRho : FitEta :=
  ⟨![0.77549, 1.54, 1.76, 2.11], ![0.1494, 0.356, 0.113, 0.176], ![1, 0, 0, 0], ![0, 0, 0, 0]⟩

theorem onlyRho_good : GoodEta onlyRho := by
  refine ⟨by norm_num [onlyRho, gPi, mPi], fun i => by fin_cases i <;> norm_num [onlyRho],
    fun i => by fin_cases i <;> norm_num [onlyRho], fun h => ?_⟩
  have h1 := congrArg Complex.re h
  simp only [Complex.add_re, etaAmp_re, Complex.zero_re] at h1
  have e : onlyRho.amps 0 = 1 ∧ onlyRho.amps 1 = 0 ∧ onlyRho.amps 2 = 0 ∧ onlyRho.amps 3 = 0 ∧
    onlyRho.phases 0 = 0 := ⟨rfl, rfl, rfl, rfl, rfl⟩
  rw [e.1, e.2.1, e.2.2.1, e.2.2.2.1, e.2.2.2.2, Real.cos_zero] at h1
  norm_num at h1

theorem etaBw0_ne_zero {f : FitEta} (hm : f.masses 0 ≠ 0) {s : ℝ} {z : ℂ} (h : etaBw0 f s = some z) :
    z ≠ 0 := by
  unfold etaBw0 at h
  simp only at h
  split_ifs at h with h1
  rw [Option.bind_eq_some_iff] at h
  obtain ⟨r, -, h⟩ := h
  rw [Option.bind_eq_some_iff] at h
  obtain ⟨rs, -, h⟩ := h
  unfold cdiv at h
  split_ifs at h with h2
  rw [← Option.some.inj h]
  refine div_ne_zero ?_ h2
  exact_mod_cast pow_ne_zero 2 hm

/-- **The eta' has no threshold.** With the rho alone in the fit and `gvuu ≠ gvdd`, the form
factor of the eta' is a number different from zero for every energy between twice the
pion mass and the threshold; that of the eta vanishes below its own. -/
theorem etap_below_threshold (q s : ℝ) (g : Couplings) (hg : g.u ≠ g.d) (hs : (2 * mPi) ^ 2 ≤ s)
    (hq0 : 2 * mPi ≤ q) : ∃ z, piPiEtap onlyRho q s g = some z ∧ z ≠ 0 := by
  have hq' : 4 * gPi ^ 2 ≤ (q * 1e-3) ^ 2 := by
    have h1 : 0 < mPi := by norm_num [mPi]
    have : (2 * mPi) ^ 2 ≤ q ^ 2 := pow_le_pow_left₀ (by positivity) hq0 2
    unfold gPi
    nlinarith
  have hs' : 4 * gPi ^ 2 ≤ s * 1e-6 := by
    have e : 4 * gPi ^ 2 = (2 * mPi) ^ 2 * 1e-6 := by unfold gPi; ring
    rw [e]; exact mul_le_mul_of_nonneg_right hs (by norm_num)
  obtain ⟨a, ha⟩ := Option.isSome_iff_exists.mp
    ((etaBw0_isSome onlyRho_good.rho (onlyRho_good.widths 0) _).mpr hs')
  obtain ⟨b, hb⟩ := Option.isSome_iff_exists.mp (etaBw_isSome onlyRho_good hq' 0)
  obtain ⟨b1, hb1⟩ := Option.isSome_iff_exists.mp (etaBw_isSome onlyRho_good hq' 1)
  obtain ⟨b2, hb2⟩ := Option.isSome_iff_exists.mp (etaBw_isSome onlyRho_good hq' 2)
  obtain ⟨b3, hb3⟩ := Option.isSome_iff_exists.mp (etaBw_isSome onlyRho_good hq' 3)
  have hm : onlyRho.masses 0 ≠ 0 := (onlyRho_good.masses 0).ne'
  have hb0 : b ≠ 0 := by
    apply etaBw0_ne_zero hm (s := (q * 1e-3) ^ 2)
    rw [← hb]; unfold etaBw; rw [if_pos rfl]
  have A0 : etaAmp onlyRho 0 = 1 := by simp [etaAmp, onlyRho]
  have A1 : etaAmp onlyRho 1 = 0 := by simp [etaAmp, onlyRho]
  have A2 : etaAmp onlyRho 2 = 0 := by simp [etaAmp, onlyRho]
  have A3 : etaAmp onlyRho 3 = 0 := by simp [etaAmp, onlyRho]
  have hpre : etapPre ≠ 0 := by
    unfold etapPre gFpi
    have := Real.pi_pos
    positivity
  refine ⟨((etapPre * (g.u - g.d) : ℝ) : ℂ) * a * b * 1e-9, ?_, ?_⟩
  · unfold piPiEtap etaCore sum4
    simp only [ha, hb, hb1, hb2, hb3, A0, A1, A2, A3, cdiv, add_zero, one_ne_zero, if_false, div_one,
      Option.bind_some, Option.map_some, oadd, one_mul, zero_mul]
  · refine mul_ne_zero (mul_ne_zero (mul_ne_zero ?_ (etaBw0_ne_zero hm ha)) hb0) (by norm_num)
    exact_mod_cast mul_ne_zero hpre (sub_ne_zero.mpr hg)

/-- 500 MeV is far below the eta'. -/
example : (500 : ℝ) < etapThreshold ∧ ∃ z, piPiEtap onlyRho 500 100000 ⟨1, 0, 0⟩ = some z ∧ z ≠ 0 :=
  ⟨by norm_num [etapThreshold, mEtap, mPi],
    etap_below_threshold _ _ _ (by norm_num) (by norm_num [mPi]) (by norm_num [mPi])⟩

/-! ### Two pions and an omega -/

/-- **Arrays of energies.** The form factor of two pions and an omega of an array of
energies is never the array of its values: one energy gives a number, three energies give
the sum of one term of the fit at each energy, any other number of energies raises. -/
theorem omega_array (f : FitOmega) (g : Couplings) (qs : List ℝ) :
    piPiOmegaArray f qs g ≠ .array (qs.map fun q => piPiOmega f q g) ∧
      (qs.length ≠ 1 → qs.length ≠ 3 → piPiOmegaArray f qs g = .valueError) ∧
      (∀ q, qs = [q] → piPiOmegaArray f qs g = .scalar (piPiOmega f q g)) := by
  refine ⟨?_, ?_, ?_⟩
  · unfold piPiOmegaArray; split <;> simp
  · intro h1 h3
    unfold piPiOmegaArray
    split
    · simp at h1
    · simp at h3
    · rfl
  · rintro q rfl
    rfl

/-- Three times the same energy gives the value at it, once. -/
example (f : FitOmega) (g : Couplings) (q : ℝ) :
    piPiOmegaArray f [q, q, q] g = .scalar (piPiOmega f q g) := by
  simp only [piPiOmegaArray, piPiOmega, Fin.sum_univ_three]

/-- **Isoscalar channel.** Depends on `gvuu + gvdd` only and is linear in the couplings. -/
theorem omega_isoscalar (f : FitOmega) (q : ℝ) (a b : ℝ) (g g' : Couplings) (c x : ℝ) :
    piPiOmega f q ⟨g.u + c, g.d - c, x⟩ = piPiOmega f q g ∧
      piPiOmega f q (comb a g b g') = a * piPiOmega f q g + b * piPiOmega f q g' := by
  constructor
  · unfold piPiOmega
    rw [show g.u + c + (g.d - c) = g.u + g.d by ring]
  · unfold piPiOmega
    simp only [comb]
    push_cast
    ring

/-- **Identical pions.** The integrated form factor is the phase-space integral of the
squared form factor times the polarisation sum for charged pions, half of it for
neutral ones. -/
theorem omega_identical (f : FitOmega) (g : Couplings) (q : ℝ) :
    (mOmega + mPi + mPi < q → omegaIntegrated .charged f g q =
      ThreeBody.integrateQuad (VectorThree.ppvState (mOmega, mPi, mPi) (fun q => ‖piPiOmega f q g‖) q)) ∧
    (mOmega + mPi0 + mPi0 < q → omegaIntegrated .neutral f g q =
      ThreeBody.integrateQuad
        (VectorThree.ppvState (mOmega, mPi0, mPi0) (fun q => ‖piPiOmega f q g‖) q) / 2) ∧
    (q ≤ mOmega + mPi + mPi → omegaIntegrated .charged f g q = 0) ∧
    (q ≤ mOmega + mPi0 + mPi0 → omegaIntegrated .neutral f g q = 0) := by
  have h1 : 0 < mOmega := by norm_num [mOmega]
  have h2 : 0 ≤ mPi := by norm_num [mPi]
  have h3 : 0 ≤ mPi0 := by norm_num [mPi0]
  refine ⟨fun h => ?_, fun h => ?_, fun h => ?_, fun h => ?_⟩
  · unfold omegaIntegrated omegaMasses
    rw [VectorThree.ppv_is_phase_space _ _ _ _ _ h1 h2 h2 h]
    norm_num
  · unfold omegaIntegrated omegaMasses
    rw [VectorThree.ppv_is_phase_space _ _ _ _ _ h1 h3 h3 h]
    norm_num; ring
  · unfold omegaIntegrated omegaMasses VectorThree.ppvIntegrated
    simp only [if_neg (not_lt.mpr h), mul_zero]
  · unfold omegaIntegrated omegaMasses VectorThree.ppvIntegrated
    simp only [if_neg (not_lt.mpr h), mul_zero]

/-! ### A pion and two kaons -/

/-- **Exchange of the kaons.** With `s` and `t` the squared masses of the pairs of particles
two and three and one and three of `fsp_masses` (a kaon and the pion), the neutral-pion
channels are symmetric. -/
theorem kk_exchange_partial (mode : KKMode) (hm : mode ≠ .mixed) (f : FitKK) (q s t : ℝ) (g : Couplings) :
    piKK mode f q s t g = piKK mode f q t s g := by
  cases mode with
  | neutral => simp only [piKK, kkCore, kkGeV, kkMasses, add_comm]
  | charged => simp only [piKK, kkCore, kkGeV, kkMasses, add_comm]
  | mixed => exact absurd rfl hm

theorem kstar_injective {s s' m1 m2 : ℝ} (h : kstar s m1 m2 = kstar s' m1 m2) : s = s' := by
  have hk : ((ksMass ^ 2 : ℝ) : ℂ) ≠ 0 := by
    have : ksMass ^ 2 ≠ 0 := by norm_num [ksMass]
    exact_mod_cast this
  unfold kstar bwPwave at h
  rw [div_left_inj' hk, div_eq_mul_inv, div_eq_mul_inv] at h
  have h2 := inv_injective (mul_left_cancel₀ hk h)
  have h3 := congrArg Complex.re h2
  simp only [Complex.sub_re, Complex.ofReal_re, Complex.mul_re, Complex.I_re, Complex.I_im,
    Complex.ofReal_im] at h3
  linarith

/-- **The documented variables.** If `s` is the squared mass of the two kaons and `t` that of
the pion and a kaon, as documented, exchanging the kaons replaces `t` by the third
invariant `u`; the neutral channels are then never symmetric away from `t = u`. -/
theorem kk_documented_variables (mode : KKMode) (hm : mode ≠ .mixed) (f : FitKK) (q s t u : ℝ)
    (g : Couplings) (h : piKK mode f q s t g ≠ 0) (htu : t ≠ u) :
    piKK mode f q s u g ≠ piKK mode f q s t g := by
  intro he
  apply htu
  have hn : (1e-9 : ℂ) ≠ 0 := by norm_num
  have hc : ∀ {c a b d : ℂ}, c * (a + b) * 1e-9 ≠ 0 → c * (a + d) * 1e-9 = c * (a + b) * 1e-9 → d = b := by
    intro c a b d h0 h1
    have hc0 : c ≠ 0 := by rintro rfl; simp at h0
    have := mul_left_cancel₀ hc0 (mul_right_cancel₀ hn h1)
    exact add_left_cancel this
  have ht : ∀ m1 m2 : ℝ, kstar (1e-6 * u) m1 m2 = kstar (1e-6 * t) m1 m2 → t = u := by
    intro m1 m2 hk
    have := kstar_injective hk
    linarith
  cases mode with
  | neutral => exact ht _ _ (hc h he)
  | charged => exact ht _ _ (hc h he)
  | mixed => exact absurd rfl hm

/-- **Charge symmetry.** Exchanging the couplings of up and down quarks exchanges charged and
neutral kaons: with common masses, the two neutral-pion channels go into each other, the
charged-pion channel into itself with the kaons exchanged. -/
theorem kk_charge_symmetry (f : FitKK) (q s t u d x m1 m2 m3 : ℝ) :
    kkCore .charged (m1, m2, m3) f q s t ⟨u, d, x⟩ = kkCore .neutral (m1, m2, m3) f q s t ⟨d, u, x⟩ ∧
      kkCore .mixed (m1, m2, m3) f q s t ⟨u, d, x⟩ =
        kkCore .mixed (m2, m1, m3) f q t s ⟨d, u, x⟩ := by
  have h0 : isoA0 f q ⟨u, d, x⟩ = isoA0 f q ⟨d, u, x⟩ := rfl
  have h1 : isoA1 f q ⟨u, d, x⟩ = -isoA1 f q ⟨d, u, x⟩ := by
    unfold isoA1
    rw [← Finset.sum_neg_distrib]
    refine Finset.sum_congr rfl fun i _ => ?_
    push_cast
    ring
  constructor
  · simp only [kkCore, h0, h1]; ring
  · simp only [kkCore, h0, h1]; ring

/-- **Isospin relation.** With common masses, the charged-pion channel averaged over the
exchange of the kaons is the mean of the two neutral-pion channels. -/
theorem kk_isospin_relation (f : FitKK) (q s t m m3 : ℝ) (g : Couplings) :
    kkCore .mixed (m, m, m3) f q s t g + kkCore .mixed (m, m, m3) f q t s g =
      kkCore .neutral (m, m, m3) f q s t g + kkCore .charged (m, m, m3) f q s t g := by
  simp only [kkCore]; ring

/-- **Couplings.** The form factors of a pion and two kaons are linear in the couplings and
do not change when `gvuu` and `gvdd` are shifted together. -/
theorem kk_couplings (mode : KKMode) (f : FitKK) (q s t a b c : ℝ) (g g' : Couplings) :
    piKK mode f q s t (comb a g b g') = a * piKK mode f q s t g + b * piKK mode f q s t g' ∧
      piKK mode f q s t ⟨g.u + c, g.d + c, g.s⟩ = piKK mode f q s t g := by
  have h0 : ∀ q, isoA0 f q (comb a g b g') = a * isoA0 f q g + b * isoA0 f q g' := by
    intro q
    unfold isoA0
    rw [Finset.mul_sum, Finset.mul_sum, ← Finset.sum_add_distrib]
    refine Finset.sum_congr rfl fun i _ => ?_
    simp only [comb]
    push_cast
    ring
  have h1 : ∀ q, isoA1 f q (comb a g b g') = a * isoA1 f q g + b * isoA1 f q g' := by
    intro q
    unfold isoA1
    rw [Finset.mul_sum, Finset.mul_sum, ← Finset.sum_add_distrib]
    refine Finset.sum_congr rfl fun i _ => ?_
    simp only [comb]
    push_cast
    ring
  have h2 : ∀ q, isoA1 f q ⟨g.u + c, g.d + c, g.s⟩ = isoA1 f q g := by
    intro q; unfold isoA1; simp only [add_sub_add_right_eq_sub]
  have h3 : ∀ q, isoA0 f q ⟨g.u + c, g.d + c, g.s⟩ = isoA0 f q g := fun q => rfl
  constructor
  · cases mode <;> simp only [piKK, kkCore, kkGeV, h0, h1] <;> ring
  · cases mode <;> simp only [piKK, kkCore, kkGeV, h2, h3]

/-- Only the rho, coupled with strength one. -/
noncomputable def kkRho : FitKK :=
  ⟨![1, 1, 1], ![1, 1, 1], ![0, 0, 0], ![0, 0, 0], ![1, 1, 1], ![1, 1, 1], ![1, 0, 0], ![0, 0, 0], 1⟩

/-- A case of the failure for the documented variables. -/
example : ∃ t u : ℝ, t ≠ u ∧ piKK .neutral kkRho 2000 1000000 u ⟨1, 0, 0⟩ ≠
    piKK .neutral kkRho 2000 1000000 t ⟨1, 0, 0⟩ := by
  have hinj : ∀ t u : ℝ, t ≠ u → piKK .neutral kkRho 2000 1000000 t ⟨1, 0, 0⟩ ≠ 0 →
      piKK .neutral kkRho 2000 1000000 u ⟨1, 0, 0⟩ ≠ piKK .neutral kkRho 2000 1000000 t ⟨1, 0, 0⟩ :=
    fun t u h h' => kk_documented_variables .neutral (by simp) kkRho 2000 1000000 t u _ h' h
  have hA0 : isoA0 kkRho (1e-3 * 2000) ⟨1, 0, 0⟩ = 0 := by simp [isoA0]
  have hA1 : isoA1 kkRho (1e-3 * 2000) ⟨1, 0, 0⟩ ≠ 0 := by
    unfold isoA1
    rw [Fin.sum_univ_three]
    have e : bwFW ((1e-3 * 2000) ^ 2) (kkRho.vectorMasses 0) (kkRho.vectorWidths 0) ≠ 0 := by
      have := bwFW_value (s := (1e-3 * 2000) ^ 2) (m := 1) (w := 1) one_pos one_pos
      unfold bwFW
      refine div_ne_zero (by norm_num [kkRho]) ?_
      rw [Ne, den_minus]
      norm_num [kkRho]
    simp [kkRho] at e ⊢
    exact e
  have hk : ∀ t u : ℝ, t ≠ u → piKK .neutral kkRho 2000 1000000 t ⟨1, 0, 0⟩ ≠
      piKK .neutral kkRho 2000 1000000 u ⟨1, 0, 0⟩ := by
    intro t u htu he
    simp only [piKK, kkCore, hA0, zero_add] at he
    have h6 : ((√6 : ℝ) : ℂ) ≠ 0 := by
      have : √(6 : ℝ) ≠ 0 := by positivity
      exact_mod_cast this
    have hc : isoA1 kkRho (1e-3 * 2000) ⟨1, 0, 0⟩ / ((√6 : ℝ) : ℂ) * 2 * (kkRho.gKs : ℂ) ≠ 0 := by
      refine mul_ne_zero (mul_ne_zero (div_ne_zero hA1 h6) two_ne_zero) ?_
      simp [kkRho]
    have := add_left_cancel (mul_left_cancel₀ hc (mul_right_cancel₀ (by norm_num : (1e-9 : ℂ) ≠ 0) he))
    have := kstar_injective this
    apply htu
    linarith
  exact ⟨500000, 600000, by norm_num, (hk _ _ (by norm_num)).symm⟩

/-! ### Integer energies -/

/-- **Integer energies.** The integrated form factor of an integer energy is that of the
`float` with its fractional part dropped: at most it, less than one smaller, and zero
whenever it is below one. -/
theorem integer_energy (v : ℝ) (hv : 0 ≤ v) :
    stored false v = v ∧ stored true v ≤ v ∧ v < stored true v + 1 ∧ (v < 1 → stored true v = 0) := by
  unfold stored
  simp only [if_true, if_pos hv]
  refine ⟨by simp, Int.floor_le v, Int.lt_floor_add_one v, fun h => ?_⟩
  rw [Int.floor_eq_zero_iff.mpr ⟨hv, h⟩]
  simp

theorem ppp_quadratic (ms : ℝ × ℝ × ℝ) (F : ℝ → ℝ → ℝ → ℝ) (e q : ℝ) :
    VectorThree.pppIntegrated ms (fun q s t => e * F q s t) q = e ^ 2 * VectorThree.pppIntegrated ms F q := by
  unfold VectorThree.pppIntegrated
  split_ifs
  · unfold ThreeBody.integrateQuad ThreeBody.create
    simp only [mul_pow, mul_assoc]
    simp only [intervalIntegral.integral_const_mul]
    ring
  · simp

theorem ppp2_quadratic (ms : ℝ × ℝ × ℝ) (F : ℝ → ℝ → ℝ) (e q : ℝ) :
    VectorThree.ppp2Integrated ms (fun q s => e * F q s) q = e ^ 2 * VectorThree.ppp2Integrated ms F q := by
  have h : ∀ s, VectorThree.ppp2Partial ms (fun q s => e * F q s) q s =
      e ^ 2 * VectorThree.ppp2Partial ms F q s := by
    intro s; unfold VectorThree.ppp2Partial; simp only [mul_pow]; ring
  unfold VectorThree.ppp2Integrated
  simp only [h]
  split_ifs
  · rw [intervalIntegral.integral_const_mul]; ring
  · simp

theorem ppv_quadratic (ms : ℝ × ℝ × ℝ) (F : ℝ → ℝ) (e q : ℝ) :
    VectorThree.ppvIntegrated ms (fun q => e * F q) q = e ^ 2 * VectorThree.ppvIntegrated ms F q := by
  unfold VectorThree.ppvIntegrated
  simp only [mul_pow]
  split_ifs
  · ring
  · simp

theorem small_factor {v : ℝ} (hv : 0 < v) : ∃ e : ℝ, 0 < e ∧ 0 < e ^ 2 * v ∧ e ^ 2 * v < 1 := by
  have h0 : 0 < 1 / (1 + v) := by positivity
  refine ⟨√(1 / (1 + v)), Real.sqrt_pos.mpr h0, ?_, ?_⟩
  · rw [Real.sq_sqrt h0.le]; positivity
  · rw [Real.sq_sqrt h0.le, one_div, inv_mul_lt_iff₀ (by positivity)]; linarith

/-- **Integer energies lose the answer.** In all three kinds of three-meson channels: if the
integrated form factor is positive at some energy, then for small enough couplings it is
positive there and the call with that energy as an integer returns zero. -/
theorem integer_energy_zero (ms : ℝ × ℝ × ℝ) (q : ℝ) :
    (∀ F, 0 < VectorThree.pppIntegrated ms F q → ∃ e : ℝ, 0 < e ∧
      0 < VectorThree.pppIntegrated ms (fun q s t => e * F q s t) q ∧
      stored true (VectorThree.pppIntegrated ms (fun q s t => e * F q s t) q) = 0) ∧
    (∀ F, 0 < VectorThree.ppp2Integrated ms F q → ∃ e : ℝ, 0 < e ∧
      0 < VectorThree.ppp2Integrated ms (fun q s => e * F q s) q ∧
      stored true (VectorThree.ppp2Integrated ms (fun q s => e * F q s) q) = 0) ∧
    (∀ F, 0 < VectorThree.ppvIntegrated ms F q → ∃ e : ℝ, 0 < e ∧
      0 < VectorThree.ppvIntegrated ms (fun q => e * F q) q ∧
      stored true (VectorThree.ppvIntegrated ms (fun q => e * F q) q) = 0) := by
  refine ⟨fun F h => ?_, fun F h => ?_, fun F h => ?_⟩ <;> obtain ⟨e, h1, h2, h3⟩ := small_factor h
  · exact ⟨e, h1, by rw [ppp_quadratic]; exact h2,
      by rw [ppp_quadratic]; exact (integer_energy _ h2.le).2.2.2 h3⟩
  · exact ⟨e, h1, by rw [ppp2_quadratic]; exact h2,
      by rw [ppp2_quadratic]; exact (integer_energy _ h2.le).2.2.2 h3⟩
  · exact ⟨e, h1, by rw [ppv_quadratic]; exact h2,
      by rw [ppv_quadratic]; exact (integer_energy _ h2.le).2.2.2 h3⟩

/-- Three massless mesons of 2 MeV with a constant form factor. -/
example : 0 < VectorThree.ppp2Integrated (0, 0, 0) (fun _ _ => 1) 2 := by
  have e : VectorThree.ppp2Integrated (0, 0, 0) (fun _ _ => 1) 2 =
      2 ^ 2 * ∫ x in (2 * (0 / 2) : ℝ)..((0 / 2) ^ 2 + (1 - (0 / 2 + 0 / 2) ^ 2)),
        VectorThree.ppp2Partial (0, 0, 0) (fun _ _ => 1) 2 (2 ^ 2 * (1 - x + (0 / 2) ^ 2)) := by
    unfold VectorThree.ppp2Integrated; exact if_pos (by norm_num)
  have h : ∀ x ∈ Set.uIcc (0 : ℝ) 1,
      VectorThree.ppp2Partial (0, 0, 0) (fun _ _ => 1) 2 (2 ^ 2 * (1 - x + (0 / 2) ^ 2)) =
      (256 / (16 * (2 * Real.pi) ^ 3 * 2 ^ 2 * 288)) * (x ^ 3 - x ^ 4) := by
    intro x hx
    rw [Set.uIcc_of_le (by norm_num)] at hx
    unfold VectorThree.ppp2Partial
    simp only
    rw [show Kinematics.kallenLambda (2 ^ 2 * (1 - x + (0 / 2) ^ 2)) (2 ^ 2) (0 ^ 2) *
          Kinematics.kallenLambda (2 ^ 2 * (1 - x + (0 / 2) ^ 2)) (0 ^ 2) (0 ^ 2) =
        (16 * (1 - x) * x) ^ 2 by unfold Kinematics.kallenLambda; ring,
      Real.sqrt_sq (by nlinarith [hx.1, hx.2])]
    have := Real.pi_ne_zero
    by_cases h1 : 1 - x = 0
    · have : x = 1 := by linarith
      rw [this]; norm_num
    · have e : (1 : ℝ) - x + (0 / 2) ^ 2 = 1 - x := by ring
      rw [e]
      field_simp
      ring
  have hp := Real.pi_pos
  rw [e, show (2 * (0 / 2) : ℝ) = 0 by norm_num,
    show ((0 / 2) ^ 2 + (1 - (0 / 2 + 0 / 2) ^ 2) : ℝ) = 1 by norm_num,
    intervalIntegral.integral_congr h, intervalIntegral.integral_const_mul,
    intervalIntegral.integral_sub (by simp) (by simp), integral_pow, integral_pow]
  norm_num
  positivity

end Hazma.MesonThree
