import Verif.Props.RhTree
import Verif.Lemmas.Chiral

/-!
# The matrix elements of the right-handed neutrino and the weak interaction

`_widths.py` types the squared matrix elements of `N → ν ℓ ℓ`, `ν π π`, `ℓ π π⁰` and the width of
`N → ν ν ν`.  They are compared with the four-fermion interaction `2√2 G_F (ν̄ γ^μ P_L N) J_μ`, the
neutrino mixing being `u`.
-/

namespace Hazma.WeakDecays

open Hazma Hazma.RhNeutrino Hazma.Dirac Hazma.SelfScattering Hazma.Kinematics
open Hazma.ThreeBody
open Hazma.PhaseSpace Set MeasureTheory

/-! ## Feynman rules -/

/-- Four-momenta of `N(P) → 1 2 3`. -/
structure Decay (M m1 m2 m3 : ℝ) (P p1 p2 p3 : Fin 4 → ℝ) : Prop where
  total : P = p1 + p2 + p3
  onN : mink P P = M ^ 2
  on1 : mink p1 p1 = m1 ^ 2
  on2 : mink p2 p2 = m2 ^ 2
  on3 : mink p3 p3 = m3 ^ 2

/-- The variables of the code: `s = (p₂ + p₃)²`, `t = (p₁ + p₃)²`. -/
def sOf (p2 p3 : Fin 4 → ℝ) : ℝ := mink (p2 + p3) (p2 + p3)
def tOf (p1 p3 : Fin 4 → ℝ) : ℝ := mink (p1 + p3) (p1 + p3)

/-- `|M|²` of two currents `ū(a) γ P_L u(b)` and `ū(c) γ (gL P_L + gR P_R) u(d)` with coupling `2√2 G`,
averaged over the two spins of the decaying particle.  Antifermions have negative mass in the spin sum. -/
noncomputable def currents (G gL gR : ℝ) (a : Fin 4 → ℝ) (k : ℝ) (b : Fin 4 → ℝ) (l : ℝ)
    (c : Fin 4 → ℝ) (m : ℝ) (d : Fin 4 → ℝ) (n : ℝ) : ℂ :=
  8 * (G : ℂ) ^ 2 / 2 * ∑ i, ∑ j, eta i * eta j * (line 1 0 a k b l i j * line gL gR c m d n i j)

/-- `|M|²` of `ū(a) γ^μ P_L u(b)` and `g q_μ`. -/
noncomputable def currentMeson (G : ℝ) (g : ℂ) (a : Fin 4 → ℝ) (k : ℝ) (b : Fin 4 → ℝ) (l : ℝ) (q : Fin 4 → ℝ) : ℂ :=
  8 * (G : ℂ) ^ 2 / 2 * (‖g‖ ^ 2 : ℝ)
    * ∑ i, ∑ j, eta i * eta j * (line 1 0 a k b l i j * ((q i : ℂ) * (q j : ℂ)))

theorem currents_eq (G gL gR : ℝ) (a b c d : Fin 4 → ℝ) (k l m n : ℝ) :
    currents G gL gR a k b l c m d n = ((64 * G ^ 2 * (gL ^ 2 * (mink a c * mink b d)
      + gR ^ 2 * (mink a d * mink b c) - gL * gR * m * n * mink a b) : ℝ) : ℂ) := by
  unfold currents
  rw [line_line_chiral]
  push_cast
  ring

theorem currentMeson_eq (G : ℝ) (g : ℂ) (a b q : Fin 4 → ℝ) (k l : ℝ) :
    currentMeson G g a k b l q = ((8 * G ^ 2 * ‖g‖ ^ 2 * (2 * mink a q * mink b q - mink q q * mink a b) : ℝ) : ℂ) := by
  unfold currentMeson
  simp only [line_eq, Fin.sum_univ_four]
  simp [eta, symPart, anti, metric, mink]
  ring

/-- Products of the momenta in terms of `s` and `t`. -/
theorem products {M m1 m2 m3 : ℝ} {P p1 p2 p3 : Fin 4 → ℝ} (h : Decay M m1 m2 m3 P p1 p2 p3) :
    2 * mink p2 p3 = sOf p2 p3 - m2 ^ 2 - m3 ^ 2
    ∧ 2 * mink p1 p3 = tOf p1 p3 - m1 ^ 2 - m3 ^ 2
    ∧ 2 * mink p1 p2 = M ^ 2 + m3 ^ 2 - sOf p2 p3 - tOf p1 p3
    ∧ 2 * mink P p1 = M ^ 2 + m1 ^ 2 - sOf p2 p3
    ∧ 2 * mink P p2 = M ^ 2 + m2 ^ 2 - tOf p1 p3
    ∧ 2 * mink P p3 = sOf p2 p3 + tOf p1 p3 - m1 ^ 2 - m2 ^ 2 := by
  obtain ⟨rfl, hP, h1, h2, h3⟩ := h
  simp only [sOf, tOf, mink, Pi.add_apply] at *
  refine ⟨?_, ?_, ?_, ?_, ?_, ?_⟩ <;> linarith

/-- The decay with the third particle at rest. -/
theorem decay_exists {M md ml : ℝ} (hd : 0 < md) (hopen : md + ml < M) :
    ∃ k E : ℝ, 0 < k ∧ 0 < E ∧ M = k + E + ml
      ∧ Decay M 0 md ml (![k, 0, 0, k] + ![E, 0, 0, -k] + ![ml, 0, 0, 0]) ![k, 0, 0, k] ![E, 0, 0, -k] ![ml, 0, 0, 0] := by
  obtain ⟨w, hw⟩ : ∃ w, w = M - ml := ⟨_, rfl⟩
  have hw0 : md < w := by linarith
  have hwp : 0 < w := hd.trans hw0
  obtain ⟨k, hk⟩ : ∃ k, k = (w ^ 2 - md ^ 2) / (2 * w) := ⟨_, rfl⟩
  obtain ⟨E, hE⟩ : ∃ E, E = (w ^ 2 + md ^ 2) / (2 * w) := ⟨_, rfl⟩
  have hk0 : 0 < k := by
    rw [hk]; exact div_pos (by nlinarith) (by linarith)
  have hE0 : 0 < E := by rw [hE]; positivity
  have hsum : k + E = w := by rw [hk, hE]; field_simp; ring
  have hsh : E ^ 2 = k ^ 2 + md ^ 2 := by rw [hk, hE]; field_simp; ring
  have hM : M = k + E + ml := by rw [hsum, hw]; ring
  refine ⟨k, E, hk0, hE0, hM, rfl, ?_, ?_, ?_, ?_⟩
  · simp only [mink, Pi.add_apply]
    simp
    rw [hM]
    ring
  · simp [mink]
  · simp [mink]; linarith
  · simp [mink, sq]

/-! ## Lepton pairs -/

/-- Coupling of a charged lepton of generation `g` to a left-handed current of generation `gen`: `Z`
exchange, plus `W` exchange (rearranged by Fierz) for the same generation. -/
noncomputable def gLeft (gen g : Gen) : ℝ := -(1 / 2) + sw2 + if g = gen then 1 else 0

/-- **C284.** The squared matrix element of `N → ν ℓ ℓ̄` is that of the weak interaction, with the mean of
the decays to the neutrino and to the antineutrino. -/
theorem lepton_pair (c : Core) (g : Gen) {P p1 p2 p3 : Fin 4 → ℝ}
    (h : Decay c.mx 0 (lepMass g) (lepMass g) P p1 p2 p3) :
    (((msqrdVLL c c.gen g g).1 (sOf p2 p3) (tOf p1 p3) : ℝ) : ℂ)
      = (currents (gf * c.u) (gLeft c.gen g) sw2 p1 0 P c.mx p2 (lepMass g) p3 (-lepMass g)
        + currents (gf * c.u) (gLeft c.gen g) sw2 P (-c.mx) p1 0 p2 (lepMass g) p3 (-lepMass g)) / 2 := by
  obtain ⟨h23, h13, h12, hP1, hP2, hP3⟩ := products h
  rw [currents_eq, currents_eq, mink_comm p1 P]
  have e12 : mink p1 p2 = (c.mx ^ 2 + lepMass g ^ 2 - sOf p2 p3 - tOf p1 p3) / 2 := by linarith
  have e13 : mink p1 p3 = (tOf p1 p3 - 0 ^ 2 - lepMass g ^ 2) / 2 := by linarith
  have eP1 : mink P p1 = (c.mx ^ 2 + 0 ^ 2 - sOf p2 p3) / 2 := by linarith
  have eP2 : mink P p2 = (c.mx ^ 2 + lepMass g ^ 2 - tOf p1 p3) / 2 := by linarith
  have eP3 : mink P p3 = (sOf p2 p3 + tOf p1 p3 - 0 ^ 2 - lepMass g ^ 2) / 2 := by linarith
  rw [e12, e13, eP1, eP2, eP3]
  by_cases hg : g = c.gen
  · subst hg
    simp only [msqrdVLL, and_self, if_true, gLeft, msqrdVFF]
    push_cast
    ring
  · have hg' : c.gen ≠ g := fun e => hg e.symm
    simp only [msqrdVLL, gLeft, msqrdVFF, hg, hg', and_self, and_true, false_and, and_false, if_true, if_false]
    push_cast
    ring

/-- Beside C284: the masses returned with the matrix element are those of the momenta. -/
theorem lepton_pair_masses (c : Core) (g : Gen) :
    (msqrdVLL c c.gen g g).2 = [0, lepMass g, lepMass g] := by
  by_cases hg : c.gen = g <;> simp [msqrdVLL, hg]

/-- A muon neutrino of 300 MeV decaying to an electron pair, the positron at rest. -/
example : ∃ P p1 p2 p3 : Fin 4 → ℝ, Decay 300 0 (lepMass .fst) (lepMass .fst) P p1 p2 p3
    ∧ 0 < mink p1 p2 ∧ 0 < mink P p3 := by
  obtain ⟨k, E, hk, hE, -, h⟩ := decay_exists (M := 300) (lepMass_pos .fst) (ml := lepMass .fst)
    (by simp only [lepMass]; norm_num)
  refine ⟨_, _, _, _, h, ?_, ?_⟩
  · simp [mink]; positivity
  · have := lepMass_pos .fst
    simp [mink]; positivity

/-! ## Two pions -/

/-- **C284.** `N → ν π π`: the vector current of the `Z`, `(1 - 2 s_W²)/2` times the electromagnetic one. -/
theorem pion_pair (env : Env) (c : Core) {P p1 p2 p3 : Fin 4 → ℝ} (h : Decay c.mx 0 mPi mPi P p1 p2 p3) :
    ((msqrdVPiPi env c (sOf p2 p3) (tOf p1 p3) : ℝ) : ℂ)
      = currentMeson (gf * c.u) (((1 - 2 * sw2) / 2 : ℝ) * env.ff (Real.sqrt (sOf p2 p3))) p1 0 P c.mx (p2 - p3) := by
  obtain ⟨h23, h13, h12, hP1, hP2, hP3⟩ := products h
  have on2 := h.on2
  have on3 := h.on3
  rw [currentMeson_eq, norm_mul, Complex.norm_real, Real.norm_eq_abs, mul_pow |((1 - 2 * sw2) / 2)|, sq_abs]
  have q1 : mink p1 (p2 - p3) = mink p1 p2 - mink p1 p3 := by simp [mink]; ring
  have qP : mink P (p2 - p3) = mink P p2 - mink P p3 := by simp [mink]; ring
  have qq : mink (p2 - p3) (p2 - p3) = mink p2 p2 + mink p3 p3 - 2 * mink p2 p3 := by simp [mink]; ring
  rw [q1, qP, qq, on2, on3, h23, mink_comm p1 P]
  obtain ⟨F, hF⟩ : ∃ F, F = ‖env.ff (Real.sqrt (sOf p2 p3))‖ := ⟨_, rfl⟩
  rw [msqrdVPiPi, ← hF]
  generalize sOf p2 p3 = s at *
  generalize tOf p1 p3 = t at *
  have e12 : mink p1 p2 = (c.mx ^ 2 + mPi ^ 2 - s - t) / 2 := by linarith
  have e13 : mink p1 p3 = (t - 0 ^ 2 - mPi ^ 2) / 2 := by linarith
  have eP1 : mink P p1 = (c.mx ^ 2 + 0 ^ 2 - s) / 2 := by linarith
  have eP2 : mink P p2 = (c.mx ^ 2 + mPi ^ 2 - t) / 2 := by linarith
  have eP3 : mink P p3 = (s + t - 0 ^ 2 - mPi ^ 2) / 2 := by linarith
  rw [e12, e13, eP1, eP2, eP3]
  congr 1
  ring

/-- **C284.** `N → ℓ π π⁰`, for pions of one mass: half the weak isovector current, whose matrix element is
`√2` times the electromagnetic one. -/
theorem charged_pion_pair (env : Env) (c : Core) {P p1 p2 p3 : Fin 4 → ℝ}
    (h : Decay c.mx (lepMass c.gen) mPi mPi P p1 p2 p3) :
    ((msqrdLPi0Pi env c (sOf p2 p3) (tOf p1 p3) : ℝ) : ℂ)
      = currentMeson (gf * c.u) (env.vud * (1 / 2) * ((Real.sqrt 2 : ℝ) * env.ff (Real.sqrt (sOf p2 p3))))
          p1 (lepMass c.gen) P c.mx (p2 - p3) := by
  obtain ⟨h23, h13, h12, hP1, hP2, hP3⟩ := products h
  have on2 := h.on2
  have on3 := h.on3
  have n2 : ‖((Real.sqrt 2 : ℝ) : ℂ)‖ = Real.sqrt 2 := by
    rw [Complex.norm_real, Real.norm_eq_abs, abs_of_nonneg (Real.sqrt_nonneg 2)]
  rw [currentMeson_eq, norm_mul, norm_mul, norm_mul, n2]
  have q1 : mink p1 (p2 - p3) = mink p1 p2 - mink p1 p3 := by simp [mink]; ring
  have qP : mink P (p2 - p3) = mink P p2 - mink P p3 := by simp [mink]; ring
  have qq : mink (p2 - p3) (p2 - p3) = mink p2 p2 + mink p3 p3 - 2 * mink p2 p3 := by simp [mink]; ring
  rw [q1, qP, qq, on2, on3, h23, mink_comm p1 P]
  obtain ⟨F, hF⟩ : ∃ F, F = ‖env.ff (Real.sqrt (sOf p2 p3))‖ := ⟨_, rfl⟩
  rw [msqrdLPi0Pi, ← hF]
  generalize lepMass c.gen = m at *
  generalize sOf p2 p3 = s at *
  generalize tOf p1 p3 = t at *
  have e12 : mink p1 p2 = (c.mx ^ 2 + mPi ^ 2 - s - t) / 2 := by linarith
  have e13 : mink p1 p3 = (t - m ^ 2 - mPi ^ 2) / 2 := by linarith
  have eP1 : mink P p1 = (c.mx ^ 2 + m ^ 2 - s) / 2 := by linarith
  have eP2 : mink P p2 = (c.mx ^ 2 + mPi ^ 2 - t) / 2 := by linarith
  have eP3 : mink P p3 = (s + t - m ^ 2 - mPi ^ 2) / 2 := by linarith
  rw [e12, e13, eP1, eP2, eP3]
  have h2 : Real.sqrt 2 ^ 2 = 2 := Real.sq_sqrt (by norm_num)
  norm_cast
  simp only [mul_pow, h2, norm_div, norm_one, Complex.norm_ofNat]
  ring

/-! ## Leptons of two flavours -/

/-- **C284.** `N → ℓ⁻ (d⁺ ν_d)`, `ℓ` of the flavour of `N`: the two charge states have the same `|M|²`,
proportional to `(P·d)(ν·ℓ)`. -/
theorem two_flavours_weak (G M ml md : ℝ) {P nu d l : Fin 4 → ℝ} (h : Decay M 0 md ml P nu d l) :
    currents G 1 0 l ml P M nu 0 d (-md)
        = ((16 * G ^ 2 * (M ^ 2 + md ^ 2 - tOf nu l) * (tOf nu l - ml ^ 2) : ℝ) : ℂ)
    ∧ currents G 1 0 P (-M) l (-ml) d md nu 0
        = ((16 * G ^ 2 * (M ^ 2 + md ^ 2 - tOf nu l) * (tOf nu l - ml ^ 2) : ℝ) : ℂ) := by
  obtain ⟨h23, h13, h12, hP1, hP2, hP3⟩ := products h
  have e13 : mink nu l = (tOf nu l - 0 ^ 2 - ml ^ 2) / 2 := by linarith
  have eP2 : mink P d = (M ^ 2 + md ^ 2 - tOf nu l) / 2 := by linarith
  rw [currents_eq, currents_eq, mink_comm l nu, e13, eP2]
  constructor <;> congr 1 <;> ring

/-- **C284 fails here.** The matrix element of the code for `N → ν_d d ℓ` is proportional to `(P·ℓ)(ν·d)`:
the two leptons have exchanged their parts. -/
theorem two_flavours_exchanged (c : Core) (g : Gen) (hg : g ≠ c.gen) {P nu d l : Fin 4 → ℝ}
    (h : Decay c.mx 0 (lepMass g) (lepMass c.gen) P nu d l) :
    (((msqrdVLL c g g c.gen).1 (sOf d l) (tOf nu l) : ℝ) : ℂ)
      = currents (gf * c.u) 1 0 d (lepMass g) P c.mx nu 0 l (-lepMass c.gen) := by
  obtain ⟨h23, h13, h12, hP1, hP2, hP3⟩ := products h
  have hg' : c.gen ≠ g := fun e => hg e.symm
  have e12 : mink nu d = (c.mx ^ 2 + lepMass c.gen ^ 2 - sOf d l - tOf nu l) / 2 := by linarith
  have eP3 : mink P l = (sOf d l + tOf nu l - 0 ^ 2 - lepMass g ^ 2) / 2 := by linarith
  rw [currents_eq, mink_comm d nu, e12, eP3]
  simp only [msqrdVLL, msqrdLUD, hg, hg', false_and, and_self, if_true, if_false, and_false]
  congr 1
  ring

/-- **C284 fails here.** With the lepton of the flavour of `N` at rest, the code exceeds the weak interaction. -/
theorem two_flavours_differ (c : Core) (g : Gen) (hg : g ≠ c.gen) (hu : c.u ≠ 0)
    (hopen : lepMass g + lepMass c.gen < c.mx) :
    ∃ P nu d l : Fin 4 → ℝ, Decay c.mx 0 (lepMass g) (lepMass c.gen) P nu d l
      ∧ 0 < nu 0 ∧ 0 < d 0 ∧ 0 < l 0
      ∧ (currents (gf * c.u) 1 0 l (lepMass c.gen) P c.mx nu 0 d (-lepMass g)).re
          < (msqrdVLL c g g c.gen).1 (sOf d l) (tOf nu l) := by
  have hd := lepMass_pos g
  have hl := lepMass_pos c.gen
  obtain ⟨k, E, hk0, hE0, hMs, hdec⟩ := decay_exists hd hopen
  refine ⟨_, _, _, _, hdec, by simpa using hk0, by simpa using hE0, by simpa using hl, ?_⟩
  have h1 := two_flavours_exchanged c g hg hdec
  rw [currents_eq] at h1
  have h2 := Complex.ofReal_injective h1
  rw [h2, currents_eq, Complex.ofReal_re]
  have hG : 0 < (gf * c.u) ^ 2 := by
    have : gf ≠ 0 := by unfold gf; norm_num
    positivity
  have hM : 0 < c.mx := by linarith
  simp only [mink, Pi.add_apply]
  simp
  rw [← sub_pos]
  have : 64 * (gf * c.u) ^ 2 * (k ^ 2 * lepMass c.gen * c.mx) > 0 := by positivity
  refine this.trans_eq ?_
  rw [hMs]
  ring

/-- **C284.** The other order of the arguments passes the momenta of the leptons in the order `(ℓ, d)`: the
parts are then right, with the two squared masses exchanged. -/
theorem two_flavours_masses (c : Core) (g : Gen) (hg : g ≠ c.gen) {P nu l d : Fin 4 → ℝ}
    (h : Decay c.mx 0 (lepMass c.gen) (lepMass g) P nu l d) :
    (msqrdVLL c g c.gen g).1 (sOf l d) (tOf nu d)
      = 16 * (gf * c.u) ^ 2 * (2 * mink nu l + lepMass c.gen ^ 2 - lepMass g ^ 2)
        * (2 * mink P d + lepMass c.gen ^ 2 - lepMass g ^ 2) := by
  obtain ⟨h23, h13, h12, hP1, hP2, hP3⟩ := products h
  have hg' : c.gen ≠ g := fun e => hg e.symm
  rw [h12, hP3]
  simp only [msqrdVLL, msqrdLUD, hg, hg', false_and, and_self, if_true, if_false, and_false]
  ring

/-- The integral over phase space does not notice which of the last two particles plays which part. -/
theorem exchange_integral (c : Core) {md ml : ℝ} (hd : 0 ≤ md) (hl : 0 ≤ ml) (hM : 0 < c.mx) (h : ml + md ≤ c.mx) :
    phaseSpaceWidth c.mx (0, md, ml) (msqrdLUD c 0 md ml)
      = phaseSpaceWidth c.mx (0, md, ml)
          (fun _ t => 16 * (gf * c.u) ^ 2 * (c.mx ^ 2 + md ^ 2 - t) * (t - ml ^ 2)) := by
  have e1 : ∀ f : ℝ → ℝ → ℝ, Continuous (fun z : ℝ × ℝ => f z.1 z.2) →
      (∫ x in (boundsX c.mx 0 md ml).1..(boundsX c.mx 0 md ml).2,
        ∫ y in (boundsY c.mx 0 md ml x).1..(boundsY c.mx 0 md ml x).2, f x y)
      = ∫ y in (boundsX c.mx md 0 ml).1..(boundsX c.mx md 0 ml).2,
        ∫ x in (boundsY c.mx md 0 ml y).1..(boundsY c.mx md 0 ml y).2, f x y := by
    intro f hc
    rw [iterated_eq hM le_rfl hd hl (by linarith), ← iterated_swap hM le_rfl hd hl hc,
      ← iterated_eq hM hd le_rfl hl (by linarith) (fun y x => f x y)]
  unfold phaseSpaceWidth integrateQuad create
  simp only
  congr 2
  have a1 : ∀ x y, msqrdLUD c 0 md ml (c.mx ^ 2 * (1 - x + (0 / c.mx) ^ 2))
        (c.mx ^ 2 * (1 - y + (md / c.mx) ^ 2)) = 16 * gf ^ 2 * c.u ^ 2 * c.mx ^ 4 *
      ((y + x - 1 + (ml / c.mx) ^ 2 - (md / c.mx) ^ 2 - (0 / c.mx) ^ 2) * (2 - y - x)) := by
    intro x y
    unfold msqrdLUD
    field_simp
    ring
  have a2 : ∀ y, 16 * (gf * c.u) ^ 2 * (c.mx ^ 2 + md ^ 2 - c.mx ^ 2 * (1 - y + (md / c.mx) ^ 2))
        * (c.mx ^ 2 * (1 - y + (md / c.mx) ^ 2) - ml ^ 2) = 16 * gf ^ 2 * c.u ^ 2 * c.mx ^ 4 *
      ((1 - y + (md / c.mx) ^ 2 - (0 / c.mx) ^ 2 - (ml / c.mx) ^ 2) * y) := by
    intro y
    field_simp
    ring
  simp only [a1, a2, intervalIntegral.integral_const_mul]
  congr 1
  rw [e1 _ (by fun_prop), e1 (fun _ y => (1 - y + (md / c.mx) ^ 2 - (0 / c.mx) ^ 2 - (ml / c.mx) ^ 2) * y) (by fun_prop)]
  exact contraction_exchange hM hd le_rfl hl (by linarith)

/-- **C284.** The width of the channel is that of the weak interaction all the same. -/
theorem two_flavours_width (c : Core) (g : Gen) (hg : g ≠ c.gen) (h : lepMass g + lepMass c.gen ≤ c.mx)
    (W : ℝ → ℝ → ℝ)
    (hW : W = fun _ t => 16 * (gf * c.u) ^ 2 * (c.mx ^ 2 + lepMass g ^ 2 - t) * (t - lepMass c.gen ^ 2)) :
    (∀ P nu d l, Decay c.mx 0 (lepMass g) (lepMass c.gen) P nu d l →
      currents (gf * c.u) 1 0 l (lepMass c.gen) P c.mx nu 0 d (-lepMass g) = (W (sOf d l) (tOf nu l) : ℂ))
    ∧ widthVLL c g g c.gen = phaseSpaceWidth c.mx (0, lepMass g, lepMass c.gen) W
    ∧ widthVLL c g c.gen g = phaseSpaceWidth c.mx (0, lepMass g, lepMass c.gen) W := by
  have hM : 0 < c.mx := by linarith [lepMass_pos g, lepMass_pos c.gen]
  have e1 : c.gen ≠ g := fun h => hg h.symm
  have ew : widthVLL c g g c.gen = widthLUD c 0 (lepMass g) (lepMass c.gen) := by
    simp [widthVLL, e1]
  have ew' : widthVLL c g c.gen g = widthLUD c 0 (lepMass g) (lepMass c.gen) := by
    simp [widthVLL, e1]
  have key : widthLUD c 0 (lepMass g) (lepMass c.gen) = phaseSpaceWidth c.mx (0, lepMass g, lepMass c.gen) W := by
    rw [hW, ← exchange_integral c (lepMass_pos g).le (lepMass_pos _).le hM (by linarith)]
    exact l_u_d_phase_space c le_rfl (lepMass_pos g).le (lepMass_pos _).le hM (by linarith)
  refine ⟨?_, ew.trans key, ew'.trans key⟩
  intro P nu d l hdec
  rw [(two_flavours_weak (gf * c.u) c.mx (lepMass c.gen) (lepMass g) hdec).1, hW]

/-! ## Three neutrinos -/

/-- **C284.** The width for three neutrinos, two of them of another generation than `N`, is that of `Z`
exchange, for which each neutrino has coupling `1/2`. -/
theorem three_neutrinos (c : Core) (g : Gen) (hg : g ≠ c.gen) (hM : 0 < c.mx) (W : ℝ → ℝ → ℝ)
    (hW : W = fun s t => 4 * (gf * c.u) ^ 2 * (c.mx ^ 2 - s - t) * (s + t)) :
    (∀ P p1 p2 p3, Decay c.mx 0 0 0 P p1 p2 p3 →
      currents (gf * c.u) (1 / 2) 0 p1 0 P c.mx p2 0 p3 0 = (W (sOf p2 p3) (tOf p1 p3) : ℂ))
    ∧ widthVVV c g = phaseSpaceWidth c.mx (0, 0, 0) W := by
  constructor
  · intro P p1 p2 p3 h
    obtain ⟨h23, h13, h12, hP1, hP2, hP3⟩ := products h
    have e12 : mink p1 p2 = (c.mx ^ 2 + 0 ^ 2 - sOf p2 p3 - tOf p1 p3) / 2 := by linarith
    have eP3 : mink P p3 = (sOf p2 p3 + tOf p1 p3 - 0 ^ 2 - 0 ^ 2) / 2 := by linarith
    rw [currents_eq, e12, eP3, hW]
    congr 1
    ring
  · have e : phaseSpaceWidth c.mx (0, 0, 0) W = 1 / 4 * phaseSpaceWidth c.mx (0, 0, 0) (msqrdLUD c 0 0 0) := by
      have hf : W = fun s t => 1 / 4 * msqrdLUD c 0 0 0 s t := by
        rw [hW]; funext s t; unfold msqrdLUD; ring
      rw [hf]
      unfold phaseSpaceWidth integrateQuad create
      simp only [intervalIntegral.integral_const_mul]
      ring
    rw [e, ← l_u_d_phase_space c le_rfl le_rfl le_rfl hM (by linarith)]
    rw [widthLUD, if_neg (by push Not; linarith), widthVVV, if_neg hg]
    simp only [zero_div]
    have hI : ∫ x in ((0 + 0 : ℝ) ^ 2)..((1 - 0) ^ 2), integrandLUD 0 0 0 x = 1 := by
      have : ∫ x in ((0 + 0 : ℝ) ^ 2)..((1 - 0) ^ 2), integrandLUD 0 0 0 x
          = ∫ x in (0 : ℝ)..1, (12 * x ^ 1 - 24 * x ^ 2 + 12 * x ^ 3) := by
        rw [show ((0 + 0 : ℝ) ^ 2) = 0 by norm_num, show ((1 - 0 : ℝ) ^ 2) = 1 by norm_num]
        apply intervalIntegral.integral_congr
        intro x hx
        rw [uIcc_of_le zero_le_one] at hx
        simp only [integrandLUD, kallenLambda]
        have hr : Real.sqrt ((x ^ 2 + ((0 : ℝ) ^ 2) ^ 2 + (0 ^ 2) ^ 2 - 2 * x * 0 ^ 2 - 2 * x * 0 ^ 2 - 2 * 0 ^ 2 * 0 ^ 2)
            * (1 ^ 2 + x ^ 2 + (0 ^ 2) ^ 2 - 2 * 1 * x - 2 * 1 * 0 ^ 2 - 2 * x * 0 ^ 2)) = x * (1 - x) := by
          rw [show (x ^ 2 + ((0 : ℝ) ^ 2) ^ 2 + (0 ^ 2) ^ 2 - 2 * x * 0 ^ 2 - 2 * x * 0 ^ 2 - 2 * 0 ^ 2 * 0 ^ 2)
            * (1 ^ 2 + x ^ 2 + (0 ^ 2) ^ 2 - 2 * 1 * x - 2 * 1 * 0 ^ 2 - 2 * x * 0 ^ 2) = (x * (1 - x)) ^ 2 by ring]
          exact Real.sqrt_sq (mul_nonneg hx.1 (by linarith [hx.2]))
        rw [hr]
        rcases eq_or_ne x 0 with h0 | h0
        · rw [h0]; norm_num
        · field_simp
          ring
      rw [this, intervalIntegral.integral_add (by apply Continuous.intervalIntegrable; fun_prop)
        (by apply Continuous.intervalIntegrable; fun_prop),
        intervalIntegral.integral_sub (by apply Continuous.intervalIntegrable; fun_prop)
        (by apply Continuous.intervalIntegrable; fun_prop)]
      simp only [intervalIntegral.integral_const_mul, integral_pow]
      norm_num
    rw [hI]
    ring

/-! ## One meson -/

/-- Four-momenta of `N(P) → ℓ(k) h(q)`. -/
structure Decay2 (M ml mh : ℝ) (P k q : Fin 4 → ℝ) : Prop where
  total : P = k + q
  onN : mink P P = M ^ 2
  onL : mink k k = ml ^ 2
  onH : mink q q = mh ^ 2

/-- `|M|²` of `ū(a) γ^μ P_L u(b)` and `g ε_μ`, summed over the polarisations `-g_{μν} + q_μ q_ν / m²`. -/
noncomputable def currentVector (G : ℝ) (g : ℂ) (a : Fin 4 → ℝ) (k : ℝ) (b : Fin 4 → ℝ) (l : ℝ) (q : Fin 4 → ℝ)
    (mh : ℝ) : ℂ :=
  8 * (G : ℂ) ^ 2 / 2 * (‖g‖ ^ 2 : ℝ)
    * ∑ i, ∑ j, eta i * eta j * (line 1 0 a k b l i j * ((-metric i j + q i * q j / mh ^ 2 : ℝ) : ℂ))

/-- `Γ = |M|² √λ(1, xh², xℓ²) / (16 π M)`. -/
noncomputable def twoBody (M ml mh sq : ℝ) : ℝ :=
  sq * Real.sqrt (kallenLambda 1 ((mh / M) ^ 2) ((ml / M) ^ 2)) / (16 * Real.pi * M)

theorem products2 {M ml mh : ℝ} {P k q : Fin 4 → ℝ} (h : Decay2 M ml mh P k q) :
    2 * mink k P = M ^ 2 + ml ^ 2 - mh ^ 2 ∧ 2 * mink P q = M ^ 2 + mh ^ 2 - ml ^ 2
      ∧ 2 * mink k q = M ^ 2 - ml ^ 2 - mh ^ 2 := by
  obtain ⟨rfl, hP, h1, h2⟩ := h
  simp only [mink, Pi.add_apply] at *
  refine ⟨?_, ?_, ?_⟩ <;> linarith

theorem currentMeson_value {M ml mh : ℝ} {P k q : Fin 4 → ℝ} (h : Decay2 M ml mh P k q) (G : ℝ) (g : ℂ) :
    (currentMeson G g k ml P M q).re
      = 4 * G ^ 2 * ‖g‖ ^ 2 * ((M ^ 2 - ml ^ 2) ^ 2 - mh ^ 2 * (M ^ 2 + ml ^ 2)) := by
  obtain ⟨e1, e2, e3⟩ := products2 h
  rw [currentMeson_eq, Complex.ofReal_re, h.onH,
    show mink k q = (M ^ 2 - ml ^ 2 - mh ^ 2) / 2 by linarith,
    show mink P q = (M ^ 2 + mh ^ 2 - ml ^ 2) / 2 by linarith,
    show mink k P = (M ^ 2 + ml ^ 2 - mh ^ 2) / 2 by linarith]
  ring

theorem currentVector_value {M ml mh : ℝ} {P k q : Fin 4 → ℝ} (hmh : mh ≠ 0) (h : Decay2 M ml mh P k q) (G : ℝ) (g : ℂ) :
    (currentVector G g k ml P M q mh).re
      = 4 * G ^ 2 * ‖g‖ ^ 2 * ((M ^ 2 - ml ^ 2) ^ 2 + mh ^ 2 * (M ^ 2 + ml ^ 2) - 2 * mh ^ 4) / mh ^ 2 := by
  have e : currentVector G g k ml P M q mh
      = ((8 * G ^ 2 * ‖g‖ ^ 2 * (2 * mink k P + (2 * mink k q * mink P q - mink q q * mink k P) / mh ^ 2) : ℝ) : ℂ) := by
    unfold currentVector
    simp only [line_eq, Fin.sum_univ_four]
    simp [eta, symPart, anti, metric, mink]
    ring
  obtain ⟨e1, e2, e3⟩ := products2 h
  rw [e, Complex.ofReal_re, h.onH,
    show mink k q = (M ^ 2 - ml ^ 2 - mh ^ 2) / 2 by linarith,
    show mink P q = (M ^ 2 + mh ^ 2 - ml ^ 2) / 2 by linarith,
    show mink k P = (M ^ 2 + ml ^ 2 - mh ^ 2) / 2 by linarith]
  field_simp
  ring

/-- `√λ(1, x², 0) = 1 - x²`. -/
theorem root_massless {M mh : ℝ} (hM : 0 < M) (hmh : 0 ≤ mh) (h : mh ≤ M) :
    Real.sqrt (kallenLambda 1 ((mh / M) ^ 2) ((0 / M) ^ 2)) = 1 - (mh / M) ^ 2 := by
  have h1 : mh / M ≤ 1 := by rw [div_le_one hM]; exact h
  have h2 : 0 ≤ mh / M := by positivity
  rw [show kallenLambda 1 ((mh / M) ^ 2) ((0 / M) ^ 2) = (1 - (mh / M) ^ 2) ^ 2 by unfold kallenLambda; ring]
  exact Real.sqrt_sq (by nlinarith)

/-- **C285.** A lepton and a charged vector meson: `⟨0| V |h⟩ = g_h ε`, half of it in the weak current. -/
theorem lepton_vector_meson (c : Core) {ml mh : ℝ} (g : ℝ) (ckm : ℂ) (hM : 0 < c.mx) (hmh : 0 < mh)
    (hopen : ml + mh ≤ c.mx) {P k q : Fin 4 → ℝ} (h : Decay2 c.mx ml mh P k q) :
    widthLHv c ml mh g ckm
      = twoBody c.mx ml mh (currentVector (gf * c.u) (ckm * (g / 2 : ℝ)) k ml P c.mx q mh).re := by
  rw [currentVector_value hmh.ne' h, widthLHv, if_neg (by linarith), norm_mul, Complex.norm_real, Real.norm_eq_abs,
    mul_pow ‖ckm‖, sq_abs]
  simp only [twoBody]
  generalize Real.sqrt _ = r
  field_simp
  ring

/-- The vector part of the `Z` current of a quark with third component `t3` of isospin and charge `Q`. -/
noncomputable def zVec (t3 Q : ℝ) : ℝ := t3 / 2 - Q * sw2
/-- The same for a meson with amplitudes `cu`, `cd`, `cs` of `ūu`, `d̄d`, `s̄s`. -/
noncomputable def zMeson (cu cd cs : ℝ) : ℝ :=
  cu * zVec (1 / 2) (2 / 3) + cd * zVec (-1 / 2) (-1 / 3) + cs * zVec (-1 / 2) (-1 / 3)

theorem widthVHv_eq (c : Core) {mh : ℝ} (kh g : ℝ) (hM : 0 < c.mx) (hmh : 0 < mh) (hopen : mh ≤ c.mx) (z r : ℝ)
    (hz : kh ^ 2 = 8 * r * z ^ 2) {P k q : Fin 4 → ℝ} (h : Decay2 c.mx 0 mh P k q) :
    widthVHv c mh kh g
      = r * twoBody c.mx 0 mh (currentVector (gf * c.u) ((z * g : ℝ) : ℂ) k 0 P c.mx q mh).re := by
  rw [currentVector_value hmh.ne' h, widthVHv, if_neg (by linarith), Complex.norm_real, Real.norm_eq_abs, sq_abs, twoBody,
    root_massless hM hmh.le hopen]
  simp only [div_pow, mul_pow, hz]
  field_simp
  ring

/-- **C285.** A neutrino and `ρ⁰ = (ūu - d̄d)/√2`: the width of the weak interaction. -/
theorem neutrino_rho (c : Core) (hM : 0 < c.mx) (hopen : mRho ≤ c.mx) {P k q : Fin 4 → ℝ} (h : Decay2 c.mx 0 mRho P k q) :
    widthVHv c mRho (1 - 2 * sw2) 0.162e6 = twoBody c.mx 0 mRho (currentVector (gf * c.u)
      ((zMeson (1 / Real.sqrt 2) (-(1 / Real.sqrt 2)) 0 * 0.162e6 : ℝ) : ℂ) k 0 P c.mx q mRho).re := by
  rw [widthVHv_eq c (1 - 2 * sw2) 0.162e6 hM (by norm_num [mRho]) hopen _ 1 ?_ h, one_mul]
  have h2 : Real.sqrt 2 ^ 2 = 2 := Real.sq_sqrt (by norm_num)
  have h0 : Real.sqrt 2 ≠ 0 := by positivity
  unfold zMeson zVec
  field_simp
  rw [h2]
  ring

/-- **C285 fails here.** A neutrino and `ω = (ūu + d̄d)/√2`: four times the width of the weak interaction. -/
theorem neutrino_omega (c : Core) (hM : 0 < c.mx) (hopen : mOmega ≤ c.mx) {P k q : Fin 4 → ℝ}
    (h : Decay2 c.mx 0 mOmega P k q) :
    widthVHv c mOmega (4 / 3 * sw2) 0.153e6 = 4 * twoBody c.mx 0 mOmega (currentVector (gf * c.u)
      ((zMeson (1 / Real.sqrt 2) (1 / Real.sqrt 2) 0 * 0.153e6 : ℝ) : ℂ) k 0 P c.mx q mOmega).re := by
  rw [widthVHv_eq c (4 / 3 * sw2) 0.153e6 hM (by norm_num [mOmega]) hopen _ 4 ?_ h]
  have h2 : Real.sqrt 2 ^ 2 = 2 := Real.sq_sqrt (by norm_num)
  have h0 : Real.sqrt 2 ≠ 0 := by positivity
  unfold zMeson zVec
  field_simp
  rw [h2]
  ring

/-- **C285 fails here.** A neutrino and `φ = s̄s`: twice the width of the weak interaction. -/
theorem neutrino_phi (c : Core) (hM : 0 < c.mx) (hopen : mPhi ≤ c.mx) {P k q : Fin 4 → ℝ} (h : Decay2 c.mx 0 mPhi P k q) :
    widthVHv c mPhi (4 / 3 * sw2 - 1) 0.234e6 = 2 * twoBody c.mx 0 mPhi (currentVector (gf * c.u)
      ((zMeson 0 0 1 * 0.234e6 : ℝ) : ℂ) k 0 P c.mx q mPhi).re := by
  rw [widthVHv_eq c (4 / 3 * sw2 - 1) 0.234e6 hM (by norm_num [mPhi]) hopen _ 2 ?_ h]
  unfold zMeson zVec
  ring

/-- **C285 fails here.** A neutrino and a neutral pseudoscalar with `⟨0| A³ |P⟩ = f q`, half of it in the
current of the `Z`: the code has a quarter of the width. -/
theorem neutrino_pseudoscalar (c : Core) {mh : ℝ} (f : ℝ) (hM : 0 < c.mx) (hmh : 0 ≤ mh) (hopen : mh ≤ c.mx)
    {P k q : Fin 4 → ℝ} (h : Decay2 c.mx 0 mh P k q) :
    4 * widthVHp c mh f
      = twoBody c.mx 0 mh (currentMeson (gf * c.u) ((f / 2 : ℝ) : ℂ) k 0 P c.mx q).re := by
  rw [currentMeson_value h, widthVHp, if_neg (by linarith), Complex.norm_real, Real.norm_eq_abs, sq_abs, twoBody,
    root_massless hM hmh hopen]
  simp only [div_pow]
  field_simp
  ring

/-- **C285 fails here.** A lepton and a charged pseudoscalar, `⟨0| ūγγ₅d |P⟩ = √2 f q`: the width of the weak
interaction, in terms of which the code has a quarter of the prefactor and another polynomial (C136). -/
theorem lepton_pseudoscalar (c : Core) {ml mh : ℝ} (f : ℝ) (ckm : ℂ) (hM : 0 < c.mx) (hopen : ml + mh ≤ c.mx)
    {P k q : Fin 4 → ℝ} (h : Decay2 c.mx ml mh P k q) :
    4 * widthLHp c ml mh f ckm
        * ((1 - (ml / c.mx) ^ 2) ^ 2 - (mh / c.mx) ^ 2 * (1 + (ml / c.mx) ^ 2))
      = twoBody c.mx ml mh (currentMeson (gf * c.u) (ckm * (Real.sqrt 2 * f / 2 : ℝ)) k ml P c.mx q).re
        * ((1 - (ml / c.mx) ^ 2) ^ 2 + (mh / c.mx) ^ 2 * (1 + (ml / c.mx) ^ 2) - 2 * (mh / c.mx) ^ 4) := by
  have h2 : Real.sqrt 2 ^ 2 = 2 := Real.sq_sqrt (by norm_num)
  rw [currentMeson_value h, widthLHp, if_neg (by linarith), norm_mul, Complex.norm_real, Real.norm_eq_abs,
    mul_pow ‖ckm‖, sq_abs, div_pow (Real.sqrt 2 * f), mul_pow (Real.sqrt 2), h2]
  simp only [twoBody]
  generalize Real.sqrt _ = r
  field_simp
  ring

/-- The pion and the neutrino in the rest frame of a neutrino of mass 300 MeV. -/
example : ∃ P k q : Fin 4 → ℝ, Decay2 300 0 mPi0 P k q ∧ 0 < k 0 ∧ 0 < q 0 := by
  refine ⟨![300, 0, 0, 0], ![(300 ^ 2 - mPi0 ^ 2) / 600, 0, 0, (300 ^ 2 - mPi0 ^ 2) / 600],
    ![(300 ^ 2 + mPi0 ^ 2) / 600, 0, 0, -((300 ^ 2 - mPi0 ^ 2) / 600)], ⟨?_, ?_, ?_, ?_⟩, ?_, ?_⟩
  · ext i; fin_cases i <;> simp <;> ring
  · simp [mink]; norm_num
  · simp [mink]
  · simp [mink]; ring
  · simp [mPi0]; norm_num
  · simp [mPi0]; norm_num

end Hazma.WeakDecays
