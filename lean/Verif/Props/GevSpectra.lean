import Verif.Model.GevSpectra
import Verif.Model.MediatorDecay
import Verif.Props.Boost
import Verif.Props.PhaseSpace
import Mathlib.Tactic

/-!
# Spectra of the GeV vector mediator: who decays with which energy

The spectrum of a final state is the sum, over its particles, of the particle's spectrum at the particle's
energy or averaged over the particle's energy distribution, plus the radiation of its charged particles.
-/

namespace Hazma.GevSpectra

open Hazma.NBody (Dist convolve)
open Hazma.PhaseSpace (trapezoid energyLimits)

/-! ### Two-body final states -/

/-- The two particles; a pair of neutral kaons is a long and a short one. -/
def members : Two → P × P
  | .ee => (.e, .e)
  | .mumu => (.mu, .mu)
  | .pipi => (.pi, .pi)
  | .k0k0 => (.kL, .kS)
  | .kk => (.k, .k)
  | .pi0gamma => (.pi0, .gamma)
  | .etagamma => (.eta, .gamma)
  | .pi0phi => (.pi0, .phi)
  | .etaphi => (.eta, .phi)
  | .etaomega => (.eta, .omega)

/-- Energy of the first of two particles from a state of energy `q` at rest. -/
noncomputable def energyOf (q m m' : ℝ) : ℝ := (q ^ 2 + m ^ 2 - m' ^ 2) / (2 * q)

/-- These are the energies allowed by energy and momentum conservation. -/
theorem energyOf_conserves (q m m' : ℝ) (hm : 0 ≤ m) (hm' : 0 ≤ m') (hq : 0 < q) :
    energyOf q m m' + energyOf q m' m = q ∧
    energyOf q m m' ^ 2 - m ^ 2 = energyOf q m' m ^ 2 - m' ^ 2 ∧
    (m + m' ≤ q → m ≤ energyOf q m m') := by
  unfold energyOf
  refine ⟨by field_simp; ring, by field_simp; ring, fun h => ?_⟩
  rw [le_div_iff₀ (by positivity)]
  nlinarith [mul_nonneg (sub_nonneg.2 h) hm', mul_nonneg (sub_nonneg.2 h) hm]

/-- Radiation off one particle. -/
noncomputable def radiation (env : Env) (p : P) (E s : ℝ) : ℝ :=
  match p with
  | .e | .mu => env.apFermion E s p.mass
  | .pi | .k => env.apScalar E s p.mass
  | _ => 0

/-- What the photon spectrum of a pair should be. -/
noncomputable def pairPhotons (env : Env) (p p' : P) (q E : ℝ) : ℝ :=
  if q < p.mass + p'.mass then 0
  else radiation env p E (q ^ 2) + radiation env p' E (q ^ 2) +
    env.D p E (energyOf q p.mass p'.mass) + env.D p' E (energyOf q p'.mass p.mass)

/-- The same without radiation. -/
noncomputable def pairLeptons (env : Env) (p p' : P) (q E : ℝ) : ℝ :=
  if q < p.mass + p'.mass then 0
  else env.D p E (energyOf q p.mass p'.mass) + env.D p' E (energyOf q p'.mass p.mass)

private lemma energyOf_same (q m : ℝ) (hq : 0 < q) : energyOf q m m = q / 2 := by
  unfold energyOf; field_simp; ring

private lemma energyOf_photon (q m : ℝ) : energyOf q m 0 = (q ^ 2 + m ^ 2) / (2 * q) := by
  unfold energyOf; ring_nf

private lemma energyOf_swap (q m m' : ℝ) : (q ^ 2 - m ^ 2 + m' ^ 2) / (2 * q) = energyOf q m' m := by
  unfold energyOf; ring_nf

/-- **Photons of two-body final states.** All ten: radiation of both particles and both
decays, each at its energy; zero below threshold.  Electrons and photons do not decay. -/
theorem photon_two_body (env : Env) (c : Two) (q E : ℝ) (hq : 0 < q) (he : ∀ E e, env.D .e E e = 0)
    (hg : ∀ E e, env.D .gamma E e = 0) :
    photonTwo env c q E = pairPhotons env (members c).1 (members c).2 q E := by
  cases c
  case ee =>
    show photonTwo env .ee q E = pairPhotons env .e .e q E
    simp only [photonTwo, pairPhotons, radiation, mesonGamma, mesonPhi, twoBody, he, hg]
    simp only [two_mul P.e.mass, energyOf_same _ _ hq]
    split_ifs <;> ring
  case mumu =>
    show photonTwo env .mumu q E = pairPhotons env .mu .mu q E
    simp only [photonTwo, pairPhotons, radiation, mesonGamma, mesonPhi, twoBody, he, hg]
    simp only [two_mul P.mu.mass, energyOf_same _ _ hq]
    split_ifs <;> ring
  case pipi =>
    show photonTwo env .pipi q E = pairPhotons env .pi .pi q E
    simp only [photonTwo, pairPhotons, radiation, mesonGamma, mesonPhi, twoBody, he, hg]
    simp only [two_mul P.pi.mass, energyOf_same _ _ hq]
    split_ifs <;> ring
  case k0k0 =>
    show photonTwo env .k0k0 q E = pairPhotons env .kL .kS q E
    simp only [photonTwo, pairPhotons, radiation, mesonGamma, mesonPhi, twoBody, he, hg]
    have hk : 2 * P.k0.mass = P.kL.mass + P.kS.mass := by norm_num [P.mass]
    have hs : ∀ p, p = P.kL ∨ p = P.kS → p.mass = P.k0.mass := by rintro p (rfl | rfl) <;> rfl
    simp only [hk, hs .kL (Or.inl rfl), hs .kS (Or.inr rfl), energyOf_same _ _ hq]
    split_ifs <;> ring
  case kk =>
    show photonTwo env .kk q E = pairPhotons env .k .k q E
    simp only [photonTwo, pairPhotons, radiation, mesonGamma, mesonPhi, twoBody, he, hg]
    simp only [two_mul P.k.mass, energyOf_same _ _ hq]
    split_ifs <;> ring
  case pi0gamma =>
    show photonTwo env .pi0gamma q E = pairPhotons env .pi0 .gamma q E
    simp only [photonTwo, pairPhotons, radiation, mesonGamma, mesonPhi, twoBody, he, hg]
    simp only [show P.gamma.mass = 0 from rfl, add_zero, energyOf_photon]
    split_ifs <;> ring
  case etagamma =>
    show photonTwo env .etagamma q E = pairPhotons env .eta .gamma q E
    simp only [photonTwo, pairPhotons, radiation, mesonGamma, mesonPhi, twoBody, he, hg]
    simp only [show P.gamma.mass = 0 from rfl, add_zero, energyOf_photon]
    split_ifs <;> ring
  case pi0phi =>
    show photonTwo env .pi0phi q E = pairPhotons env .pi0 .phi q E
    simp only [photonTwo, pairPhotons, radiation, mesonGamma, mesonPhi, twoBody, he, hg]
    simp only [energyOf_swap]
    split_ifs <;> first | rfl | ring1 | (unfold energyOf; ring1)
  case etaphi =>
    show photonTwo env .etaphi q E = pairPhotons env .eta .phi q E
    simp only [photonTwo, pairPhotons, radiation, mesonGamma, mesonPhi, twoBody, he, hg]
    simp only [energyOf_swap]
    split_ifs <;> first | rfl | ring1 | (unfold energyOf; ring1)
  case etaomega =>
    show photonTwo env .etaomega q E = pairPhotons env .eta .omega q E
    simp only [photonTwo, pairPhotons, radiation, mesonGamma, mesonPhi, twoBody, he, hg]
    simp only [energyOf_swap]
    split_ifs <;> first | rfl | ring1 | (unfold energyOf; ring1)

/-- **Positrons and neutrinos of two-body final states**, except two charged kaons.  Missing: those, see
`lepton_kaons_halved`. -/
theorem lepton_two_body_partial (env : Env) (c : Two) (hc : c ≠ .kk) (q E : ℝ) (hq : 0 < q)
    (he : ∀ E e, env.D .e E e = 0) (hg : ∀ E e, env.D .gamma E e = 0) (h0 : ∀ E e, env.D .pi0 E e = 0) :
    leptonTwo env c q E = pairLeptons env (members c).1 (members c).2 q E := by
  cases c
  case ee =>
    show leptonTwo env .ee q E = pairLeptons env .e .e q E
    simp only [leptonTwo, pairLeptons, mesonGamma, mesonPhi, twoBody, he, hg, h0]
    split_ifs <;> ring
  case mumu =>
    show leptonTwo env .mumu q E = pairLeptons env .mu .mu q E
    simp only [leptonTwo, pairLeptons, mesonGamma, mesonPhi, twoBody, he, hg, h0]
    simp only [two_mul P.mu.mass, energyOf_same _ _ hq]
    split_ifs <;> ring
  case pipi =>
    show leptonTwo env .pipi q E = pairLeptons env .pi .pi q E
    simp only [leptonTwo, pairLeptons, mesonGamma, mesonPhi, twoBody, he, hg, h0]
    simp only [two_mul P.pi.mass, energyOf_same _ _ hq]
    split_ifs <;> ring
  case k0k0 =>
    show leptonTwo env .k0k0 q E = pairLeptons env .kL .kS q E
    simp only [leptonTwo, pairLeptons, mesonGamma, mesonPhi, twoBody, he, hg, h0]
    have hk : 2 * P.k0.mass = P.kL.mass + P.kS.mass := by norm_num [P.mass]
    have hs : ∀ p, p = P.kL ∨ p = P.kS → p.mass = P.k0.mass := by rintro p (rfl | rfl) <;> rfl
    simp only [hk, hs .kL (Or.inl rfl), hs .kS (Or.inr rfl), energyOf_same _ _ hq]
  case kk => exact absurd rfl hc
  case pi0gamma =>
    show leptonTwo env .pi0gamma q E = pairLeptons env .pi0 .gamma q E
    simp only [leptonTwo, pairLeptons, mesonGamma, mesonPhi, twoBody, he, hg, h0]
    simp only [show P.gamma.mass = 0 from rfl, add_zero, energyOf_photon]
    split_ifs <;> ring
  case etagamma =>
    show leptonTwo env .etagamma q E = pairLeptons env .eta .gamma q E
    simp only [leptonTwo, pairLeptons, mesonGamma, mesonPhi, twoBody, he, hg, h0]
    simp only [show P.gamma.mass = 0 from rfl, add_zero, energyOf_photon]
  case pi0phi =>
    show leptonTwo env .pi0phi q E = pairLeptons env .pi0 .phi q E
    simp only [leptonTwo, pairLeptons, mesonGamma, mesonPhi, twoBody, he, hg, h0]
    simp only [energyOf_swap]
    split_ifs <;> first | rfl | ring1 | (unfold energyOf; ring1)
  case etaphi =>
    show leptonTwo env .etaphi q E = pairLeptons env .eta .phi q E
    simp only [leptonTwo, pairLeptons, mesonGamma, mesonPhi, twoBody, he, hg, h0]
    simp only [energyOf_swap]
    split_ifs <;> first | rfl | ring1 | (unfold energyOf; ring1)
  case etaomega =>
    show leptonTwo env .etaomega q E = pairLeptons env .eta .omega q E
    simp only [leptonTwo, pairLeptons, mesonGamma, mesonPhi, twoBody, he, hg, h0]
    simp only [energyOf_swap]
    split_ifs <;> first | rfl | ring1 | (unfold energyOf; ring1)

/-- **Violation.** Of two charged kaons only one decays in the positron and neutrino spectra. -/
theorem lepton_kaons_halved (env : Env) (q E : ℝ) (hq : 0 < q) :
    leptonTwo env .kk q E = pairLeptons env .k .k q E / 2 := by
  simp only [leptonTwo, pairLeptons, energyOf_same _ _ hq, two_mul P.k.mass]
  split_ifs <;> ring

/-- The positron spectrum of two pions is twice that of the MeV vector mediator wherever the channel is
open. -/
theorem pion_positrons_twice_mev (env : Env) (q E : ℝ) (h : 2 * P.pi.mass ≤ q) :
    leptonTwo env .pipi q E = 2 * env.D .pi E (q / 2) := by
  simp only [leptonTwo, if_neg (not_lt.2 h)]

/-- **Lines.** The photon of `π⁰ γ` and `η γ` takes what the meson leaves, and the line
energies are those of a massless particle recoiling against the meson; a neutrino line has
half the energy, with the name of its flavour, and other flavours raise. -/
theorem line_energies (env : Env) (q E : ℝ) (hq : 0 < q) :
    gammaLines q = [("pi0 gamma", energyOf q 0 P.pi0.mass), ("eta gamma", energyOf q 0 P.eta.mass)] ∧
    (P.pi0.mass ≤ q → photonTwo env .pi0gamma q E = env.D .pi0 E (q - energyOf q 0 P.pi0.mass)) ∧
    (P.eta.mass ≤ q → photonTwo env .etagamma q E = env.D .eta E (q - energyOf q 0 P.eta.mass)) ∧
    (∀ f l, neutrinoLines q f = some l →
      ∃ n ∈ [("e", "ve ve"), ("mu", "vm vm"), ("tau", "vt vt")], f = n.1 ∧ l = [(n.2, q / 2)]) ∧
    (∀ f, neutrinoLines q f = none ↔ f ∉ ["e", "mu", "tau"]) := by
  have hs : ∀ m, 0.5 * (q - m * (m / q)) = energyOf q 0 m := by
    intro m; unfold energyOf; field_simp; ring
  have hr : ∀ m, (q ^ 2 + m ^ 2) / (2 * q) = q - energyOf q 0 m := by
    intro m; unfold energyOf; field_simp; ring
  refine ⟨by rw [gammaLines, hs, hs], fun h => ?_, fun h => ?_, fun f l h => ?_, fun f => ?_⟩
  · simp only [photonTwo, mesonGamma, if_neg (not_lt.2 h), hr]
  · simp only [photonTwo, mesonGamma, if_neg (not_lt.2 h), hr]
  · unfold neutrinoLines at h
    split_ifs at h with h1 h2 h3
    · exact ⟨_, List.mem_cons_self, h1, (Option.some.inj h).symm⟩
    · exact ⟨_, List.mem_cons_of_mem _ List.mem_cons_self, h2, (Option.some.inj h).symm⟩
    · exact ⟨_, List.mem_cons_of_mem _ (List.mem_cons_of_mem _ List.mem_cons_self), h3,
        (Option.some.inj h).symm⟩
  · unfold neutrinoLines
    split_ifs with h1 h2 h3 <;> simp [*]

/-! ### Three and four mesons -/

/-- What the sum of the decays should be: each particle with the distribution in its own place. -/
noncomputable def expected (env : Env) (c : Many) (dists : List Dist) (E : ℝ) : ℝ :=
  (List.zipWith (fun p d => convolve (env.D p E) d) (listed c) dists).sum

private lemma convolve_zero (d : Dist) : convolve (fun _ => 0) d = 0 := by
  unfold convolve
  simp only [mul_zero]
  have : ∀ xs ys : List ℝ, (∀ y ∈ ys, y = 0) → trapezoid xs ys = 0 := by
    intro xs
    induction xs with
    | nil => intro ys _; cases ys <;> rfl
    | cons x xs ih =>
      intro ys hy
      cases xs with
      | nil => cases ys <;> rfl
      | cons x' xs =>
        match ys with
        | [] => rfl
        | [y] => rfl
        | y :: y' :: ys =>
          have h1 := hy y (by simp)
          have h2 := hy y' (by simp)
          rw [trapezoid, ih (y' :: ys) (fun z hz => hy z (by simp [hz])), h1, h2]
          ring
  apply this
  intro y hy
  rw [List.mem_iff_getElem] at hy
  obtain ⟨i, hi, rfl⟩ := hy
  simp

private lemma convolve_congr (f g : ℝ → ℝ) (d : Dist) (h : ∀ x ∈ d.centers, f x = g x) :
    convolve f d = convolve g d := by
  unfold convolve
  congr 1
  obtain ⟨cs, ps⟩ := d
  simp only at h ⊢
  induction cs generalizing ps with
  | nil => cases ps <;> rfl
  | cons c cs ih =>
    cases ps with
    | nil => rfl
    | cons p ps =>
      simp only [List.zipWith_cons_cons]
      rw [h c (by simp), ih ps (fun x hx => h x (by simp [hx]))]

private lemma convolve_vanish (f : ℝ → ℝ) (d : Dist) (h : ∀ x ∈ d.centers, f x = 0) : convolve f d = 0 := by
  rw [convolve_congr f (fun _ => 0) d h, convolve_zero]

/-- **Decays, where they are right.** Two charged and two neutral pions, for photons.  Missing: all other
final states, see the violations below. -/
theorem photon_decays_partial (env : Env) (d0 d1 d2 d3 : Dist) (E : ℝ) :
    nBodyDecay env (photonDecays .piPiPi0Pi0) [d0, d1, d2, d3] E = expected env .piPiPi0Pi0 [d0, d1, d2, d3] E :=
  rfl

/-- **Violation: order.** For the seven final states of three mesons with the right particles, the code
lists the particles in an order different from that of the form factor.  What it computes is the right sum
with the distributions of the particles interchanged: the heavy meson gets the distribution of a pion, and
a pion that of the heavy meson. -/
theorem photon_order (env : Env) (d0 d1 d2 : Dist) (E : ℝ) :
    (∀ c, c = .piPiPi0 ∨ c = .piPiEta ∨ c = .piPiEtap ∨ c = .piPiOmega ∨ c = .pi0Pi0Omega →
      nBodyDecay env (photonDecays c) [d0, d1, d2] E = expected env c [d2, d0, d1] E) ∧
    (∀ c, c = .pi0K0K0 ∨ c = .pi0KK →
      nBodyDecay env (photonDecays c) [d0, d1, d2] E = expected env c [d1, d2, d0] E) := by
  constructor
  · intro c hc
    rcases hc with rfl | rfl | rfl | rfl | rfl <;>
      simp [nBodyDecay, photonDecays, expected, listed, slot] <;> ring
  · intro c hc
    rcases hc with rfl | rfl <;>
      simp [nBodyDecay, photonDecays, expected, listed, slot] <;> ring

/-- The same for positrons and neutrinos, which neutral pions do not give. -/
theorem lepton_order (env : Env) (d0 d1 d2 : Dist) (E : ℝ) (h0 : ∀ E e, env.D .pi0 E e = 0) :
    (∀ c, c = .piPiPi0 ∨ c = .piPiEta ∨ c = .piPiEtap ∨ c = .piPiOmega ∨ c = .pi0Pi0Omega →
      nBodyDecay env (leptonDecays c) [d0, d1, d2] E = expected env c [d2, d0, d1] E) ∧
    (∀ c, c = .pi0K0K0 ∨ c = .pi0KK →
      nBodyDecay env (leptonDecays c) [d0, d1, d2] E = expected env c [d1, d2, d0] E) := by
  have hz : env.D .pi0 E = fun _ => 0 := by funext e; exact h0 E e
  constructor
  · intro c hc
    rcases hc with rfl | rfl | rfl | rfl | rfl <;>
      simp [nBodyDecay, leptonDecays, expected, listed, slot, hz, convolve_zero] <;> ring
  · intro c hc
    rcases hc with rfl | rfl <;>
      simp [nBodyDecay, leptonDecays, expected, listed, slot, hz, convolve_zero] <;> ring

/-- **Violation: wrong particles.** `π K K⁰` decays as a neutral pion and two charged kaons, four pions as
two kaons and two pions; for positrons and neutrinos the charged pions of `π π π⁰ π⁰` decay as kaons. -/
theorem wrong_particles (env : Env) (d0 d1 d2 d3 : Dist) (E : ℝ) :
    nBodyDecay env (photonDecays .piKK0) [d0, d1, d2] E =
      convolve (env.D .pi0 E) d0 + convolve (env.D .k E) d1 + convolve (env.D .k E) d2 ∧
    expected env .piKK0 [d0, d1, d2] E =
      convolve (env.D .k0 E) d0 + convolve (env.D .k E) d1 + convolve (env.D .pi E) d2 ∧
    (∀ l ∈ [photonDecays .piPiPiPi, leptonDecays .piPiPiPi], nBodyDecay env l [d0, d1, d2, d3] E -
      expected env .piPiPiPi [d0, d1, d2, d3] E =
        (convolve (env.D .k E) d0 - convolve (env.D .pi E) d0) +
        (convolve (env.D .k E) d1 - convolve (env.D .pi E) d1)) ∧
    nBodyDecay env (leptonDecays .piPiPi0Pi0) [d0, d1, d2, d3] E =
      convolve (env.D .k E) d0 + convolve (env.D .k E) d1 := by
  refine ⟨?_, ?_, ?_, ?_⟩
  · simp [nBodyDecay, photonDecays, slot]; ring
  · simp [expected, listed]; ring
  · intro l hl
    rcases List.mem_pair.1 hl with rfl | rfl <;>
      simp [nBodyDecay, photonDecays, leptonDecays, expected, listed, slot] <;> ring
  · simp [nBodyDecay, leptonDecays, slot, convolve_zero]

/-! ### What is lost -/

/-- Decay tables give nothing for a parent energy below the parent's mass. -/
def VanishBelowMass (env : Env) (p : P) : Prop := ∀ E e, e < p.mass → env.D p E e = 0

/-- Largest energy of particle `i` of a list of masses (`energy_limits`). -/
noncomputable def largest (q : ℝ) (c : Many) (i : ℕ) : ℝ :=
  ((energyLimits q ((listed c).map P.mass)).getD i (0, 0)).2

/-- Energies (MeV) up to which a pion of the final state has less energy than the mass of the heavy
meson. -/
noncomputable def reach : Many → ℝ
  | .piPiEta => 1415
  | .piPiEtap => 2407
  | .piPiOmega => 1984
  | .pi0Pi0Omega => 1980
  | _ => 0

/-- The heavy meson of these four final states. -/
def heavy : Many → P
  | .piPiEta => .eta
  | .piPiEtap => .etap
  | _ => .omega

/-- The pions. -/
def light : Many → P
  | .pi0Pi0Omega => .pi0
  | _ => .pi

/-- **Violation: the heavy meson disappears.** From threshold up to more than 1.4 GeV (`η`), 1.9 GeV (`ω`)
and 2.4 GeV (`η′`), the heavy meson contributes no photon at all: its table is read at the energies of a
pion.  What remains are two pions, one of them with the energies of the heavy meson. -/
theorem heavy_meson_lost (env : Env) (c : Many)
    (hc : c = .piPiEta ∨ c = .piPiEtap ∨ c = .piPiOmega ∨ c = .pi0Pi0Omega) (q E : ℝ)
    (hlo : threshold c ≤ q) (hhi : q ≤ reach c) (d0 d1 d2 : Dist) (inv : ℕ → ℕ → Dist)
    (hD : VanishBelowMass env (heavy c)) (hd : ∀ x ∈ d2.centers, x ≤ largest q c 2) :
    photonMany env c q [d0, d1, d2] inv E =
      convolve (env.D (light c) E) d0 + convolve (env.D (light c) E) d1 := by
  have key : largest q c 2 < (heavy c).mass := by
    rcases hc with rfl | rfl | rfl | rfl <;>
    · simp only [threshold, reach, P.mass] at hlo hhi
      simp only [largest, energyLimits, listed, heavy, P.mass, List.map_cons, List.map_nil, List.sum_cons,
        List.sum_nil, List.getD_cons_succ, List.getD_cons_zero]
      rw [div_lt_iff₀ (by linarith)]
      nlinarith
  have hv : convolve (env.D (heavy c) E) d2 = 0 :=
    convolve_vanish _ _ fun x hx => hD E x (lt_of_le_of_lt (hd x hx) key)
  unfold photonMany
  rw [if_neg (not_lt.2 hlo)]
  rcases hc with rfl | rfl | rfl | rfl <;>
    simp [nBodyDecay, photonDecays, slot, light, heavy] at hv ⊢ <;> exact hv

/-- **Violation: pions lost.** Up to 1125 MeV two of the four pions contribute nothing to any spectrum, and up to 1115 MeV `π π π⁰ π⁰`
gives no positrons and no neutrinos. -/
theorem pions_lost (env : Env) (q E : ℝ) (d0 d1 d2 d3 : Dist) (hD : VanishBelowMass env .k) :
    (threshold .piPiPiPi ≤ q → q ≤ 1125 → (∀ x ∈ d0.centers, x ≤ largest q .piPiPiPi 0) →
      (∀ x ∈ d1.centers, x ≤ largest q .piPiPiPi 1) →
      nBodyDecay env (photonDecays .piPiPiPi) [d0, d1, d2, d3] E =
        convolve (env.D .pi E) d2 + convolve (env.D .pi E) d3 ∧
      leptonMany env .piPiPiPi q [d0, d1, d2, d3] E =
        convolve (env.D .pi E) d2 + convolve (env.D .pi E) d3) ∧
    (q ≤ 1115 → (∀ x ∈ d0.centers, x ≤ largest q .piPiPi0Pi0 0) →
      (∀ x ∈ d1.centers, x ≤ largest q .piPiPi0Pi0 1) →
      leptonMany env .piPiPi0Pi0 q [d0, d1, d2, d3] E = 0) := by
  have gone : ∀ (c : Many) (i : ℕ) (d : Dist), largest q c i < P.k.mass →
      (∀ x ∈ d.centers, x ≤ largest q c i) → convolve (env.D .k E) d = 0 :=
    fun c i d h hd => convolve_vanish _ _ fun x hx => hD E x (lt_of_le_of_lt (hd x hx) h)
  constructor
  · intro hlo hhi h0 h1
    have hq : 0 < q := by simp only [threshold, P.mass] at hlo; linarith
    have hl : ∀ i, i = 0 ∨ i = 1 → largest q .piPiPiPi i < P.k.mass := by
      intro i hi
      rcases hi with rfl | rfl <;>
      · simp only [threshold, P.mass] at hlo
        simp only [largest, energyLimits, listed, P.mass, List.map_cons, List.map_nil, List.sum_cons,
          List.sum_nil, List.getD_cons_succ, List.getD_cons_zero]
        rw [div_lt_iff₀ (by linarith)]
        nlinarith
    have g0 := gone _ 0 d0 (hl 0 (Or.inl rfl)) h0
    have g1 := gone _ 1 d1 (hl 1 (Or.inr rfl)) h1
    unfold leptonMany
    rw [if_neg (not_lt.2 hlo)]
    simp [nBodyDecay, photonDecays, leptonDecays, slot, g0, g1]
  · intro hhi h0 h1
    unfold leptonMany
    split_ifs with hlo
    · rfl
    · have hlo' := not_lt.1 hlo
      have hl : ∀ i, i = 0 ∨ i = 1 → largest q .piPiPi0Pi0 i < P.k.mass := by
        intro i hi
        rcases hi with rfl | rfl <;>
        · simp only [threshold, P.mass] at hlo'
          simp only [largest, energyLimits, listed, P.mass, List.map_cons, List.map_nil, List.sum_cons,
            List.sum_nil, List.getD_cons_succ, List.getD_cons_zero]
          rw [div_lt_iff₀ (by linarith)]
          nlinarith
      have g0 := gone _ 0 d0 (hl 0 (Or.inl rfl)) h0
      have g1 := gone _ 1 d1 (hl 1 (Or.inr rfl)) h1
      rw [(wrong_particles env d0 d1 d2 d3 E).2.2.2, g0, g1, add_zero]

/-! ### Radiation -/

/-- Radiation off one charged pion, averaged over an invariant-mass distribution. -/
noncomputable def onePion (env : Env) (d : Dist) (E : ℝ) : ℝ :=
  convolve (fun m => env.apScalar E (m ^ 2) P.pi.mass) d

private lemma trapezoid_smul (a : ℝ) (xs ys : List ℝ) :
    trapezoid xs (ys.map fun y => a * y) = a * trapezoid xs ys := by
  induction xs generalizing ys with
  | nil => cases ys <;> simp [trapezoid]
  | cons x xs ih =>
    cases xs with
    | nil => cases ys <;> simp [trapezoid]
    | cons x' xs =>
      match ys with
      | [] => simp [trapezoid]
      | [y] => simp [trapezoid]
      | y :: y' :: ys =>
        have := ih (y' :: ys)
        simp only [List.map_cons] at this
        simp only [List.map_cons, trapezoid, this]
        ring

private lemma pair_eq (env : Env) (d : Dist) (E : ℝ) : pairRadiation env d E = 2 * onePion env d E := by
  unfold pairRadiation onePion convolve
  rw [← trapezoid_smul, List.map_zipWith]
  congr 2
  funext p x
  ring

/-- **Radiation.** Final states with two charged pions: both radiate, with the invariant mass of the pair of
particles number 0 and 1.  In `π π π⁰ π⁰` these are the charged pions.  In `π π π⁰` the charged pions are 1
and 2, so the code uses the mass of a charged and a neutral one.  In four pions each pair counts half, but
only three of six pairs are used: equal distributions give the radiation of three pions instead of four. -/
theorem radiation_pairs (env : Env) (q E : ℝ) (ds : List Dist) (inv : ℕ → ℕ → Dist) :
    (threshold .piPiPi0Pi0 ≤ q → photonMany env .piPiPi0Pi0 q ds inv E =
      nBodyDecay env (photonDecays .piPiPi0Pi0) ds E + 2 * onePion env (inv 0 1) E) ∧
    (listed .piPiPi0Pi0).take 2 = [.pi, .pi] ∧
    (threshold .piPiPi0 ≤ q → photonMany env .piPiPi0 q ds inv E =
      nBodyDecay env (photonDecays .piPiPi0) ds E + 2 * onePion env (inv 0 1) E) ∧
    (listed .piPiPi0).take 2 = [.pi0, .pi] ∧
    (threshold .piPiPiPi ≤ q → photonMany env .piPiPiPi q ds inv E =
      nBodyDecay env (photonDecays .piPiPiPi) ds E +
        (onePion env (inv 0 1) E + onePion env (inv 1 2) E + onePion env (inv 2 3) E)) := by
  refine ⟨fun h => ?_, rfl, fun h => ?_, rfl, fun h => ?_⟩ <;>
    (unfold photonMany; rw [if_neg (not_lt.2 h)]; simp only [pair_eq])
  ring

/-- The other final states with charged pions or kaons have no radiation. -/
theorem no_radiation (env : Env) (c : Many) (hc : c ≠ .piPiPi0 ∧ c ≠ .piPiPiPi ∧ c ≠ .piPiPi0Pi0) (q E : ℝ)
    (ds : List Dist) (inv : ℕ → ℕ → Dist) (apF apS : ℝ → ℝ → ℝ → ℝ) :
    photonMany env c q ds inv E = photonMany ⟨env.D, apF, apS⟩ c q ds inv E := by
  obtain ⟨h1, h2, h3⟩ := hc
  have hs : ∀ l, nBodyDecay env l ds E = nBodyDecay ⟨env.D, apF, apS⟩ l ds E := by
    intro l
    unfold nBodyDecay
    congr 2
  unfold photonMany
  cases c <;> first | contradiction | simp only [hs]

/-! ### Two pions and a photon, and two mediators -/

/-- **Violation: the branching fraction of the omega is applied twice.** `π⁰ π⁰ γ` is defined by an omega
that did decay to a pion and a photon, yet the spectrum of these decay products is multiplied
by `0.0834`. -/
theorem pi0_pi0_gamma_spectrum (env : Env) (q E : ℝ) (h : P.pi0.mass + P.omega.mass ≤ q) :
    let m := P.pi0.mass
    let mw := P.omega.mass
    let b2 := √(1 - ((energyOf q mw m / mw) ^ 2)⁻¹)
    let b1 := √(1 - (((mw ^ 2 + m ^ 2) / (2 * mw * m)) ^ 2)⁻¹)
    let w := Boost.boostDeltaPy E (energyOf mw 0 m) 0 b2 +
      2 * 0.98823 * Boost.doubleBoostDelta E (m / 2) 0 b1 b2
    photonPi0Pi0Gamma env q E = env.D .pi0 E (energyOf q m mw) + 0.0834 * w := by
  intro m mw b2 b1 w
  unfold photonPi0Pi0Gamma
  simp only
  rw [if_neg (not_lt.2 h)]
  have e1 : (q ^ 2 - P.pi0.mass ^ 2 + P.omega.mass ^ 2) / (2 * q) = energyOf q mw m := energyOf_swap _ _ _
  have e2 : (P.omega.mass ^ 2 - P.pi0.mass ^ 2) / (2 * P.omega.mass) = energyOf mw 0 m := by
    unfold energyOf; ring_nf; rfl
  rw [e1, e2]
  show env.D .pi0 E (energyOf q m mw) + _ + _ = _
  simp only [w, b1, b2, m, mw]
  norm_num
  ring

/-- **Violation: lines from two mediators.** Whatever the branching fractions of the mediator, the photon spectrum of
`v v` contains two photons for a pion-photon and two for an eta-photon decay, four in all for
a mediator above the eta mass; and the pion line is placed with the mass of the charged pion, below the
line energy the model itself reports. -/
theorem vv_lines (boosted : ℝ → ℝ) (mv q : ℝ) (hm : P.eta.mass < mv) (hq : 2 * mv < q) :
    let b := √(1 - ((0.5 * q / mv) ^ 2)⁻¹)
    0 < b ∧ b < 1 ∧
    (∫ E, (photonVV boosted mv q E - boosted b)) = 4 ∧
    0.5 * (mv - P.pi.mass ^ 2 / mv) < energyOf mv 0 P.pi0.mass := by
  intro b
  have hm' : (547.862 : ℝ) < mv := hm
  have hmv : 0 < mv := by linarith
  have hg : 1 < 0.5 * q / mv := by rw [lt_div_iff₀ hmv]; linarith
  have hb0 : 0 < 1 - ((0.5 * q / mv) ^ 2)⁻¹ := by
    have : ((0.5 * q / mv) ^ 2)⁻¹ < 1 := inv_lt_one_of_one_lt₀ (by nlinarith)
    linarith
  have hb : 0 < b := Real.sqrt_pos.2 hb0
  have hb1 : b < 1 := by
    rw [show b = √(1 - ((0.5 * q / mv) ^ 2)⁻¹) from rfl, Real.sqrt_lt' one_pos]
    have : 0 < ((0.5 * q / mv) ^ 2)⁻¹ := by positivity
    linarith
  have epi : 0 < 0.5 * (mv - P.pi.mass ^ 2 / mv) := by
    have : P.pi.mass ^ 2 / mv < mv := by rw [div_lt_iff₀ hmv]; norm_num [P.mass]; nlinarith
    linarith
  have eeta : 0 < 0.5 * (mv - P.eta.mass ^ 2 / mv) := by
    have : P.eta.mass ^ 2 / mv < mv := by rw [div_lt_iff₀ hmv]; norm_num [P.mass]; nlinarith
    linarith
  have i1 := (Boost.boost_delta_normalised_box _ 0 b hb hb1 le_rfl epi).2.2.1
  have i2 := (Boost.boost_delta_normalised_box _ 0 b hb hb1 le_rfl eeta).2.2.1
  have n1 : MeasureTheory.Integrable (fun E => Boost.boostDeltaPy E (0.5 * (mv - P.pi.mass ^ 2 / mv)) 0 b) := by
    by_contra hni
    rw [MeasureTheory.integral_undef hni] at i1
    norm_num at i1
  have n2 : MeasureTheory.Integrable (fun E => Boost.boostDeltaPy E (0.5 * (mv - P.eta.mass ^ 2 / mv)) 0 b) := by
    by_contra hni
    rw [MeasureTheory.integral_undef hni] at i2
    norm_num at i2
  refine ⟨hb, hb1, ?_, ?_⟩
  · have : ∀ E, photonVV boosted mv q E - boosted b =
        2 * Boost.boostDeltaPy E (0.5 * (mv - P.pi.mass ^ 2 / mv)) 0 b +
        2 * Boost.boostDeltaPy E (0.5 * (mv - P.eta.mass ^ 2 / mv)) 0 b := by
      intro E
      unfold photonVV
      simp only
      rw [if_neg (not_lt.2 hg.le)]
      simp only [b]
      ring
    simp only [this]
    rw [MeasureTheory.integral_add (n1.const_mul 2) (n2.const_mul 2), MeasureTheory.integral_const_mul,
      MeasureTheory.integral_const_mul, i1, i2]
    norm_num
  · unfold energyOf
    rw [lt_div_iff₀ (by positivity)]
    have : 0.5 * (mv - P.pi.mass ^ 2 / mv) * (2 * mv) = mv ^ 2 - P.pi.mass ^ 2 := by field_simp; ring
    rw [this]
    norm_num [P.mass]

/-- **Violation: two mediators give no leptons.** Whenever annihilation into two mediators is possible above
threshold, its positron and neutrino spectra are zero, whatever the mediator decays to; below threshold they
are not. -/
theorem lepton_vv_inverted (boosted : ℝ → ℝ → ℝ) (mv q : ℝ) (hq : 0 < q) :
    (2 * mv < q → leptonVV boosted mv q = 0) ∧
    (q ≤ 2 * mv → leptonVV boosted mv q = boosted q √(1 - ((2 * mv / q) ^ 2)⁻¹)) := by
  unfold leptonVV
  simp only
  constructor
  · intro h
    rw [if_pos (by rw [div_lt_one hq]; exact h)]
  · intro h
    rw [if_neg (not_lt.2 (by rw [le_div_iff₀ hq]; linarith))]

/-- **Violation: totals.** `total_neutrino_spectrum` never returns a number (or array); it returns the
dictionary of all spectra, whose entry `total` is the sum over the final states. -/
theorem total_neutrino_is_dict (states : List String) (bf spec : String → ℝ) (ht : "total" ∉ states) :
    (∀ x, totalNeutrinoSpectrum states bf spec ≠ .number x) ∧
    ∃ d, totalNeutrinoSpectrum states bf spec = .dict d ∧
      d.lookup "total" = some (states.map fun fs => bf fs * spec fs).sum ∧
      ∀ fs ∈ states, d.lookup fs = some (bf fs * spec fs) := by
  refine ⟨fun x h => ?_, _, rfl, ?_, ?_⟩
  · simp [totalNeutrinoSpectrum] at h
  · unfold neutrinoSpectra
    simp only [List.map_map]
    have : ∀ (l : List String) v, "total" ∉ l →
        ((l.map fun fs => (fs, bf fs * spec fs)) ++ [("total", v)]).lookup "total" = some v := by
      intro l v hl
      induction l with
      | nil => simp
      | cons a l ih =>
        have ha : ("total" == a) = false := by
          rw [beq_eq_false_iff_ne]; intro h; exact hl (by simp [h])
        simp only [List.map_cons, List.cons_append, List.lookup_cons, ha]
        exact ih (fun h => hl (by simp [h]))
    rw [this states _ ht]
    rfl
  · intro fs hfs
    unfold neutrinoSpectra
    simp only
    obtain ⟨v, hv⟩ : ∃ v, v = [("total", ((states.map fun fs => (fs, bf fs * spec fs)).map Prod.snd).sum)] :=
      ⟨_, rfl⟩
    rw [← hv]
    clear hv ht
    induction states with
    | nil => simp at hfs
    | cons a l ih =>
      by_cases h : fs = a
      · subst h; simp
      · have hb : (fs == a) = false := by rw [beq_eq_false_iff_ne]; exact h
        simp only [List.map_cons, List.cons_append, List.lookup_cons, hb]
        exact ih (by simpa [h] using hfs)

/-! ### Concrete cases -/

/-- Every eta at or above its mass gives one photon (per MeV at every energy), every kaon one, and nothing
else gives any. -/
noncomputable def toy : Env :=
  ⟨fun p _ e => if (p = .eta ∨ p = .k) ∧ p.mass ≤ e then 1 else 0, fun _ _ _ => 0, fun _ _ _ => 0⟩

private lemma toy_vanish (p : P) : VanishBelowMass toy p := by
  intro E e h
  simp only [toy]
  rw [if_neg (fun h' => absurd h'.2 (not_le.2 h))]

/-- Two charged kaons of 600 MeV: two photons, but one positron. -/
example : photonTwo toy .kk 1200 10 = 2 ∧ leptonTwo toy .kk 1200 10 = 1 := by
  constructor <;> norm_num [photonTwo, leptonTwo, toy, P.mass]

/-- An eta of 750 MeV next to a photon of that energy, up to the recoil; nothing below threshold. -/
example : photonTwo toy .etagamma 1500 10 = 1 ∧ photonTwo toy .etagamma 500 10 = 0 := by
  constructor <;> norm_num [photonTwo, mesonGamma, toy, P.mass]

/-- An eta with 600 to 700 MeV and two pions of 150 to 250 MeV: the eta's photons should be there, but the
code's answer is zero. -/
example : expected toy .piPiEta [⟨[600, 700], [1 / 100, 1 / 100]⟩, ⟨[150, 250], [1 / 100, 1 / 100]⟩,
      ⟨[150, 250], [1 / 100, 1 / 100]⟩] 10 = 1 ∧
    (∀ inv, photonMany toy .piPiEta 1000 [⟨[600, 700], [1 / 100, 1 / 100]⟩, ⟨[150, 250], [1 / 100, 1 / 100]⟩,
      ⟨[150, 250], [1 / 100, 1 / 100]⟩] inv 10 = 0) := by
  constructor
  · norm_num [expected, listed, convolve, toy, trapezoid, P.mass]
    decide
  · intro inv
    rw [heavy_meson_lost toy .piPiEta (Or.inl rfl) 1000 10 (by norm_num [threshold, P.mass])
      (by norm_num [reach]) _ _ _ inv (toy_vanish _)
      (by
        intro x hx
        norm_num [largest, energyLimits, listed, P.mass] at hx ⊢
        rcases hx with rfl | rfl <;> norm_num)]
    have hp : ¬(P.pi = .eta ∨ P.pi = .k) := by decide
    norm_num [convolve, toy, trapezoid, light, hp]

/-- Two mediators of 300 MeV at 1 GeV: no positrons; at 500 MeV, below threshold, there are some. -/
example : leptonVV (fun _ _ => 1) 300 1000 = 0 ∧ leptonVV (fun _ _ => 1) 300 500 = 1 := by
  constructor <;> norm_num [leptonVV]

/-- Muon neutrinos at 500 MeV. -/
example : neutrinoLines 500 "mu" = some [("vm vm", 250)] ∧ neutrinoLines 500 "μ" = none := by
  simp only [neutrinoLines, String.reduceEq, if_true, if_false]
  norm_num

/-- Two final states. -/
example : totalNeutrinoSpectrum ["mu mu", "pi pi"] (fun _ => 1 / 2) (fun _ => 4) =
    .dict [("mu mu", 2), ("pi pi", 2), ("total", 4)] := by
  norm_num [totalNeutrinoSpectrum, neutrinoSpectra]

end Hazma.GevSpectra
