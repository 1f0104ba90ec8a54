import Verif.Props.Anomaly

/-! # C292: photons and pions of the scalar mediator from the Lagrangian

The scalar couples to photons by `α gsFF / (4πΛ) s F²`, to pions by the low-energy limit of its couplings to gluons
and quarks: a derivative coupling `(2 gsGG / 9Λ) s ∂π·∂π` and a mass term.  `_scalar_mediator_widths.py:13-95` and
`scalar_xs.rs:201-309` against these rules.  `compute_vs` returns zero, so the state of every model has `vs = 0`. -/

namespace Hazma.ScalarFeynman

open Hazma Hazma.Xs Hazma.SelfScattering
open Hazma.FeynmanRules (comP comN mom mom_sq sqrt_mom)
open Hazma.Anomaly (metric)
open Matrix

/-- The vertex of a scalar with two photons of momenta `k`, `q`: the form that gauge invariance allows. -/
noncomputable def photonVertex (g : ℝ) (k q : Fin 4 → ℝ) (i j : Fin 4) : ℝ :=
  g * ((if i = j then metric i else 0) * mink k q - metric i * q i * (metric j * k j))

/-- Sum over the polarisations of the photons. -/
noncomputable def photonSq (g : ℝ) (k q : Fin 4 → ℝ) : ℝ :=
  ∑ i, ∑ j, metric i * metric j * photonVertex g k q i j ^ 2

/-- The vertex of a scalar with two pions of momenta `k`, `q`: derivative coupling to gluons, mass term of quarks. -/
noncomputable def pionVertex (c : ScalarModel.Consts) (s : ScalarModel.Base) (k q : Fin 4 → ℝ) : ℝ :=
  -(4 * s.gsGG / (9 * s.lam) * mink k q)
    - c.b0 * (c.muq + c.mdq) * (2 * s.gsGG / (3 * s.lam) + s.gsff / c.vh)

/-- Width of a scalar of mass `M` into two particles of mass `n` with squared vertex `f`; `sym` is one half for
identical particles. -/
noncomputable def width (sym M n : ℝ) (f : (Fin 4 → ℝ) → (Fin 4 → ℝ) → ℝ) : ℝ :=
  sym * (mom M n / (8 * Real.pi * M ^ 2)) * f (comP M n 1) (comN M n 1)

/-- Cross section of `x x̄ → s* →` the same pair, averaged over the spins of dark matter. -/
noncomputable def sigma (sym g M w m n e : ℝ) (f : (Fin 4 → ℝ) → (Fin 4 → ℝ) → ℝ) : ℝ :=
  sym * (mom e n / mom e m / (32 * Real.pi * e ^ 2))
    * ∫ z in (-1 : ℝ)..1, g ^ 2 / 4 * (trace (spinSum (comN e m 1) (-m) * spinSum (comP e m 1) m)).re
        * f (comP e n z) (comN e n z)
        / Complex.normSq (prop (mink (comP e m 1 + comN e m 1) (comP e m 1 + comN e m 1)) M w)

/-- Neither photon couples through the polarisation along its momentum. -/
theorem photon_transverse (g : ℝ) {k q : Fin 4 → ℝ} (j : Fin 4) :
    ∑ i, k i * photonVertex g k q i j = 0 ∧ ∑ i, q i * photonVertex g k q j i = 0 := by
  fin_cases j <;>
    · unfold photonVertex metric
      simp [Fin.sum_univ_four, mink]
      constructor <;> ring

theorem photonSq_eq (g : ℝ) (k q : Fin 4 → ℝ) :
    photonSq g k q = g ^ 2 * (2 * mink k q ^ 2 + mink k k * mink q q) := by
  unfold photonSq photonVertex metric
  simp [Fin.sum_univ_four, mink]
  ring

theorem pair_mink {n e z : ℝ} (hn : 0 ≤ n) (h : 2 * n ≤ e) (hz : z ^ 2 ≤ 1) :
    mink (comP e n z) (comP e n z) = n ^ 2 ∧ mink (comN e n z) (comN e n z) = n ^ 2
    ∧ mink (comP e n z) (comN e n z) = e ^ 2 / 2 - n ^ 2 := by
  have a := mom_sq hn h
  have hs : Real.sqrt (1 - z ^ 2) ^ 2 = 1 - z ^ 2 := Real.sq_sqrt (by linarith)
  refine ⟨?_, ?_, ?_⟩ <;> simp [mink, comP, comN]
  · linear_combination (exp := 1) -(mom e n ^ 2) * hs - a
  · linear_combination (exp := 1) -(mom e n ^ 2) * hs - a
  · linear_combination (exp := 1) mom e n ^ 2 * hs + a

/-- The value of a squared vertex on every pair of momenta of energy `e`. -/
def Isotropic (f : (Fin 4 → ℝ) → (Fin 4 → ℝ) → ℝ) (n e a : ℝ) : Prop :=
  ∀ z : ℝ, z ^ 2 ≤ 1 → f (comP e n z) (comN e n z) = a

theorem sigma_eq (sym g M w : ℝ) {m n e a : ℝ} {f : (Fin 4 → ℝ) → (Fin 4 → ℝ) → ℝ} (hm : 0 ≤ m) (h1 : 2 * m < e)
    (hf : Isotropic f n e a) (hP : propagator M e w ≠ 0) :
    sigma sym g M w m n e f = sym * g ^ 2 * a * mom e n * mom e m / (8 * Real.pi * e ^ 2 * propagator M e w) := by
  have he : 0 < e := by linarith
  have hp := mom_sq hm h1.le
  have pa : 0 < mom e m := Real.sqrt_pos.mpr (by nlinarith)
  have hpi := Real.pi_pos
  have hsum : comP e m 1 + comN e m 1 = ![e, 0, 0, 0] := by
    ext i; fin_cases i <;> simp [comP, comN]
  have hE : mink (![e, 0, 0, 0] : Fin 4 → ℝ) ![e, 0, 0, 0] = e ^ 2 := by simp [mink]; ring
  have hpr : (e ^ 2 - M ^ 2) ^ 2 + (M * w) ^ 2 = propagator M e w := by unfold propagator; ring
  have hmn : mink (comN e m 1) (comP e m 1) = e ^ 2 / 4 + mom e m ^ 2 := by
    simp [mink, comP, comN]; ring
  unfold sigma
  rw [hsum, hE, normSq_prop, hpr, tr_pair, hmn, Complex.ofReal_re]
  have hint : ∀ z ∈ Set.uIcc (-1 : ℝ) 1,
      g ^ 2 / 4 * (4 * (e ^ 2 / 4 + mom e m ^ 2 + -m * m)) * f (comP e n z) (comN e n z) / propagator M e w
      = 2 * g ^ 2 * mom e m ^ 2 * a / propagator M e w := by
    intro z hz
    rw [Set.uIcc_of_le (by norm_num)] at hz
    rw [hf z (by nlinarith [hz.1, hz.2])]
    congr 1
    have hm3 : m ^ 2 = e ^ 2 / 4 - mom e m ^ 2 := by linarith
    linear_combination (-(g ^ 2 * a)) * hm3
  rw [intervalIntegral.integral_congr hint, intervalIntegral.integral_const, smul_eq_mul]
  field_simp
  ring

theorem width_eq (sym : ℝ) {M n a : ℝ} {f : (Fin 4 → ℝ) → (Fin 4 → ℝ) → ℝ} (hf : Isotropic f n M a) :
    width sym M n f = sym * (mom M n / (8 * Real.pi * M ^ 2)) * a := by
  unfold width; rw [hf 1 (by norm_num)]

theorem photon_isotropic (g : ℝ) {e : ℝ} (he : 0 ≤ e) : Isotropic (photonSq g) 0 e (g ^ 2 * e ^ 4 / 2) := by
  intro z hz
  obtain ⟨a, b, c⟩ := pair_mink le_rfl (by linarith : 2 * (0 : ℝ) ≤ e) hz
  rw [photonSq_eq, a, b, c]; ring

theorem pion_isotropic (c : ScalarModel.Consts) (s : ScalarModel.Base) {n e : ℝ} (hn : 0 ≤ n) (h : 2 * n ≤ e) :
    Isotropic (fun k q => pionVertex c s k q ^ 2) n e
      ((2 * s.gsGG / (9 * s.lam) * (e ^ 2 - 2 * n ^ 2)
        + c.b0 * (c.muq + c.mdq) * (2 * s.gsGG / (3 * s.lam) + s.gsff / c.vh)) ^ 2) := by
  intro z hz
  obtain ⟨-, -, r⟩ := pair_mink hn h hz
  simp only [pionVertex, r]
  ring

/-- C292: the vertex of the pions satisfies the low-energy theorem: gluons measure the trace of the energy-momentum
tensor, `s + 2m²` between the vacuum and two pions, less the mass of the quarks, `m²`. -/
theorem low_energy (c : ScalarModel.Consts) (s : ScalarModel.Base) {n e z : ℝ} (hn : 0 ≤ n) (h : 2 * n ≤ e)
    (hz : z ^ 2 ≤ 1) (hB : c.b0 * (c.muq + c.mdq) = n ^ 2) :
    pionVertex c s (comP e n z) (comN e n z)
      = -(2 * s.gsGG / (9 * s.lam) * (e ^ 2 + 2 * n ^ 2 - n ^ 2)) - s.gsff / c.vh * n ^ 2 := by
  obtain ⟨-, -, r⟩ := pair_mink hn h hz
  rw [pionVertex, r, hB]
  by_cases hl : s.lam = 0
  · simp [hl]; ring
  · field_simp
    ring

/-- C292: widths into photons and pions are those of the Lagrangian. -/
theorem widths (c : ScalarModel.Consts) (s : ScalarModel.Base) (hl : s.lam ≠ 0) (hv : c.vh ≠ 0) (hvs : s.vs = 0)
    (hms : 0 < s.ms) :
    ScalarModel.widthGG c s = .ok (width (1 / 2) s.ms 0 (photonSq (c.alpha * s.gsFF / (Real.pi * s.lam))))
    ∧ (0 ≤ c.mpi0 → 2 * c.mpi0 < s.ms → ScalarModel.widthPi c c.mpi0 209952 s
        = .ok (width (1 / 2) s.ms c.mpi0 fun k q => pionVertex c s k q ^ 2))
    ∧ (0 ≤ c.mpi → 2 * c.mpi < s.ms → ScalarModel.widthPi c c.mpi 104976 s
        = .ok (width 1 s.ms c.mpi fun k q => pionVertex c s k q ^ 2)) := by
  have hpi := Real.pi_pos
  have gen : ∀ n norm sym : ℝ, 0 ≤ n → 2 * n < s.ms → 0 < sym → norm * sym = 104976 →
      ScalarModel.widthPi c n norm s = .ok (width sym s.ms n fun k q => pionVertex c s k q ^ 2) := by
    intro n norm sym hn h hsym hnorm
    have hnorm' : norm = 104976 / sym := by field_simp; exact hnorm
    unfold ScalarModel.widthPi
    rw [if_pos h, width_eq sym (pion_isotropic c s hn h.le), hvs, sqrt_mom hn h.le, hnorm']
    simp only [ScalarModel.pydiv, mul_zero, add_zero, sub_zero]
    have hpos : 0 ≤ mom s.ms n := Real.sqrt_nonneg _
    rw [if_neg (by positivity)]
    simp only [ScalarModel.checked]
    rw [if_pos (by positivity)]
    congr 1
    field_simp
    ring
  refine ⟨?_, fun hn h => gen _ _ _ hn h (by norm_num) (by norm_num),
    fun hn h => gen _ _ _ hn h (by norm_num) (by norm_num)⟩
  rw [width_eq _ (photon_isotropic _ hms.le)]
  unfold ScalarModel.widthGG ScalarModel.pydiv
  rw [if_neg (by positivity)]
  congr 1
  have : mom s.ms 0 = s.ms / 2 := by
    have := sqrt_mom (m := 0) le_rfl (by linarith : 2 * (0 : ℝ) ≤ s.ms)
    have e1 : Real.sqrt (-4 * 0 ^ 2 + s.ms ^ 2) = s.ms := by
      rw [show (-4 * 0 ^ 2 + s.ms ^ 2 : ℝ) = s.ms ^ 2 by ring]; exact Real.sqrt_sq hms.le
    linarith
  rw [this]
  field_simp
  ring

/-- C292: so are the cross sections. -/
theorem sigmas (c : ScalarModel.Consts) (s : ScalarModel.Base) {e : ℝ} (hl : s.lam ≠ 0) (hv : c.vh ≠ 0)
    (hvs : s.vs = 0) (hmx : 0 ≤ s.mx) (h1 : 2 * s.mx < e) (hP : propagator s.ms e s.width ≠ 0) :
    scalarGG c s e = sigma (1 / 2) s.gsxx s.ms s.width s.mx 0 e (photonSq (c.alpha * s.gsFF / (Real.pi * s.lam)))
    ∧ (0 ≤ c.mpi0 → 2 * c.mpi0 < e → scalarPi0Pi0 c s e
        = sigma (1 / 2) s.gsxx s.ms s.width s.mx c.mpi0 e fun k q => pionVertex c s k q ^ 2)
    ∧ (0 ≤ c.mpi → 2 * c.mpi < e → scalarPiPi c s e
        = sigma 1 s.gsxx s.ms s.width s.mx c.mpi e fun k q => pionVertex c s k q ^ 2) := by
  have hpi := Real.pi_pos
  have he : 0 < e := by linarith
  have gen : ∀ n norm sym : ℝ, 0 ≤ n → 2 * n < e → 0 < sym → norm * sym = 209952 →
      scalarPi c n norm s e = sigma sym s.gsxx s.ms s.width s.mx n e fun k q => pionVertex c s k q ^ 2 := by
    intro n norm sym hn h hsym hnorm
    have hnorm' : norm = 209952 / sym := by field_simp; exact hnorm
    unfold scalarPi
    rw [if_neg (by push Not; exact ⟨h.le, h1.le⟩), sigma_eq _ _ _ _ hmx h1 (pion_isotropic c s hn h.le) hP, hvs,
      Real.sqrt_mul (by nlinarith), sqrt_mom hn h.le, sqrt_mom hmx h1.le, hnorm']
    field_simp
    ring
  refine ⟨?_, fun hn h => gen _ _ _ hn h (by norm_num) (by norm_num),
    fun hn h => gen _ _ _ hn h (by norm_num) (by norm_num)⟩
  rw [sigma_eq _ _ _ _ hmx h1 (photon_isotropic _ he.le) hP]
  unfold scalarGG
  rw [if_neg (by push Not; exact h1.le), sqrt_mom hmx h1.le]
  have : mom e 0 = e / 2 := by
    have := sqrt_mom (m := 0) le_rfl (by linarith : 2 * (0 : ℝ) ≤ e)
    have e1 : Real.sqrt (-4 * 0 ^ 2 + e ^ 2) = e := by
      rw [show (-4 * 0 ^ 2 + e ^ 2 : ℝ) = e ^ 2 by ring]; exact Real.sqrt_sq he.le
    linarith
  rw [this]
  field_simp
  ring

/-- C292: the constructor and every setter leave `vs = 0`, so the hypothesis above holds for every model. -/
theorem state_vs (c : ScalarModel.Consts) (s : ScalarModel.Base) (a : ScalarModel.Attr) (v : ℝ) :
    (ScalarModel.setAttr c s a v).1.vs = 0
    ∧ ∀ mx ms gsxx gsff gsGG gsFF lam t, ScalarModel.create c mx ms gsxx gsff gsGG gsFF lam = .ok t → t.vs = 0 := by
  have hc : ∀ b : ScalarModel.Base, ScalarModel.computeVs b = 0 := by intro b; simp [ScalarModel.computeVs]
  have hw : ∀ b : ScalarModel.Base, (ScalarModel.computeWidth c b).1.vs = b.vs := by
    intro b; unfold ScalarModel.computeWidth; split <;> rfl
  constructor
  · unfold ScalarModel.setAttr
    rw [hw]
    simp [ScalarModel.store, hc]
  · intro mx ms gsxx gsff gsGG gsFF lam t ht
    unfold ScalarModel.create at ht
    simp only [hc] at ht
    have h := hw ⟨mx, ms, gsxx, gsff, gsGG, gsFF, lam, 0, 0⟩
    split at ht
    · rename_i s' heq
      rw [heq] at h
      cases ht
      exact h
    · cases ht

/-- A scalar of mass two with unit coupling to photons. -/
example : width (1 / 2) 2 0 (photonSq 1) = 1 / (8 * Real.pi) := by
  rw [width_eq _ (photon_isotropic 1 (by norm_num))]
  have : mom 2 0 = 1 := by unfold FeynmanRules.mom; norm_num
  rw [this]
  have := Real.pi_pos
  field_simp

end Hazma.ScalarFeynman
