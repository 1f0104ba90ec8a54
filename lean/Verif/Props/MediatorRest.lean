import Verif.Model.MediatorRest
import Verif.Props.MediatorPositron
import Mathlib.Tactic

/-! # Mediators at rest -/

namespace Hazma.Mediator

open MeasureTheory Set
open Hazma.GevXs (npDiv)

/-- In flight the functions return the numbers that the theorems of C56–C60, C107 and C108 are about. -/
theorem in_flight (r : RestPhoton) (pws : Fin 5 → ℝ) (b : Modes) (mode : VMode) (pi mu : ℝ → ℝ) (w : Fin 3 → ℝ)
    (fs : PMode) (me e E m : ℝ) (hm : 0 < m) (h : E ≠ m) :
    scalarPointX r pws b e E m = .num (scalarPoint r pws b e E m)
    ∧ vectorPointX r pws mode e E m = .num (vectorPoint r pws mode e E m)
    ∧ positronPointX pi mu w fs me e E m = .num (positronPoint pi mu w fs me e E m) := by
  rcases lt_or_gt_of_ne h with h | h
  · simp only [scalarPointX, vectorPointX, positronPointX, scalarPoint, vectorPoint, positronPoint, if_pos h, and_self]
  have hb : E * beta E m ≠ 0 := mul_ne_zero (by linarith) (beta_facts hm h).1.ne'
  have hn : ∀ bf, npDiv bf (E * beta E m) = .num (bf / (E * beta E m)) := fun bf => if_neg hb
  have h1 : ∀ bf, photonBoxX bf E m e = .num (photonBox bf E m e) := by
    intro bf
    unfold photonBoxX photonBox
    rw [hn]
    split_ifs <;> rfl
  have h2 : ∀ bf, positronBoxX bf me E m e = .num (positronBox bf me E m e) := by
    intro bf
    unfold positronBoxX positronBox
    simp only [hn]
    split_ifs <;> rfl
  refine ⟨?_, ?_, ?_⟩
  · unfold scalarPointX scalarPoint
    rw [if_neg (not_lt.2 h.le), if_neg (not_lt.2 h.le), h1]
    split_ifs <;> rfl
  · unfold vectorPointX vectorPoint
    rw [if_neg (not_lt.2 h.le), if_neg (not_lt.2 h.le), h1]
    split_ifs <;> rfl
  · unfold positronPointX positronPoint
    rw [if_neg (not_lt.2 h.le), if_neg (not_lt.2 h.le), h2]
    split_ifs <;> rfl

theorem beta_rest {m : ℝ} (hm : 0 < m) : beta m m = 0 := by
  simp [beta, div_self hm.ne']

/-- The angular integral of photons at rest. -/
theorem photon_rest (f : ℝ → ℝ) {m e : ℝ} (hm : 0 < m) :
    ∫ cl in (-1 : ℝ)..1, photonIntegrand f m m e cl = f e := by
  have : ∀ cl, photonIntegrand f m m e cl = 1 / 2 * f e := by
    intro cl
    simp [photonIntegrand, beta_rest hm, gamma, div_self hm.ne']
  simp only [this, intervalIntegral.integral_const, smul_eq_mul]
  ring

/-- The angular integral of positrons at rest. -/
theorem positron_rest (f : ℝ → ℝ) {me m e : ℝ} (hme : 0 ≤ me) (hm : 0 < m) (he : me < e) :
    ∫ cl in (-1 : ℝ)..1, positronIntegrand f me m m e cl = f e := by
  have : ∀ cl, positronIntegrand f me m m e cl = 1 / 2 * f e := by
    intro cl
    have h1 : 0 < e * e - me * me := by nlinarith
    have h2 : Real.sqrt (e * e - me * me) ≠ 0 := (Real.sqrt_pos.2 h1).ne'
    simp only [positronIntegrand, if_neg (not_lt.2 he.le), beta_rest hm, gamma, div_self hm.ne']
    have h3 : (1 + (0 * cl) ^ 2) * e * e - (1 + 0 * 0 * (-1 + cl * cl)) * me * me
        - 2 * 0 * cl * e * Real.sqrt (e * e - me * me) = e * e - me * me := by ring
    rw [h3]
    have h4 : 1 * (e - Real.sqrt (e * e - me * me) * 0 * cl) = e := by ring
    rw [h4]
    generalize Real.sqrt (e * e - me * me) = s at h2 ⊢
    field_simp
  simp only [this, intervalIntegral.integral_const, smul_eq_mul]
  ring

theorem rest_window {m e : ℝ} (hm : 0 < m) (r : ℝ) :
    (m * (1 - r * beta m m) / 2 ≤ e ∧ e ≤ m * (1 + r * beta m m) / 2) ↔ e = m / 2 := by
  rw [beta_rest hm]
  constructor
  · rintro ⟨h1, h2⟩
    apply le_antisymm <;> linarith
  · rintro rfl
    constructor <;> linarith

/-- The value of a line at rest. -/
def lineAtRest (bf : ℝ) : XReal → Prop
  | .nan => bf = 0
  | .pinf => 0 < bf
  | .ninf => bf < 0
  | .num _ => False

theorem npDiv_rest (bf : ℝ) {m : ℝ} (hm : 0 < m) (x : ℝ) : lineAtRest bf (addX x (npDiv bf (m * beta m m))) := by
  rw [beta_rest hm, mul_zero]
  unfold npDiv
  rw [if_pos rfl]
  rcases lt_trichotomy bf 0 with h | h | h
  · rw [if_neg h.ne, if_neg (not_lt.2 h.le)]
    exact h
  · rw [if_pos h]
    exact h
  · rw [if_neg h.ne', if_pos h]
    exact h

/-- **C314.** Claim: the spectrum of a mediator at rest is the spectrum of its rest frame with the lines at half of its
mass.  What holds: the continuum is that of the rest frame at every other energy; at half the mass the functions return
infinity if the mode of the line is open and NaN if it is closed, so that one closed mode spoils the value there. -/
theorem mediator_at_rest_partial (r : RestPhoton) (pws : Fin 5 → ℝ) (b : Modes) (mode : VMode) (e m : ℝ) (hm : 0 < m) :
    (e ≠ m / 2 ∨ b.gg = false → scalarPointX r pws b e m m = .num (scalarRest r pws b e))
    ∧ (e = m / 2 → b.gg = true → lineAtRest (pws 4) (scalarPointX r pws b e m m))
    ∧ (e ≠ m / 2 ∨ (mode ≠ .p0g ∧ mode ≠ .total) → vectorPointX r pws mode e m m = .num (vectorRest r pws mode e))
    ∧ (e = m / 2 → mode = .p0g ∨ mode = .total → lineAtRest (pws 2) (vectorPointX r pws mode e m m)) := by
  have hw := rest_window (e := e) hm 1
  simp only [one_mul] at hw
  have hbox : ∀ bf, e ≠ m / 2 → photonBoxX bf m m e = .num 0 := fun bf h => if_neg fun hc => h (hw.1 hc)
  have hbox' : ∀ bf, e = m / 2 → photonBoxX bf m m e = npDiv bf (m * beta m m) := fun bf h => if_pos (hw.2 h)
  refine ⟨fun h => ?_, fun h hg => ?_, fun h => ?_, fun h hg => ?_⟩
  · unfold scalarPointX
    rw [if_neg (lt_irrefl m), photon_rest _ hm]
    have : (if b.gg = true then photonBoxX (pws 4) m m e else .num 0) = .num 0 := by
      rcases h with h | h
      · rw [hbox _ h, ite_self]
      · rw [h]; rfl
    rw [this]
    simp [addX]
  · unfold scalarPointX
    rw [if_neg (lt_irrefl m), if_pos hg, hbox' _ h]
    exact npDiv_rest _ hm _
  · unfold vectorPointX
    rw [if_neg (lt_irrefl m), photon_rest _ hm]
    have : (if mode = .p0g ∨ mode = .total then photonBoxX (pws 2) m m e else .num 0) = .num 0 := by
      rcases h with h | h
      · rw [hbox _ h, ite_self]
      · rw [if_neg (by rintro (h' | h'); exacts [h.1 h', h.2 h'])]
    rw [this]
    simp [addX]
  · unfold vectorPointX
    rw [if_neg (lt_irrefl m), if_pos hg, hbox' _ h]
    exact npDiv_rest _ hm _

/-- The same for positrons. -/
theorem positrons_at_rest_partial (pi mu : ℝ → ℝ) (w : Fin 3 → ℝ) (me e m : ℝ) (hme : 0 ≤ me) (hm : 2 * me < m)
    (he : me < e) :
    (e ≠ m / 2 →
      positronPointX pi mu w .ee me e m m = .num 0
      ∧ positronPointX pi mu w .pp me e m m = .num (w 2 * pi e)
      ∧ positronPointX pi mu w .mm me e m m = .num (w 1 * mu e)
      ∧ positronPointX pi mu w .total me e m m = .num (w 2 * pi e + w 1 * mu e))
    ∧ (e = m / 2 → ∀ fs, fs ≠ .other → lineAtRest (w 0) (positronPointX pi mu w fs me e m m)) := by
  have hmp : 0 < m := by linarith
  have hr : ¬ 1 - 4 * me * me / (m * m) < 0 := by
    rw [not_lt, sub_nonneg, div_le_one (by positivity)]
    nlinarith
  have hw := rest_window (e := e) hmp (Real.sqrt (1 - 4 * me * me / (m * m)))
  have hbox : e ≠ m / 2 → positronBoxX (w 0) me m m e = .num 0 := by
    intro h
    unfold positronBoxX
    rw [if_neg hr]
    exact if_neg fun hc => h (hw.1 hc)
  have hbox' : e = m / 2 → positronBoxX (w 0) me m m e = npDiv (w 0) (m * beta m m) := by
    intro h
    unfold positronBoxX
    rw [if_neg hr]
    exact if_pos (hw.2 h)
  constructor
  · intro h
    simp [positronPointX, hbox h, positron_rest _ hme hmp he, addX, positronRest]
  · intro h fs hfs
    have key := fun x => npDiv_rest (w 0) hmp x
    have k0 : lineAtRest (w 0) (npDiv (w 0) (m * beta m m)) := by
      have := key 0
      revert this
      cases npDiv (w 0) (m * beta m m) <;> exact id
    cases fs with
    | other => exact absurd rfl hfs
    | ee => simpa [positronPointX, hbox' h] using k0
    | total => simpa [positronPointX, hbox' h] using key _
    | pp => simpa [positronPointX, hbox' h] using key _
    | mm => simpa [positronPointX, hbox' h] using key _

/-- The photons of the line are lost: over all energies a scalar at rest that always decays to two photons gives none,
but one for every velocity however small. -/
theorem line_photons_lost (r : RestPhoton) (pws : Fin 5 → ℝ) (m : ℝ) (hm : 0 < m) (hg : pws 4 = 1) :
    (∀ᵐ e : ℝ, scalarPointX r pws (modesOf ["g g"]) e m m = .num 0)
    ∧ ∀ E, m < E → ∃ f : ℝ → ℝ, (∀ e, scalarPointX r pws (modesOf ["g g"]) e E m = .num (f e))
        ∧ ∫ e in Ioi 0, f e = 1 := by
  constructor
  · have : ∀ᵐ e : ℝ, e ≠ m / 2 := by
      rw [ae_iff]
      simp
    filter_upwards [this] with e he
    rw [(mediator_at_rest_partial r pws _ .other e m hm).1 (Or.inl he), scalarRest_gg]
  · intro E hE
    refine ⟨fun e => scalarPoint r pws (modesOf ["g g"]) e E m, fun e => ?_, ?_⟩
    · exact (in_flight r pws _ .other (fun _ => 0) (fun _ => 0) (fun _ => 0) .other 0 e E m hm hE.ne').1
    · rw [(gg_half r pws E m hm hE).1, hg]

/-- A scalar of 200 MeV with no decays to photons: NaN at 100 MeV when all modes are asked for. -/
example (r : RestPhoton) : ∃ b : Modes, scalarPointX r ![1, 0, 0, 0, 0] b 100 200 200 = .nan := by
  refine ⟨modesOf ["e e g", "g g"], ?_⟩
  have := (mediator_at_rest_partial r ![1, 0, 0, 0, 0] (modesOf ["e e g", "g g"]) .other 100 200 (by norm_num)).2.1
    (by norm_num) (by simp [modesOf])
  have h0 : (![1, 0, 0, 0, 0] : Fin 5 → ℝ) 4 = 0 := rfl
  rw [h0] at this
  revert this
  cases scalarPointX r ![1, 0, 0, 0, 0] (modesOf ["e e g", "g g"]) 100 200 200 <;> simp [lineAtRest]

end Hazma.Mediator
