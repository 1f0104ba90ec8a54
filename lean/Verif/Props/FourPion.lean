import Mathlib.Tactic
import Verif.Model.FourPion
import Verif.Props.Rambo

/-!
# Four-pion form factors: conservation, symmetry and positivity

Theorems about `Verif.Model.FourPion`.
-/

namespace Hazma.FourPion

/-! ### Algebra of the Minkowski product -/

theorem ldot_up (u v : V) : ldot (up u) (up v) = ((ldot u v : ℝ) : ℂ) := by
  simp [ldot, up]

theorem lnormSqr_eq (u : V) : lnormSqr u = ldot u u := by
  simp only [lnormSqr, ldot]; ring

theorem ldot_add (u v w : CV) : ldot u (v + w) = ldot u v + ldot u w := by
  simp only [ldot, Pi.add_apply]; ring

theorem ldot_sub (u v w : CV) : ldot u (v - w) = ldot u v - ldot u w := by
  simp only [ldot, Pi.sub_apply]; ring

theorem ldot_comm {R : Type} [CommRing R] (u v : Fin 4 → R) : ldot u v = ldot v u := by
  simp only [ldot]; ring

/-- A complex multiple of a projected real vector is orthogonal to the total momentum. -/
theorem ldot_projected (Q v : V) {Q2 : ℝ} (h : Q2 = lnormSqr Q) (h0 : Q2 ≠ 0) (c : ℂ) :
    ldot (up Q) (fun i => c * ((v i - Q i * ldot Q v / Q2 : ℝ) : ℂ)) = 0 := by
  have h1 : ldot (up Q) (fun i => c * ((v i - Q i * ldot Q v / Q2 : ℝ) : ℂ))
      = c * ((ldot Q (fun i => v i - Q i * ldot Q v / Q2) : ℝ) : ℂ) := by
    simp only [ldot, up]; push_cast; ring
  have h2 : ldot Q (fun i => v i - Q i * ldot Q v / Q2) = ldot Q v - lnormSqr Q * (ldot Q v / Q2) := by
    rw [lnormSqr_eq]; simp only [ldot]; ring
  rw [h1, h2, ← h, mul_div_cancel₀ _ h0, sub_self, Complex.ofReal_zero, mul_zero]

theorem a1T_conserved (f : Fit) (Q : V) {Q2 : ℝ} (h : Q2 = lnormSqr Q) (h0 : Q2 ≠ 0)
    (q1 q2 q3 q4 : V) : ldot (up Q) (currentA1T f Q Q2 q1 q2 q3 q4) = 0 :=
  ldot_projected Q _ h h0 _

theorem f0_conserved (f : Fit) (Q : V) {Q2 : ℝ} (h : Q2 = lnormSqr Q) (h0 : Q2 ≠ 0)
    (q1 q2 q3 q4 : V) : ldot (up Q) (currentF0 f Q Q2 q1 q2 q3 q4) = 0 :=
  ldot_projected Q (q3 - q4) h h0 _

theorem omegaT_conserved (f : Fit) (Q : V) (Q2 : ℝ) (q1 q2 q3 q4 : V) :
    ldot (up Q) (currentOmegaT f Q Q2 q1 q2 q3 q4) = 0 := by
  simp only [currentOmegaT]
  generalize ((2 * f.couplingOmega * f.couplingOmegaPiRho * f.couplingRhoPiPi : ℝ) : ℂ) = a
  generalize propRhoF f Q2 f.betaOmega * propOmega (lnormSqr (Q - q1))
    * propRhoH (lnormSqr (q2 + q3)) (lnormSqr (q2 + q4)) (lnormSqr (q3 + q4)) = b
  simp only [ldot, up]
  push_cast
  ring

theorem rho_conserved (f : Fit) (Q : V) {Q2 : ℝ} (h : Q2 = lnormSqr Q) (h0 : Q2 ≠ 0)
    (q1 q2 q3 q4 : V) : ldot (up Q) (currentRho f Q Q2 q1 q2 q3 q4) = 0 := by
  simp only [currentRho]
  generalize rhoGnu q1 q2 q3 q4 = g
  generalize ((f.couplingRho * f.couplingRhoPiPi ^ 3 * f.couplingRhoGamma : ℝ) : ℂ) = a
  generalize propRhoDouble Q2 = b
  obtain ⟨D, hD⟩ : ∃ D, D = ldot (up Q) g := ⟨_, rfl⟩
  rw [← hD]
  have h1 : ldot (up Q) (fun i => a * b * (g i - (Q i : ℂ) * D / (Q2 : ℂ)))
      = a * b * (ldot (up Q) g - ldot (up Q) (up Q) * (D / (Q2 : ℂ))) := by
    simp only [ldot, up]; ring
  have h2 : (Q2 : ℂ) ≠ 0 := by exact_mod_cast h0
  rw [h1, ldot_up, ← lnormSqr_eq, ← h, mul_div_cancel₀ _ h2, ← hD, sub_self, mul_zero]

theorem neutral_conserved (f : Fit) (Q : V) {Q2 : ℝ} (h : Q2 = lnormSqr Q) (h0 : Q2 ≠ 0)
    (q1 q2 q3 q4 : V) : ldot (up Q) (currentNeutral f Q Q2 q1 q2 q3 q4) = 0 := by
  simp only [currentNeutral, currentA1, currentOmega, ldot_add, ldot_sub,
    a1T_conserved f Q h h0, f0_conserved f Q h h0, omegaT_conserved, rho_conserved f Q h h0]
  simp

/-! ### C215: current conservation and positivity -/

/-- **C215.** Whatever the fit parameters and the momenta of the four pions: the hadronic current
is conserved, that is orthogonal to the total momentum. -/
theorem current_conserved (f : Fit) (mode : Mode) (p1 p2 p3 p4 : V)
    (h : lnormSqr (p1 + p2 + p3 + p4) ≠ 0) :
    ldot (up (p1 + p2 + p3 + p4)) (current f mode p1 p2 p3 p4) = 0 := by
  cases mode
  · exact neutral_conserved f _ rfl h _ _ _ _
  · simp only [current, currentCharged, ldot_add, neutral_conserved f _ rfl h]
    simp

/-- A real vector orthogonal to a time-like one is space-like or zero. -/
theorem transverse_spacelike {Q v : V} (hQ : 0 < lnormSqr Q) (h : ldot Q v = 0) :
    lnormSqr v ≤ 0 ∧ (lnormSqr v = 0 → v = 0) := by
  simp only [lnormSqr, ldot] at *
  have h0 : Q 0 * v 0 = Q 1 * v 1 + Q 2 * v 2 + Q 3 * v 3 := by linarith
  have hQ0 : 0 < Q 0 ^ 2 := by nlinarith [sq_nonneg (Q 1), sq_nonneg (Q 2), sq_nonneg (Q 3)]
  have hcs : (Q 1 * v 1 + Q 2 * v 2 + Q 3 * v 3) ^ 2
      ≤ (Q 1 ^ 2 + Q 2 ^ 2 + Q 3 ^ 2) * (v 1 ^ 2 + v 2 ^ 2 + v 3 ^ 2) := by
    nlinarith [sq_nonneg (Q 1 * v 2 - Q 2 * v 1), sq_nonneg (Q 1 * v 3 - Q 3 * v 1),
      sq_nonneg (Q 2 * v 3 - Q 3 * v 2)]
  rw [← h0, mul_pow] at hcs
  have hS : 0 ≤ v 1 ^ 2 + v 2 ^ 2 + v 3 ^ 2 := by positivity
  have key : Q 0 ^ 2 * (v 0 ^ 2 - v 1 ^ 2 - v 2 ^ 2 - v 3 ^ 2)
      ≤ -(Q 0 ^ 2 - Q 1 ^ 2 - Q 2 ^ 2 - Q 3 ^ 2) * (v 1 ^ 2 + v 2 ^ 2 + v 3 ^ 2) := by nlinarith
  constructor
  · by_contra hc
    push Not at hc
    have := mul_pos hQ0 hc
    nlinarith [mul_nonneg hQ.le hS]
  · intro hz
    rw [hz, mul_zero] at key
    have hS0 : v 1 ^ 2 + v 2 ^ 2 + v 3 ^ 2 = 0 := by
      rcases hS.lt_or_eq with h' | h'
      · nlinarith [mul_pos hQ h']
      · exact h'.symm
    have h1 : v 1 = 0 := by nlinarith [sq_nonneg (v 1), sq_nonneg (v 2), sq_nonneg (v 3)]
    have h2 : v 2 = 0 := by nlinarith [sq_nonneg (v 1), sq_nonneg (v 2), sq_nonneg (v 3)]
    have h3 : v 3 = 0 := by nlinarith [sq_nonneg (v 1), sq_nonneg (v 2), sq_nonneg (v 3)]
    have h4 : v 0 = 0 := by
      rw [h1, h2, h3] at hz
      nlinarith
    funext i
    fin_cases i <;> simp [h1, h2, h3, h4]

theorem ldot_conj (J : CV) :
    (ldot J fun i => (starRingEnd ℂ) (J i)).re
      = lnormSqr (fun i => (J i).re) + lnormSqr (fun i => (J i).im) := by
  simp only [ldot, lnormSqr, Complex.sub_re, Complex.mul_re, Complex.conj_re, Complex.conj_im]
  ring

theorem transverse_parts {Q : V} {J : CV} (h : ldot (up Q) J = 0) :
    ldot Q (fun i => (J i).re) = 0 ∧ ldot Q (fun i => (J i).im) = 0 := by
  have hr := congrArg Complex.re h
  have hi := congrArg Complex.im h
  simp only [ldot, up, Complex.sub_re, Complex.sub_im, Complex.mul_re, Complex.mul_im,
    Complex.ofReal_re, Complex.ofReal_im, zero_mul, sub_zero, add_zero, Complex.zero_re,
    Complex.zero_im] at hr hi
  exact ⟨hr, hi⟩

theorem current_norm {f : Fit} {mode : Mode} {p1 p2 p3 p4 : V}
    (h : 0 < lnormSqr (p1 + p2 + p3 + p4)) :
    0 ≤ -(ldot (current f mode p1 p2 p3 p4)
        fun i => (starRingEnd ℂ) (current f mode p1 p2 p3 p4 i)).re ∧
      (-(ldot (current f mode p1 p2 p3 p4)
        fun i => (starRingEnd ℂ) (current f mode p1 p2 p3 p4 i)).re = 0 →
        current f mode p1 p2 p3 p4 = 0) := by
  have hc := current_conserved f mode p1 p2 p3 p4 h.ne'
  generalize current f mode p1 p2 p3 p4 = J at hc ⊢
  obtain ⟨hr, hi⟩ := transverse_parts hc
  obtain ⟨hr1, hr2⟩ := transverse_spacelike h hr
  obtain ⟨hi1, hi2⟩ := transverse_spacelike h hi
  rw [ldot_conj]
  refine ⟨by linarith, fun hz => ?_⟩
  have e1 := hr2 (by linarith)
  have e2 := hi2 (by linarith)
  funext i
  exact Complex.ext (congrFun e1 i) (congrFun e2 i)

/-- **C215.** The squared matrix element is never negative, and it vanishes only where the current
does or when up and down quarks couple equally. -/
theorem msqrd_nonneg (f : Fit) (mode : Mode) (gvuu gvdd : ℝ) (p1 p2 p3 p4 : V)
    (h : 0 < lnormSqr (p1 + p2 + p3 + p4)) :
    0 ≤ msqrd f mode gvuu gvdd p1 p2 p3 p4 ∧
      (msqrd f mode gvuu gvdd p1 p2 p3 p4 = 0 ↔
        gvuu = gvdd ∨ current f mode p1 p2 p3 p4 = 0) := by
  obtain ⟨h1, h2⟩ := current_norm (f := f) (mode := mode) h
  have h3 : current f mode p1 p2 p3 p4 = 0 →
      -(ldot (current f mode p1 p2 p3 p4)
        fun i => (starRingEnd ℂ) (current f mode p1 p2 p3 p4 i)).re = 0 := by
    intro hz; rw [hz]; simp [ldot]
  have hd : 0 < 3 * lnormSqr (p1 + p2 + p3 + p4) := by linarith
  have hpre : ∃ k : ℝ, 0 < k ∧ msqrd f mode gvuu gvdd p1 p2 p3 p4 = (gvuu - gvdd) ^ 2 * k *
      (-(ldot (current f mode p1 p2 p3 p4)
        fun i => (starRingEnd ℂ) (current f mode p1 p2 p3 p4 i)).re
          / (3 * lnormSqr (p1 + p2 + p3 + p4))) := by
    cases mode
    · exact ⟨1 / 2, by norm_num, by simp only [msqrd]; ring⟩
    · exact ⟨1 / 4, by norm_num, by simp only [msqrd]; ring⟩
  obtain ⟨k, hk, he⟩ := hpre
  rw [he]
  refine ⟨by positivity, ?_⟩
  rw [mul_eq_zero, mul_eq_zero, div_eq_zero_iff, pow_eq_zero_iff two_ne_zero, sub_eq_zero]
  constructor
  · rintro ((h' | h') | (h' | h'))
    · exact Or.inl h'
    · exact absurd h' hk.ne'
    · exact Or.inr (h2 h')
    · exact absurd h' hd.ne'
  · rintro (h' | h')
    · exact Or.inl (Or.inl h')
    · exact Or.inr (Or.inl (h3 h'))

/-! ### C216: exchange symmetries -/

theorem lnormSqr_neg (u : V) : lnormSqr (-u) = lnormSqr u := by simp [lnormSqr]

theorem a1T_swap (f : Fit) (Q : V) (Q2 : ℝ) (q1 q2 q3 q4 : V) :
    currentA1 f Q Q2 q2 q1 q3 q4 = currentA1 f Q Q2 q1 q2 q3 q4 ∧
      currentA1 f Q Q2 q1 q2 q4 q3 = -currentA1 f Q Q2 q1 q2 q3 q4 := by
  constructor <;> simp only [currentA1] <;> abel

theorem f0_swap (f : Fit) (Q : V) (Q2 : ℝ) (q1 q2 q3 q4 : V) :
    currentF0 f Q Q2 q2 q1 q3 q4 = currentF0 f Q Q2 q1 q2 q3 q4 ∧
      currentF0 f Q Q2 q1 q2 q4 q3 = -currentF0 f Q Q2 q1 q2 q3 q4 := by
  constructor
  · simp only [currentF0, add_comm q2 q1]
  · have h : ldot Q (q4 - q3) = -ldot Q (q3 - q4) := by
      simp only [ldot, Pi.sub_apply]; ring
    funext i
    simp only [currentF0, add_comm q4 q3, h, Pi.neg_apply]
    push_cast
    ring

theorem omegaT_swap (f : Fit) (Q : V) (Q2 : ℝ) (q1 q2 q3 q4 : V) :
    currentOmegaT f Q Q2 q1 q2 q4 q3 = -currentOmegaT f Q Q2 q1 q2 q3 q4 := by
  have h : ∀ a b c : ℝ, propRhoH a b c = propRhoH b a c := by
    intro a b c; simp only [propRhoH]; ring
  funext i
  simp only [currentOmegaT, add_comm q4 q3, Pi.neg_apply]
  rw [h (lnormSqr (q2 + q4))]
  push_cast
  ring

theorem omega_swap (f : Fit) (Q : V) (Q2 : ℝ) (q1 q2 q3 q4 : V) :
    currentOmega f Q Q2 q2 q1 q3 q4 = currentOmega f Q Q2 q1 q2 q3 q4 ∧
      currentOmega f Q Q2 q1 q2 q4 q3 = -currentOmega f Q Q2 q1 q2 q3 q4 := by
  constructor
  · simp only [currentOmega]; abel
  · simp only [currentOmega, omegaT_swap f Q Q2 _ _ q3 q4]; abel

theorem rho_swap (f : Fit) (Q : V) (Q2 : ℝ) (q1 q2 q3 q4 : V) :
    currentRho f Q Q2 q2 q1 q3 q4 = currentRho f Q Q2 q1 q2 q3 q4 ∧
      currentRho f Q Q2 q1 q2 q4 q3 = -currentRho f Q Q2 q1 q2 q3 q4 := by
  have h1 : rhoGnu q2 q1 q3 q4 = rhoGnu q1 q2 q3 q4 := by simp only [rhoGnu]; abel
  have h2 : rhoGnu q1 q2 q4 q3 = -rhoGnu q1 q2 q3 q4 := by simp only [rhoGnu]; abel
  constructor
  · simp only [currentRho, h1]
  · have h3 : ldot (up Q) (-rhoGnu q1 q2 q3 q4) = -ldot (up Q) (rhoGnu q1 q2 q3 q4) := by
      simp only [ldot, Pi.neg_apply]; ring
    funext i
    simp only [currentRho, h2, h3, Pi.neg_apply]
    ring

theorem neutral_swap (f : Fit) (Q : V) (Q2 : ℝ) (q1 q2 q3 q4 : V) :
    currentNeutral f Q Q2 q2 q1 q3 q4 = currentNeutral f Q Q2 q1 q2 q3 q4 ∧
      currentNeutral f Q Q2 q1 q2 q4 q3 = -currentNeutral f Q Q2 q1 q2 q3 q4 := by
  simp only [currentNeutral]
  constructor
  · rw [(a1T_swap f Q Q2 q1 q2 q3 q4).1, (f0_swap f Q Q2 q1 q2 q3 q4).1,
      (omega_swap f Q Q2 q1 q2 q3 q4).1, (rho_swap f Q Q2 q1 q2 q3 q4).1]
  · rw [(a1T_swap f Q Q2 q1 q2 q3 q4).2, (f0_swap f Q Q2 q1 q2 q3 q4).2,
      (omega_swap f Q Q2 q1 q2 q3 q4).2, (rho_swap f Q Q2 q1 q2 q3 q4).2]
    abel

/-- **C216.** Four charged pions, in the order `π⁺ π⁻ π⁺ π⁻`: the current is symmetric under the
exchange of the two identical positive pions and of the two identical negative ones, and changes
sign under charge conjugation. -/
theorem charged_exchange (f : Fit) (p1 p2 p3 p4 : V) :
    current f .charged p3 p2 p1 p4 = current f .charged p1 p2 p3 p4 ∧
      current f .charged p1 p4 p3 p2 = current f .charged p1 p2 p3 p4 ∧
        current f .charged p2 p1 p4 p3 = -current f .charged p1 p2 p3 p4 := by
  have e1 : p3 + p2 + p1 + p4 = p1 + p2 + p3 + p4 := by abel
  have e2 : p1 + p4 + p3 + p2 = p1 + p2 + p3 + p4 := by abel
  have e3 : p2 + p1 + p4 + p3 = p1 + p2 + p3 + p4 := by abel
  simp only [current, e1, e2, e3]
  generalize p1 + p2 + p3 + p4 = Q
  generalize lnormSqr Q = Q2
  simp only [currentCharged]
  refine ⟨by abel, by abel, ?_⟩
  have n := fun a b c d => (neutral_swap f Q Q2 a b c d).1
  have m := fun a b c d => (neutral_swap f Q Q2 a b c d).2
  rw [n p3 p4 p2 p1, m p3 p4 p1 p2, n p3 p2 p4 p1, m p3 p2 p1 p4, n p1 p4 p2 p3, m p1 p4 p3 p2,
    n p1 p2 p4 p3, m p1 p2 p3 p4]
  abel

/-! ### C217: π⁺π⁻π⁰π⁰ -/

/-- **C217.** In `VectorFormFactorPiPiPi0Pi0` the particles are `π⁺ π⁻ π⁰ π⁰`, in this order: for
every fit and every event the current changes sign when the two identical neutral pions are
exchanged, and is unchanged when the charged ones are. -/
theorem neutral_wrong_statistics (f : Fit) (p1 p2 p3 p4 : V) :
    fspMasses .neutral = [mPi, mPi, mPi0, mPi0] ∧
      current f .neutral p1 p2 p4 p3 = -current f .neutral p1 p2 p3 p4 ∧
        current f .neutral p2 p1 p3 p4 = current f .neutral p1 p2 p3 p4 := by
  have e1 : p1 + p2 + p4 + p3 = p1 + p2 + p3 + p4 := by abel
  have e2 : p2 + p1 + p3 + p4 = p1 + p2 + p3 + p4 := by abel
  simp only [current, e1, e2]
  exact ⟨rfl, (neutral_swap f _ _ p1 p2 p3 p4).2, (neutral_swap f _ _ p1 p2 p3 p4).1⟩

/-- The squared matrix elements do not see the sign: they are symmetric under exchange of the
first two and of the last two particles, and, for four charged pions, of particles of equal
charge. -/
theorem msqrd_exchange_partial (f : Fit) (a b : ℝ) (p1 p2 p3 p4 : V) :
    msqrd f .neutral a b p1 p2 p4 p3 = msqrd f .neutral a b p1 p2 p3 p4 ∧
      msqrd f .neutral a b p2 p1 p3 p4 = msqrd f .neutral a b p1 p2 p3 p4 ∧
      msqrd f .charged a b p3 p2 p1 p4 = msqrd f .charged a b p1 p2 p3 p4 ∧
      msqrd f .charged a b p1 p4 p3 p2 = msqrd f .charged a b p1 p2 p3 p4 ∧
      msqrd f .charged a b p2 p1 p4 p3 = msqrd f .charged a b p1 p2 p3 p4 := by
  have e1 : p1 + p2 + p4 + p3 = p1 + p2 + p3 + p4 := by abel
  have e2 : p2 + p1 + p3 + p4 = p1 + p2 + p3 + p4 := by abel
  have e3 : p3 + p2 + p1 + p4 = p1 + p2 + p3 + p4 := by abel
  have e4 : p1 + p4 + p3 + p2 = p1 + p2 + p3 + p4 := by abel
  have e5 : p2 + p1 + p4 + p3 = p1 + p2 + p3 + p4 := by abel
  obtain ⟨-, h1, h2⟩ := neutral_wrong_statistics f p1 p2 p3 p4
  obtain ⟨h3, h4, h5⟩ := charged_exchange f p1 p2 p3 p4
  have hneg : ∀ J : CV, (ldot (-J) fun i => (starRingEnd ℂ) ((-J) i)).re
      = (ldot J fun i => (starRingEnd ℂ) (J i)).re := by
    intro J; rw [ldot_conj, ldot_conj]; simp [lnormSqr]
  refine ⟨?_, ?_, ?_, ?_, ?_⟩
  · simp only [msqrd, e1, h1, hneg]
  · simp only [msqrd, e2, h2]
  · simp only [msqrd, e3, h3]
  · simp only [msqrd, e4, h4]
  · simp only [msqrd, e5, h5, hneg]

/-! ### Propagators -/

theorem den_parts (b c : ℝ) : ((b : ℂ) - Complex.I * (c : ℂ)).re = b ∧
    ((b : ℂ) - Complex.I * (c : ℂ)).im = -c := by
  constructor <;> simp

theorem bw_ne_zero {s mass width : ℝ} (hm : mass ≠ 0) (h : s = mass ^ 2 → width ≠ 0) :
    bw s mass width ≠ 0 := by
  unfold bw
  apply div_ne_zero
  · exact_mod_cast pow_ne_zero 2 hm
  · intro h0
    have hr := congrArg Complex.re h0
    have hi := congrArg Complex.im h0
    rw [(den_parts _ _).1, Complex.zero_re] at hr
    rw [(den_parts _ _).2, Complex.zero_im, neg_eq_zero] at hi
    rcases mul_eq_zero.mp hi with hi | hi
    · exact hm hi
    · exact h (by linarith) hi

theorem bw3_ne_zero {s mass width : ℝ} (hs : 0 < s) (hm : 4 * mPi ^ 2 < mass ^ 2)
    (hw : width ≠ 0) : bw3 s mass width ≠ 0 := by
  have hm0 : mass ≠ 0 := by
    rintro rfl
    have := sq_nonneg mPi
    norm_num at hm
    linarith
  unfold bw3
  apply bw_ne_zero hm0
  rintro rfl
  have h1 : mass ^ 2 / mass ^ 2 * ((mass ^ 2 - 4 * mPi ^ 2) / (mass ^ 2 - 4 * mPi ^ 2)) ^ 3 = 1 := by
    rw [div_self hs.ne', div_self (by linarith), one_pow, one_mul]
  simp only [h1]
  simp [clipPos, hw]

/-- **C218.** No propagator of the model divides by zero at a positive squared momentum: each
propagator is a non-zero number there (a quotient by zero is zero in the model). -/
theorem propagators_finite {s : ℝ} (hs : 0 < s) :
    propA1 s ≠ 0 ∧ propF0 s ≠ 0 ∧ propOmega s ≠ 0 ∧ bw3 s mRho gRho ≠ 0 ∧
      bw3 s mRho1 gRho1 ≠ 0 ∧ bw3 s mRho2 gRho2 ≠ 0 := by
  refine ⟨?_, ?_, ?_, ?_, ?_, ?_⟩
  · apply bw_ne_zero (by norm_num [mA1])
    rintro rfl
    have : a1G (mA1 ^ 2) ≠ 0 := by
      simp only [a1G, mA1]; norm_num
    rw [mul_div_assoc, div_self this]
    norm_num [gA1]
  · apply bw_ne_zero (by norm_num [mF0])
    rintro rfl
    have h : mF0 ^ 2 / mF0 ^ 2 * (mF0 ^ 2 - 4 * mPi ^ 2) / (mF0 ^ 2 - 4 * mPi ^ 2) = 1 := by
      rw [div_self hs.ne', one_mul, div_self (by norm_num [mF0, mPi])]
    simp only [h]
    norm_num [clipPos, gF0]
  · exact bw_ne_zero (by norm_num [mOmega]) fun _ => by norm_num [gOmega]
  · exact bw3_ne_zero hs (by norm_num [mPi, mRho]) (by norm_num [gRho])
  · exact bw3_ne_zero hs (by norm_num [mPi, mRho1]) (by norm_num [gRho1])
  · exact bw3_ne_zero hs (by norm_num [mPi, mRho2]) (by norm_num [gRho2])

theorem bw_im (s mass width : ℝ) :
    (bw s mass width).im = mass ^ 2 * (mass * width) / ((mass ^ 2 - s) ^ 2 + (mass * width) ^ 2) := by
  unfold bw
  rw [Complex.div_im, Complex.normSq_apply, (den_parts _ _).1, (den_parts _ _).2,
    Complex.ofReal_im, Complex.ofReal_re]
  ring

/-- **C218.** Rho-type propagators are real below the two-pion threshold and have a positive
imaginary part above it. -/
theorem bw3_cut {s mass width : ℝ} (hs : 0 < s) (hm0 : 0 < mass) (hm : 4 * mPi ^ 2 < mass ^ 2)
    (hw : 0 < width) :
    (s ≤ 4 * mPi ^ 2 → (bw3 s mass width).im = 0) ∧
      (4 * mPi ^ 2 < s → 0 < (bw3 s mass width).im) := by
  have hd : 0 < mass ^ 2 - 4 * mPi ^ 2 := by linarith
  constructor
  · intro h
    have h1 : mass ^ 2 / s * ((s - 4 * mPi ^ 2) / (mass ^ 2 - 4 * mPi ^ 2)) ^ 3 ≤ 0 := by
      apply mul_nonpos_of_nonneg_of_nonpos (by positivity)
      have : (s - 4 * mPi ^ 2) / (mass ^ 2 - 4 * mPi ^ 2) ≤ 0 :=
        div_nonpos_of_nonpos_of_nonneg (by linarith) hd.le
      exact Odd.pow_nonpos (by decide) this
    simp only [bw3, clipPos, max_eq_right h1]
    rw [bw_im]
    simp
  · intro h
    have h1 : 0 < mass ^ 2 / s * ((s - 4 * mPi ^ 2) / (mass ^ 2 - 4 * mPi ^ 2)) ^ 3 := by
      have : 0 < (s - 4 * mPi ^ 2) := by linarith
      positivity
    simp only [bw3, clipPos, max_eq_left h1.le, if_pos h1, one_mul, abs_of_pos h1]
    rw [bw_im]
    have h2 := Real.sqrt_pos.mpr h1
    have : 0 < mass * (width * √(mass ^ 2 / s * ((s - 4 * mPi ^ 2) / (mass ^ 2 - 4 * mPi ^ 2)) ^ 3)) := by
      positivity
    positivity

/-- The running width of the a1 is positive above the three-charged-pion threshold and negative
below it. -/
theorem a1_width_sign (s : ℝ) (hs : 0 < s) :
    (9 * mPi ^ 2 < s → 0 < (propA1 s).im) ∧ (s < 9 * mPi ^ 2 → (propA1 s).im < 0) := by
  have hg : 0 < a1G (mA1 ^ 2) := by simp only [a1G, mA1]; norm_num
  have hm : (0 : ℝ) < mA1 := by norm_num [mA1]
  have hgA : (0 : ℝ) < gA1 := by norm_num [gA1]
  have hlow : ¬ (0.838968432668 : ℝ) < s → a1G s
      = 4.1 * (s - 9 * mPi ^ 2) ^ 3 * (1 + -3.3 * (s - 9 * mPi ^ 2) + 5.8 * (s - 9 * mPi ^ 2) ^ 2) := by
    intro h; simp only [a1G, if_neg h]
  have hq : ∀ y : ℝ, 0 < 1 + -3.3 * y + 5.8 * y ^ 2 := by
    intro y; nlinarith [sq_nonneg (y - 3.3 / 11.6)]
  constructor
  · intro h
    have hpos : 0 < a1G s := by
      by_cases hx : (0.838968432668 : ℝ) < s
      · simp only [a1G, if_pos hx]
        have e : 1.623 * s + 10.38 + -9.32 / s + 0.65 / s ^ 2
            = (1.623 * s ^ 3 + 10.38 * s ^ 2 - 9.32 * s + 0.65) / s ^ 2 := by
          field_simp
          ring
        rw [e]
        apply div_pos _ (by positivity)
        nlinarith [pow_pos hs 3, mul_pos hs hs, sq_nonneg (s - 0.5)]
      · rw [hlow hx]
        have : 0 < s - 9 * mPi ^ 2 := by linarith
        have := hq (s - 9 * mPi ^ 2)
        positivity
    unfold propA1
    rw [bw_im]
    have : 0 < mA1 * (gA1 * a1G s / a1G (mA1 ^ 2)) := by positivity
    positivity
  · intro h
    have hx : ¬ (0.838968432668 : ℝ) < s := by
      have : (9 : ℝ) * mPi ^ 2 < 0.838968432668 := by norm_num [mPi]
      linarith
    have hneg : a1G s < 0 := by
      rw [hlow hx]
      have h1 : (s - 9 * mPi ^ 2) ^ 3 < 0 := Odd.pow_neg (by decide) (by linarith)
      have := hq (s - 9 * mPi ^ 2)
      nlinarith
    unfold propA1
    rw [bw_im]
    have h1 : mA1 * (gA1 * a1G s / a1G (mA1 ^ 2)) < 0 := by
      rw [mul_div_assoc]
      have := div_neg_of_neg_of_pos hneg hg
      nlinarith [mul_pos hm hgA]
    apply div_neg_of_neg_of_pos
    · have : 0 < mA1 ^ 2 := by positivity
      nlinarith
    · have := sq_pos_of_neg h1
      positivity

/-! ### A non-zero current -/

/-- Parameters that keep only the `f0` contribution. -/
noncomputable def onlyF0 : Args where
  massRhoBars := (1, 1, 1)
  widthRhoBars := (1, 1, 1)
  betaA1s := (0, 0, 0)
  betaF0s := (0, 0, 0)
  betaOmegas := (0, 0, 0)
  betaBRhos := (0, 0, 0)
  couplingF0 := 1
  couplingA1 := 0
  couplingRho := 0
  couplingOmega := 0
  couplingRhoGamma := 0
  couplingRhoPiPi := 0
  couplingOmegaPiRho := 0

/-- Charged pions at rest, neutral pions back to back with momentum 1 GeV. -/
noncomputable def eRest : V := ![mPi, 0, 0, 0]
noncomputable def eUp : V := ![√(mPi0 ^ 2 + 1), 0, 0, 1]
noncomputable def eDown : V := ![√(mPi0 ^ 2 + 1), 0, 0, -1]

theorem event_total : eRest + eRest + eUp + eDown = ![2 * mPi + 2 * √(mPi0 ^ 2 + 1), 0, 0, 0] := by
  funext i
  fin_cases i <;> simp [eRest, eUp, eDown]
  ring

theorem event_on_shell : lnormSqr eRest = mPi ^ 2 ∧ lnormSqr eUp = mPi0 ^ 2 ∧ lnormSqr eDown = mPi0 ^ 2 := by
  have h : √(mPi0 ^ 2 + 1) ^ 2 = mPi0 ^ 2 + 1 := Real.sq_sqrt (by positivity)
  refine ⟨?_, ?_, ?_⟩ <;> simp [lnormSqr, eRest, eUp, eDown] <;> linarith

theorem neutral_current_ne_zero : current (mkFit onlyF0) .neutral eRest eRest eUp eDown ≠ 0 := by
  intro h0
  have h := congrFun h0 3
  have hpi : (0 : ℝ) < mPi := by norm_num [mPi]
  have hE : 0 < √(mPi0 ^ 2 + 1) := Real.sqrt_pos.mpr (by positivity)
  have hQ : 0 < lnormSqr (eRest + eRest + eUp + eDown) := by
    rw [event_total]
    simp only [lnormSqr, Matrix.cons_val_zero, Matrix.cons_val_one, Matrix.cons_val]
    nlinarith
  have h34 : 0 < lnormSqr (eUp + eDown) := by
    simp [lnormSqr, eUp, eDown]
    positivity
  have h12 : 0 < lnormSqr (eRest + eRest) := by
    simp [lnormSqr, eRest]
    positivity
  have hz : ldot (eRest + eRest + eUp + eDown) (eUp - eDown) = 0 := by
    rw [event_total]
    simp [ldot, eUp, eDown]
  simp only [current, currentNeutral, currentA1, currentA1T, currentF0, currentOmega,
    currentOmegaT, currentRho, mkFit, onlyF0, Pi.add_apply, Pi.sub_apply, Pi.zero_apply, hz] at h
  have e3 : eUp 3 - eDown 3 = 2 := by simp [eUp, eDown]; norm_num
  simp [propRhoF, propRhoT, e3] at h
  have := propagators_finite h12
  rcases h with (h | h) | h
  · exact (propagators_finite hQ).2.2.2.1 h
  · exact (propagators_finite h34).2.2.2.1 h
  · exact this.2.1 h

/-- **C217.** The exchange property asked of two identical bosons fails: for these parameters and
this physical event, exchanging the neutral pions changes the current. -/
theorem neutral_not_bose :
    lnormSqr eRest = mPi ^ 2 ∧ lnormSqr eUp = mPi0 ^ 2 ∧ lnormSqr eDown = mPi0 ^ 2 ∧
      current (mkFit onlyF0) .neutral eRest eRest eDown eUp
        ≠ current (mkFit onlyF0) .neutral eRest eRest eUp eDown := by
  refine ⟨event_on_shell.1, event_on_shell.2.1, event_on_shell.2.2, ?_⟩
  rw [(neutral_wrong_statistics _ _ _ _ _).2.1]
  intro h
  apply neutral_current_ne_zero
  funext i
  have := congrFun h i
  simp only [Pi.neg_apply] at this
  simp only [Pi.zero_apply]
  linear_combination (-1 / 2 : ℂ) * this

/-- For this event the squared matrix element is strictly positive, so the positivity above is not
about the number zero. -/
theorem msqrd_pos_example : 0 < msqrd (mkFit onlyF0) .neutral 1 0 eRest eRest eUp eDown := by
  have hpi : (0 : ℝ) < mPi := by norm_num [mPi]
  have hE : 0 ≤ √(mPi0 ^ 2 + 1) := Real.sqrt_nonneg _
  have hQ : 0 < lnormSqr (eRest + eRest + eUp + eDown) := by
    rw [event_total]
    simp only [lnormSqr, Matrix.cons_val_zero, Matrix.cons_val_one, Matrix.cons_val]
    nlinarith
  obtain ⟨h1, h2⟩ := msqrd_nonneg (mkFit onlyF0) .neutral 1 0 _ _ _ _ hQ
  rcases h1.lt_or_eq with h | h
  · exact h
  · rcases h2.mp h.symm with h | h
    · norm_num at h
    · exact absurd h neutral_current_ne_zero

/-! ### C219: Lorentz covariance -/

/-- A real 4×4 matrix that preserves the Minkowski product: boosts, rotations, reflections. -/
def IsLorentz (L : Matrix (Fin 4) (Fin 4) ℝ) : Prop :=
  ∀ u v : V, ldot (L.mulVec u) (L.mulVec v) = ldot u v

/-- The same matrix acting on complex vectors. -/
noncomputable def cAct (L : Matrix (Fin 4) (Fin 4) ℝ) (J : CV) : CV :=
  fun i => ∑ k, (L i k : ℂ) * J k

theorem cAct_up (L : Matrix (Fin 4) (Fin 4) ℝ) (u : V) : cAct L (up u) = up (L.mulVec u) := by
  funext i
  simp [cAct, up, Matrix.mulVec, dotProduct]

theorem cAct_add (L : Matrix (Fin 4) (Fin 4) ℝ) (u v : CV) : cAct L (u + v) = cAct L u + cAct L v := by
  funext i
  simp [cAct, mul_add, Finset.sum_add_distrib]

theorem cAct_sub (L : Matrix (Fin 4) (Fin 4) ℝ) (u v : CV) : cAct L (u - v) = cAct L u - cAct L v := by
  funext i
  simp [cAct, mul_sub, Finset.sum_sub_distrib]

theorem cAct_smul (L : Matrix (Fin 4) (Fin 4) ℝ) (c : ℂ) (u : CV) : cAct L (c • u) = c • cAct L u := by
  funext i
  simp only [cAct, Pi.smul_apply, smul_eq_mul, Finset.mul_sum]
  exact Finset.sum_congr rfl fun k _ => by ring

theorem cAct_re (L : Matrix (Fin 4) (Fin 4) ℝ) (J : CV) :
    (fun i => (cAct L J i).re) = L.mulVec (fun i => (J i).re) ∧
      (fun i => (cAct L J i).im) = L.mulVec (fun i => (J i).im) := by
  constructor <;> funext i <;> simp [cAct, Matrix.mulVec, dotProduct]

theorem lnormSqr_lorentz {L : Matrix (Fin 4) (Fin 4) ℝ} (hL : IsLorentz L) (u : V) :
    lnormSqr (L.mulVec u) = lnormSqr u := by
  rw [lnormSqr_eq, lnormSqr_eq, hL]

theorem ldot_inv {L : Matrix (Fin 4) (Fin 4) ℝ} (hL : IsLorentz L) (u v : V) :
    ldot (L.mulVec u) (L.mulVec v) = ldot u v := hL u v

/-- Product of a real and a complex vector, by parts. -/
theorem ldot_up_parts (Q : V) (J : CV) :
    ldot (up Q) J = ((ldot Q (fun i => (J i).re) : ℝ) : ℂ)
      + ((ldot Q (fun i => (J i).im) : ℝ) : ℂ) * Complex.I := by
  apply Complex.ext <;> simp [ldot, up]

theorem ldot_lorentz {L : Matrix (Fin 4) (Fin 4) ℝ} (hL : IsLorentz L) (Q : V) (J : CV) :
    ldot (up (L.mulVec Q)) (cAct L J) = ldot (up Q) J := by
  rw [ldot_up_parts, ldot_up_parts, (cAct_re L J).1, (cAct_re L J).2, hL, hL]

theorem a1T_eq (f : Fit) (Q : V) (Q2 : ℝ) (q1 q2 q3 q4 : V) :
    currentA1T f Q Q2 q1 q2 q3 q4
      = ((f.couplingA1 : ℂ) * (propRhoF f Q2 f.betaA1 * propA1 (lnormSqr (Q - q1))
          * propRhoB f (lnormSqr (q3 + q4)))) •
        up ((q3 - q4) + (ldot q2 (q3 - q4) / lnormSqr (Q - q1)) • q1
          - (ldot Q ((q3 - q4) + (ldot q2 (q3 - q4) / lnormSqr (Q - q1)) • q1) / Q2) • Q) := by
  have h : (fun i => (q3 i - q4 i) + q1 i * ldot q2 (q3 - q4) / lnormSqr (Q - q1))
      = (q3 - q4) + (ldot q2 (q3 - q4) / lnormSqr (Q - q1)) • q1 := by
    funext i
    simp only [Pi.add_apply, Pi.sub_apply, Pi.smul_apply, smul_eq_mul]
    ring
  funext i
  simp only [currentA1T, h, Pi.smul_apply, smul_eq_mul, up, Pi.sub_apply, Pi.add_apply]
  push_cast
  ring

theorem a1T_lorentz {L : Matrix (Fin 4) (Fin 4) ℝ} (hL : IsLorentz L) (f : Fit) (Q : V) (Q2 : ℝ)
    (q1 q2 q3 q4 : V) :
    currentA1T f (L.mulVec Q) Q2 (L.mulVec q1) (L.mulVec q2) (L.mulVec q3) (L.mulVec q4)
      = cAct L (currentA1T f Q Q2 q1 q2 q3 q4) := by
  rw [a1T_eq, a1T_eq, cAct_smul, cAct_up]
  simp only [← Matrix.mulVec_sub, ← Matrix.mulVec_add, ← Matrix.mulVec_smul, ldot_inv hL,
    lnormSqr_lorentz hL]

theorem f0_eq (f : Fit) (Q : V) (Q2 : ℝ) (q1 q2 q3 q4 : V) :
    currentF0 f Q Q2 q1 q2 q3 q4
      = ((f.couplingF0 : ℂ) * (propRhoF f Q2 f.betaF0 * propRhoT f (lnormSqr (q3 + q4))
          * propF0 (lnormSqr (q1 + q2)))) •
        up ((q3 - q4) - (ldot Q (q3 - q4) / Q2) • Q) := by
  funext i
  simp only [currentF0, Pi.smul_apply, smul_eq_mul, up, Pi.sub_apply]
  push_cast
  ring

theorem f0_lorentz {L : Matrix (Fin 4) (Fin 4) ℝ} (hL : IsLorentz L) (f : Fit) (Q : V) (Q2 : ℝ)
    (q1 q2 q3 q4 : V) :
    currentF0 f (L.mulVec Q) Q2 (L.mulVec q1) (L.mulVec q2) (L.mulVec q3) (L.mulVec q4)
      = cAct L (currentF0 f Q Q2 q1 q2 q3 q4) := by
  rw [f0_eq, f0_eq, cAct_smul, cAct_up]
  simp only [← Matrix.mulVec_sub, ← Matrix.mulVec_add, ← Matrix.mulVec_smul, ldot_inv hL,
    lnormSqr_lorentz hL]

theorem omegaT_eq (f : Fit) (Q : V) (Q2 : ℝ) (q1 q2 q3 q4 : V) :
    currentOmegaT f Q Q2 q1 q2 q3 q4
      = (((2 * f.couplingOmega * f.couplingOmegaPiRho * f.couplingRhoPiPi : ℝ) : ℂ)
          * (propRhoF f Q2 f.betaOmega * propOmega (lnormSqr (Q - q1))
            * propRhoH (lnormSqr (q2 + q3)) (lnormSqr (q2 + q4)) (lnormSqr (q3 + q4)))) •
        up ((ldot q1 q4 * ldot q3 Q - ldot q1 q3 * ldot q4 Q) • q2
          + (ldot q1 q2 * ldot q4 Q - ldot q1 q4 * ldot q2 Q) • q3
          + (ldot q1 q3 * ldot q2 Q - ldot q1 q2 * ldot q3 Q) • q4) := by
  funext i
  simp only [currentOmegaT, Pi.smul_apply, smul_eq_mul, up, Pi.add_apply]
  push_cast
  ring

theorem omegaT_lorentz {L : Matrix (Fin 4) (Fin 4) ℝ} (hL : IsLorentz L) (f : Fit) (Q : V)
    (Q2 : ℝ) (q1 q2 q3 q4 : V) :
    currentOmegaT f (L.mulVec Q) Q2 (L.mulVec q1) (L.mulVec q2) (L.mulVec q3) (L.mulVec q4)
      = cAct L (currentOmegaT f Q Q2 q1 q2 q3 q4) := by
  rw [omegaT_eq, omegaT_eq, cAct_smul, cAct_up]
  simp only [← Matrix.mulVec_sub, ← Matrix.mulVec_add, ← Matrix.mulVec_smul, ldot_inv hL,
    lnormSqr_lorentz hL]

theorem rhoG_lorentz {L : Matrix (Fin 4) (Fin 4) ℝ} (hL : IsLorentz L) (q1 q2 q3 q4 : V) :
    propRhoG (L.mulVec q1) (L.mulVec q2) (L.mulVec q3) (L.mulVec q4)
      = cAct L (propRhoG q1 q2 q3 q4) := by
  have e : ∀ q1 q2 q3 q4 : V, propRhoG q1 q2 q3 q4
      = (propRhoDouble (lnormSqr (q1 + q3)) * (propRhoDouble (lnormSqr (q2 + q4))
          * ((ldot (q1 + q2 + (3 : ℝ) • q3 + q4) (q2 - q4) : ℝ) : ℂ) + 2)) • up q1 := by
    intro q1 q2 q3 q4
    funext i
    simp only [propRhoG, Pi.smul_apply, smul_eq_mul, up]
    ring
  rw [e, e, cAct_smul, cAct_up]
  simp only [← Matrix.mulVec_sub, ← Matrix.mulVec_add, ← Matrix.mulVec_smul, ldot_inv hL,
    lnormSqr_lorentz hL]

theorem rho_lorentz {L : Matrix (Fin 4) (Fin 4) ℝ} (hL : IsLorentz L) (f : Fit) (Q : V) (Q2 : ℝ)
    (q1 q2 q3 q4 : V) :
    currentRho f (L.mulVec Q) Q2 (L.mulVec q1) (L.mulVec q2) (L.mulVec q3) (L.mulVec q4)
      = cAct L (currentRho f Q Q2 q1 q2 q3 q4) := by
  have hg : rhoGnu (L.mulVec q1) (L.mulVec q2) (L.mulVec q3) (L.mulVec q4)
      = cAct L (rhoGnu q1 q2 q3 q4) := by
    simp only [rhoGnu, rhoG_lorentz hL, cAct_add, cAct_sub]
  have e : ∀ Q q1 q2 q3 q4 : V, currentRho f Q Q2 q1 q2 q3 q4
      = (((f.couplingRho * f.couplingRhoPiPi ^ 3 * f.couplingRhoGamma : ℝ) : ℂ)
          * propRhoDouble Q2) • (rhoGnu q1 q2 q3 q4
            - (ldot (up Q) (rhoGnu q1 q2 q3 q4) / (Q2 : ℂ)) • up Q) := by
    intro Q q1 q2 q3 q4
    funext i
    simp only [currentRho, Pi.smul_apply, smul_eq_mul, Pi.sub_apply, up]
    ring
  rw [e, e, cAct_smul, cAct_sub, cAct_smul, cAct_up, hg, ldot_lorentz hL]

theorem neutral_lorentz {L : Matrix (Fin 4) (Fin 4) ℝ} (hL : IsLorentz L) (f : Fit) (Q : V)
    (Q2 : ℝ) (q1 q2 q3 q4 : V) :
    currentNeutral f (L.mulVec Q) Q2 (L.mulVec q1) (L.mulVec q2) (L.mulVec q3) (L.mulVec q4)
      = cAct L (currentNeutral f Q Q2 q1 q2 q3 q4) := by
  simp only [currentNeutral, currentA1, currentOmega, a1T_lorentz hL, f0_lorentz hL,
    omegaT_lorentz hL, rho_lorentz hL, cAct_add, cAct_sub]

/-- **C219.** The current is a four-vector: boosting or rotating all four pions transforms it with
the same matrix. -/
theorem current_covariant {L : Matrix (Fin 4) (Fin 4) ℝ} (hL : IsLorentz L) (f : Fit) (mode : Mode)
    (p1 p2 p3 p4 : V) :
    current f mode (L.mulVec p1) (L.mulVec p2) (L.mulVec p3) (L.mulVec p4)
      = cAct L (current f mode p1 p2 p3 p4) := by
  cases mode <;>
    simp only [current, currentCharged, ← Matrix.mulVec_add, lnormSqr_lorentz hL,
      neutral_lorentz hL, cAct_add]

/-- **C219.** The squared matrix element does not depend on the frame. -/
theorem msqrd_invariant {L : Matrix (Fin 4) (Fin 4) ℝ} (hL : IsLorentz L) (f : Fit) (mode : Mode)
    (a b : ℝ) (p1 p2 p3 p4 : V) :
    msqrd f mode a b (L.mulVec p1) (L.mulVec p2) (L.mulVec p3) (L.mulVec p4)
      = msqrd f mode a b p1 p2 p3 p4 := by
  simp only [msqrd, current_covariant hL, ldot_conj, (cAct_re L _).1, (cAct_re L _).2,
    ← Matrix.mulVec_add, lnormSqr_lorentz hL]

/-- A boost along the z axis is such a matrix. -/
example (y : ℝ) : IsLorentz !![Real.cosh y, 0, 0, Real.sinh y; 0, 1, 0, 0; 0, 0, 1, 0;
    Real.sinh y, 0, 0, Real.cosh y] := by
  intro u v
  have := Real.cosh_sq y
  simp [ldot, Matrix.mulVec, dotProduct, Fin.sum_univ_four]
  linear_combination (u 0 * v 0 - u 3 * v 3) * this

/-! ### C220: `form_factor` -/

theorem ldotShape_nil (a : Shape) : ldotShape a [] = none ∧ ldotShape [] a = none := by
  constructor <;> unfold ldotShape <;> split <;> simp_all

theorem omegaTShape_nil (Q q1 q2 q3 : Shape) : omegaTShape Q q1 q2 q3 [] = none := by
  simp [omegaTShape, (ldotShape_nil q1).1]

theorem neutralShape_nil (Q Q2 q1 q2 q3 q4 : Shape) :
    neutralShape Q Q2 q1 q2 q3 [] = none ∧ neutralShape Q Q2 q1 [] q3 q4 = none := by
  constructor
  · simp only [neutralShape, omegaTShape_nil]
    simp
  · have : a1TShape Q Q2 q3 [] q1 q4 = none := by
      simp [a1TShape, (ldotShape_nil _).2]
    simp [neutralShape, this]

/-- **C220.** The public `form_factor` raises for every array of momenta, in both classes. -/
theorem form_factor_raises (mode : Mode) (n : ℕ) : formFactorShape mode n = none := by
  cases mode
  · exact (neutralShape_nil _ _ _ [] _ _).2
  · simp only [formFactorShape, (neutralShape_nil _ _ _ _ _ []).1]
    simp

/-- Without the reuse of the name `q2` the shapes are accepted: the model of shapes does not fail
by itself. -/
example (n : ℕ) : neutralShape [4, n] [n] [4, n] [4, n] [4, n] [4, n] = some () := by
  have h1 : broadcast [4, n] [4, n] = some [4, n] := by simp [broadcast, broadcast.go]
  have h2 : broadcast [n] [n] = some [n] := by simp [broadcast, broadcast.go]
  have h3 : broadcast [4, n] [n] = some [4, n] := by simp [broadcast, broadcast.go]
  have h4 : broadcast [n] [4, n] = some [4, n] := by simp [broadcast, broadcast.go]
  have h5 : ldotShape [4, n] [4, n] = some [n] := h2
  have h6 : lnormShape [4, n] = some [n] := rfl
  have h7 : a1TShape [4, n] [n] [4, n] [4, n] [4, n] [4, n] = some [4, n] := by
    simp [a1TShape, h1, h2, h3, h4, h5, h6]
  have h8 : omegaTShape [4, n] [4, n] [4, n] [4, n] [4, n] = some [4, n] := by
    simp [omegaTShape, h1, h2, h3, h5]
  simp [neutralShape, h7, h8]

/-! ### C221: constructor arguments -/

/-- **C221.** The third component of `beta_b_rhos` has no effect on anything the object computes. -/
theorem third_beta_ignored (a : Args) (b : ℝ) :
    mkFit { a with betaBRhos := (a.betaBRhos.1, a.betaBRhos.2.1, b) } = mkFit a := rfl

/-- Every other argument is stored: two argument lists with the same fit data agree on all of
them. -/
theorem other_arguments_stored_partial {a a' : Args} (h : mkFit a = mkFit a') :
    a'.betaBRhos.1 = a.betaBRhos.1 ∧ a'.betaBRhos.2.1 = a.betaBRhos.2.1 ∧
      a' = { a with betaBRhos := a'.betaBRhos } := by
  obtain ⟨a1, a2, a3, a4, a5, ⟨b1, b2, b3⟩, a7, a8, a9, a10, a11, a12, a13⟩ := a
  obtain ⟨c1, c2, c3, c4, c5, ⟨d1, d2, d3⟩, c7, c8, c9, c10, c11, c12, c13⟩ := a'
  simp only [mkFit, Fit.mk.injEq] at h
  obtain ⟨rfl, rfl, rfl, rfl, rfl, rfl, rfl, -, rfl, rfl, rfl, rfl, rfl, rfl, rfl⟩ := h
  simp

/-- The propagator that should combine three rho mesons with the weights 1, `beta_b_rhos[1]` and
`beta_b_rhos[2]` uses `beta_b_rhos[1]` twice: at the defaults 0.08 instead of -0.0075. -/
theorem rho_t_weights :
    (mkFit defaultArgs).betaTRho2 = 0.08 ∧ defaultArgs.betaBRhos.2.2 = -0.0075 := by
  simp [mkFit, defaultArgs]

/-! ### C223: parameters act through their own resonance -/

theorem current_congr {f f' : Fit} (mode : Mode) (p1 p2 p3 p4 : V)
    (h : ∀ (Q : V) (Q2 : ℝ) (a b c d : V), currentNeutral f Q Q2 a b c d = currentNeutral f' Q Q2 a b c d) :
    current f mode p1 p2 p3 p4 = current f' mode p1 p2 p3 p4 := by
  cases mode <;> simp only [current, currentCharged, h]

/-- **C223.** The weights of a resonance matter only if the resonance is coupled: `beta_a1s` and
`beta_b_rho` act only with `coupling_a1`, `beta_f0s` and the weights of the three-rho propagator
only with `coupling_f0`, `beta_omegas` only with `coupling_omega`, and the excited rho mesons
`mass_rho_bars`, `width_rho_bars` only through those three. -/
theorem parameters_local (f : Fit) (mode : Mode) (p1 p2 p3 p4 : V) (b : ℝ × ℝ × ℝ) (x y : ℝ) :
    (f.couplingA1 = 0 →
      current { f with betaA1 := b, betaBRho := x } mode p1 p2 p3 p4 = current f mode p1 p2 p3 p4) ∧
    (f.couplingF0 = 0 →
      current { f with betaF0 := b, betaTRho1 := x, betaTRho2 := y } mode p1 p2 p3 p4
        = current f mode p1 p2 p3 p4) ∧
    (f.couplingOmega = 0 →
      current { f with betaOmega := b, couplingOmegaPiRho := x } mode p1 p2 p3 p4
        = current f mode p1 p2 p3 p4) ∧
    (f.couplingRho = 0 →
      current { f with couplingRhoGamma := x } mode p1 p2 p3 p4 = current f mode p1 p2 p3 p4) ∧
    (f.couplingA1 = 0 → f.couplingF0 = 0 → f.couplingOmega = 0 → ∀ m w : ℝ × ℝ × ℝ,
      current { f with massRhoBar := m, widthRhoBar := w } mode p1 p2 p3 p4
        = current f mode p1 p2 p3 p4) := by
  refine ⟨fun h => ?_, fun h => ?_, fun h => ?_, fun h => ?_, fun h1 h2 h3 m w => ?_⟩
  · refine current_congr mode p1 p2 p3 p4 fun Q Q2 q1 q2 q3 q4 => ?_
    have e : ∀ q1 q2 q3 q4 : V, currentA1T { f with betaA1 := b, betaBRho := x } Q Q2 q1 q2 q3 q4
        = currentA1T f Q Q2 q1 q2 q3 q4 := by
      intro q1 q2 q3 q4; funext i; simp [currentA1T, h]
    simp only [currentNeutral, currentA1, e]
    rfl
  · refine current_congr mode p1 p2 p3 p4 fun Q Q2 q1 q2 q3 q4 => ?_
    have e : currentF0 { f with betaF0 := b, betaTRho1 := x, betaTRho2 := y } Q Q2 q1 q2 q3 q4
        = currentF0 f Q Q2 q1 q2 q3 q4 := by
      funext i; simp [currentF0, h]
    simp only [currentNeutral, e]
    rfl
  · refine current_congr mode p1 p2 p3 p4 fun Q Q2 q1 q2 q3 q4 => ?_
    have e : ∀ q1 q2 q3 q4 : V,
        currentOmegaT { f with betaOmega := b, couplingOmegaPiRho := x } Q Q2 q1 q2 q3 q4
        = currentOmegaT f Q Q2 q1 q2 q3 q4 := by
      intro q1 q2 q3 q4; funext i; simp [currentOmegaT, h]
    simp only [currentNeutral, currentOmega, e]
    rfl
  · refine current_congr mode p1 p2 p3 p4 fun Q Q2 q1 q2 q3 q4 => ?_
    have e : currentRho { f with couplingRhoGamma := x } Q Q2 q1 q2 q3 q4
        = currentRho f Q Q2 q1 q2 q3 q4 := by
      funext i; simp [currentRho, h]
    simp only [currentNeutral, e]
    rfl
  · refine current_congr mode p1 p2 p3 p4 fun Q Q2 q1 q2 q3 q4 => ?_
    have e1 : ∀ q1 q2 q3 q4 : V, currentA1T { f with massRhoBar := m, widthRhoBar := w } Q Q2 q1 q2 q3 q4
        = currentA1T f Q Q2 q1 q2 q3 q4 := by
      intro q1 q2 q3 q4; funext i; simp [currentA1T, h1]
    have e2 : currentF0 { f with massRhoBar := m, widthRhoBar := w } Q Q2 q1 q2 q3 q4
        = currentF0 f Q Q2 q1 q2 q3 q4 := by
      funext i; simp [currentF0, h2]
    have e3 : ∀ q1 q2 q3 q4 : V,
        currentOmegaT { f with massRhoBar := m, widthRhoBar := w } Q Q2 q1 q2 q3 q4
        = currentOmegaT f Q Q2 q1 q2 q3 q4 := by
      intro q1 q2 q3 q4; funext i; simp [currentOmegaT, h3]
    simp only [currentNeutral, currentA1, currentOmega, e1, e2, e3]
    rfl

/-! ### C222: integrated form factor, width and cross section -/

theorem vec_total (p1 p2 p3 p4 : Rambo.P4) :
    vec p1 + vec p2 + vec p3 + vec p4 = vec (Rambo.total [p1, p2, p3, p4]) := by
  funext i
  fin_cases i <;> simp [vec, Rambo.total] <;> ring

theorem nanmean_some {xs : List ℝ} (h : xs ≠ []) :
    nanmean (xs.map some) = some (xs.sum / xs.length) := by
  simp [nanmean, List.filterMap_map, h]

theorem nanmean_scale (c : ℝ) (xs : List (Option ℝ)) :
    nanmean (xs.map (Option.map (c * ·))) = (nanmean xs).map (c * ·) := by
  have h : (xs.map (Option.map (c * ·))).filterMap id = (xs.filterMap id).map (c * ·) := by
    induction xs with
    | nil => rfl
    | cons x xs ih => cases x <;> simp_all
  have hs : ∀ l : List ℝ, (l.map (c * ·)).sum = c * l.sum := by
    intro l
    induction l with
    | nil => simp
    | cons x l ih => simp [ih, mul_add]
  simp only [nanmean, h, List.map_eq_nil_iff, List.length_map, hs]
  split_ifs
  · rfl
  · simp [mul_div_assoc]

theorem msqrd_scale (f : Fit) (mode : Mode) (a b : ℝ) (p1 p2 p3 p4 : V) :
    msqrd f mode a b p1 p2 p3 p4 = (a - b) ^ 2 * msqrd f mode 1 0 p1 p2 p3 p4 := by
  cases mode <;> simp only [msqrd] <;> ring

theorem msqrdEvent_scale (f : Fit) (mode : Mode) (a b : ℝ) (ev : List Rambo.P4) :
    msqrdEvent f mode a b ev = (msqrdEvent f mode 1 0 ev).map ((a - b) ^ 2 * ·) := by
  match ev with
  | [p1, p2, p3, p4] =>
    simp only [msqrdEvent, Option.map_some]
    rw [msqrd_scale f mode a b]
  | [] => rfl
  | [_] => rfl
  | [_, _] => rfl
  | [_, _, _] => rfl
  | _ :: _ :: _ :: _ :: _ :: _ => rfl

/-- **C222.** The integrated form factor depends on the couplings only through the square of
`gvuu - gvdd`: it is that square times its value at `(1, 0, 0)`, for the same random numbers. -/
theorem integrated_couplings (f : Fit) (mode : Mode) (a b c eps : ℝ)
    (draws : List (List Rambo.Draw)) (q : ℝ) :
    integrated f mode (a, b, c) eps draws q
      = (integrated f mode (1, 0, 0) eps draws q).map ((a - b) ^ 2 * ·) := by
  simp only [integrated, integratedGeV]
  split_ifs
  · simp
  · cases Rambo.create (q * 1e-3) (fspMasses mode) with
    | none => rfl
    | some st =>
      simp only []
      rw [← nanmean_scale, List.map_zipWith]
      congr 1
      congr 1
      funext ev w
      rw [msqrdEvent_scale f mode a b, Option.map_map, Option.map_map]
      congr 1
      funext x
      simp only [Function.comp]
      ring

/-- **C222.** Below the sum of the masses the integrated form factor, the width and the cross
section vanish. -/
theorem below_threshold (f : Fit) (mode : Mode) (g : ℝ × ℝ × ℝ) (eps : ℝ)
    (draws : List (List Rambo.Draw)) {q mx : ℝ} (mv gvxx wv : ℝ)
    (h : q * 1e-3 < (fspMasses mode).sum) (hx : 4 * mx ^ 2 ≤ q ^ 2) :
    integrated f mode g eps draws q = some 0 ∧ width f mode g eps draws q = some 0 ∧
      crossSection f mode g eps draws q mx mv gvxx wv = some 0 := by
  have h1 : integrated f mode g eps draws q = some 0 := by
    simp only [integrated, integratedGeV, if_pos h]
  refine ⟨h1, by simp [width, h1], ?_⟩
  simp [crossSection, h1, not_lt.mpr (show 0 ≤ q ^ 2 - 4 * mx ^ 2 by linarith)]

theorem event_msqrd {cme eps : ℝ} {mode : Mode} {st : Rambo.State} {draws : List (List Rambo.Draw)}
    (f : Fit) (a b : ℝ) (ho : Rambo.Open cme (fspMasses mode))
    (hs : Rambo.create cme (fspMasses mode) = some st)
    (hd : ∀ ds ∈ draws, Rambo.Good 4 ds) :
    ∀ ev ∈ (Rambo.generate st eps draws).1, ∃ v, 0 ≤ v ∧ msqrdEvent f mode a b ev = some v := by
  have h4 : (fspMasses mode).length = 4 := by cases mode <;> rfl
  have hd' : ∀ ds ∈ draws, Rambo.Good (fspMasses mode).length ds := by rw [h4]; exact hd
  obtain ⟨hn, h1, h2, -, -, -⟩ := Rambo.create_some hs
  have hc := Rambo.open_cme_pos ho
  intro ev hev
  have hE := (Rambo.events_total_energy (eps := eps) ho hs hd').1 ev hev
  obtain ⟨hsh, hx, hy, hz⟩ := Rambo.events_on_shell (s := st) (eps := eps) (draws := draws)
    (by rw [h1]; exact hc) (by rw [h2]; exact hn) (by rw [h2]; exact ho.nonneg)
    (by rw [h2]; exact hd') ev hev
  have hl : ev.length = 4 := by rw [hsh.length_eq, h2, h4]
  obtain ⟨p1, p2, p3, p4, rfl⟩ : ∃ p1 p2 p3 p4, ev = [p1, p2, p3, p4] := by
    match ev, hl with
    | [p1, p2, p3, p4], _ => exact ⟨p1, p2, p3, p4, rfl⟩
  refine ⟨_, ?_, rfl⟩
  apply (msqrd_nonneg f mode a b _ _ _ _ _).1
  rw [vec_total]
  simp only [lnormSqr, vec, Matrix.cons_val_zero, Matrix.cons_val_one, Matrix.cons_val, hx, hy, hz]
  have : 0 < (Rambo.total [p1, p2, p3, p4]).e := lt_of_lt_of_le hc hE
  nlinarith

theorem integrated_nonneg (f : Fit) (mode : Mode) (g : ℝ × ℝ × ℝ) (eps : ℝ)
    {draws : List (List Rambo.Draw)} {q : ℝ} (h : (fspMasses mode).sum < q * 1e-3)
    (hne : draws ≠ []) (hd : ∀ ds ∈ draws, Rambo.Good 4 ds) :
    ∃ v, 0 ≤ v ∧ integrated f mode g eps draws q = some v := by
  have ho : Rambo.Open (q * 1e-3) (fspMasses mode) := by
    refine ⟨?_, ?_, h⟩
    · cases mode <;> simp [fspMasses]
    · cases mode <;> simp [fspMasses, mPi, mPi0] <;> norm_num
  simp only [integrated, integratedGeV, if_neg (not_lt.mpr h.le)]
  have h4 : (fspMasses mode).length = 4 := by cases mode <;> rfl
  obtain ⟨st, hs⟩ : ∃ st, Rambo.create (q * 1e-3) (fspMasses mode) = some st := by
    simp [Rambo.create, Rambo.baseWeight, h4]
  rw [hs]
  simp only []
  have hm := event_msqrd (eps := eps) f g.1 g.2.1 ho hs hd
  have hw := Rambo.weights_pos (eps := eps) ho hs (by rw [h4]; exact hd)
  have hlen : (Rambo.generate st eps draws).1 ≠ [] := by
    intro h0
    have h1 := congrArg List.length h0
    simp only [Rambo.generate, Rambo.scaleFactors, List.length_zipWith, List.length_map,
      List.length_nil] at h1
    obtain ⟨k, -, hk, -⟩ := Rambo.newtonLoop_eq st.cme √eps st.masses
      ((draws.map fun ds => Rambo.boost st.cme (ds.map Rambo.initMomentum)).map
        fun ps => ps.map Rambo.P4.e) 5
      ((draws.map fun ds => Rambo.boost st.cme (ds.map Rambo.initMomentum)).map fun _ => st.xi0)
      (by norm_num) (by simp)
    rw [hk] at h1
    simp at h1
    exact hne h1
  have hlw : (Rambo.generate st eps draws).2
      = (Rambo.generate st eps draws).1.map (Rambo.weight st.cme st.baseWgt st.n) := rfl
  generalize (Rambo.generate st eps draws).1 = evs at *
  rw [hlw] at hw ⊢
  generalize Rambo.weight st.cme st.baseWgt st.n = wf at *
  have key : ∃ ys : List ℝ, (∀ y ∈ ys, 0 ≤ y) ∧ ys.length = evs.length ∧
      List.zipWith (fun ev w => (msqrdEvent f mode g.1 g.2.1 ev).map (w * ·)) evs (evs.map wf)
        = ys.map some := by
    clear hlen hlw
    induction evs with
    | nil => exact ⟨[], by simp, rfl, rfl⟩
    | cons ev evs ih =>
      obtain ⟨ys, h1, h2, h3⟩ := ih (fun e he => hm e (by simp [he])) (fun w hw' => hw w (by
        rw [List.map_cons]; exact List.mem_cons_of_mem _ hw'))
      obtain ⟨v, hv, he⟩ := hm ev (by simp)
      have hwp := hw (wf ev) (by simp)
      refine ⟨(wf ev * v) :: ys, ?_, by simp [h2], ?_⟩
      · intro y hy
        rcases List.mem_cons.mp hy with rfl | hy
        · positivity
        · exact h1 y hy
      · simp [he, h3]
  obtain ⟨ys, h1, h2, h3⟩ := key
  rw [h3]
  have hy : ys ≠ [] := by
    rintro rfl
    exact hlen (List.length_eq_zero_iff.mp (by simpa using h2.symm))
  rw [nanmean_some hy]
  exact ⟨_, div_nonneg (List.sum_nonneg h1) (by positivity), rfl⟩

/-- **C222.** Above threshold, for every admissible set of random numbers, the integrated form
factor and the width are numbers and not negative. -/
theorem width_nonneg (f : Fit) (mode : Mode) (g : ℝ × ℝ × ℝ) (eps : ℝ)
    {draws : List (List Rambo.Draw)} {q : ℝ} (h : (fspMasses mode).sum < q * 1e-3)
    (hne : draws ≠ []) (hd : ∀ ds ∈ draws, Rambo.Good 4 ds) :
    ∃ v, 0 ≤ v ∧ integrated f mode g eps draws q = some v ∧
      width f mode g eps draws q = some (q / 2 * v) ∧ 0 ≤ q / 2 * v := by
  obtain ⟨v, hv, he⟩ := integrated_nonneg f mode g eps h hne hd
  refine ⟨v, hv, he, ?_, ?_⟩
  · simp only [width, he, Option.map_some]
    rw [show (0.5 : ℝ) * q * v = q / 2 * v by ring]
  · have hs : 0 < (fspMasses mode).sum := by
      cases mode <;> simp [fspMasses, mPi, mPi0] <;> norm_num
    have : 0 < q := by
      by_contra hq
      push Not at hq
      nlinarith
    positivity

/-- Admissible random numbers exist: two back-to-back pairs. -/
example : Rambo.Good 4 (Rambo.backToBack ++ Rambo.backToBack) := by
  refine ⟨rfl, ?_, ?_⟩
  · intro d hd
    exact Rambo.backToBack_good.range d (by simpa using hd)
  · rw [List.map_append, Rambo.backToBack_init]
    have := Rambo.log4_pos
    simp [Rambo.total, Rambo.mass2]
    positivity

/-- **C222.** Above twice the dark matter mass the cross section is the squared vector propagator
and the dark matter vertex times the width the vector would have at mass `q`; below, it is not a
number. -/
theorem cross_section_width (f : Fit) (mode : Mode) (g : ℝ × ℝ × ℝ) (eps : ℝ)
    (draws : List (List Rambo.Draw)) (q mx mv gvxx wv : ℝ) :
    (4 * mx ^ 2 ≤ q ^ 2 → crossSection f mode g eps draws q mx mv gvxx wv
      = (width f mode g eps draws q).map (gvxx ^ 2 * (q ^ 2 + 2 * mx ^ 2)
          / (√(q ^ 2 - 4 * mx ^ 2) * ((q ^ 2 - mv ^ 2) ^ 2 + (mv * wv) ^ 2)) * ·)) ∧
      (q ^ 2 < 4 * mx ^ 2 → crossSection f mode g eps draws q mx mv gvxx wv = none) := by
  constructor
  · intro h
    simp only [crossSection, if_neg (not_lt.mpr (show 0 ≤ q ^ 2 - 4 * mx ^ 2 by linarith)), width,
      Option.map_map]
    congr 1
    funext x
    simp only [Function.comp]
    ring
  · intro h
    simp only [crossSection, if_pos (show q ^ 2 - 4 * mx ^ 2 < 0 by linarith)]

end Hazma.FourPion
