import Verif.Props.FourPion
import Verif.Props.MesonThree
import Verif.Props.RamboEstimate
import Mathlib.Tactic

/-!
# Shapes of the resonances in the form factors, and constant matrix elements
-/

namespace Hazma.Resonances

open Hazma
open Filter Topology

/-! ## Four pions -/

section FourPion
open Hazma.FourPion

/-- Velocity of a pion in a pair of squared mass `s`. -/
noncomputable def velocity (s : ℝ) : ℝ := Real.sqrt (1 - 4 * mPi ^ 2 / s)

theorem mPi_pos : 0 < mPi := by norm_num [FourPion.mPi]

theorem velocity_sq {s : ℝ} (h : 4 * mPi ^ 2 < s) : velocity s ^ 2 = (s - 4 * mPi ^ 2) / s ∧ 0 < velocity s := by
  have hp := mPi_pos
  have hs : 0 < s := by nlinarith
  have h1 : 0 < 1 - 4 * mPi ^ 2 / s := by rw [sub_pos, div_lt_one hs]; exact h
  refine ⟨?_, Real.sqrt_pos.mpr h1⟩
  unfold velocity
  rw [Real.sq_sqrt h1.le]
  field_simp

theorem bw_inv (s m w : ℝ) : (bw s m w)⁻¹ = (((m ^ 2 - s : ℝ) : ℂ) - Complex.I * ((m * w : ℝ) : ℂ)) / ((m ^ 2 : ℝ) : ℂ) := by
  unfold bw; rw [inv_div]

/-- C276: the f0 is a resonance whose width is proportional to the velocity of its pions and equal to the
nominal width at the nominal mass. -/
theorem f0_running_width (s : ℝ) (hs : 4 * mPi ^ 2 < s) :
    (propF0 s)⁻¹ = (((mF0 ^ 2 - s : ℝ) : ℂ)
      - Complex.I * ((mF0 * (gF0 * (velocity s / velocity (mF0 ^ 2))) : ℝ) : ℂ)) / ((mF0 ^ 2 : ℝ) : ℂ) := by
  unfold propF0
  rw [bw_inv]
  have hp := mPi_pos
  have hm : 4 * mPi ^ 2 < mF0 ^ 2 := by norm_num [mF0, FourPion.mPi]
  obtain ⟨h1, h2⟩ := velocity_sq hs
  obtain ⟨h3, h4⟩ := velocity_sq hm
  have hs0 : 0 < s := by nlinarith
  have hm0 : 0 < mF0 ^ 2 := by nlinarith
  have d1 : 0 < s - 4 * mPi ^ 2 := by linarith
  have d2 : 0 < mF0 ^ 2 - 4 * mPi ^ 2 := by linarith
  have : √(clipPos (mF0 ^ 2 / s * (s - 4 * mPi ^ 2) / (mF0 ^ 2 - 4 * mPi ^ 2))) = velocity s / velocity (mF0 ^ 2) := by
    rw [clipPos, max_eq_left (by positivity)]
    rw [show mF0 ^ 2 / s * (s - 4 * mPi ^ 2) / (mF0 ^ 2 - 4 * mPi ^ 2) = (velocity s / velocity (mF0 ^ 2)) ^ 2 by
      rw [div_pow, h1, h3]; field_simp]
    exact Real.sqrt_sq (by positivity)
  simp only [this]

/-- C276: rho-like resonances have the running width of a p-wave, proportional to the squared energy times
the cube of the velocity. -/
theorem rho_running_width (s m w : ℝ) (hs : 4 * mPi ^ 2 < s) (hm : 4 * mPi ^ 2 < m ^ 2) :
    (bw3 s m w)⁻¹ = (((m ^ 2 - s : ℝ) : ℂ)
      - Complex.I * ((m * (w * (s / m ^ 2 * (velocity s / velocity (m ^ 2)) ^ 3)) : ℝ) : ℂ)) / ((m ^ 2 : ℝ) : ℂ) := by
  unfold bw3
  rw [bw_inv]
  have hp := mPi_pos
  obtain ⟨h1, h2⟩ := velocity_sq hs
  obtain ⟨h3, h4⟩ := velocity_sq hm
  have hs0 : 0 < s := by nlinarith
  have hm0 : 0 < m ^ 2 := by nlinarith
  have d1 : 0 < s - 4 * mPi ^ 2 := by linarith
  have d2 : 0 < m ^ 2 - 4 * mPi ^ 2 := by linarith
  have hg : clipPos (m ^ 2 / s * ((s - 4 * mPi ^ 2) / (m ^ 2 - 4 * mPi ^ 2)) ^ 3)
      = (s / m ^ 2 * (velocity s / velocity (m ^ 2)) ^ 3) ^ 2 := by
    rw [clipPos, max_eq_left (by positivity)]
    rw [show (s / m ^ 2 * (velocity s / velocity (m ^ 2)) ^ 3) ^ 2
      = (s / m ^ 2) ^ 2 * (velocity s ^ 2 / velocity (m ^ 2) ^ 2) ^ 3 by ring, h1, h3]
    have hm1 : m ≠ 0 := by rintro rfl; norm_num at hm0
    field_simp
  have hpos : 0 < s / m ^ 2 * (velocity s / velocity (m ^ 2)) ^ 3 := by positivity
  simp only [hg]
  rw [if_pos (by positivity), abs_of_pos (by positivity), Real.sqrt_sq hpos.le, one_mul]

theorem bw3_below {s m w : ℝ} (hs : 0 < s) (h : s ≤ 4 * mPi ^ 2) (hm : 4 * mPi ^ 2 < m ^ 2) :
    bw3 s m w = ((m ^ 2 / (m ^ 2 - s) : ℝ) : ℂ) := by
  have h1 : m ^ 2 / s * ((s - 4 * mPi ^ 2) / (m ^ 2 - 4 * mPi ^ 2)) ^ 3 ≤ 0 := by
    apply mul_nonpos_of_nonneg_of_nonpos (by positivity)
    apply Odd.pow_nonpos (by decide)
    exact div_nonpos_of_nonpos_of_nonneg (by linarith) (by linarith)
  unfold bw3 clipPos
  simp only [max_eq_right h1, abs_zero, Real.sqrt_zero, mul_zero]
  unfold bw
  push_cast
  simp

theorem bw3_tendsto {m w : ℝ} (hm : 4 * mPi ^ 2 < m ^ 2) :
    Tendsto (fun s => bw3 s m w) (𝓝[>] 0) (𝓝 1) := by
  have hp := mPi_pos
  have hm0 : m ^ 2 ≠ 0 := by nlinarith
  have h1 : Tendsto (fun s : ℝ => ((m ^ 2 / (m ^ 2 - s) : ℝ) : ℂ)) (𝓝[>] 0) (𝓝 ((1 : ℝ) : ℂ)) := by
    refine (Complex.continuous_ofReal.tendsto 1).comp ?_
    have : ContinuousAt (fun s : ℝ => m ^ 2 / (m ^ 2 - s)) 0 := by
      apply ContinuousAt.div continuousAt_const (by fun_prop) (by simpa using hm0)
    have h2 := this.tendsto
    simp only [sub_zero, div_self hm0] at h2
    exact h2.mono_left nhdsWithin_le_nhds
  rw [Complex.ofReal_one] at h1
  refine h1.congr' ?_
  have : ∀ᶠ s : ℝ in 𝓝[>] 0, s ∈ Set.Ioc 0 (4 * mPi ^ 2) := Ioc_mem_nhdsGT (by positivity)
  filter_upwards [this] with s hs
  rw [bw3_below hs.1 hs.2 hm]

/-- C276: the combinations of rho resonances are averages with weights that add up to one: as the squared
momentum goes to zero they go to one, and their difference to the difference of the propagators. -/
theorem rho_normalisation (f : Fit) (b : ℝ × ℝ × ℝ)
    (h1 : 4 * mPi ^ 2 < f.massRhoBar.1 ^ 2) (h2 : 4 * mPi ^ 2 < f.massRhoBar.2.1 ^ 2)
    (h3 : 4 * mPi ^ 2 < f.massRhoBar.2.2 ^ 2) :
    (1 + b.1 + b.2.1 + b.2.2 ≠ 0 → Tendsto (fun s => propRhoF f s b) (𝓝[>] 0) (𝓝 1))
    ∧ (1 + f.betaBRho ≠ 0 → Tendsto (propRhoB f) (𝓝[>] 0) (𝓝 1))
    ∧ (1 + f.betaTRho1 + f.betaTRho2 ≠ 0 → Tendsto (propRhoT f) (𝓝[>] 0) (𝓝 1))
    ∧ Tendsto propRhoDouble (𝓝[>] 0) (𝓝 (((1 / mRho ^ 2 - 1 / mRho1 ^ 2 : ℝ)) : ℂ)) := by
  have m0 : 4 * mPi ^ 2 < mRho ^ 2 := by norm_num [mRho, FourPion.mPi]
  have m1 : 4 * mPi ^ 2 < mRho1 ^ 2 := by norm_num [mRho1, FourPion.mPi]
  have m2 : 4 * mPi ^ 2 < mRho2 ^ 2 := by norm_num [mRho2, FourPion.mPi]
  refine ⟨fun h => ?_, fun h => ?_, fun h => ?_, ?_⟩
  · have := ((((bw3_tendsto (w := gRho) m0).add ((bw3_tendsto (w := f.widthRhoBar.1) h1).const_mul (b.1 : ℂ))).add
      ((bw3_tendsto (w := f.widthRhoBar.2.1) h2).const_mul (b.2.1 : ℂ))).add
      ((bw3_tendsto (w := f.widthRhoBar.2.2) h3).const_mul (b.2.2 : ℂ))).div_const
      ((1 + b.1 + b.2.1 + b.2.2 : ℝ) : ℂ)
    rw [show (1 + (b.1 : ℂ) * 1 + (b.2.1 : ℂ) * 1 + (b.2.2 : ℂ) * 1) / ((1 + b.1 + b.2.1 + b.2.2 : ℝ) : ℂ) = 1 by
      have h' : ((1 + b.1 + b.2.1 + b.2.2 : ℝ) : ℂ) ≠ 0 := by exact_mod_cast h
      rw [div_eq_one_iff_eq h']; push_cast; ring] at this
    exact this
  · have := ((bw3_tendsto (w := gRho) m0).add ((bw3_tendsto (w := gRho1) m1).const_mul (f.betaBRho : ℂ))).div_const
      ((1 + f.betaBRho : ℝ) : ℂ)
    rw [show (1 + (f.betaBRho : ℂ) * 1) / ((1 + f.betaBRho : ℝ) : ℂ) = 1 by
      have h' : ((1 + f.betaBRho : ℝ) : ℂ) ≠ 0 := by exact_mod_cast h
      rw [div_eq_one_iff_eq h']; push_cast; ring] at this
    exact this
  · have := (((bw3_tendsto (w := gRho) m0).add ((bw3_tendsto (w := gRho1) m1).const_mul (f.betaTRho1 : ℂ))).add
      ((bw3_tendsto (w := gRho2) m2).const_mul (f.betaTRho2 : ℂ))).div_const
      ((1 + f.betaTRho1 + f.betaTRho2 : ℝ) : ℂ)
    rw [show (1 + (f.betaTRho1 : ℂ) * 1 + (f.betaTRho2 : ℂ) * 1) / ((1 + f.betaTRho1 + f.betaTRho2 : ℝ) : ℂ) = 1 by
      have h' : ((1 + f.betaTRho1 + f.betaTRho2 : ℝ) : ℂ) ≠ 0 := by exact_mod_cast h
      rw [div_eq_one_iff_eq h']; push_cast; ring] at this
    exact this
  · have := ((bw3_tendsto (w := gRho) m0).div_const ((mRho ^ 2 : ℝ) : ℂ)).sub
      ((bw3_tendsto (w := gRho1) m1).div_const ((mRho1 ^ 2 : ℝ) : ℂ))
    have e : propRhoDouble = fun s => bw3 s mRho gRho / ((mRho ^ 2 : ℝ) : ℂ)
        - bw3 s mRho1 gRho1 / ((mRho1 ^ 2 : ℝ) : ℂ) := rfl
    rw [e]
    push_cast at this ⊢
    exact this

/-- The default fit satisfies the hypotheses. -/
example : 4 * mPi ^ 2 < (mkFit defaultArgs).massRhoBar.1 ^ 2
    ∧ 1 + (mkFit defaultArgs).betaTRho1 + (mkFit defaultArgs).betaTRho2 ≠ 0
    ∧ 1 + (mkFit defaultArgs).betaBRho ≠ 0 := by
  norm_num [mkFit, defaultArgs, FourPion.mPi]

end FourPion

/-! ## Three mesons -/

section MesonThree
open Hazma.MesonThree Hazma.MesonFF

theorem on_peak {m g : ℝ} (hm : 0 < m) (hg : 0 < g) :
    ((m ^ 2 : ℝ) : ℂ) / (((m ^ 2 - m ^ 2 : ℝ) : ℂ) - Complex.I * ((m * g : ℝ) : ℂ)) = Complex.I * ((m / g : ℝ) : ℂ) := by
  have h1 : (m : ℂ) ≠ 0 := by exact_mod_cast hm.ne'
  have h2 : (g : ℂ) ≠ 0 := by exact_mod_cast hg.ne'
  push_cast
  rw [sub_self, zero_sub, div_eq_iff (by simp [h1, h2])]
  field_simp
  rw [Complex.I_sq]; ring

theorem pow15_one : pow15 1 = some 1 := by unfold pow15; norm_num

/-- C277: at the mass of the resonance every propagator of the three-meson form factors is imaginary, with
modulus mass over width; the terms of the omega channel also carry their amplitude and phase. -/
theorem resonance_peaks (m g mj mk : ℝ) (hm : 0 < m) (hg : 0 < g) (hj : (mj + mk) ^ 2 < m ^ 2) (f : FitEta)
    (i : Fin 4) (hi : 0 < f.masses i) (hgi : 0 < f.widths i) (h0 : 4 * gPi ^ 2 < f.masses 0 ^ 2)
    (o : FitOmega) (j : Fin 3) (ho : 0 < o.masses j) (hgo : 0 < o.widths j) :
    bwRho (m ^ 2) m g mj mk = some (-(Complex.I * ((m / g : ℝ) : ℂ)))
    ∧ bwFW? (m ^ 2) m g = some (Complex.I * ((m / g : ℝ) : ℂ))
    ∧ etaBw f (f.masses i ^ 2) i = some (Complex.I * ((f.masses i / f.widths i : ℝ) : ℂ))
    ∧ omegaTerm o (o.masses j) j = ((o.amps j * (o.masses j / o.widths j) : ℝ) : ℂ)
        * Complex.exp (Complex.I * ((o.phases j + Real.pi / 2 : ℝ) : ℂ)) := by
  have c : ∀ {m g : ℝ}, 0 < m → 0 < g →
      (((m ^ 2 - m ^ 2 : ℝ) : ℂ) - Complex.I * ((m * g : ℝ) : ℂ)) ≠ 0 := by
    intro m g hm hg
    have h1 : (m : ℂ) ≠ 0 := by exact_mod_cast hm.ne'
    have h2 : (g : ℂ) ≠ 0 := by exact_mod_cast hg.ne'
    push_cast
    simp [h1, h2]
  have sq : ∀ {m : ℝ}, 0 < m → npSqrt (m ^ 2) = some m := by
    intro m hm
    unfold npSqrt; rw [if_neg (not_lt.mpr (sq_nonneg m)), Real.sqrt_sq hm.le]
  refine ⟨?_, ?_, ?_, ?_⟩
  · have hw : gammaRho (m ^ 2) m g mj mk = some g := by
      have h1 : m ^ 2 - (mj + mk) ^ 2 ≠ 0 := by intro h; linarith
      unfold gammaRho
      simp only
      rw [if_neg h1, if_neg (by positivity), div_self h1, pow15_one]
      simp only [Option.map_some, mul_one, Option.some.injEq]
      field_simp
    unfold bwRho
    rw [sq hm, hw]
    simp only [Option.bind_some, cdiv]
    have h1 := c hm hg
    rw [if_neg]
    · congr 1
      rw [← on_peak hm hg, ← div_neg]
      congr 1
      push_cast; ring
    · intro h; apply h1; push_cast at h ⊢; linear_combination -h
  · unfold bwFW? cdiv
    rw [if_neg (c hm hg), on_peak hm hg]
  · unfold etaBw
    by_cases hz : i = 0
    · subst hz
      rw [if_pos rfl]
      unfold etaBw0
      have h1 : f.masses 0 ^ 2 - 4 * gPi ^ 2 ≠ 0 := by intro h; linarith
      simp only
      rw [if_neg (by rintro (h | h); exacts [absurd h (by positivity), h1 h]), div_self h1, pow15_one, sq hi]
      simp only [Option.bind_some, mul_one]
      rw [show f.widths 0 * f.masses 0 ^ 2 / f.masses 0 ^ 2 = f.widths 0 by field_simp]
      unfold cdiv
      rw [if_neg (c hi hgi), on_peak hi hgi]
    · rw [if_neg hz, if_neg hi.ne', sq hi]
      simp only [Option.bind_some]
      rw [show f.widths i * f.masses i ^ 2 / f.masses i ^ 2 = f.widths i by field_simp]
      unfold cdiv
      rw [if_neg (c hi hgi), on_peak hi hgi]
  · unfold omegaTerm
    rw [mul_div_assoc, on_peak ho hgo]
    have : Complex.exp (Complex.I * ((o.phases j + Real.pi / 2 : ℝ) : ℂ))
        = Complex.exp (Complex.I * (o.phases j : ℂ)) * Complex.I := by
      push_cast
      rw [mul_add, Complex.exp_add]
      congr 1
      rw [mul_comm, Complex.exp_pi_div_two_mul_I]
    rw [this]
    push_cast
    ring

/-- The rho of the eta fit on its peak. -/
example : etaBw fitEtaDefault (fitEtaDefault.masses 0 ^ 2) 0
    = some (Complex.I * ((fitEtaDefault.masses 0 / fitEtaDefault.widths 0 : ℝ) : ℂ)) :=
  (resonance_peaks 1 1 0 0 one_pos one_pos (by norm_num) fitEtaDefault 0 (by norm_num [fitEtaDefault])
    (by norm_num [fitEtaDefault]) (by norm_num [fitEtaDefault, gPi, MesonFF.mPi])
    ⟨fun _ => 1, fun _ => 1, fun _ => 1, fun _ => 0⟩ 0 one_pos one_pos).2.2.1

/-- C278: in the channel of a charged pion, a charged and a neutral kaon, the resonance in the pair of the
charged kaon and the pion (a neutral K*) enters with the amplitude of the channel with two charged kaons
(whose K* are charged), and the one in the pair of the neutral kaon and the pion with that of the channel
with two neutral kaons. -/
theorem kk_resonance_assignment (ms : ℝ × ℝ × ℝ) (f : FitKK) (q s s' t t' : ℝ) (g : Couplings) :
    kkCore .mixed ms f q s t g - kkCore .mixed ms f q s' t g
      = kkCore .charged ms f q s t g - kkCore .charged ms f q s' t g
    ∧ kkCore .mixed ms f q s t g - kkCore .mixed ms f q s t' g
      = kkCore .neutral ms f q s t g - kkCore .neutral ms f q s t' g := by
  obtain ⟨m1, m2, m3⟩ := ms
  simp only [kkCore]
  constructor <;> ring

/-- C278 fails whenever the isovector amplitude does not vanish. -/
theorem kk_resonance_swapped (ms : ℝ × ℝ × ℝ) (f : FitKK) (q s s' t : ℝ) (g : Couplings) (hg : f.gKs ≠ 0)
    (ha : isoA1 f q g ≠ 0) (hk : kstar s ms.2.1 ms.2.2 ≠ kstar s' ms.2.1 ms.2.2) :
    kkCore .mixed ms f q s t g - kkCore .mixed ms f q s' t g
      ≠ kkCore .neutral ms f q s t g - kkCore .neutral ms f q s' t g := by
  obtain ⟨m1, m2, m3⟩ := ms
  simp only [kkCore]
  simp only at hk
  intro h
  have h6 : ((√6 : ℝ) : ℂ) ≠ 0 := by
    have : √(6 : ℝ) ≠ 0 := by positivity
    exact_mod_cast this
  have hg' : (f.gKs : ℂ) ≠ 0 := by exact_mod_cast hg
  have : isoA1 f q g * (f.gKs : ℂ) * (kstar s m2 m3 - kstar s' m2 m3) = 0 := by
    field_simp at h
    linear_combination (-(f.gKs : ℂ) / 2) * h
  rcases mul_eq_zero.mp this with h1 | h1
  · rcases mul_eq_zero.mp h1 with h2 | h2
    · exact ha h2
    · exact hg' h2
  · exact hk (sub_eq_zero.mp h1)

/-- C278 (the part that holds): for equal couplings of up and down quarks the isovector amplitude vanishes and
all three channels share one amplitude. -/
theorem kk_resonance_isoscalar_partial (ms : ℝ × ℝ × ℝ) (f : FitKK) (q s t : ℝ) (g : Couplings) (hg : g.u = g.d) :
    kkCore .mixed ms f q s t g = kkCore .neutral ms f q s t g
    ∧ kkCore .mixed ms f q s t g = kkCore .charged ms f q s t g := by
  have h1 : isoA1 f q g = 0 := by simp [isoA1, hg]
  obtain ⟨m1, m2, m3⟩ := ms
  simp only [kkCore, h1]
  constructor <;> ring

/-- The two amplitudes differ for a fit with one isovector resonance. -/
example : ∃ (f : FitKK), f.gKs ≠ 0 ∧ isoA1 f 1 ⟨1, 0, 0⟩ ≠ 0 := by
  refine ⟨⟨fun _ => 1, fun _ => 1, fun _ => 1, fun _ => 0, fun _ => 2, fun _ => 0, fun i => if i = 0 then 1 else 0,
    fun _ => 0, 1⟩, one_ne_zero, ?_⟩
  simp only [isoA1, Resonance.bwFW, Fin.sum_univ_three]
  norm_num [show (2 : Fin 3) ≠ 0 by decide]

end MesonThree

/-! ## Constant matrix elements -/

section Rambo
open Hazma.RamboEstimate Hazma.Rambo

/-- The weight of an event is the phase-space weight times the squared matrix element of that event. -/
theorem weights_times_matrix_element (s : State) (eps : ℝ) (f : List P4 → Option ℝ) (draws : List (List Draw)) :
    eventWeights s eps (some f) draws
      = List.zipWith (fun ev (w : Option ℝ) => w.bind fun w => (f ev).map fun x => w * x)
        (generate s eps draws).1 (eventWeights s eps none draws) := by
  simp only [eventWeights]
  generalize (generate s eps draws).1 = l
  generalize (generate s eps draws).2 = r
  induction l generalizing r with
  | nil => simp
  | cons a l ih => cases r with
    | nil => simp
    | cons b r => simp [ih]

theorem zipWith_replicate_const {α : Type} (l : List α) (n : ℕ) (a c : ℝ) (h : l.length = n) :
    List.zipWith (fun (_ : α) (w : Option ℝ) => w.bind fun w => (some c).map fun x => w * x) l
      (List.replicate n (some a)) = List.replicate n (some (a * c)) := by
  apply List.ext_getElem
  · simp [h]
  · intro i h1 h2; simp

/-- C237 with a matrix element: a constant squared matrix element `c` multiplies the exact volume. -/
theorem massless_exact_constant {cme c : ℝ} {p n : ℕ} {s : State} {eps : ℝ}
    {draws : ℕ → ℕ → List (List Draw)} {bs : Option ℕ} (hc : 0 < cme)
    (hs : create cme (List.replicate p 0) = some s)
    (hd : ∀ k b, (draws k b).length = b ∧ ∀ ds ∈ draws k b, Good p ds)
    (hn : 2 ≤ n) (hbs : ∀ b, bs = some b → 2 ≤ b) :
    integrate (fun k b => eventWeights s eps (some fun _ => some c) (draws k b)) n bs
      = .ok (some (masslessVolume cme p * c), some 0) := by
  refine integrate_const hn hbs fun k b => ?_
  obtain ⟨h1, h2⟩ := massless_weights (eps := eps) hc hs (hd k b)
  rw [weights_times_matrix_element, h1]
  exact zipWith_replicate_const _ _ _ _ h2

end Rambo

end Hazma.Resonances
