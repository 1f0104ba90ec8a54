import Verif.Props.RhNeutrino

/-!
# Lepton flavour in three-body leptonic widths; products; the radiative width (C188, C132, C136)
-/

namespace Hazma.RhNeutrino

open Hazma

/-- `N → ν l₁ l₂` conserves lepton flavour for one assignment of the charges: the neutrino mixes with generation
`n`, so the final state is the neutrino `n` with a pair, or the lepton `n` with a neutrino and the lepton of
the neutrino's generation. -/
def FlavourAllowed (n genv g1 g2 : Gen) : Prop :=
  (genv = n ∧ g1 = g2) ∨ (genv = g1 ∧ g2 = n) ∨ (genv = g2 ∧ g1 = n)

/-- C188: for a neutrino of another generation than the right-handed one, `width_v_l_l` is zero on all final
states that violate lepton flavour, and on the allowed ones it is the width of the decay into a massless
neutrino and the two leptons, whichever of the two is named first. -/
theorem vll_flavour_partial (c : Core) (genv g1 g2 : Gen) (hv : c.gen ≠ genv) :
    (¬ FlavourAllowed c.gen genv g1 g2 → widthVLL c genv g1 g2 = 0) ∧
    (FlavourAllowed c.gen genv g1 g2 →
      widthVLL c genv g1 g2 = widthLUD c 0 (lepMass genv) (lepMass c.gen)) ∧
    widthVLL c genv g1 g2 = widthVLL c genv g2 g1 := by
  have key : ∀ g1 g2, (¬ FlavourAllowed c.gen genv g1 g2 → widthVLL c genv g1 g2 = 0) ∧
      (FlavourAllowed c.gen genv g1 g2 →
        widthVLL c genv g1 g2 = widthLUD c 0 (lepMass genv) (lepMass c.gen)) := by
    intro g1 g2
    unfold widthVLL FlavourAllowed
    rw [if_neg hv]
    simp only
    constructor
    · intro h
      push Not at h
      rw [if_neg (fun h' => h.2.2 h'.2 h'.1.symm), if_neg (fun h' => h.2.1 h'.2 h'.1.symm)]
    · rintro (⟨h, -⟩ | ⟨h1, h2⟩ | ⟨h1, h2⟩)
      · exact absurd h.symm hv
      · rw [if_neg (fun h' => hv (h'.1.trans h1.symm)), if_pos ⟨h2.symm, h1⟩, h1, h2]
      · rw [if_pos ⟨h2.symm, h1⟩, h1, h2]
  refine ⟨(key g1 g2).1, (key g1 g2).2, ?_⟩
  have hsym : FlavourAllowed c.gen genv g1 g2 ↔ FlavourAllowed c.gen genv g2 g1 := by
    unfold FlavourAllowed
    constructor <;> rintro (⟨h, h'⟩ | h | h)
    · exact Or.inl ⟨h, h'.symm⟩
    · exact Or.inr (Or.inr h)
    · exact Or.inr (Or.inl h)
    · exact Or.inl ⟨h, h'.symm⟩
    · exact Or.inr (Or.inr h)
    · exact Or.inr (Or.inl h)
  by_cases h : FlavourAllowed c.gen genv g1 g2
  · rw [(key g1 g2).2 h, (key g2 g1).2 (hsym.mp h)]
  · rw [(key g1 g2).1 h, (key g2 g1).1 (fun h' => h (hsym.mpr h'))]

/-- C188: for the neutrino of the same generation the second lepton is not looked at: the flavour-violating
final state `ν_e e μ` of an electron-like right-handed neutrino is given the width of `ν_e e e`, and naming the
leptons in the other order gives that of `ν_e μ μ`. -/
theorem vll_second_lepton_ignored (c : Core) (g1 g2 : Gen) :
    widthVLL c c.gen g1 g2 = widthVLL c c.gen g1 g1 := by
  unfold widthVLL; rw [if_pos rfl, if_pos rfl]

/-- C188: hence forbidden decays with positive width, which depends on the order of the leptons: an
electron-like neutrino lighter than two muons. -/
theorem vll_violates_flavour (c : Core) (hg : c.gen = .fst) (hu : Real.tan (2 * c.theta) ≠ 0)
    (h1 : 2 * lepMass .fst < c.mx) (h2 : c.mx < 2 * lepMass .snd) :
    ¬ FlavourAllowed c.gen .fst .fst .snd ∧ 0 < widthVLL c .fst .fst .snd ∧ widthVLL c .fst .snd .fst = 0 := by
  refine ⟨by simp [FlavourAllowed, hg], ?_, ?_⟩
  · unfold widthVLL
    rw [if_pos hg, vllsame_eq]
    exact vff_pos (lepMass_pos _) h1 (by unfold Core.u; norm_num; exact hu) (Or.inr sw2_ne)
  · unfold widthVLL
    rw [if_pos hg, vllsame_eq]
    unfold widthVFF
    rw [if_pos h2]

/-- A 100 MeV neutrino with mixing angle 0.1 is such a case. -/
example : 0 < widthVLL ⟨100, 1 / 10, .fst⟩ .fst .fst .snd :=
  (vll_violates_flavour ⟨100, 1 / 10, .fst⟩ rfl (by
    have h : 0 < Real.tan (2 * (1 / 10)) := Real.tan_pos_of_pos_of_lt_pi_div_two (by norm_num) (by
      have := Real.pi_gt_three; linarith)
    exact h.ne') (by unfold lepMass; norm_num) (by unfold lepMass; norm_num)).2.1

/-- A muon-like neutrino decays to `ν_e e μ` but not to `ν_e e e` or `ν_e μ μ`. -/
example (mx th : ℝ) : widthVLL ⟨mx, th, .snd⟩ .fst .fst .fst = 0 ∧ widthVLL ⟨mx, th, .snd⟩ .fst .snd .snd = 0 ∧
    widthVLL ⟨mx, th, .snd⟩ .fst .fst .snd = widthLUD ⟨mx, th, .snd⟩ 0 (lepMass .fst) (lepMass .snd) :=
  ⟨(vll_flavour_partial ⟨mx, th, .snd⟩ .fst .fst .fst (by simp)).1 (by simp [FlavourAllowed]),
    (vll_flavour_partial ⟨mx, th, .snd⟩ .fst .snd .snd (by simp)).1 (by simp [FlavourAllowed]),
    (vll_flavour_partial ⟨mx, th, .snd⟩ .fst .fst .snd (by simp)).2.1 (by simp [FlavourAllowed])⟩

/-- C132: a spectrum of an open channel can be asked for the products photon, positron, neutrino and the three
flavours, and for nothing else. -/
theorem products_accepted (states : List String) (ms : Core → Option (ℝ → ℝ → ℝ)) (c : Core) (product : String)
    (h : massSum states ≤ c.mx) :
    dnde states ms c product = .valueError ↔
      product ∉ ["photon", "positron", "neutrino", "ve", "vm", "vt"] := by
  unfold dnde productFn
  rw [if_neg (not_lt.mpr h)]
  by_cases h1 : product = "photon"
  · simp [h1]
  by_cases h2 : product = "positron"
  · simp [h2]
  by_cases h3 : product ∈ ["neutrino", "ve", "vm", "vt"]
  · simp only [if_neg h1, if_neg h2, if_pos h3]
    simp only [List.mem_cons, List.not_mem_nil, or_false] at h3 ⊢
    simp only [reduceCtorEq, false_iff, not_not]
    tauto
  · simp only [if_neg h1, if_neg h2, if_neg h3]
    simp only [List.mem_cons, List.not_mem_nil, or_false] at h3 ⊢
    simp only [true_iff]
    tauto

/-- Electron neutrinos can be asked for, electrons cannot. -/
example (c : Core) (h : massSum ["ve", "pi0"] ≤ c.mx) :
    dnde ["ve", "pi0"] (fun _ => none) c "ve" ≠ .valueError ∧
      dnde ["ve", "pi0"] (fun _ => none) c "electron" = .valueError :=
  ⟨fun h' => (products_accepted _ _ c "ve" h).mp h' (by decide),
    (products_accepted _ _ c "electron" h).mpr (by decide)⟩

/-- C136: the radiative width grows with the fifth power of the mass, like the invisible one, so the ratio of
the two depends on neither the mass, the mixing nor the generation. -/
theorem radiative_width_scaling :
    (∀ (c : Core) (r : ℝ), widthVA { c with mx := r * c.mx } = r ^ 5 * widthVA c) ∧
    ∃ k : ℝ, 0 < k ∧ ∀ c : Core, widthVA c = k * (widthVVV c .fst + widthVVV c .snd + widthVVV c .trd) := by
  constructor
  · intro c r
    unfold widthVA Core.u
    ring
  · refine ⟨27 * alphaEm / (4 * Real.pi), by unfold alphaEm; positivity, ?_⟩
    intro c
    have hpi := Real.pi_ne_zero
    have hs : widthVVV c .fst + widthVVV c .snd + widthVVV c .trd =
        4 * (gf ^ 2 * c.mx ^ 5 / (768 * Real.pi ^ 3) * c.u ^ 2) := by
      unfold widthVVV
      rcases c with ⟨mx, th, g⟩
      cases g <;> simp <;> ring
    rw [hs]
    unfold widthVA
    field_simp
    ring

/-- Doubling the mass multiplies the radiative width by 32. -/
example (c : Core) : widthVA { c with mx := 2 * c.mx } = 32 * widthVA c := by
  have := radiative_width_scaling.1 c 2
  rw [this]; norm_num

end Hazma.RhNeutrino
