import Verif.Model.MesonFF
import Mathlib.Tactic

/-!
# Two-meson form factors: arrays, scalars, couplings

An array of energies should be treated one energy at a time, and a scalar like an array
of one element.  Both fail for some channels.  Couplings enter linearly and with the
flavour of the final state.
-/

namespace Hazma.MesonFF

open Hazma.Resonance

/-! ### Arrays -/

/-- Value at an energy (in GeV) that comes first among the open ones. -/
noncomputable def atFirst (f : Fit) (g : Couplings) : Channel → ℝ → ℂ
  | .piPi, q => piPiAt f false g (q ^ 2)
  | .pi0Pi0, q => piPiAt f true g (q ^ 2)
  | .kK, q => kkRhoOmega f false g (q ^ 2) + kkPhiPart f (mK * 1e-3) g (q ^ 2)
  | .k0K0, q => kkRhoOmega f true g (q ^ 2) + 1.055 * kkPhiPart f (mK0 * 1e-3) g (q ^ 2)
  | .etaGamma, q => 1e-3 * etaGammaAt f g (q ^ 2)
  | .pi0Gamma, q => pi0GammaAt f g q
  | .pi0Omega, q => pi0OmegaAt f g (q ^ 2)
  | .pi0Phi, q => pi0PhiAt f g (q ^ 2)
  | .etaOmega, q => etaOmegaAt f g (q ^ 2)
  | .etaPhi, q => etaPhiAt f g (q ^ 2)

/-- Value at an energy that does not come first. -/
noncomputable def atLater (f : Fit) (g : Couplings) : Channel → ℝ → ℂ
  | .k0K0, q => kkRhoOmega f true g (q ^ 2) + kkPhiPart f (mK0 * 1e-3) g (q ^ 2)
  | c, q => atFirst f g c q

private lemma inner_cons (f : Fit) (g : Couplings) (c : Channel) (q : ℝ) (qs : List ℝ) :
    inner f g c [] = [] ∧ inner f g c (q :: qs) = atFirst f g c q :: qs.map (atLater f g c) := by
  refine ⟨by cases c <;> rfl, ?_⟩
  cases c <;> simp [inner, atFirst, atLater, kkInner, Function.comp_def] <;> rfl

private lemma open_iff (c : Channel) (q : ℝ) : q * 1e-3 > 1e-3 * threshold c ↔ threshold c < q := by
  constructor <;> intro h <;> norm_num at h ⊢ <;> linarith

private lemma scatter_map {α : Type*} [Zero α] (p : ℝ → Bool) (F : ℝ → α) (qs : List ℝ) :
    scatter (qs.map p) ((qs.filter p).map F) = qs.map fun q => if p q then F q else 0 := by
  induction qs with
  | nil => rfl
  | cons q qs ih =>
    cases h : p q
    · simp [h, scatter, ih]
    · simp [h, scatter, ih]

private lemma filled_closed (f : Fit) (g : Couplings) (c : Channel) (q : ℝ) (qs : List ℝ)
    (h : q ≤ threshold c) : filled f g c (q :: qs) = 0 :: filled f g c qs := by
  have hd : decide (q * 1e-3 > 1e-3 * threshold c) = false := by
    rw [decide_eq_false_iff_not, open_iff]; linarith
  simp only [filled, List.map_cons, List.filter_cons, hd, scatter]
  simp

lemma filled_open (f : Fit) (g : Couplings) (c : Channel) (q : ℝ) (qs : List ℝ)
    (h : threshold c < q) : filled f g c (q :: qs) = atFirst f g c (q * 1e-3) ::
      qs.map fun q' => if threshold c < q' then atLater f g c (q' * 1e-3) else 0 := by
  have hd : decide (q * 1e-3 > 1e-3 * threshold c) = true := by
    rw [decide_eq_true_iff, open_iff]; exact h
  unfold filled
  simp only [List.map_cons, List.filter_cons, hd, if_true, (inner_cons f g c _ _).2]
  rw [scatter, scatter_map, List.map_map]
  congr 1
  apply List.map_congr_left
  intro x _
  simp only [Function.comp, decide_eq_true_eq, open_iff]

private lemma filled_nil (f : Fit) (g : Couplings) (c : Channel) : filled f g c [] = [] := rfl

/-- **Arrays, where it holds.** For every channel but `K⁰ K⁰`, an array of energies gives
what the energies give one at a time.  Missing: `K⁰ K⁰`, see `k0_k0_array`. -/
theorem array_elementwise_partial (f : Fit) (g : Couplings) (c : Channel) (hc : c ≠ .k0K0)
    (qs : List ℝ) :
    formFactorArray f g c qs = qs.flatMap fun q => formFactorArray f g c [q] := by
  have hl : ∀ q, atLater f g c q = atFirst f g c q := by
    intro q; cases c <;> first | rfl | exact absurd rfl hc
  have key : ∀ qs, filled f g c qs = qs.map fun q => if threshold c < q then atFirst f g c (q * 1e-3) else 0 := by
    intro qs
    induction qs with
    | nil => rfl
    | cons q qs ih =>
      by_cases h : threshold c < q
      · rw [filled_open f g c q qs h]
        simp [h, hl]
      · rw [filled_closed f g c q qs (not_lt.1 h), ih]
        simp [h]
  simp only [formFactorArray, key]
  induction qs with
  | nil => rfl
  | cons q qs ih => simp [ih]

/-- **Violation: neutral kaons.** The correction factor of the phi is applied to the first
open energy of the array (with all its phi resonances) and to no other.  The exact
result, for every array. -/
theorem k0_k0_array (f : Fit) (g : Couplings) (closed : List ℝ) (q : ℝ) (rest : List ℝ)
    (hclosed : ∀ x ∈ closed, x ≤ threshold .k0K0) (hq : threshold .k0K0 < q) :
    formFactorArray f g .k0K0 (closed ++ q :: rest) =
      (closed.map fun _ => 0) ++ formFactorScalar f g .k0K0 q ::
        rest.map fun x => if threshold .k0K0 < x then
          formFactorScalar f g .k0K0 x - 0.055 * kkPhiPart f (mK0 * 1e-3) g ((x * 1e-3) ^ 2) else 0 := by
  have hs : ∀ x, threshold .k0K0 < x → formFactorScalar f g .k0K0 x = atFirst f g .k0K0 (x * 1e-3) := by
    intro x hx
    simp [formFactorScalar, filled_open f g .k0K0 x [] hx]
  induction closed with
  | nil =>
    simp only [List.nil_append, List.map_nil, formFactorArray, filled_open f g .k0K0 q rest hq, List.map_cons,
      List.map_map, hs q hq, arrayFactor, mul_one]
    congr 1
    apply List.map_congr_left
    intro x _
    simp only [Function.comp, mul_one]
    by_cases hx : threshold .k0K0 < x
    · rw [if_pos hx, if_pos hx, hs x hx]
      simp only [atFirst, atLater]
      ring
    · rw [if_neg hx, if_neg hx]
  | cons a closed ih =>
    have := ih (fun x hx => hclosed x (by simp [hx]))
    simp only [formFactorArray, List.cons_append, filled_closed f g .k0K0 a _ (hclosed a (by simp)),
      List.map_cons, arrayFactor, mul_one] at this ⊢
    rw [this]

/-- In particular a purely strange coupling gives two different values for the same energy
given twice, whenever the first is not zero. -/
theorem k0_k0_repeated (f : Fit) (gs q : ℝ) (hq : threshold .k0K0 < q) :
    let F := formFactorScalar f ⟨0, 0, gs⟩ .k0K0 q
    formFactorArray f ⟨0, 0, gs⟩ .k0K0 [q, q] = [F, F / 1.055] ∧ (F ≠ 0 → F / 1.055 ≠ F) := by
  intro F
  have h := k0_k0_array f ⟨0, 0, gs⟩ [] q [q] (by simp) hq
  have hz : kkRhoOmega f true ⟨0, 0, gs⟩ ((q * 1e-3) ^ 2) = 0 := by
    simp [kkRhoOmega, ci0, ci1]
  have hF : F = 1.055 * kkPhiPart f (mK0 * 1e-3) ⟨0, 0, gs⟩ ((q * 1e-3) ^ 2) := by
    have : F = atFirst f ⟨0, 0, gs⟩ .k0K0 (q * 1e-3) := by
      simp [F, formFactorScalar, filled_open f ⟨0, 0, gs⟩ .k0K0 q [] hq]
    rw [this, atFirst, hz, zero_add]
  refine ⟨?_, ?_⟩
  · rw [List.nil_append] at h
    rw [h]
    simp only [List.map_nil, List.nil_append, List.map_cons, if_pos hq]
    rw [show formFactorScalar f ⟨0, 0, gs⟩ .k0K0 q = F from rfl, hF]
    congr 2
    norm_num
    ring
  · intro hne hcon
    rw [div_eq_iff (by norm_num)] at hcon
    have : F * (1.055 - 1) = 0 := by linear_combination -hcon
    rcases mul_eq_zero.1 this with h0 | h0
    · exact hne h0
    · norm_num at h0

/-- Below threshold every form factor is zero, for scalars and inside arrays. -/
theorem closed_channels (f : Fit) (g : Couplings) (c : Channel) (qs : List ℝ)
    (h : ∀ q ∈ qs, q ≤ threshold c) :
    formFactorArray f g c qs = qs.map (fun _ => 0) ∧
    ∀ q ∈ qs, formFactorScalar f g c q = 0 := by
  constructor
  · induction qs with
    | nil => rfl
    | cons q qs ih =>
      have := ih (fun x hx => h x (by simp [hx]))
      simp only [formFactorArray, filled_closed f g c q qs (h q (by simp)), List.map_cons, zero_mul] at this ⊢
      rw [this]
  · intro q hq
    simp [formFactorScalar, filled_closed f g c q [] (h q hq)]

/-! ### Scalars -/

/-- The five classes with a conversion from GeV after the return of scalars. -/
def converted (c : Channel) : Prop :=
  c = .pi0Gamma ∨ c = .pi0Omega ∨ c = .pi0Phi ∨ c = .etaOmega ∨ c = .etaPhi

private lemma filled_one (f : Fit) (g : Couplings) (c : Channel) (q : ℝ) :
    filled f g c [q] = [formFactorScalar f g c q] := by
  by_cases h : threshold c < q
  · simp [formFactorScalar, filled_open f g c q [] h]
  · simp [formFactorScalar, filled_closed f g c q [] (not_lt.1 h), filled_nil]

/-- Scalars, where it holds: five classes return for a scalar what they return for an array of
one element.  Missing: the other five, see `scalar_not_converted`. -/
theorem scalar_like_array_partial (f : Fit) (g : Couplings) (c : Channel) (hc : ¬ converted c) (q : ℝ) :
    formFactorArray f g c [q] = [formFactorScalar f g c q] ∧
    integratedArray f g c [q] = [integratedScalar f g c q] := by
  have ha : arrayFactor c = 1 := by
    cases c <;> first | rfl | exact absurd (by simp [converted]) hc
  have h1 : formFactorArray f g c [q] = [formFactorScalar f g c q] := by
    simp [formFactorArray, filled_one, ha]
  exact ⟨h1, by simp [integratedArray, h1, integratedScalar]⟩

/-- **Violation: scalars.** In the other five classes the form factor of a scalar is a
thousand times, and the integrated form factor a million times, that of an array holding
the same energy. -/
theorem scalar_not_converted (f : Fit) (g : Couplings) (c : Channel) (hc : converted c) (q : ℝ) :
    formFactorArray f g c [q] = [formFactorScalar f g c q / 1000] ∧
    integratedArray f g c [q] = [integratedScalar f g c q / 1000000] := by
  have ha : arrayFactor c = 1e-3 := by
    rcases hc with rfl | rfl | rfl | rfl | rfl <;> rfl
  have h1 : formFactorArray f g c [q] = [formFactorScalar f g c q / 1000] := by
    simp only [formFactorArray, filled_one, ha, List.map_cons, List.map_nil]
    congr 1
    norm_num
    ring
  refine ⟨h1, ?_⟩
  simp only [integratedArray, h1, integratedScalar, List.zipWith_cons_cons, List.zipWith_nil_left]
  congr 1
  rw [norm_div]
  norm_num
  ring

/-- Widths use the array path also for scalars, so they do not depend on the way the mass
is given; `½ m` times the integrated form factor of the scalar is the width in the five
classes without conversion only. -/
theorem width_path (f : Fit) (g : Couplings) (c : Channel) (mv : ℝ) :
    widthArray f g c [mv] = [widthScalar f g c mv] ∧
    widthScalar f g c mv =
      (if threshold c < mv then 1 / 2 * mv * ((integratedArray f g c [mv]).getD 0 0) else 0) ∧
    (¬ converted c → widthScalar f g c mv =
      if threshold c < mv then 1 / 2 * mv * integratedScalar f g c mv else 0) ∧
    (converted c → widthScalar f g c mv =
      if threshold c < mv then 1 / 2 * mv * (integratedScalar f g c mv / 1000000) else 0) := by
  have hJ : ∃ J, integratedArray f g c [mv] = [J] := by
    by_cases hc : converted c
    · exact ⟨_, (scalar_not_converted f g c hc mv).2⟩
    · exact ⟨_, (scalar_like_array_partial f g c hc mv).2⟩
  obtain ⟨J, hJ⟩ := hJ
  have h1 : widthArray f g c [mv] = [if threshold c < mv then 1 / 2 * mv * J else 0] := by
    by_cases h : threshold c < mv
    · have hd : decide (mv > threshold c) = true := decide_eq_true h
      simp only [widthArray, List.filter_cons, List.map_cons, hd, if_true, List.filter_nil, List.map_nil, hJ,
        List.zipWith_cons_cons, List.zipWith_nil_left, scatter, if_pos h]
      norm_num
    · have hd : decide (mv > threshold c) = false := decide_eq_false h
      simp [widthArray, h, scatter]
  have h2 : widthScalar f g c mv = if threshold c < mv then 1 / 2 * mv * J else 0 := by
    simp [widthScalar, h1]
  refine ⟨by rw [h1, h2], by rw [h2, hJ]; rfl, fun hc => ?_, fun hc => ?_⟩
  · rw [(scalar_like_array_partial f g c hc mv).2] at hJ
    rw [h2, ← List.head_eq_of_cons_eq hJ]
  · rw [(scalar_not_converted f g c hc mv).2] at hJ
    rw [h2, ← List.head_eq_of_cons_eq hJ]

/-! ### Couplings -/

/-- Linear combination of two sets of couplings. -/
def comb (a : ℝ) (g : Couplings) (b : ℝ) (g' : Couplings) : Couplings :=
  ⟨a * g.u + b * g'.u, a * g.d + b * g'.d, a * g.s + b * g'.s⟩

private lemma ci0_comb (a g b g') : ci0 (comb a g b g') = a * ci0 g + b * ci0 g' := by
  simp only [ci0, comb]; ring
private lemma ci1_comb (a g b g') : ci1 (comb a g b g') = a * ci1 g + b * ci1 g' := by
  simp only [ci1, comb]; ring
private lemma cs_comb (a g b g') : cs (comb a g b g') = a * cs g + b * cs g' := by
  simp only [cs, comb]; ring

private lemma sum_comb {ι : Type*} (l : List ι) (a b : ℂ) (F G H : ι → ℂ)
    (h : ∀ i, F i = a * G i + b * H i) :
    (l.map F).sum = a * (l.map G).sum + b * (l.map H).sum := by
  induction l with
  | nil => simp
  | cons i l ih => simp only [List.map_cons, List.sum_cons, ih, h]; ring

private lemma piPi_comb (f : Fit) (n : Bool) (a b : ℝ) (g g' : Couplings) (s : ℝ) :
    piPiAt f n (comb a g b g') s = a * piPiAt f n g s + b * piPiAt f n g' s := by
  unfold piPiAt
  simp only [ci1_comb]
  push_cast
  cases n
  · simp only [Bool.false_eq_true, if_false]
    cases f.pipi with
    | nil => simp
    | cons r l =>
      simp only [List.map_cons, List.modify_zero_cons, List.sum_cons]
      rw [sum_comb l a b _ (fun r => (ci1 g : ℂ) * r.c * gs r s) (fun r => (ci1 g' : ℂ) * r.c * gs r s)
        (fun r => by ring)]
      ring
  · simp only [if_true]
    rw [sum_comb f.pipi a b _ (fun r => (ci1 g : ℂ) * r.c * gs r s) (fun r => (ci1 g' : ℂ) * r.c * gs r s)
        (fun r => by ring)]
    ring

private lemma kkRO_comb (f : Fit) (n : Bool) (a b : ℝ) (g g' : Couplings) (s : ℝ) :
    kkRhoOmega f n (comb a g b g') s = a * kkRhoOmega f n g s + b * kkRhoOmega f n g' s := by
  unfold kkRhoOmega
  simp only [ci1_comb, ci0_comb]
  push_cast
  obtain ⟨p, hp⟩ : ∃ p : ℂ, p = if n then -0.5 else 0.5 := ⟨_, rfl⟩
  rw [← hp]
  rw [sum_comb f.kkRho a b _ (fun r => p * (ci1 g * r.c * gs r s)) (fun r => p * (ci1 g' * r.c * gs r s))
      (fun r => by ring),
    sum_comb f.kkOmega a b _ (fun r => 1 / 6 * (ci0 g : ℂ) * r.c * bwFW s r.m r.w)
      (fun r => 1 / 6 * (ci0 g' : ℂ) * r.c * bwFW s r.m r.w) (fun r => by ring)]
  ring

private lemma kkPhi_comb (f : Fit) (mk a b : ℝ) (g g' : Couplings) (s : ℝ) :
    kkPhiPart f mk (comb a g b g') s = a * kkPhiPart f mk g s + b * kkPhiPart f mk g' s := by
  unfold kkPhiPart
  simp only [cs_comb]
  push_cast
  exact sum_comb f.kkPhi a b _ _ _ (fun r => by ring)

private lemma etaGamma_comb (f : Fit) (a b : ℝ) (g g' : Couplings) (s : ℝ) :
    etaGammaAt f (comb a g b g') s = a * etaGammaAt f g s + b * etaGammaAt f g' s := by
  unfold etaGammaAt
  simp only [ci1_comb, ci0_comb, cs_comb]
  rw [sum_comb f.etaRest a b _ _ _ (fun p => by
    show _ = (a : ℂ) * (((if p.1 = 0 then ci0 g else if p.1 = 1 then ci1 g else cs g : ℝ) : ℂ) * p.2.c *
        ((p.2.m ^ 2 : ℝ) : ℂ) / (((p.2.m ^ 2 - s : ℝ) : ℂ) - Complex.I * ((√s * p.2.w : ℝ) : ℂ))) +
      (b : ℂ) * (((if p.1 = 0 then ci0 g' else if p.1 = 1 then ci1 g' else cs g' : ℝ) : ℂ) * p.2.c *
        ((p.2.m ^ 2 : ℝ) : ℂ) / (((p.2.m ^ 2 - s : ℝ) : ℂ) - Complex.I * ((√s * p.2.w : ℝ) : ℂ)))
    split_ifs <;> (push_cast; ring))]
  push_cast
  ring

private lemma pi0Gamma_comb (f : Fit) (a b : ℝ) (g g' : Couplings) (q : ℝ) :
    pi0GammaAt f (comb a g b g') q = a * pi0GammaAt f g q + b * pi0GammaAt f g' q := by
  unfold pi0GammaAt
  simp only [ci1_comb, ci0_comb, cs_comb]
  simp only [comb]
  push_cast
  ring

private lemma pi0Omega_comb (f : Fit) (a b : ℝ) (g g' : Couplings) (s : ℝ) :
    pi0OmegaAt f (comb a g b g') s = a * pi0OmegaAt f g s + b * pi0OmegaAt f g' s := by
  unfold pi0OmegaAt
  simp only [ci1_comb]
  push_cast
  ring

private lemma pi0Phi_comb (f : Fit) (a b : ℝ) (g g' : Couplings) (s : ℝ) :
    pi0PhiAt f (comb a g b g') s = a * pi0PhiAt f g s + b * pi0PhiAt f g' s := by
  unfold pi0PhiAt
  simp only [ci1_comb]
  exact sum_comb f.pp a b _ _ _ (fun p => by push_cast; ring)

private lemma etaOmega_comb (f : Fit) (a b : ℝ) (g g' : Couplings) (s : ℝ) :
    etaOmegaAt f (comb a g b g') s = a * etaOmegaAt f g s + b * etaOmegaAt f g' s := by
  unfold etaOmegaAt
  simp only [ci0_comb]
  push_cast
  ring

private lemma etaPhi_comb (f : Fit) (a b : ℝ) (g g' : Couplings) (s : ℝ) :
    etaPhiAt f (comb a g b g') s = a * etaPhiAt f g s + b * etaPhiAt f g' s := by
  unfold etaPhiAt
  simp only [comb]
  push_cast
  ring

private lemma atFirst_comb (f : Fit) (c : Channel) (a b : ℝ) (g g' : Couplings) (q : ℝ) :
    atFirst f (comb a g b g') c q = a * atFirst f g c q + b * atFirst f g' c q := by
  cases c <;> simp only [atFirst, piPi_comb, kkRO_comb, kkPhi_comb, etaGamma_comb, pi0Gamma_comb,
    pi0Omega_comb, pi0Phi_comb, etaOmega_comb, etaPhi_comb] <;> ring

private lemma atLater_comb (f : Fit) (c : Channel) (a b : ℝ) (g g' : Couplings) (q : ℝ) :
    atLater f (comb a g b g') c q = a * atLater f g c q + b * atLater f g' c q := by
  by_cases hc : c = .k0K0
  · subst hc
    simp only [atLater, kkRO_comb, kkPhi_comb]; ring
  · have hl : ∀ g q, atLater f g c q = atFirst f g c q := by
      intro g q; cases c <;> first | rfl | exact absurd rfl hc
    simp only [hl, atFirst_comb]

/-- **Linearity.** Every form factor is linear in the couplings to the three quarks, for
scalars and for arrays of any length. -/
theorem linear_in_couplings (f : Fit) (c : Channel) (a b : ℝ) (g g' : Couplings) :
    (∀ q, formFactorScalar f (comb a g b g') c q =
      a * formFactorScalar f g c q + b * formFactorScalar f g' c q) ∧
    ∀ qs, formFactorArray f (comb a g b g') c qs =
      List.zipWith (fun x y => (a : ℂ) * x + b * y) (formFactorArray f g c qs) (formFactorArray f g' c qs) := by
  have key : ∀ qs, filled f (comb a g b g') c qs =
      List.zipWith (fun x y => (a : ℂ) * x + b * y) (filled f g c qs) (filled f g' c qs) := by
    intro qs
    induction qs with
    | nil => rfl
    | cons q qs ih =>
      by_cases h : threshold c < q
      · rw [filled_open _ _ _ _ _ h, filled_open _ _ _ _ _ h, filled_open _ _ _ _ _ h,
          List.zipWith_cons_cons, atFirst_comb, List.zipWith_map, List.zipWith_self]
        congr 1
        apply List.map_congr_left
        intro x _
        split_ifs
        · rw [atLater_comb]
        · simp
      · rw [filled_closed _ _ _ _ _ (not_lt.1 h), filled_closed _ _ _ _ _ (not_lt.1 h),
          filled_closed _ _ _ _ _ (not_lt.1 h), List.zipWith_cons_cons, ih]
        simp
  constructor
  · intro q
    have := key [q]
    rw [filled_one, filled_one, filled_one] at this
    simpa using this
  · intro qs
    simp only [formFactorArray, key, List.map_zipWith, List.zipWith_map]
    congr 1
    ext x y
    ring

/-- Partial widths scale with the square of a common factor of the couplings. -/
theorem width_quadratic (f : Fit) (c : Channel) (t : ℝ) (g : Couplings) (mv : ℝ) :
    widthScalar f ⟨t * g.u, t * g.d, t * g.s⟩ c mv = t ^ 2 * widthScalar f g c mv := by
  have hF : ∀ q, formFactorScalar f ⟨t * g.u, t * g.d, t * g.s⟩ c q = t * formFactorScalar f g c q := by
    intro q
    have := (linear_in_couplings f c t 0 g g).1 q
    simpa [comb] using this
  have hI : ∀ q, integratedScalar f ⟨t * g.u, t * g.d, t * g.s⟩ c q = t ^ 2 * integratedScalar f g c q := by
    intro q
    unfold integratedScalar
    rw [hF, norm_mul, mul_pow, Complex.norm_real, Real.norm_eq_abs, sq_abs]
    ring
  by_cases hc : converted c
  · rw [(width_path f _ c mv).2.2.2 hc, (width_path f g c mv).2.2.2 hc, hI]
    split_ifs <;> ring
  · rw [(width_path f _ c mv).2.2.1 hc, (width_path f g c mv).2.2.1 hc, hI]
    split_ifs <;> ring

/-- **Flavour selection.** Final states of isospin one see the difference of the up and
down couplings only, `η ω` their sum, `η φ` the strange coupling.  Couplings proportional
to the quark charges give all three combinations the same size. -/
theorem selection_rules (f : Fit) (g g' : Couplings) (qs : List ℝ) :
    (g.u - g.d = g'.u - g'.d → ∀ c, c = .piPi ∨ c = .pi0Pi0 ∨ c = .pi0Omega ∨ c = .pi0Phi →
      formFactorArray f g c qs = formFactorArray f g' c qs) ∧
    (g.u + g.d = g'.u + g'.d → formFactorArray f g .etaOmega qs = formFactorArray f g' .etaOmega qs) ∧
    (g.s = g'.s → formFactorArray f g .etaPhi qs = formFactorArray f g' .etaPhi qs) ∧
    ci0 ⟨2 / 3, -1 / 3, -1 / 3⟩ = 1 ∧ ci1 ⟨2 / 3, -1 / 3, -1 / 3⟩ = 1 ∧ cs ⟨2 / 3, -1 / 3, -1 / 3⟩ = 1 := by
  refine ⟨fun h c hc => ?_, fun h => ?_, fun h => ?_, by norm_num [ci0], by norm_num [ci1], by norm_num [cs]⟩
  · have h1 : ci1 g = ci1 g' := h
    rcases hc with rfl | rfl | rfl | rfl <;>
      simp only [formFactorArray, filled, inner, piPiAt, pi0OmegaAt, pi0PhiAt, h1]
  · have h1 : ci0 g = ci0 g' := by unfold ci0; rw [h]
    simp only [formFactorArray, filled, inner, etaOmegaAt, h1]
  · simp only [formFactorArray, filled, inner, etaPhiAt, h]

/-- Without coupling to strange quarks, exchanging up and down exchanges the charged and
the neutral kaons. -/
theorem kaon_exchange (f : Fit) (u d q : ℝ) (hq : threshold .k0K0 < q) :
    formFactorScalar f ⟨u, d, 0⟩ .k0K0 q = formFactorScalar f ⟨d, u, 0⟩ .kK q := by
  have hq' : threshold .kK < q := lt_trans (by norm_num [threshold, masses, mK, mK0]) hq
  simp only [formFactorScalar, filled_open _ _ _ _ _ hq, filled_open _ _ _ _ _ hq', List.getD_cons_zero,
    atFirst]
  have hz : ∀ mk, kkPhiPart f mk ⟨u, d, 0⟩ ((q * 1e-3) ^ 2) = 0 ∧
      kkPhiPart f mk ⟨d, u, 0⟩ ((q * 1e-3) ^ 2) = 0 := by
    intro mk; simp [kkPhiPart, cs]
  rw [(hz _).1, (hz _).2, mul_zero]
  congr 1
  unfold kkRhoOmega
  congr 1
  · congr 1
    apply List.map_congr_left
    intro r _
    simp only [ci1, Bool.false_eq_true, if_true, if_false]
    push_cast
    norm_num
    ring
  · congr 1
    apply List.map_congr_left
    intro r _
    simp only [ci0]
    push_cast
    ring

/-! ### The electromagnetic coupling -/

/-- **Violation: the coupling does not run.** From `1e-6` GeV² upwards `alpha_em` returns its value at
zero for every `s`, and at zero and all spacelike `s` it returns NaN; the comparison
that selects small scales is reversed. -/
theorem alpha_em_constant :
    (∀ s, 1e-6 ≤ s → alphaEm s = some 7.2973525698e-3) ∧ (∀ s, s ≤ 0 → alphaEm s = none) := by
  constructor
  · intro s hs
    unfold alphaEm
    rw [if_neg (not_lt.2 hs)]
    norm_num [alem]
  · intro s hs
    unfold alphaEm
    rw [if_pos (lt_of_le_of_lt hs (by norm_num))]
    by_cases h0 : s = 0
    · rw [if_pos h0]
    · have hneg : s < 0 := lt_of_le_of_ne hs h0
      rw [if_neg h0]
      have hr : (0.510998928e-3 : ℝ) ^ 2 / s < 0 := div_neg_of_pos_of_neg (by positivity) hneg
      have : realPi (0.510998928e-3 ^ 2 / s) = none := by
        unfold realPi
        rw [if_pos (hr.trans (by norm_num)), if_neg (not_lt.2 hr.le)]
      rw [this]
      rfl

/-- Hence the pion-photon form factor is proportional to the square root of that constant
at all energies above threshold. -/
theorem pi0_gamma_alpha (q : ℝ) (hq : threshold .pi0Gamma < q) :
    alphaEm ((q * 1e-3) ^ 2) = some 7.2973525698e-3 := by
  apply alpha_em_constant.1
  have h : (134.9768 : ℝ) < q := by
    have := hq
    norm_num [threshold, masses, mPi0] at this ⊢
    exact this
  nlinarith

/-! ### Concrete cases -/

-- Three energies, the middle one below threshold.
example (f : Fit) (g : Couplings) : formFactorArray f g .piPi [500, 100, 700] =
    formFactorArray f g .piPi [500] ++ (formFactorArray f g .piPi [100] ++
      (formFactorArray f g .piPi [700] ++ [])) :=
  array_elementwise_partial f g .piPi (by decide) [500, 100, 700]

-- A fit with one phi resonance: the form factor of a strange coupling is not zero, and two
-- copies of 1100 MeV get different values.
example (f : Fit) (hphi : f.kkPhi = [⟨1, 1.0194, 0.00425⟩]) :
    formFactorScalar f ⟨0, 0, 1⟩ .k0K0 1100 ≠ 0 ∧
    formFactorArray f ⟨0, 0, 1⟩ .k0K0 [1100, 1100] ≠
      [1100, 1100].flatMap fun q => formFactorArray f ⟨0, 0, 1⟩ .k0K0 [q] := by
  have hq : threshold .k0K0 < 1100 := by norm_num [threshold, masses, mK0]
  have hF : formFactorScalar f ⟨0, 0, 1⟩ .k0K0 1100 ≠ 0 := by
    simp only [formFactorScalar, filled_open _ _ _ _ _ hq, List.getD_cons_zero, atFirst]
    have hz : kkRhoOmega f true ⟨0, 0, 1⟩ ((1100 * 1e-3) ^ 2) = 0 := by
      simp [kkRhoOmega, ci0, ci1]
    rw [hz, zero_add, kkPhiPart, hphi]
    simp only [List.map_cons, List.map_nil, List.sum_cons, List.sum_nil, add_zero, cs]
    refine mul_ne_zero (by norm_num) (mul_ne_zero (by norm_num) ?_)
    unfold bwPwave
    refine div_ne_zero (by norm_num) ?_
    intro h0
    have := congrArg Complex.re h0
    rw [Complex.sub_re, Complex.ofReal_re, Complex.mul_re, Complex.I_re, Complex.I_im, Complex.ofReal_im,
      Complex.zero_re] at this
    norm_num at this
  obtain ⟨h1, h2⟩ := k0_k0_repeated f 1 1100 hq
  refine ⟨hF, ?_⟩
  rw [h1]
  have hs := (scalar_like_array_partial f ⟨0, 0, 1⟩ .k0K0 (by simp [converted]) 1100).1
  simp only [List.flatMap_cons, List.flatMap_nil, hs, List.append_nil, List.singleton_append, ne_eq,
    List.cons.injEq, and_true, true_and]
  exact h2 hF

example (f : Fit) (g : Couplings) :
    formFactorArray f g .pi0Gamma [500] = [formFactorScalar f g .pi0Gamma 500 / 1000] :=
  (scalar_not_converted f g .pi0Gamma (by simp [converted]) 500).1

example : alphaEm 91.19 = alphaEm 0.01 := by
  rw [alpha_em_constant.1 _ (by norm_num), alpha_em_constant.1 _ (by norm_num)]

end Hazma.MesonFF
