import Verif.Model.GevRegistry
import Verif.Props.Theory
import Mathlib.Tactic

/-!
# Final states of the GeV vector mediator (C304)
-/

namespace Hazma.GevRegistry

open Hazma.Theory

/-- The name of a final state. -/
def name : Fn → String
  | .e_e => "e e"
  | .mu_mu => "mu mu"
  | .ve_ve => "ve ve"
  | .vm_vm => "vm vm"
  | .vt_vt => "vt vt"
  | .pi_pi => "pi pi"
  | .k0_k0 => "k0 k0"
  | .k_k => "k k"
  | .pi0_gamma => "pi0 gamma"
  | .eta_gamma => "eta gamma"
  | .pi0_phi => "pi0 phi"
  | .eta_phi => "eta phi"
  | .eta_omega => "eta omega"
  | .pi0_pi0_gamma => "pi0 pi0 gamma"
  | .pi_pi_pi0 => "pi pi pi0"
  | .pi_pi_eta => "pi pi eta"
  | .pi_pi_etap => "pi pi etap"
  | .pi_pi_omega => "pi pi omega"
  | .pi0_pi0_omega => "pi0 pi0 omega"
  | .pi0_k0_k0 => "pi0 k0 k0"
  | .pi0_k_k => "pi0 k k"
  | .pi_k_k0 => "pi k k0"
  | .pi_pi_pi_pi => "pi pi pi pi"
  | .pi_pi_pi0_pi0 => "pi pi pi0 pi0"
  | .v_v => "v v"
  | .x_x => "x x"

/-- Final states without photons and positrons: neutrinos and dark matter. -/
def Dark (c : Fn) : Prop := c = .ve_ve ∨ c = .vm_vm ∨ c = .vt_vt ∨ c = .x_x

instance : DecidablePred Dark := fun c => by unfold Dark; infer_instance

/-- The states dark matter annihilates into. -/
def states : Finset Fn :=
  {.e_e, .mu_mu, .ve_ve, .vt_vt, .vm_vm, .pi_pi, .k0_k0, .k_k, .pi0_gamma, .eta_gamma, .pi0_phi, .eta_phi, .eta_omega,
    .pi0_pi0_gamma, .pi_pi_pi0, .pi_pi_eta, .pi_pi_etap, .pi_pi_omega, .pi0_pi0_omega, .pi0_k0_k0, .pi0_k_k, .pi_k_k0,
    .pi_pi_pi_pi, .pi_pi_pi0_pi0, .v_v}

theorem mem_states (c : Fn) : c ∈ states ↔ c ≠ .x_x := by
  cases c <;> decide

/-- The states the mediator decays into. -/
def decays : Finset Fn :=
  {.e_e, .mu_mu, .ve_ve, .vm_vm, .vt_vt, .x_x, .pi_pi, .k0_k0, .k_k, .pi0_gamma, .eta_gamma, .pi0_phi, .eta_phi, .eta_omega,
    .pi0_pi0_gamma, .pi_pi_pi0, .pi_pi_eta, .pi_pi_etap, .pi_pi_omega, .pi0_pi0_omega, .pi0_k0_k0, .pi0_k_k, .pi_k_k0,
    .pi_pi_pi_pi, .pi_pi_pi0_pi0}

theorem mem_decays (c : Fn) : c ∈ decays ↔ c ≠ .v_v := by
  cases c <;> decide

theorem name_injective : Function.Injective name := by
  intro a b h
  cases a <;> cases b <;> first | rfl | exact absurd h (by decide)

theorem sigma_get {α : Type} (f : Fn → α) {c : Fn} (hc : c ≠ .x_x) : (sigmaFns f).get? (name c) = some (f c) := by
  cases c <;> first | rfl | exact absurd rfl hc

theorem sigma_mem {α : Type} {f : Fn → α} {s : String} {g : α} (h : (s, g) ∈ sigmaFns f) : ∃ c, c ≠ .x_x ∧ s = name c ∧ g = f c := by
  simp only [sigmaFns, List.mem_cons, Prod.mk.injEq, List.not_mem_nil, or_false] at h
  rcases h with ⟨rfl, rfl⟩ | ⟨rfl, rfl⟩ | ⟨rfl, rfl⟩ | ⟨rfl, rfl⟩ | ⟨rfl, rfl⟩ | ⟨rfl, rfl⟩ | ⟨rfl, rfl⟩ | ⟨rfl, rfl⟩ | ⟨rfl, rfl⟩
    | ⟨rfl, rfl⟩ | ⟨rfl, rfl⟩ | ⟨rfl, rfl⟩ | ⟨rfl, rfl⟩ | ⟨rfl, rfl⟩ | ⟨rfl, rfl⟩ | ⟨rfl, rfl⟩ | ⟨rfl, rfl⟩ | ⟨rfl, rfl⟩ | ⟨rfl, rfl⟩
    | ⟨rfl, rfl⟩ | ⟨rfl, rfl⟩ | ⟨rfl, rfl⟩ | ⟨rfl, rfl⟩ | ⟨rfl, rfl⟩ | ⟨rfl, rfl⟩
  · exact ⟨.e_e, by decide, rfl, rfl⟩
  · exact ⟨.mu_mu, by decide, rfl, rfl⟩
  · exact ⟨.ve_ve, by decide, rfl, rfl⟩
  · exact ⟨.vt_vt, by decide, rfl, rfl⟩
  · exact ⟨.vm_vm, by decide, rfl, rfl⟩
  · exact ⟨.pi_pi, by decide, rfl, rfl⟩
  · exact ⟨.k0_k0, by decide, rfl, rfl⟩
  · exact ⟨.k_k, by decide, rfl, rfl⟩
  · exact ⟨.pi0_gamma, by decide, rfl, rfl⟩
  · exact ⟨.eta_gamma, by decide, rfl, rfl⟩
  · exact ⟨.pi0_phi, by decide, rfl, rfl⟩
  · exact ⟨.eta_phi, by decide, rfl, rfl⟩
  · exact ⟨.eta_omega, by decide, rfl, rfl⟩
  · exact ⟨.pi0_pi0_gamma, by decide, rfl, rfl⟩
  · exact ⟨.pi_pi_pi0, by decide, rfl, rfl⟩
  · exact ⟨.pi_pi_eta, by decide, rfl, rfl⟩
  · exact ⟨.pi_pi_etap, by decide, rfl, rfl⟩
  · exact ⟨.pi_pi_omega, by decide, rfl, rfl⟩
  · exact ⟨.pi0_pi0_omega, by decide, rfl, rfl⟩
  · exact ⟨.pi0_k0_k0, by decide, rfl, rfl⟩
  · exact ⟨.pi0_k_k, by decide, rfl, rfl⟩
  · exact ⟨.pi_k_k0, by decide, rfl, rfl⟩
  · exact ⟨.pi_pi_pi_pi, by decide, rfl, rfl⟩
  · exact ⟨.pi_pi_pi0_pi0, by decide, rfl, rfl⟩
  · exact ⟨.v_v, by decide, rfl, rfl⟩

theorem mem_sigma {α : Type} (f : Fn → α) {c : Fn} (hc : c ≠ .x_x) : (name c, f c) ∈ sigmaFns f := by
  cases c <;> first | exact absurd rfl hc | simp [sigmaFns, name]

theorem sigma_keys {α : Type} (f : Fn → α) : (sigmaFns f).keys.Nodup ∧ "total" ∉ (sigmaFns f).keys := by
  constructor
  · simp only [sigmaFns, Dict.keys, List.map_cons, List.map_nil]; decide
  · simp only [sigmaFns, Dict.keys, List.map_cons, List.map_nil]; decide

theorem spectrum_get {α : Type} (z : α) (f : Fn → α) {c : Fn} (hc : c ≠ .x_x) :
    (spectrumFns z f).get? (name c) = some (if Dark c then z else f c) := by
  cases c <;> first | rfl | exact absurd rfl hc

theorem sum_states (σ : Fn → ℝ → ℝ) (F : String → (ℝ → ℝ) → ℝ) :
    ((sigmaFns σ).map fun kv => F kv.1 kv.2).sum = ∑ c ∈ states, F (name c) (σ c) := by
  simp [sigmaFns, states, name]

/-- The photons, positrons or neutrinos of a final state. -/
def product (S : Fn → ℝ → ℝ → ℝ) (c : Fn) (e ecm : ℝ) : ℝ := if Dark c then 0 else S c e ecm

/-- The branching fraction of an open state, `σ / Σ σ`. -/
noncomputable def share (σ : Fn → ℝ → ℝ) (ecm : ℝ) (c : Fn) : ℝ := if 0 < σ c ecm then σ c ecm / ∑ c ∈ states, σ c ecm else 0

/-- **C304.** Each state of the GeV model contributes its own spectrum with its own branching fraction: nothing raises `KeyError`, no
state is left out, and the dictionaries do not mix up functions.  `spectra`: -/
theorem photon_spectra (σ : Fn → ℝ → ℝ) (S : Fn → ℝ → ℝ → ℝ) (e ecm : ℝ) :
    ∃ out, spectraAnn (sigmaFns σ) (wrapAnn (sigmaFns σ) (spectrumFns (fun _ _ => .ok 0) fun c e ecm => .ok (S c e ecm))) e ecm = .ok out ∧
      (∀ c, c ≠ .x_x → out.get? (name c) = some (share σ ecm c * product S c e ecm)) ∧
      out.get? "total" = some (∑ c ∈ states, share σ ecm c * product S c e ecm) := by
  obtain ⟨nd, nt⟩ := sigma_keys σ
  obtain ⟨v, hv⟩ : ∃ v : String → ℝ, ∀ c, v (name c) = product S c e ecm := by
    classical
    refine ⟨fun s => if h : ∃ c, name c = s then product S h.choose e ecm else 0, fun c => ?_⟩
    have h : ∃ c', name c' = name c := ⟨c, rfl⟩
    simp only [dif_pos h]
    rw [name_injective h.choose_spec]
  have hs : totalSigma (sigmaFns σ) ecm = ∑ c ∈ states, σ c ecm := sum_states σ fun _ f => f ecm
  have hc : ∀ c, annContribution (sigmaFns σ) ecm v (name c) (σ c) = share σ ecm c * product S c e ecm := by
    intro c
    unfold annContribution share
    rw [hs, hv]
    split_ifs <;> simp
  obtain ⟨out, h1, h2, h3, h4, h5⟩ := spectra_ann_weighted (sigmaFns σ)
    (spectrumFns (fun _ _ => .ok 0) fun c e ecm => .ok (S c e ecm)) e ecm nd nt v (by
      intro fs g hg _
      obtain ⟨c, hc, rfl, rfl⟩ := sigma_mem hg
      refine ⟨_, spectrum_get _ _ hc, ?_⟩
      rw [hv]
      unfold product
      split_ifs <;> rfl)
  refine ⟨out, h1, fun c hcx => ?_, ?_⟩
  · rw [h3 _ _ (mem_sigma σ hcx), hc]
  · rw [h4, sum_states σ fun k f => annContribution (sigmaFns σ) ecm v k f]
    simp only [hc]

/-- **C304.** `positron_spectra` and `neutrino_spectra`. -/
theorem lepton_spectra (σ : Fn → ℝ → ℝ) (S : Fn → ℝ → ℝ → ℝ) (e ecm : ℝ) :
    ∃ out, positronSpectraAnn (sigmaFns σ) (wrapAnn (sigmaFns σ) (spectrumFns (fun _ _ => .ok 0) fun c e ecm => .ok (S c e ecm))) e ecm
        = .ok out ∧
      (∀ c, c ≠ .x_x → out.get? (name c) = some (share σ ecm c * product S c e ecm)) ∧
      out.get? "total" = some (∑ c ∈ states, share σ ecm c * product S c e ecm) := by
  obtain ⟨nd, nt⟩ := sigma_keys σ
  obtain ⟨v, hv⟩ : ∃ v : String → ℝ, ∀ c, v (name c) = product S c e ecm := by
    classical
    refine ⟨fun s => if h : ∃ c, name c = s then product S h.choose e ecm else 0, fun c => ?_⟩
    have h : ∃ c', name c' = name c := ⟨c, rfl⟩
    simp only [dif_pos h]
    rw [name_injective h.choose_spec]
  have hs : totalSigma (sigmaFns σ) ecm = ∑ c ∈ states, σ c ecm := sum_states σ fun _ f => f ecm
  have hc : ∀ c, annContribution (sigmaFns σ) ecm v (name c) (σ c) = share σ ecm c * product S c e ecm := by
    intro c
    unfold annContribution share
    rw [hs, hv]
    split_ifs <;> simp
  obtain ⟨out, h1, h2, h3, h4⟩ := positron_spectra_ann_weighted (sigmaFns σ)
    (spectrumFns (fun _ _ => .ok 0) fun c e ecm => .ok (S c e ecm)) e ecm nd nt v (by
      intro fs g hg _
      obtain ⟨c, hc, rfl, rfl⟩ := sigma_mem hg
      refine ⟨_, spectrum_get _ _ hc, ?_⟩
      rw [hv]
      unfold product
      split_ifs <;> rfl)
  refine ⟨out, h1, fun c hcx => ?_, ?_⟩
  · rw [h3 _ _ (mem_sigma σ hcx), hc]
  · rw [h4, sum_states σ fun k f => annContribution (sigmaFns σ) ecm v k f]
    simp only [hc]

/-- **C304.** The decays of the mediator, at rest, in `dnde_photon_v_v`: two mediators, each decaying into every state with its partial
width over the sum of all, including neutrinos and dark matter. -/
theorem decays_weighted {mv : ℝ} (hmv : 2 * me ≤ mv) (w S : Fn → ℝ) (hw : ∑ c ∈ decays, w c ≠ 0) :
    photonVVRest mv w S = some (2 * ∑ c ∈ decays, w c / (∑ c ∈ decays, w c) * if Dark c then 0 else S c) := by
  have hsum : (partialWidths w).values.sum = ∑ c ∈ decays, w c := by
    simp [partialWidths, decays, Dict.values]
  unfold photonVVRest
  rw [if_neg (not_lt.mpr hmv)]
  simp only [hsum, if_neg hw]
  obtain ⟨G, hG⟩ : ∃ G, G = ∑ c ∈ decays, w c := ⟨_, rfl⟩
  rw [← hG]
  congr 2
  have hget : ∀ c, c ≠ .v_v → (partialWidths w).get? (name c) = some (w c) := by
    intro c hc
    cases c <;> first | rfl | exact absurd rfl hc
  have g1 := hget .e_e (by decide); have g2 := hget .mu_mu (by decide); have g3 := hget .pi_pi (by decide)
  have g4 := hget .k0_k0 (by decide); have g5 := hget .k_k (by decide); have g6 := hget .pi0_gamma (by decide)
  have g7 := hget .eta_gamma (by decide); have g8 := hget .pi0_phi (by decide); have g9 := hget .eta_phi (by decide)
  have g10 := hget .eta_omega (by decide); have g11 := hget .pi0_pi0_gamma (by decide); have g12 := hget .pi_pi_pi0 (by decide)
  have g13 := hget .pi_pi_eta (by decide); have g14 := hget .pi_pi_etap (by decide); have g15 := hget .pi_pi_omega (by decide)
  have g16 := hget .pi0_pi0_omega (by decide); have g17 := hget .pi0_k0_k0 (by decide); have g18 := hget .pi0_k_k (by decide)
  have g19 := hget .pi_k_k0 (by decide); have g20 := hget .pi_pi_pi_pi (by decide); have g21 := hget .pi_pi_pi0_pi0 (by decide)
  simp only [name] at g1 g2 g3 g4 g5 g6 g7 g8 g9 g10 g11 g12 g13 g14 g15 g16 g17 g18 g19 g20 g21
  simp only [g1, g2, g3, g4, g5, g6, g7, g8, g9, g10, g11, g12, g13, g14, g15, g16, g17, g18, g19, g20, g21, Option.getD_some]
  simp [decays, Dark]
  ring

/-- **C304 (violated part).** `list_annihilation_final_states` lists every state with a cross section but two mediators. -/
theorem listed_partial (c : Fn) (hc : c ≠ .x_x) : name c ∈ finalStates ↔ c ≠ .v_v := by
  cases c <;> first | exact absurd rfl hc | decide

/-- Two mediators have a cross section and spectra but are not listed. -/
theorem vv_not_listed (σ : Fn → ℝ → ℝ) : (sigmaFns σ).get? "v v" = some (σ .v_v) ∧ "v v" ∉ finalStates :=
  ⟨rfl, by decide⟩

/-- Only charged pions, neutrinos and two mediators are open, with cross sections 1, 2 and 1: a quarter of the pions' photons and a
quarter of the mediators'. -/
example (S : Fn → ℝ → ℝ → ℝ) (e : ℝ) :
    ∃ out, spectraAnn (sigmaFns fun c _ => if c = .pi_pi ∨ c = .v_v then 1 else if c = .vm_vm then 2 else 0)
        (wrapAnn (sigmaFns fun c _ => if c = .pi_pi ∨ c = .v_v then 1 else if c = .vm_vm then 2 else 0)
          (spectrumFns (fun _ _ => .ok 0) fun c e ecm => .ok (S c e ecm))) e 3000 = .ok out ∧
      out.get? "total" = some (1 / 4 * S .pi_pi e 3000 + 1 / 4 * S .v_v e 3000) := by
  obtain ⟨out, h1, _, h3⟩ := photon_spectra (fun c _ => if c = .pi_pi ∨ c = .v_v then 1 else if c = .vm_vm then 2 else 0) S e 3000
  refine ⟨out, h1, ?_⟩
  rw [h3]
  simp [states, share, product, Dark]
  norm_num

end Hazma.GevRegistry
