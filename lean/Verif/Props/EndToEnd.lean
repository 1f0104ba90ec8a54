import Verif.Model.EndToEnd
import Verif.Lemmas.Dict
import Verif.Props.MediatorSpectra
import Verif.Props.CythonKernels
import Verif.Props.PhotonMuon
import Verif.Props.Fsr
import Verif.Props.SChannel
import Verif.Props.VectorXs
import Mathlib.Tactic

/-!
# Spectra of the mediator models from the parameters to the numbers
-/

namespace Hazma.EndToEnd

open Hazma
open Hazma.MediatorSpectra (ScalarKernels VectorKernels Energies Out scalarPt vectorPt scalarChannels
  vectorChannels arrays)
open Hazma.ThermalTotal (Leptons pyLeptons crossSections evalFuncs)

/-! ## Branching fractions -/

theorem evalFuncs_get {e : ℝ} : ∀ {d : Dict (ℝ → Except Xs.Err ℝ)} {r : Dict ℝ}, evalFuncs e d = .ok r →
    ∀ n, (d.get? n = none → r.get? n = none)
      ∧ ∀ f, d.get? n = some f → ∃ v, f e = .ok v ∧ r.get? n = some v
  | [], r, h, n => by
    simp only [evalFuncs, Except.ok.injEq] at h
    subst h
    exact ⟨fun _ => rfl, fun f hf => by simp [Dict.get?] at hf⟩
  | (k, g) :: d, r, h, n => by
    simp only [evalFuncs] at h
    cases hg : g e with
    | error x => rw [hg] at h; simp [bind, Except.bind] at h
    | ok v =>
      rw [hg] at h
      cases hr : evalFuncs e d with
      | error x => rw [hr] at h; simp [bind, Except.bind] at h
      | ok r' =>
        rw [hr] at h
        simp only [bind, Except.bind, pure, Except.pure, Except.ok.injEq] at h
        subst h
        have ih := evalFuncs_get hr n
        by_cases hk : k = n
        · subst hk
          simp only [Dict.get?, if_true]
          exact ⟨fun h => by simp at h, fun f hf => by
            simp only [Option.some.injEq] at hf; subst hf; exact ⟨v, hg, rfl⟩⟩
        · simp only [Dict.get?, if_neg hk]
          exact ih

/-- Every branching fraction is the channel's cross section over one common total. -/
theorem branching_value {funcs : Dict (ℝ → Except Xs.Err ℝ)} {ecm : ℝ} {bfs : Dict ℝ}
    (h : branching funcs ecm = .ok bfs) (ht : funcs.get? "total" = none) :
    ∃ r, evalFuncs ecm funcs = .ok r ∧ ∀ n f, funcs.get? n = some f →
      ∃ v, f ecm = .ok v ∧ bfOf bfs n = if r.values.sum = 0 then 0 else v / r.values.sum := by
  unfold branching crossSections at h
  cases hr : evalFuncs ecm funcs with
  | error x => rw [hr] at h; simp [bind, Except.bind] at h
  | ok r =>
    rw [hr] at h
    simp only [bind, Except.bind, pure, Except.pure] at h
    have hnone : r.get? "total" = none := (evalFuncs_get hr "total").1 ht
    have hnk : "total" ∉ r.keys := (Dict.get?_eq_none_iff _ _).mp hnone
    rw [Dict.get?_set_self, Option.getD_some, Dict.set_of_not_mem hnk, Dict.erase_append_self hnk] at h
    refine ⟨r, rfl, fun n f hf => ?_⟩
    obtain ⟨v, hv, hrv⟩ := (evalFuncs_get hr n).2 f hf
    refine ⟨v, hv, ?_⟩
    unfold bfOf
    split_ifs at h with hs
    · simp only [Except.ok.injEq] at h
      rw [← h, Dict.get?_mapVals, hrv, if_pos hs]; rfl
    · simp only [Except.ok.injEq] at h
      rw [← h, Dict.get?_mapVals, hrv, if_neg hs]; rfl

theorem bf_zero {funcs : Dict (ℝ → Except Xs.Err ℝ)} {ecm : ℝ} {bfs : Dict ℝ} {n : String}
    {f : ℝ → Except Xs.Err ℝ} (h : branching funcs ecm = .ok bfs) (ht : funcs.get? "total" = none)
    (hf : funcs.get? n = some f) (hz : f ecm = .ok 0) : bfOf bfs n = 0 := by
  obtain ⟨r, -, hr⟩ := branching_value h ht
  obtain ⟨v, hv, hb⟩ := hr n f hf
  rw [hz] at hv
  simp only [Except.ok.injEq] at hv
  rw [hb, ← hv, zero_div, ite_self]

/-! ## The highest photon energy -/

theorem fsr_endpoint {alpha mx e Q m : ℝ} (ha : 0 < alpha) (hQ : 0 < Q) (hm : 0 < m) (he : Q / 2 < e) :
    fsrValue (Fsr.scalarFF alpha mx e Q m) = 0 ∧ fsrValue (Fsr.scalarPiPi alpha m mx e Q) = 0
    ∧ fsrValue (Fsr.vectorFF alpha mx e Q m) = 0 ∧ fsrValue (Fsr.vectorPiPi alpha m mx e Q) = 0 := by
  have hep : 0 < e := by linarith
  have hn : ¬ 2 * Q * e < Q ^ 2 - 4 * m ^ 2 := by
    push Not; nlinarith [pow_pos hm 2]
  obtain ⟨a, h1, a0, ha'⟩ := Fsr.scalar_ff_sign alpha mx e Q m ha hQ hm hep
  obtain ⟨b, h2, b0, hb'⟩ := Fsr.scalar_pipi_sign alpha mx e Q m ha hQ hm hep
  obtain ⟨c, h3, c0, hc'⟩ := Fsr.vector_ff_sign alpha mx e Q m ha hQ hm hep
  obtain ⟨d, h4, d0, hd'⟩ := Fsr.vector_pipi_sign alpha mx e Q m ha hQ hm hep
  rw [h1, h2, h3, h4]
  refine ⟨le_antisymm (not_lt.mp fun h => hn (ha'.mp h).2) a0, le_antisymm (not_lt.mp fun h => hn (hb'.mp h).2) b0,
    le_antisymm (not_lt.mp fun h => hn (hc'.mp h).2) c0, le_antisymm (not_lt.mp fun h => hn (hd'.mp h).2) d0⟩

theorem sqrt_le_one (m E : ℝ) : Real.sqrt (1 - (m / E) ^ 2) ≤ 1 :=
  Real.sqrt_le_one.mpr (by nlinarith [sq_nonneg (m / E)])

/-- One of two particles sharing the energy `Q`: its decays give no massless particle above `Q/2`. -/
theorem two_body_end {Q M m2 E : ℝ} (hM : 0 < M) (hm2 : 0 ≤ m2) (hQ : M + m2 ≤ Q)
    (hE : E = (Q ^ 2 + M ^ 2 - m2 ^ 2) / (2 * Q)) :
    M ≤ E ∧ E * (1 + Real.sqrt (1 - (M / E) ^ 2)) / 2 ≤ Q / 2 := by
  have hQ0 : 0 < Q := by linarith
  have hEM : M ≤ E := by
    rw [hE, le_div_iff₀ (by positivity)]; nlinarith
  have hE0 : 0 < E := by linarith
  refine ⟨hEM, ?_⟩
  have e1 : E * Real.sqrt (1 - (M / E) ^ 2) = Real.sqrt (E ^ 2 - M ^ 2) := by
    rw [show E ^ 2 - M ^ 2 = E ^ 2 * (1 - (M / E) ^ 2) by field_simp,
      Real.sqrt_mul (sq_nonneg _), Real.sqrt_sq hE0.le]
  have h2 : 2 * Q * E = Q ^ 2 + M ^ 2 - m2 ^ 2 := by rw [hE]; field_simp
  have hle : E ≤ Q := by
    rw [hE, div_le_iff₀ (by positivity)]; nlinarith
  have : Real.sqrt (E ^ 2 - M ^ 2) ≤ Q - E := Real.sqrt_le_iff.mpr ⟨by linarith, by nlinarith⟩
  rw [mul_add, mul_one, e1]
  linarith

theorem scalar_pt_above (s : ScalarModel.Base) (w : Dict ℝ) {ecm e : ℝ} (hms : 0 < s.ms) (hecm : 0 < ecm)
    (hne : ecm ≠ 2 * s.ms) (he : ecm / 2 < e) (fs : String) : scalarPt (scalarKernels s w) ecm fs e = 0 := by
  have c1 : 0 < Xs.pythonConsts.alpha := by norm_num [Xs.pythonConsts]
  have c2 : 0 < Xs.pythonConsts.me := by norm_num [Xs.pythonConsts]
  have c3 : 0 < Xs.pythonConsts.mmu := by norm_num [Xs.pythonConsts]
  have c4 : 0 < Xs.pythonConsts.mpi := by norm_num [Xs.pythonConsts]
  have f1 := (fsr_endpoint (mx := s.mx) c1 hecm c2 he).1
  have f2 := (fsr_endpoint (mx := s.mx) c1 hecm c3 he).1
  have f3 := (fsr_endpoint (mx := s.mx) c1 hecm c4 he).2.1
  have k1 : Spectra.dndePhotonMuon e (ecm / 2) = 0 := by
    rw [← CythonKernels.photonMuon_eq]; exact CythonKernels.photonMuon_above he.le
  have k2 : Spectra.dndePhotonChargedPion e (ecm / 2) = 0 := by
    rw [← CythonKernels.photonChargedPion_eq]; exact CythonKernels.chargedPion_above he.le
  have k3 : Spectra.dndePhotonNeutralPion e (ecm / 2) = 0 := by
    rw [← CythonKernels.photonNeutralPion_eq]; exact CythonKernels.neutralPion_above he
  have k4 : ∀ b, CythonKernels.scalarDecayPhotons (scalarPws w) b e (ecm / 2) s.ms = 0 := by
    intro b
    rcases lt_trichotomy (ecm / 2) s.ms with h | h | h
    · simp [CythonKernels.scalarDecayPhotons, Mediator.scalarPoint, h]
    · exact absurd (by linarith) hne
    · refine (CythonKernels.photon_endpoint (scalarPws w) hms h ?_).1 b
      nlinarith [sqrt_le_one s.ms (ecm / 2)]
  unfold scalarPt scalarKernels
  simp only [f1, f2, f3, k1, k2, k3, k4, mul_zero, add_zero, ite_self]

theorem arrays_zero {chs : List String} {bf : String → ℝ} {pt : String → ℝ → ℝ} {es : List ℝ}
    (h : ∀ fs ∈ chs, ∀ e ∈ es, bf fs * pt fs e = 0) :
    ∀ p ∈ arrays chs bf pt es, p.2 = .array (es.map fun _ => 0) := by
  intro p hp
  unfold arrays at hp
  rcases List.mem_append.mp hp with hp | hp
  · obtain ⟨fs, hfs, rfl⟩ := List.mem_map.mp hp
    simp only [Out.array.injEq]
    exact List.map_congr_left fun e he => h fs hfs e he
  · simp only [List.mem_singleton] at hp
    subst hp
    simp only [Out.array.injEq]
    refine List.map_congr_left fun e he => ?_
    rw [List.map_congr_left (g := fun _ => (0 : ℝ)) fun fs hfs => h fs hfs e he]
    simp

/-- C272 (scalar): no photon of the annihilation has more than half of the centre-of-mass energy: every
entry of `spectra` is exactly zero there, whatever the couplings. -/
theorem scalar_photon_endpoint (s : ScalarModel.Base) (w bfs : Dict ℝ) (ecm : ℝ) (es : List ℝ)
    (hms : 0 < s.ms) (hecm : 0 < ecm) (hne : ecm ≠ 2 * s.ms) (hes : ∀ e ∈ es, ecm / 2 < e) :
    ∃ d, scalarSpectra s w bfs (.ndarray es) ecm = .ok d
      ∧ d.map Prod.fst = ["mu mu", "e e", "pi0 pi0", "pi pi", "s s", "total"]
      ∧ ∀ p ∈ d, p.2 = .array (es.map fun _ => 0) := by
  refine ⟨_, MediatorSpectra.scalar_spectra_array _ _ _ _, rfl, arrays_zero fun fs _ e he => ?_⟩
  rw [scalar_pt_above s w hms hecm hne (hes e he), mul_zero]

theorem vector_total_none (l : Leptons) (k : VectorModel.Consts) (s : VectorModel.Base) :
    (ThermalTotal.vectorFuncs l k s).get? "total" = none := by
  simp [ThermalTotal.vectorFuncs, Dict.get?]

theorem scalar_total_none (l : Leptons) (k : ScalarModel.Consts) (s : ScalarModel.Base) :
    (ThermalTotal.scalarFuncs l k s).get? "total" = none := by
  simp [ThermalTotal.scalarFuncs, Dict.get?]

/-- Channels below their threshold have no branching fraction. -/
theorem vector_closed (k : VectorModel.Consts) (s : VectorModel.Base) {ecm : ℝ} {bfs : Dict ℝ}
    (h : vectorBranching k s ecm = .ok bfs) :
    (ecm < k.mpi0 → bfOf bfs "pi0 g" = 0) ∧ (ecm < k.mpi0 + s.mv → bfOf bfs "pi0 v" = 0)
    ∧ (ecm < 2 * s.mv → bfOf bfs "v v" = 0) := by
  refine ⟨fun hl => bf_zero h (vector_total_none _ _ _) (n := "pi0 g") rfl ?_,
    fun hl => bf_zero h (vector_total_none _ _ _) (n := "pi0 v") rfl ?_,
    fun hl => bf_zero h (vector_total_none _ _ _) (n := "v v") rfl ?_⟩
  · simp [Xs.vectorPi0G, hl]
  · simp [Xs.vectorPi0V, hl]
  · simp [Xs.vectorVV, hl]

/-- The partial width into `pi0 g` vanishes below the pion mass of the Python code. -/
theorem width_pi0g {s : VectorModel.Base} {w : Dict ℝ} (hw : VectorModel.partialWidths pyVector s = .ok w) :
    CythonKernels.legacyPi0 ≤ s.mv ∨ vectorPws w 2 = 0 := by
  by_cases hm : s.mv > pyVector.mpi0
  · left
    have : CythonKernels.legacyPi0 < pyVector.mpi0 := by norm_num [CythonKernels.legacyPi0, pyVector]
    linarith
  · right
    have hz : VectorModel.widthPi0G pyVector s = .ok 0 := by unfold VectorModel.widthPi0G; rw [if_neg hm]
    have : width w "pi0 g" = 0 := by
      unfold VectorModel.partialWidths at hw
      rw [hz] at hw
      cases h1 : VectorModel.widthPiPi pyVector s with
      | error x => rw [h1] at hw; simp [bind, Except.bind] at hw
      | ok a =>
      cases h2 : VectorModel.widthXX s with
      | error x => rw [h1, h2] at hw; simp [bind, Except.bind] at hw
      | ok b =>
      cases h3 : VectorModel.widthFF pyVector s "e" with
      | error x => rw [h1, h2, h3] at hw; simp [bind, Except.bind] at hw
      | ok c =>
      cases h4 : VectorModel.widthFF pyVector s "mu" with
      | error x => rw [h1, h2, h3, h4] at hw; simp [bind, Except.bind] at hw
      | ok d =>
      rw [h1, h2, h3, h4] at hw
      simp only [bind, Except.bind, pure, Except.pure, Except.ok.injEq] at hw
      rw [← hw]
      simp [width, Dict.get?]
    simp [vectorPws, this]

theorem vmed_above {s : VectorModel.Base} {w : Dict ℝ} (hw : VectorModel.partialWidths pyVector s = .ok w)
    (hmv : 0 < s.mv) {E e : ℝ} (hE : E ≠ s.mv)
    (he : s.mv < E → E * (1 + Real.sqrt (1 - (s.mv / E) ^ 2)) / 2 < e) (mode : Mediator.VMode) :
    CythonKernels.vectorDecayPhotons (vectorPws w) mode e E s.mv = 0 := by
  rcases lt_or_gt_of_ne hE with h | h
  · simp [CythonKernels.vectorDecayPhotons, Mediator.vectorPoint, h]
  · exact (CythonKernels.photon_endpoint (vectorPws w) hmv h (he h)).2 (width_pi0g hw) mode

theorem pi0_above {E e : ℝ} (he : Spectra.massPi0 ≤ E →
    E * (1 + Real.sqrt (1 - (Spectra.massPi0 / E) ^ 2)) / 2 < e) : Spectra.dndePhotonNeutralPion e E = 0 := by
  by_cases h : E < Spectra.massPi0
  · exact (Spectra.kernels_below_threshold e E).2.2.1 h
  · rw [← CythonKernels.photonNeutralPion_eq]
    unfold CythonKernels.cPhotonNeutralPion
    rw [if_neg (by rw [CythonKernels.k_massPi0]; exact h)]
    simp only
    rw [if_neg]
    rintro ⟨-, h2⟩
    exact absurd h2 (not_le.mpr (he (not_lt.mp h)))

/-- C272 (vector): the same for the vector mediator, except for energies between the two values of the
neutral pion's mass in the code (134.9766 MeV in the compiled kernels, 134.9768 MeV elsewhere). -/
theorem vector_photon_endpoint_partial (s : VectorModel.Base) (w bfs : Dict ℝ) (ecm : ℝ) (es : List ℝ)
    (hw : VectorModel.partialWidths pyVector s = .ok w)
    (hb : vectorBranching Xs.vectorKernelConsts s ecm = .ok bfs)
    (hmv : 0 < s.mv) (hecm : 0 < ecm) (hne : ecm ≠ 2 * s.mv) (hne' : ecm ≠ s.mv + 134.9768)
    (hgap : ecm < 134.9766 ∨ 134.9768 ≤ ecm) (h0 : es ≠ []) (hes : ∀ e ∈ es, ecm / 2 < e) :
    ∃ d, vectorSpectra s w bfs (.ndarray es) ecm = .ok d
      ∧ d.map Prod.fst = ["mu mu", "e e", "pi pi", "pi0 g", "pi0 v", "v v", "total"]
      ∧ ∀ p ∈ d, p.2 = .array (es.map fun _ => 0) := by
  refine ⟨_, MediatorSpectra.vector_spectra_array_partial _ _ _ _ h0, rfl, arrays_zero fun fs hfs e he => ?_⟩
  have he := hes e he
  have c1 : 0 < pyVector.alpha := by norm_num [pyVector]
  have c2 : 0 < pyVector.me := by norm_num [pyVector]
  have c3 : 0 < pyVector.mmu := by norm_num [pyVector]
  have c4 : 0 < pyVector.mpi := by norm_num [pyVector]
  have f1 := (fsr_endpoint (mx := s.mx) c1 hecm c2 he).2.2.1
  have f2 := (fsr_endpoint (mx := s.mx) c1 hecm c3 he).2.2.1
  have f3 := (fsr_endpoint (mx := s.mx) c1 hecm c4 he).2.2.2
  have k1 : Spectra.dndePhotonMuon e (ecm / 2) = 0 := by
    rw [← CythonKernels.photonMuon_eq]; exact CythonKernels.photonMuon_above he.le
  have k2 : Spectra.dndePhotonChargedPion e (ecm / 2) = 0 := by
    rw [← CythonKernels.photonChargedPion_eq]; exact CythonKernels.chargedPion_above he.le
  have hp0 : Spectra.massPi0 = 134.9768 := rfl
  have hpy : pyVector.mpi0 = 134.9768 := rfl
  have hk0 : Xs.vectorKernelConsts.mpi0 = 134.9766 := rfl
  obtain ⟨z1, z2, z3⟩ := vector_closed _ s hb
  rw [hk0] at z1 z2
  simp only [vectorChannels, List.mem_cons, List.not_mem_nil, or_false] at hfs
  rcases hfs with rfl | rfl | rfl | rfl | rfl | rfl
  · simp [vectorPt, vectorKernels, f2, k1]
  · simp [vectorPt, vectorKernels, f1]
  · simp [vectorPt, vectorKernels, f3, k2]
  · by_cases hl : ecm < 134.9766
    · rw [z1 hl, zero_mul]
    · have hge : (134.9768 : ℝ) ≤ ecm := by rcases hgap with h | h; exact absurd h hl; exact h
      have : Spectra.dndePhotonNeutralPion e ((ecm ^ 2 + pyVector.mpi0 ^ 2) / (2 * ecm)) = 0 := by
        refine pi0_above fun _ => ?_
        have := (two_body_end (Q := ecm) (M := Spectra.massPi0) (m2 := 0)
          (E := (ecm ^ 2 + pyVector.mpi0 ^ 2) / (2 * ecm)) (by rw [hp0]; norm_num) le_rfl
          (by rw [hp0]; linarith) (by rw [hp0, hpy]; ring)).2
        linarith
      simp [vectorPt, vectorKernels, this]
  · by_cases hl : ecm < 134.9766 + s.mv
    · rw [z2 hl, zero_mul]
    · push Not at hl
      have hge : (134.9768 : ℝ) ≤ ecm := by
        rcases hgap with h | h
        · linarith
        · exact h
      have a1 : Spectra.dndePhotonNeutralPion e ((ecm ^ 2 + pyVector.mpi0 ^ 2 - s.mv ^ 2) / (2 * ecm)) = 0 := by
        refine pi0_above fun hE => ?_
        have hthr : Spectra.massPi0 + s.mv ≤ ecm := by
          rw [le_div_iff₀ (by positivity), hpy, hp0] at hE
          rw [hp0]
          by_contra hc
          push Not at hc
          nlinarith
        have := (two_body_end (Q := ecm) (M := Spectra.massPi0) (m2 := s.mv)
          (E := (ecm ^ 2 + pyVector.mpi0 ^ 2 - s.mv ^ 2) / (2 * ecm)) (by rw [hp0]; norm_num) hmv.le hthr
          (by rw [hp0, hpy])).2
        linarith
      have a2 : CythonKernels.vectorDecayPhotons (vectorPws w) (vmode "total") e
          ((ecm ^ 2 - pyVector.mpi0 ^ 2 + s.mv ^ 2) / (2 * ecm)) s.mv = 0 := by
        have key : (ecm ^ 2 - pyVector.mpi0 ^ 2 + s.mv ^ 2) - s.mv * (2 * ecm)
            = (ecm - s.mv - 134.9768) * (ecm - s.mv + 134.9768) := by rw [hpy]; ring
        have hpos : 0 < ecm - s.mv + 134.9768 := by linarith
        refine vmed_above hw hmv ?_ (fun hE => ?_) _
        · intro hc
          rw [div_eq_iff (by positivity)] at hc
          have : (ecm - s.mv - 134.9768) * (ecm - s.mv + 134.9768) = 0 := by rw [← key]; linarith
          rcases mul_eq_zero.mp this with h | h
          · exact hne' (by linarith)
          · linarith
        · rw [lt_div_iff₀ (by positivity)] at hE
          have hthr : s.mv + 134.9768 ≤ ecm := by
            by_contra hc
            push Not at hc
            nlinarith
          have := (two_body_end (Q := ecm) (M := s.mv) (m2 := 134.9768)
            (E := (ecm ^ 2 - pyVector.mpi0 ^ 2 + s.mv ^ 2) / (2 * ecm)) hmv (by norm_num) hthr
            (by rw [hpy]; ring)).2
          linarith
      simp [vectorPt, vectorKernels, a1, a2]
  · have a2 : CythonKernels.vectorDecayPhotons (vectorPws w) (vmode "total") e (ecm / 2) s.mv = 0 := by
      refine vmed_above hw hmv (fun h => hne (by linarith)) (fun h => ?_) _
      nlinarith [sqrt_le_one s.mv (ecm / 2)]
    simp [vectorPt, vectorKernels, a2]

/-! ### Between the two pion masses -/

theorem values_nonneg {e : ℝ} : ∀ {d : Dict (ℝ → Except Xs.Err ℝ)} {r : Dict ℝ}, evalFuncs e d = .ok r →
    (∀ p ∈ d, ∀ v, p.2 e = .ok v → 0 ≤ v) → ∀ x ∈ r.values, 0 ≤ x
  | [], r, h, _ => by
    simp only [evalFuncs, Except.ok.injEq] at h
    subst h
    simp [Dict.values]
  | (k, g) :: d, r, h, hp => by
    simp only [evalFuncs] at h
    cases hg : g e with
    | error x => rw [hg] at h; simp [bind, Except.bind] at h
    | ok v =>
      rw [hg] at h
      cases hr : evalFuncs e d with
      | error x => rw [hr] at h; simp [bind, Except.bind] at h
      | ok r' =>
        rw [hr] at h
        simp only [bind, Except.bind, pure, Except.pure, Except.ok.injEq] at h
        subst h
        have ih := values_nonneg hr fun p hp' => hp p (by simp [hp'])
        intro x hx
        simp only [Dict.values, List.map_cons, List.mem_cons] at hx
        rcases hx with rfl | hx
        · exact hp (k, g) (by simp) _ hg
        · exact ih x hx

/-- A channel with a positive cross section has a positive branching fraction if no cross section is
negative; one without has none. -/
theorem bf_sign {funcs : Dict (ℝ → Except Xs.Err ℝ)} {ecm : ℝ} {bfs : Dict ℝ} {n : String}
    {f : ℝ → Except Xs.Err ℝ} {v : ℝ} (h : branching funcs ecm = .ok bfs) (ht : funcs.get? "total" = none)
    (hp : ∀ p ∈ funcs, ∀ v, p.2 ecm = .ok v → 0 ≤ v) (hf : funcs.get? n = some f) (hv : f ecm = .ok v) :
    0 ≤ bfOf bfs n ∧ (0 < bfOf bfs n ↔ 0 < v) := by
  obtain ⟨r, hr, hb⟩ := branching_value h ht
  obtain ⟨v', hv', hb⟩ := hb n f hf
  rw [hv] at hv'
  simp only [Except.ok.injEq] at hv'
  subst hv'
  have hn := values_nonneg hr hp
  obtain ⟨v2, hv2, hget⟩ := (evalFuncs_get hr n).2 f hf
  rw [hv] at hv2
  simp only [Except.ok.injEq] at hv2
  subst hv2
  have hmem : v ∈ r.values := by
    have := Dict.mem_of_get? hget
    exact List.mem_map.mpr ⟨_, this, rfl⟩
  have hle : v ≤ r.values.sum := List.single_le_sum hn v hmem
  have h0 := hn v hmem
  rw [hb]
  split_ifs with hs
  · refine ⟨le_rfl, ⟨fun h => absurd h (lt_irrefl _), fun h => ?_⟩⟩
    rw [hs] at hle; linarith
  · have hS : 0 < r.values.sum := lt_of_le_of_ne (h0.trans hle) (Ne.symm hs)
    refine ⟨div_nonneg h0 hS.le, ⟨fun h => ?_, fun h => div_pos h hS⟩⟩
    by_contra hc
    have : v = 0 := le_antisymm (not_lt.mp hc) h0
    rw [this, zero_div] at h
    exact lt_irrefl _ h

theorem vector_nonneg (k : VectorModel.Consts) (hk : k.Physical) (s : VectorModel.Base) {ecm : ℝ}
    (hmx : 0 < s.mx) (hmv : 0 < s.mv) (hw : 0 < s.width) (hne : ecm ≠ 2 * s.mx) :
    ∀ p ∈ ThermalTotal.vectorFuncs pyLeptons k s, ∀ v, p.2 ecm = .ok v → 0 ≤ v := by
  have l1 : 0 < pyLeptons.me := by norm_num [pyLeptons]
  have l2 : 0 < pyLeptons.mmu := by norm_num [pyLeptons]
  obtain ⟨s1, -, ⟨v3, s3, s3', -⟩, ⟨s4, -⟩, ⟨v5, s5, s5', -⟩, ⟨s6, -⟩⟩ := (Xs.vector_annihilation_signs k hk ecm
    s.mx s.mv s.gvxx s.gvee s.gvuu s.gvdd s.width pyLeptons.me hmx hmv hw l1).1 hne
  have s2 := ((Xs.vector_annihilation_signs k hk ecm
    s.mx s.mv s.gvxx s.gvmumu s.gvuu s.gvdd s.width pyLeptons.mmu hmx hmv hw l2).1 hne).1
  intro p hp v hv
  simp only [ThermalTotal.vectorFuncs, List.mem_cons, List.not_mem_nil, or_false] at hp
  rcases hp with rfl | rfl | rfl | rfl | rfl | rfl <;> simp only at hv
  · simp only [Except.ok.injEq] at hv; rw [← hv]; exact s2
  · simp only [Except.ok.injEq] at hv; rw [← hv]; exact s1
  · rw [s3] at hv; simp only [Except.ok.injEq] at hv; rw [← hv]; exact s3'
  · simp only [Except.ok.injEq] at hv; rw [← hv]; exact s4
  · rw [s5] at hv; simp only [Except.ok.injEq] at hv; rw [← hv]; exact s5'
  · simp only [Except.ok.injEq] at hv; rw [← hv]; exact s6

theorem get_arrays_channel {bf : String → ℝ} {pt : String → ℝ → ℝ} {es : List ℝ} {fs : String}
    (h : fs ∈ vectorChannels) :
    Dict.get? (arrays vectorChannels bf pt es) fs = some (.array (es.map fun e => bf fs * pt fs e)) := by
  simp only [vectorChannels, List.mem_cons, List.not_mem_nil, or_false] at h
  rcases h with rfl | rfl | rfl | rfl | rfl | rfl <;> simp [arrays, vectorChannels, Dict.get?]

/-- C272 fails between the two values of the pion's mass: `x x → pi0 γ` is open according to the compiled
cross section, and the pion of the Python code then radiates above half of the energy. -/
theorem vector_endpoint_gap (s : VectorModel.Base) (w bfs : Dict ℝ) (ecm e : ℝ)
    (hb : vectorBranching Xs.vectorKernelConsts s ecm = .ok bfs)
    (hmx : 0 < s.mx) (hmv : 0 < s.mv) (hw : 0 < s.width) (hx : 2 * s.mx < ecm)
    (hg : 2 * s.gvuu + s.gvdd ≠ 0) (hgx : s.gvxx ≠ 0) (h1 : 134.9766 < ecm) (h2 : ecm < 134.9768)
    (he : ecm / 2 < e) (he' : e ≤ 134.9768 ^ 2 / (2 * ecm)) :
    ∃ d x, vectorSpectra s w bfs (.ndarray [e]) ecm = .ok d
      ∧ Dict.get? d "pi0 g" = some (.array [x]) ∧ 0 < x := by
  refine ⟨_, bfOf bfs "pi0 g" * vectorPt (vectorKernels s w) ecm "pi0 g" e,
    MediatorSpectra.vector_spectra_array_partial _ _ _ _ (by simp), ?_, ?_⟩
  · rw [get_arrays_channel (by simp [vectorChannels])]; rfl
  · have hQ : 0 < ecm := by linarith
    refine mul_pos ?_ ?_
    · refine ((bf_sign hb (vector_total_none _ _ _) (vector_nonneg _ Xs.vectorKernelConsts_physical s hmx hmv hw
        hx.ne') (n := "pi0 g") rfl rfl).2).mpr ?_
      exact ((Xs.vector_annihilation_signs _ Xs.vectorKernelConsts_physical ecm s.mx s.mv s.gvxx s.gvee s.gvuu
        s.gvdd s.width 1 hmx hmv hw one_pos).1 hx.ne').2.2.2.1.2.mpr ⟨h1, hx, hg, hgx⟩
    · simp only [vectorPt, vectorKernels, String.reduceEq, if_false, if_true]
      rw [← CythonKernels.photonNeutralPion_eq]
      unfold CythonKernels.cPhotonNeutralPion
      have hM : CythonKernels.massPi0 = 134.9768 := rfl
      have hpy : pyVector.mpi0 = 134.9768 := rfl
      rw [hpy]
      obtain ⟨E, hE⟩ : ∃ E, E = (ecm ^ 2 + 134.9768 ^ 2) / (2 * ecm) := ⟨_, rfl⟩
      rw [← hE]
      have h2E : 2 * ecm * E = ecm ^ 2 + 134.9768 ^ 2 := by rw [hE]; field_simp
      have hEM : (134.9768 : ℝ) < E := by
        rw [hE, lt_div_iff₀ (by positivity)]
        nlinarith [mul_pos (sub_pos.mpr h2) (sub_pos.mpr h2)]
      have hE0 : 0 < E := by linarith
      rw [if_neg (by rw [hM]; exact not_lt.mpr hEM.le)]
      simp only
      have hb1 : E * Real.sqrt (1 - (CythonKernels.massPi0 / E) ^ 2) = (134.9768 ^ 2 - ecm ^ 2) / (2 * ecm) := by
        rw [hM]
        have hnn : 0 ≤ (134.9768 ^ 2 - ecm ^ 2) / (2 * ecm) := div_nonneg (by nlinarith) (by positivity)
        have : E ^ 2 * (1 - (134.9768 / E) ^ 2) = ((134.9768 ^ 2 - ecm ^ 2) / (2 * ecm)) ^ 2 := by
          rw [show E ^ 2 * (1 - (134.9768 / E) ^ 2) = E ^ 2 - 134.9768 ^ 2 by field_simp, hE]
          field_simp
          ring
        calc E * Real.sqrt (1 - (134.9768 / E) ^ 2) = Real.sqrt (E ^ 2 * (1 - (134.9768 / E) ^ 2)) := by
              rw [Real.sqrt_mul (sq_nonneg _), Real.sqrt_sq hE0.le]
          _ = _ := by rw [this, Real.sqrt_sq hnn]
      have hbp : 0 < (134.9768 ^ 2 - ecm ^ 2) / (2 * ecm) := div_pos (by nlinarith) (by positivity)
      have hsum : E + (134.9768 ^ 2 - ecm ^ 2) / (2 * ecm) = 134.9768 ^ 2 / ecm := by rw [hE]; field_simp; ring
      have hdif : E - (134.9768 ^ 2 - ecm ^ 2) / (2 * ecm) = ecm := by rw [hE]; field_simp; ring
      rw [if_pos]
      · rw [hb1]
        have : 0 < CythonKernels.brPi0AA := by norm_num [CythonKernels.brPi0AA]
        positivity
      · rw [mul_sub, mul_add, mul_one, hb1, hdif, hsum]
        refine ⟨he.le, ?_⟩
        rw [show (134.9768 : ℝ) ^ 2 / ecm / 2 = 134.9768 ^ 2 / (2 * ecm) by field_simp]
        exact he'

/-! ## Independence of the dark coupling -/

theorem evalFuncs_scale {e a : ℝ} : ∀ {d d' : Dict (ℝ → Except Xs.Err ℝ)},
    List.Forall₂ (fun p q => q.1 = p.1 ∧ q.2 e = (p.2 e).map (a * ·)) d d' →
    evalFuncs e d' = (evalFuncs e d).map fun r => r.mapVals fun _ v => a * v
  | _, _, .nil => rfl
  | (k, f) :: d, (k', f') :: d', .cons h ht => by
    obtain ⟨rfl, h2⟩ := h
    simp only at h2
    have ih := evalFuncs_scale ht
    simp only [evalFuncs, h2, ih]
    cases f e with
    | error x => rfl
    | ok v =>
      cases evalFuncs e d with
      | error x => rfl
      | ok r => rfl

theorem sum_mapVals (a : ℝ) (r : Dict ℝ) :
    (r.mapVals fun _ v => a * v).values.sum = a * r.values.sum := by
  induction r with
  | nil => simp [Dict.mapVals, Dict.values]
  | cons p r ih =>
    simp only [Dict.mapVals, Dict.values, List.map_cons, List.sum_cons] at ih ⊢
    rw [ih, mul_add]

theorem branching_scale {e a : ℝ} (ha : a ≠ 0) {d d' : Dict (ℝ → Except Xs.Err ℝ)}
    (h : List.Forall₂ (fun p q => q.1 = p.1 ∧ q.2 e = (p.2 e).map (a * ·)) d d')
    (ht : d.get? "total" = none) : branching d' e = branching d e := by
  unfold branching crossSections
  rw [evalFuncs_scale h]
  cases hr : evalFuncs e d with
  | error x => rfl
  | ok r =>
    have hnk : "total" ∉ r.keys := (Dict.get?_eq_none_iff _ _).mp ((evalFuncs_get hr "total").1 ht)
    have hnk' : "total" ∉ (r.mapVals fun _ v => a * v).keys := by rw [Dict.keys_mapVals]; exact hnk
    simp only [Except.map, bind, Except.bind, pure, Except.pure]
    rw [Dict.get?_set_self, Dict.get?_set_self, Option.getD_some, Option.getD_some,
      Dict.set_of_not_mem hnk, Dict.set_of_not_mem hnk', Dict.erase_append_self hnk,
      Dict.erase_append_self hnk', sum_mapVals]
    by_cases hs : r.values.sum = 0
    · simp [hs, Dict.mapVals]
    · rw [if_neg (mul_ne_zero ha hs), if_neg hs]
      simp only [Except.ok.injEq, Dict.mapVals, List.map_map]
      refine List.map_congr_left fun p _ => ?_
      simp only [Function.comp_def, Prod.mk.injEq, true_and]
      field_simp

theorem quotient_scale {x y g g' P P' : ℝ} (hg : g ≠ 0) (hP : P ≠ 0) (hP' : P' ≠ 0) :
    Xs.quotient (g' ^ 2 * x) (y * P') = (Xs.quotient (g ^ 2 * x) (y * P)).map (g' ^ 2 * P / (g ^ 2 * P') * ·) := by
  unfold Xs.quotient
  by_cases hy : y = 0
  · simp [hy, Except.map]
  · rw [if_neg (mul_ne_zero hy hP'), if_neg (mul_ne_zero hy hP)]
    simp only [Except.map, Except.ok.injEq]
    field_simp

theorem div_scale {x y g g' P P' : ℝ} (hg : g ≠ 0) (hP : P ≠ 0) (hP' : P' ≠ 0) :
    g' ^ 2 * x / (y * P') = g' ^ 2 * P / (g ^ 2 * P') * (g ^ 2 * x / (y * P)) := by
  by_cases hy : y = 0
  · simp [hy]
  · field_simp

/-- C273 (scalar): below the threshold of a pair of mediators the branching fractions, and with them every
entry of `spectra`, do not depend on the coupling of the dark matter to the mediator or on the mediator's
width, for every kind of argument. -/
theorem scalar_coupling_independent (s : ScalarModel.Base) (g' width' : ℝ) (ecm : ℝ)
    (hg : s.gsxx ≠ 0) (hg' : g' ≠ 0) (hP : Xs.propagator s.ms ecm s.width ≠ 0)
    (hP' : Xs.propagator s.ms ecm width' ≠ 0) (hl : ecm < 2 * s.ms) :
    scalarBranching { s with gsxx := g', width := width' } ecm = scalarBranching s ecm
    ∧ ∀ bfs, scalarBranching s ecm = .ok bfs → ∀ w w' E,
        scalarSpectra { s with gsxx := g', width := width' } w' bfs E ecm = scalarSpectra s w bfs E ecm := by
  constructor
  · unfold scalarBranching
    refine branching_scale (a := g' ^ 2 * Xs.propagator s.ms ecm s.width
        / (s.gsxx ^ 2 * Xs.propagator s.ms ecm width')) (by positivity) ?_ (scalar_total_none _ _ _)
    have ff : ∀ mf, Xs.scalarFF Xs.kernelConsts.vh ecm s.mx s.ms g' s.gsff width' mf
        = (Xs.scalarFF Xs.kernelConsts.vh ecm s.mx s.ms s.gsxx s.gsff s.width mf).map
          (g' ^ 2 * Xs.propagator s.ms ecm s.width / (s.gsxx ^ 2 * Xs.propagator s.ms ecm width') * ·) := by
      intro mf
      unfold Xs.scalarFF
      split_ifs
      · simp [Except.map]
      · have := quotient_scale (x := s.gsff ^ 2 * mf ^ 2 * (-4 * mf ^ 2 + ecm ^ 2) ^ (3 / 2 : ℝ)
          * Real.sqrt (-4 * s.mx ^ 2 + ecm ^ 2)) (y := 16 * Real.pi * ecm ^ 2 * Xs.kernelConsts.vh ^ 2)
          (g' := g') hg hP hP'
        convert this using 2
        · ring
        · congr 1; ring
    have pp : ∀ m norm, Xs.scalarPi Xs.kernelConsts m norm { s with gsxx := g', width := width' } ecm
        = g' ^ 2 * Xs.propagator s.ms ecm s.width / (s.gsxx ^ 2 * Xs.propagator s.ms ecm width')
          * Xs.scalarPi Xs.kernelConsts m norm s ecm := by
      intro m norm
      unfold Xs.scalarPi
      simp only
      split_ifs
      · simp
      · obtain ⟨x, hx⟩ : ∃ x, x = Real.sqrt ((-4 * m ^ 2 + ecm ^ 2) * (-4 * s.mx ^ 2 + ecm ^ 2))
          * (162 * s.gsGG * s.lam ^ 3 * (2 * m ^ 2 - ecm ^ 2) * Xs.kernelConsts.vh ^ 2
            + Xs.kernelConsts.b0 * (Xs.kernelConsts.mdq + Xs.kernelConsts.muq) * (9 * s.lam + 4 * s.gsGG * s.vs)
              * (2 * s.gsGG * Xs.kernelConsts.vh * s.vs
                + (-3 * s.lam * Xs.kernelConsts.vh + 3 * s.gsff * s.lam * s.vs))
              * (2 * s.gsGG * Xs.kernelConsts.vh * (9 * s.lam - 4 * s.gsGG * s.vs)
                + 9 * s.gsff * s.lam * (3 * s.lam + 4 * s.gsGG * s.vs))) ^ 2 := ⟨_, rfl⟩
        rw [mul_assoc (g' ^ 2), mul_assoc (s.gsxx ^ 2), ← hx]
        exact div_scale hg hP hP'
    refine .cons ⟨rfl, ff _⟩ (.cons ⟨rfl, ff _⟩ (.cons ⟨rfl, ?_⟩ (.cons ⟨rfl, ?_⟩ (.cons ⟨rfl, ?_⟩
      (.cons ⟨rfl, ?_⟩ .nil)))))
    · simp only [Except.map, Except.ok.injEq]
      unfold Xs.scalarGG
      simp only
      split_ifs
      · simp
      · have := div_scale (x := Xs.kernelConsts.alpha ^ 2 * s.gsFF ^ 2 * ecm ^ 3
          * Real.sqrt (-4 * s.mx ^ 2 + ecm ^ 2)) (y := 128 * s.lam ^ 2 * Real.pi ^ 3) (g' := g') hg hP hP'
        rw [show Xs.kernelConsts.alpha ^ 2 * s.gsFF ^ 2 * g' ^ 2 * ecm ^ 3 * Real.sqrt (-4 * s.mx ^ 2 + ecm ^ 2)
            = g' ^ 2 * (Xs.kernelConsts.alpha ^ 2 * s.gsFF ^ 2 * ecm ^ 3
              * Real.sqrt (-4 * s.mx ^ 2 + ecm ^ 2)) by ring, this]
        congr 2
        ring
    · simp only [Except.map, Except.ok.injEq]; exact pp _ _
    · simp only [Except.map, Except.ok.injEq]; exact pp _ _
    · simp [Except.map, Xs.scalarSS, hl]
  · intro bfs hb w w' E
    have hz : bfOf bfs "s s" = 0 := by
      refine bf_zero hb (scalar_total_none _ _ _) (n := "s s") rfl ?_
      simp [Xs.scalarSS, hl]
    simp only [scalarSpectra, MediatorSpectra.spectra, MediatorSpectra.scalarFuncs, MediatorSpectra.spectraLoop, hz]
    have h1 : ∀ K, MediatorSpectra.sMuMu (scalarKernels { s with gsxx := g', width := width' } w') E ecm K
        = MediatorSpectra.sMuMu (scalarKernels s w) E ecm K := fun _ => rfl
    have h2 : ∀ K, MediatorSpectra.sEE (scalarKernels { s with gsxx := g', width := width' } w') E ecm K
        = MediatorSpectra.sEE (scalarKernels s w) E ecm K := fun _ => rfl
    have h3 : ∀ K, MediatorSpectra.sPi0Pi0 (scalarKernels { s with gsxx := g', width := width' } w') E ecm K
        = MediatorSpectra.sPi0Pi0 (scalarKernels s w) E ecm K := fun _ => rfl
    have h4 : ∀ K, MediatorSpectra.sPiPi (scalarKernels { s with gsxx := g', width := width' } w') E ecm K
        = MediatorSpectra.sPiPi (scalarKernels s w) E ecm K := fun _ => rfl
    simp only [h1, h2, h3, h4, ne_eq, not_true_eq_false, if_false]

/-- C273 (vector): the same for the vector mediator below the thresholds of `v v` and `pi0 v`. -/
theorem vector_coupling_independent (k : VectorModel.Consts) (s : VectorModel.Base) (g' width' : ℝ) (ecm : ℝ)
    (hg : s.gvxx ≠ 0) (hg' : g' ≠ 0) (hP : Xs.propagator s.mv ecm s.width ≠ 0)
    (hP' : Xs.propagator s.mv ecm width' ≠ 0) (hl : ecm < 2 * s.mv) :
    vectorBranching k { s with gvxx := g', width := width' } ecm = vectorBranching k s ecm
    ∧ ∀ bfs, vectorBranching k s ecm = .ok bfs → ∀ w w' E, ecm < k.mpi0 + s.mv →
        vectorSpectra { s with gvxx := g', width := width' } w' bfs E ecm = vectorSpectra s w bfs E ecm := by
  constructor
  · unfold vectorBranching
    refine branching_scale (a := g' ^ 2 * Xs.propagator s.mv ecm s.width
        / (s.gvxx ^ 2 * Xs.propagator s.mv ecm width')) (by positivity) ?_ (vector_total_none _ _ _)
    have ff : ∀ gl mf, Xs.vectorFF ecm s.mx s.mv g' gl width' mf
        = g' ^ 2 * Xs.propagator s.mv ecm s.width / (s.gvxx ^ 2 * Xs.propagator s.mv ecm width')
          * Xs.vectorFF ecm s.mx s.mv s.gvxx gl s.width mf := by
      intro gl mf
      unfold Xs.vectorFF
      split_ifs
      · simp
      · have := div_scale (x := gl ^ 2 * (2 * mf ^ 2 + ecm ^ 2)
          * Real.sqrt ((-4 * mf ^ 2 + ecm ^ 2) / (-4 * s.mx ^ 2 + ecm ^ 2)) * (2 * s.mx ^ 2 + ecm ^ 2))
          (y := 12 * Real.pi * ecm ^ 2) (g' := g') hg hP hP'
        rw [show gl ^ 2 * g' ^ 2 * (2 * mf ^ 2 + ecm ^ 2)
            * Real.sqrt ((-4 * mf ^ 2 + ecm ^ 2) / (-4 * s.mx ^ 2 + ecm ^ 2)) * (2 * s.mx ^ 2 + ecm ^ 2)
            = g' ^ 2 * (gl ^ 2 * (2 * mf ^ 2 + ecm ^ 2)
            * Real.sqrt ((-4 * mf ^ 2 + ecm ^ 2) / (-4 * s.mx ^ 2 + ecm ^ 2)) * (2 * s.mx ^ 2 + ecm ^ 2)) by ring,
          this]
        congr 2
        ring
    refine .cons ⟨rfl, ?_⟩ (.cons ⟨rfl, ?_⟩ (.cons ⟨rfl, ?_⟩ (.cons ⟨rfl, ?_⟩ (.cons ⟨rfl, ?_⟩
      (.cons ⟨rfl, ?_⟩ .nil)))))
    · simp only [Except.map, Except.ok.injEq]; exact ff _ _
    · simp only [Except.map, Except.ok.injEq]; exact ff _ _
    · simp only
      unfold Xs.vectorPiPi
      split_ifs
      · simp [Except.map]
      · have := quotient_scale (x := (s.gvdd - s.gvuu) ^ 2 * (-4 * k.mpi ^ 2 + ecm ^ 2) ^ (3 / 2 : ℝ)
          * (2 * s.mx ^ 2 + ecm ^ 2)) (y := 48 * Real.pi * ecm ^ 2 * Real.sqrt (-4 * s.mx ^ 2 + ecm ^ 2))
          (g' := g') hg hP hP'
        convert this using 2
        · ring
        · congr 1; ring
    · simp only [Except.map, Except.ok.injEq]
      unfold Xs.vectorPi0G
      split_ifs
      · simp
      · have := div_scale (x := (ecm ^ 2 - k.mpi0 ^ 2) ^ 3 * (k.alpha * (2 * s.gvuu + s.gvdd) ^ 2)
          * (2 * s.mx ^ 2 + ecm ^ 2))
          (y := k.fpi ^ 2 * 3456 * Real.pi ^ 4 * ecm ^ 3 * Real.sqrt (-4 * s.mx ^ 2 + ecm ^ 2))
          (g' := g') hg hP hP'
        rw [show (ecm ^ 2 - k.mpi0 ^ 2) ^ 3 * (g' ^ 2 * (k.alpha * (2 * s.gvuu + s.gvdd) ^ 2))
            * (2 * s.mx ^ 2 + ecm ^ 2)
            = g' ^ 2 * ((ecm ^ 2 - k.mpi0 ^ 2) ^ 3 * (k.alpha * (2 * s.gvuu + s.gvdd) ^ 2)
            * (2 * s.mx ^ 2 + ecm ^ 2)) by ring, this]
        congr 2
        ring
    · simp only
      unfold Xs.vectorPi0V
      split_ifs
      · simp [Except.map]
      · simp only
        have := quotient_scale (x := ((s.gvdd - s.gvuu) ^ 2 * (s.gvuu + s.gvdd) ^ 2)
            * ((k.mpi0 - s.mv - ecm) * (s.mv + k.mpi0 - ecm) * (ecm + (k.mpi0 - s.mv))
              * (ecm + (s.mv + k.mpi0))) ^ (3 / 2 : ℝ) * (2 * s.mx ^ 2 + ecm ^ 2))
          (y := k.fpi ^ 2 * 1536 * Real.pi ^ 5 * ecm ^ 3 * Real.sqrt (-4 * s.mx ^ 2 + ecm ^ 2))
          (g' := g') hg hP hP'
        convert this using 2
        · ring
        · congr 1; ring
    · simp [Except.map, Xs.vectorVV, hl]
  · intro bfs hb w w' E hl'
    obtain ⟨-, z2, z3⟩ := vector_closed k s hb
    simp only [vectorSpectra, MediatorSpectra.spectra, MediatorSpectra.vectorFuncs, MediatorSpectra.spectraLoop,
      z2 hl', z3 hl]
    have h1 : ∀ K, MediatorSpectra.vMuMu (vectorKernels { s with gvxx := g', width := width' } w') E ecm K
        = MediatorSpectra.vMuMu (vectorKernels s w) E ecm K := fun _ => rfl
    have h2 : ∀ K, MediatorSpectra.vEE (vectorKernels { s with gvxx := g', width := width' } w') E ecm K
        = MediatorSpectra.vEE (vectorKernels s w) E ecm K := fun _ => rfl
    have h3 : ∀ K, MediatorSpectra.vPi0G (vectorKernels { s with gvxx := g', width := width' } w') E ecm K
        = MediatorSpectra.vPi0G (vectorKernels s w) E ecm K := fun _ => rfl
    have h4 : ∀ K, MediatorSpectra.vPiPi (vectorKernels { s with gvxx := g', width := width' } w') E ecm K
        = MediatorSpectra.vPiPi (vectorKernels s w) E ecm K := fun _ => rfl
    simp only [h1, h2, h3, h4, ne_eq, not_true_eq_false, if_false]

/-! ## Negative spectra -/

/-- At the photon energy `photon_muon_negative` speaks of, radiation is already impossible unless the muons
are ultrarelativistic. -/
theorem muon_pt_negative {ecm : ℝ} (hecm : Spectra.f64eps ≤ ecm / 2 - Spectra.massMu)
    (hle : ecm ≤ 14 * Spectra.massMu) :
    ∃ e, 0 < e ∧ e < ecm / 2 ∧ (∀ s w, scalarPt (scalarKernels s w) ecm "mu mu" e < 0)
      ∧ ∀ s w, vectorPt (vectorKernels s w) ecm "mu mu" e < 0 := by
  have hneg := Spectra.photon_muon_negative (ecm / 2) hecm
  obtain ⟨b, hb⟩ : ∃ b, b = Boost.boostBeta (ecm / 2) Spectra.massMu := ⟨_, rfl⟩
  have hm := Spectra.massMu_pos
  have hep := Spectra.eps_pos
  have hE : 0 < ecm / 2 := by linarith
  have hr := Spectra.rr_small
  have hr0 := Spectra.rr_pos
  have hlt : Spectra.massMu < ecm / 2 := by linarith
  have hbsq : (ecm / 2) ^ 2 * b ^ 2 = (ecm / 2) ^ 2 - Spectra.massMu ^ 2 := by
    rw [hb, Boost.boostBeta, Real.sq_sqrt]
    · have : ecm ≠ 0 := by linarith
      field_simp
    · have : Spectra.massMu / (ecm / 2) < 1 := (div_lt_one hE).mpr hlt
      have h0 : 0 < Spectra.massMu / (ecm / 2) := by positivity
      nlinarith
  have hb0 : 0 ≤ b := by rw [hb]; exact Real.sqrt_nonneg _
  have hb1 : b ≤ 1 := by
    by_contra hc
    push Not at hc
    nlinarith [mul_pos hE hE, mul_pos hm hm, mul_pos (mul_pos hE hE) (by nlinarith : 0 < b ^ 2 - 1)]
  have hb9 : b ≤ 99 / 100 := by
    by_contra hc
    push Not at hc
    have h1 : (ecm / 2) ^ 2 * (99 / 100) ^ 2 ≤ (ecm / 2) ^ 2 * b ^ 2 :=
      mul_le_mul_of_nonneg_left (by nlinarith) (sq_nonneg _)
    nlinarith [mul_le_mul hle hle (by linarith) (by linarith)]
  have hbb : 2 * b ^ 2 ≤ (1 - 2 * Spectra.rr ^ 2) * (1 + b) := by
    have : Spectra.rr ^ 2 ≤ 1 / 40000 := by nlinarith
    nlinarith [mul_nonneg hb0 (by linarith : (0 : ℝ) ≤ 99 / 100 - b), mul_nonneg (sub_nonneg.mpr this) hb0]
  rw [← hb] at hneg
  obtain ⟨e, he⟩ : ∃ e, e = ecm / 2 * (1 - 2 * Spectra.rr ^ 2) / 2 * (1 + b) := ⟨_, rfl⟩
  rw [← he] at hneg
  have hr2 : Spectra.rr ^ 2 < 1 / 4 := by nlinarith
  have he0 : 0 < e := by rw [he]; have : 0 < 1 - 2 * Spectra.rr ^ 2 := by linarith
                         positivity
  have hn : ¬ 2 * ecm * e < ecm ^ 2 - 4 * Spectra.massMu ^ 2 := by
    push Not
    rw [he]
    nlinarith [mul_le_mul_of_nonneg_left hbb (sq_nonneg (ecm / 2))]
  have hef : e < ecm / 2 := by
    rw [he]
    have : (1 - 2 * Spectra.rr ^ 2) * (1 + b) < 2 := by nlinarith [pow_pos hr0 2]
    nlinarith
  have hQ : 0 < ecm := by linarith
  refine ⟨e, he0, hef, fun s w => ?_, fun s w => ?_⟩
  · obtain ⟨v, h1, h2, h3⟩ := Fsr.scalar_ff_sign Xs.pythonConsts.alpha s.mx e ecm Xs.pythonConsts.mmu
      (by norm_num [Xs.pythonConsts]) hQ (by norm_num [Xs.pythonConsts]) he0
    have hv : v = 0 := le_antisymm (not_lt.mp fun h => hn (h3.mp h).2) h2
    simp only [scalarPt, scalarKernels, if_true, h1, fsrValue, hv]
    linarith
  · obtain ⟨v, h1, h2, h3⟩ := Fsr.vector_ff_sign pyVector.alpha s.mx e ecm pyVector.mmu
      (by norm_num [pyVector]) hQ (by norm_num [pyVector]) he0
    have hv : v = 0 := le_antisymm (not_lt.mp fun h => hn (h3.mp h).2) h2
    simp only [vectorPt, vectorKernels, if_true, h1, fsrValue, hv]
    linarith


/-- C274: the photon spectrum of annihilation into muons has negative values, also after the weighting, and
in a model that couples to muons only the total spectrum is negative there. -/
theorem vector_spectrum_negative (s : VectorModel.Base) (w bfs : Dict ℝ) (ecm : ℝ)
    (hb : vectorBranching Xs.vectorKernelConsts s ecm = .ok bfs)
    (hmx : 0 < s.mx) (hmv : 0 < s.mv) (hw : 0 < s.width) (hx : 2 * s.mx < ecm) (hgx : s.gvxx ≠ 0)
    (hgm : s.gvmumu ≠ 0) (hecm : Spectra.f64eps ≤ ecm / 2 - Spectra.massMu)
    (hle : ecm ≤ 14 * Spectra.massMu) :
    ∃ e d x t, 0 < e ∧ e < ecm / 2 ∧ vectorSpectra s w bfs (.ndarray [e]) ecm = .ok d
      ∧ Dict.get? d "mu mu" = some (.array [x]) ∧ x < 0 ∧ Dict.get? d "total" = some (.array [t])
      ∧ (s.gvee = 0 → s.gvuu = 0 → s.gvdd = 0 → ecm < 2 * s.mv → t < 0) := by
  obtain ⟨e, he0, he1, -, hneg⟩ := muon_pt_negative hecm hle
  have l2 : 0 < pyLeptons.mmu := by norm_num [pyLeptons]
  have hpos : 0 < bfOf bfs "mu mu" := by
    refine ((bf_sign hb (vector_total_none _ _ _) (vector_nonneg _ Xs.vectorKernelConsts_physical s hmx hmv hw
        hx.ne') (n := "mu mu") rfl rfl).2).mpr ?_
    refine ((Xs.vector_annihilation_signs _ Xs.vectorKernelConsts_physical ecm s.mx s.mv s.gvxx s.gvmumu s.gvuu
        s.gvdd s.width pyLeptons.mmu hmx hmv hw l2).1 hx.ne').2.1.mpr ⟨?_, hx, hgm, hgx⟩
    have h1 := Spectra.eps_pos
    have h2 : pyLeptons.mmu = Spectra.massMu := by norm_num [pyLeptons, Spectra.massMu]
    rw [h2]
    linarith
  have hx0 : bfOf bfs "mu mu" * vectorPt (vectorKernels s w) ecm "mu mu" e < 0 :=
    mul_neg_of_pos_of_neg hpos (hneg s w)
  refine ⟨e, _, bfOf bfs "mu mu" * vectorPt (vectorKernels s w) ecm "mu mu" e,
    (vectorChannels.map fun fs => bfOf bfs fs * vectorPt (vectorKernels s w) ecm fs e).sum, he0, he1,
    MediatorSpectra.vector_spectra_array_partial _ _ _ _ (by simp), ?_, hx0, ?_, ?_⟩
  · rw [get_arrays_channel (by simp [vectorChannels])]; rfl
  · simp [arrays, vectorChannels, Dict.get?]
  · intro g1 g2 g3 hv
    have zero : ∀ {n f v}, (ThermalTotal.vectorFuncs pyLeptons Xs.vectorKernelConsts s).get? n = some f →
        f ecm = .ok v → ¬ 0 < v → bfOf bfs n = 0 := by
      intro n f v hf hv' hv0
      obtain ⟨h1, h2⟩ := bf_sign hb (vector_total_none _ _ _)
        (vector_nonneg _ Xs.vectorKernelConsts_physical s hmx hmv hw hx.ne') hf hv'
      exact le_antisymm (not_lt.mp fun h => hv0 (h2.mp h)) h1
    obtain ⟨-, s1, ⟨v3, s3, -, s3'⟩, ⟨-, s4⟩, ⟨v5, s5, -, s5'⟩, ⟨-, s6⟩⟩ :=
      (Xs.vector_annihilation_signs _ Xs.vectorKernelConsts_physical ecm s.mx s.mv s.gvxx s.gvee s.gvuu
        s.gvdd s.width pyLeptons.me hmx hmv hw (by norm_num [pyLeptons])).1 hx.ne'
    have z1 : bfOf bfs "e e" = 0 := zero (n := "e e") rfl rfl fun h => (s1.mp h).2.2.1 g1
    have z3 : bfOf bfs "pi pi" = 0 := zero (n := "pi pi") rfl s3 fun h => (s3'.mp h).2.2.1 (by rw [g2, g3])
    have z4 : bfOf bfs "pi0 g" = 0 := zero (n := "pi0 g") rfl rfl fun h => (s4.mp h).2.2.1 (by rw [g2, g3]; ring)
    have z5 : bfOf bfs "pi0 v" = 0 := zero (n := "pi0 v") rfl s5 fun h => (s5'.mp h).2.2.1 (by rw [g2, g3])
    have z6 : bfOf bfs "v v" = 0 := zero (n := "v v") rfl rfl fun h => absurd hv (not_lt.mpr (s6.mp h).1.le)
    simpa [vectorChannels, z1, z3, z4, z5, z6] using hx0

/-- C274 (scalar): the weighted spectrum of annihilation into muons is negative somewhere as well. -/
theorem scalar_spectrum_negative (s : ScalarModel.Base) (w bfs : Dict ℝ) (ecm : ℝ)
    (hb : 0 < bfOf bfs "mu mu") (hecm : Spectra.f64eps ≤ ecm / 2 - Spectra.massMu)
    (hle : ecm ≤ 14 * Spectra.massMu) :
    ∃ e d x, 0 < e ∧ e < ecm / 2 ∧ scalarSpectra s w bfs (.ndarray [e]) ecm = .ok d
      ∧ Dict.get? d "mu mu" = some (.array [x]) ∧ x < 0 := by
  obtain ⟨e, he0, he1, hneg, -⟩ := muon_pt_negative hecm hle
  refine ⟨e, _, bfOf bfs "mu mu" * scalarPt (scalarKernels s w) ecm "mu mu" e, he0, he1,
    MediatorSpectra.scalar_spectra_array _ _ _ _, ?_, mul_neg_of_pos_of_neg hb (hneg s w)⟩
  simp [arrays, scalarChannels, Dict.get?]

/-- C274 (the part that holds): radiation off electrons and the decays of neutral pions are counted with
non-negative numbers at every energy. -/
theorem photon_entries_nonneg_partial (s : ScalarModel.Base) (v : VectorModel.Base) (w w' : Dict ℝ) (ecm e : ℝ)
    (hecm : 0 < ecm) (he : 0 < e) :
    0 ≤ scalarPt (scalarKernels s w) ecm "e e" e ∧ 0 ≤ scalarPt (scalarKernels s w) ecm "pi0 pi0" e
    ∧ 0 ≤ vectorPt (vectorKernels v w') ecm "e e" e ∧ 0 ≤ vectorPt (vectorKernels v w') ecm "pi0 g" e := by
  have pi0 : ∀ E, 0 ≤ Spectra.dndePhotonNeutralPion e E := by
    intro E
    rw [← CythonKernels.photonNeutralPion_eq]
    unfold CythonKernels.cPhotonNeutralPion
    split_ifs with h1
    · exact le_rfl
    · simp only
      have hp : (0 : ℝ) < CythonKernels.massPi0 := by norm_num [CythonKernels.massPi0]
      have hE : 0 ≤ E := by linarith
      have : 0 ≤ CythonKernels.brPi0AA := by norm_num [CythonKernels.brPi0AA]
      split_ifs
      · positivity
      · exact le_rfl
  obtain ⟨x, h1, h2, -⟩ := Fsr.scalar_ff_sign Xs.pythonConsts.alpha s.mx e ecm Xs.pythonConsts.me
      (by norm_num [Xs.pythonConsts]) hecm (by norm_num [Xs.pythonConsts]) he
  obtain ⟨y, h3, h4, -⟩ := Fsr.vector_ff_sign pyVector.alpha v.mx e ecm pyVector.me
      (by norm_num [pyVector]) hecm (by norm_num [pyVector]) he
  refine ⟨?_, ?_, ?_, ?_⟩
  · simpa [scalarPt, scalarKernels, h1, fsrValue] using h2
  · simpa [scalarPt, scalarKernels] using pi0 _
  · simpa [vectorPt, vectorKernels, h3, fsrValue] using h4
  · simpa [vectorPt, vectorKernels] using pi0 _

/-! ## Positrons of the scalar mediator -/

theorem scalar_nonneg (s : ScalarModel.Base) {ecm : ℝ} (hvs : s.vs = 0) (hl : s.lam ≠ 0)
    (hmx : 0 < s.mx) (hms : 0 < s.ms) (hw : 0 < s.width) (hne : ecm ≠ 2 * s.mx) :
    ∀ p ∈ ThermalTotal.scalarFuncs pyLeptons Xs.kernelConsts s, ∀ v, p.2 ecm = .ok v → 0 ≤ v := by
  obtain ⟨s1, ⟨s2, -⟩, ⟨s3, -⟩, ⟨s4, -⟩, s5⟩ := Xs.scalar_annihilation_signs Xs.pythonConsts Xs.kernelConsts
    Xs.pythonConsts_physical Xs.kernelConsts_physical rfl s hvs hl ecm hmx hms hw
  obtain ⟨va, ha, ha0, -⟩ := s1 "e" _ (Or.inl ⟨rfl, rfl⟩)
  obtain ⟨vb, hb, hb0, -⟩ := s1 "mu" _ (Or.inr ⟨rfl, rfl⟩)
  simp only [Xs.sigmaScalarFF, String.reduceEq, or_true, true_or, if_true, if_false] at ha hb
  intro p hp v hv
  simp only [ThermalTotal.scalarFuncs, List.mem_cons, List.not_mem_nil, or_false] at hp
  rcases hp with rfl | rfl | rfl | rfl | rfl | rfl <;> simp only at hv
  · rw [show pyLeptons.mmu = Xs.pythonConsts.mmu from rfl, hb] at hv
    simp only [Except.ok.injEq] at hv; rw [← hv]; exact hb0
  · rw [show pyLeptons.me = Xs.pythonConsts.me from rfl, ha] at hv
    simp only [Except.ok.injEq] at hv; rw [← hv]; exact ha0
  · simp only [Except.ok.injEq] at hv; rw [← hv]; exact s2
  · simp only [Except.ok.injEq] at hv; rw [← hv]; exact s3
  · simp only [Except.ok.injEq] at hv; rw [← hv]; exact s4
  · simp only [Except.ok.injEq] at hv; rw [← hv]; exact (s5 hne).1

/-- C275: every entry of `positron_spectra` of the scalar mediator is non-negative, and exactly zero for
energies below the positron's mass and above half of the centre-of-mass energy. -/
theorem scalar_positron_spectra (s : ScalarModel.Base) (w bfs : Dict ℝ) (e ecm : ℝ)
    (hwd : ScalarModel.partialWidths Xs.pythonConsts s = .ok w) (hb : scalarBranching s ecm = .ok bfs)
    (hvs : s.vs = 0) (hl : s.lam ≠ 0) (hmx : 0 < s.mx) (hms : 2 * CythonKernels.legacyE < s.ms)
    (hw : 0 < s.width) (hne : ecm ≠ 2 * s.mx) (hne' : ecm ≠ 2 * s.ms) :
    (scalarPositronSpectra s w bfs e ecm).map Prod.fst = ["mu mu", "pi pi", "s s", "total"]
    ∧ (∀ p ∈ scalarPositronSpectra s w bfs e ecm, 0 ≤ p.2)
    ∧ (ecm / 2 < e ∨ e < CythonKernels.legacyE → ∀ p ∈ scalarPositronSpectra s w bfs e ecm, p.2 = 0) := by
  have hl0 : (0 : ℝ) < CythonKernels.legacyE := by norm_num [CythonKernels.legacyE]
  have hms0 : 0 < s.ms := by linarith
  have hlm : CythonKernels.legacyE ≤ Spectra.massE := by norm_num [CythonKernels.legacyE, Spectra.massE]
  have bf0 : ∀ n f, (ThermalTotal.scalarFuncs pyLeptons Xs.kernelConsts s).get? n = some f →
      0 ≤ bfOf bfs n := by
    intro n f hf
    obtain ⟨r, hr, h2⟩ := branching_value hb (scalar_total_none _ _ _)
    obtain ⟨v, hv, -⟩ := h2 n f hf
    exact (bf_sign hb (scalar_total_none _ _ _) (scalar_nonneg s hvs hl hmx hms0 hw hne) hf hv).1
  have pw0 : ∀ i, 0 ≤ scalarPosPws w i := by
    obtain ⟨gg, pi0, pi, xx, ee, mumu, hh, g1, g2, g3, g4, g5, g6, -⟩ := ScalarModel.scalar_widths Xs.pythonConsts
      Xs.pythonConsts_physical s hvs hl hms0.le hmx.le
    rw [hh] at hwd
    simp only [Except.ok.injEq] at hwd
    subst hwd
    intro i
    fin_cases i <;> simp [scalarPosPws, width, Dict.get?] <;> positivity
  have m0 : 0 ≤ Spectra.dndePositronMuon e (ecm / 2) := (Spectra.muon_spectra_nonneg e (ecm / 2)).1
  have p0 : 0 ≤ Spectra.dndePositronChargedPion e (ecm / 2) := by
    rw [← CythonKernels.positronChargedPion_eq]; exact CythonKernels.positronPion_nonneg _ _
  have s0 : 0 ≤ CythonKernels.decayPositrons (scalarPosPws w) .total e (ecm / 2) s.ms := by
    rcases lt_or_ge s.ms (ecm / 2) with h | h
    · exact (CythonKernels.positron_range _ _ hms h).1 pw0
    · have h : ecm / 2 < s.ms := lt_of_le_of_ne h fun h => hne' (by linarith)
      simp [CythonKernels.decayPositrons, Mediator.positronPoint, h]
  have hform : scalarPositronSpectra s w bfs e ecm
      = [("mu mu", bfOf bfs "mu mu" * Spectra.dndePositronMuon e (ecm / 2)),
         ("pi pi", bfOf bfs "pi pi" * Spectra.dndePositronChargedPion e (ecm / 2)),
         ("s s", bfOf bfs "s s" * if width w "total" ≠ 0 then
            2 * CythonKernels.decayPositrons (scalarPosPws w) .total e (ecm / 2) s.ms else 0),
         ("total", bfOf bfs "mu mu" * Spectra.dndePositronMuon e (ecm / 2)
            + (bfOf bfs "pi pi" * Spectra.dndePositronChargedPion e (ecm / 2)
            + bfOf bfs "s s" * if width w "total" ≠ 0 then
              2 * CythonKernels.decayPositrons (scalarPosPws w) .total e (ecm / 2) s.ms else 0))] := by
    simp [scalarPositronSpectra, scalarPositronFuncs, Mediator.scalarPosMuMu, Dict.set, Dict.mapVals, Dict.values]
  rw [hform]
  have b1 := bf0 "mu mu" _ rfl
  have b2 := bf0 "pi pi" _ rfl
  have b3 := bf0 "s s" _ rfl
  have t0 : 0 ≤ (if width w "total" ≠ 0 then
      2 * CythonKernels.decayPositrons (scalarPosPws w) .total e (ecm / 2) s.ms else 0) := by
    split_ifs
    · positivity
    · exact le_rfl
  refine ⟨rfl, ?_, ?_⟩
  · intro p hp
    simp only [List.mem_cons, List.not_mem_nil, or_false] at hp
    rcases hp with rfl | rfl | rfl | rfl <;> simp only <;> positivity
  · intro he
    have zm : Spectra.dndePositronMuon e (ecm / 2) = 0 := by
      rcases he with he | he
      · rw [← CythonKernels.positronMuon_eq]; exact CythonKernels.positronMuon_above he.le
      · unfold Spectra.dndePositronMuon; rw [if_pos (Or.inr (by linarith))]
    have zp : Spectra.dndePositronChargedPion e (ecm / 2) = 0 := by
      rcases he with he | he
      · rw [← CythonKernels.positronChargedPion_eq]; exact CythonKernels.positronPion_above he.le
      · unfold Spectra.dndePositronChargedPion; rw [if_pos (Or.inr (by linarith))]
    have zs : CythonKernels.decayPositrons (scalarPosPws w) .total e (ecm / 2) s.ms = 0 := by
      rcases lt_or_ge s.ms (ecm / 2) with h | h
      · rcases he with he | he
        · refine (CythonKernels.positron_range _ _ hms h).2.1 (lt_of_le_of_lt ?_ he)
          have a1 : Real.sqrt (1 - 4 * CythonKernels.legacyE * CythonKernels.legacyE / (s.ms * s.ms)) ≤ 1 := by
            refine Real.sqrt_le_iff.mpr ⟨zero_le_one, ?_⟩
            have : 0 ≤ 4 * CythonKernels.legacyE * CythonKernels.legacyE / (s.ms * s.ms) := by positivity
            linarith
          have a2 := sqrt_le_one s.ms (ecm / 2)
          have a3 := mul_le_one₀ a1 (Real.sqrt_nonneg _) a2
          nlinarith [hms0.trans h]
        · exact (CythonKernels.positron_range _ _ hms h).2.2 he
      · have h : ecm / 2 < s.ms := lt_of_le_of_ne h fun h => hne' (by linarith)
        simp [CythonKernels.decayPositrons, Mediator.positronPoint, h]
    intro p hp
    simp only [List.mem_cons, List.not_mem_nil, or_false] at hp
    rcases hp with rfl | rfl | rfl | rfl <;> simp [zm, zp, zs]

/-! ## Concrete cases -/

theorem evalFuncs_ok {e : ℝ} : ∀ {d : Dict (ℝ → Except Xs.Err ℝ)}, (∀ p ∈ d, ∃ v, p.2 e = .ok v) →
    ∃ r, evalFuncs e d = .ok r
  | [], _ => ⟨[], rfl⟩
  | (k, f) :: d, h => by
    obtain ⟨v, hv⟩ := h (k, f) (by simp)
    obtain ⟨r, hr⟩ := evalFuncs_ok (d := d) (e := e) fun p hp => h p (by simp [hp])
    refine ⟨(k, v) :: r, ?_⟩
    simp only at hv
    simp [evalFuncs, hv, hr, bind, Except.bind, pure, Except.pure]

/-- The branching fractions of a model with positive masses and width exist away from threshold. -/
theorem vector_branching_ok (k : VectorModel.Consts) (hk : k.Physical) (s : VectorModel.Base) {ecm : ℝ}
    (hmx : 0 < s.mx) (hmv : 0 < s.mv) (hw : 0 < s.width) (hne : ecm ≠ 2 * s.mx) :
    ∃ bfs, vectorBranching k s ecm = .ok bfs := by
  obtain ⟨-, -, ⟨v3, s3, -⟩, -, ⟨v5, s5, -⟩, -⟩ := (Xs.vector_annihilation_signs k hk ecm
    s.mx s.mv s.gvxx s.gvee s.gvuu s.gvdd s.width 1 hmx hmv hw one_pos).1 hne
  obtain ⟨r, hr⟩ := evalFuncs_ok (d := ThermalTotal.vectorFuncs pyLeptons k s) (e := ecm) (by
    intro p hp
    simp only [ThermalTotal.vectorFuncs, List.mem_cons, List.not_mem_nil, or_false] at hp
    rcases hp with rfl | rfl | rfl | rfl | rfl | rfl
    · exact ⟨_, rfl⟩
    · exact ⟨_, rfl⟩
    · exact ⟨_, s3⟩
    · exact ⟨_, rfl⟩
    · exact ⟨_, s5⟩
    · exact ⟨_, rfl⟩)
  unfold vectorBranching branching crossSections
  simp only [hr, bind, Except.bind, pure, Except.pure]
  split_ifs
  · exact ⟨_, rfl⟩
  · exact ⟨_, rfl⟩

/-- Dark matter of 100 MeV coupled to muons by a vector of 300 MeV. -/
noncomputable def muonPhilic : VectorModel.Base :=
  { mx := 100, mv := 300, gvxx := 1, gvuu := 0, gvdd := 0, gvss := 0, gvee := 0, gvmumu := 1, width := 1 }

/-- C274: at 220 MeV its total photon spectrum is negative at an energy below the endpoint. -/
theorem muon_philic_total_negative (w : Dict ℝ) :
    ∃ bfs e d t, vectorBranching Xs.vectorKernelConsts muonPhilic 220 = .ok bfs ∧ 0 < e ∧ e < 110
      ∧ vectorSpectra muonPhilic w bfs (.ndarray [e]) 220 = .ok d
      ∧ Dict.get? d "total" = some (.array [t]) ∧ t < 0 := by
  obtain ⟨bfs, hb⟩ := vector_branching_ok _ Xs.vectorKernelConsts_physical muonPhilic (ecm := 220)
    (by norm_num [muonPhilic]) (by norm_num [muonPhilic]) (by norm_num [muonPhilic]) (by norm_num [muonPhilic])
  obtain ⟨e, d, x, t, h1, h2, h3, -, -, h4, h5⟩ := vector_spectrum_negative muonPhilic w bfs 220 hb
    (by norm_num [muonPhilic]) (by norm_num [muonPhilic]) (by norm_num [muonPhilic]) (by norm_num [muonPhilic])
    (by norm_num [muonPhilic]) (by norm_num [muonPhilic]) (by norm_num [Spectra.f64eps, Spectra.massMu])
    (by norm_num [Spectra.massMu])
  exact ⟨bfs, e, d, t, hb, h1, by linarith, h3, h4, h5 rfl rfl rfl (by norm_num [muonPhilic])⟩

/-- C272: the endpoint of the same model at 500 MeV, where two mediators are not yet open. -/
example : ∃ bfs, vectorBranching Xs.vectorKernelConsts muonPhilic 500 = .ok bfs ∧ 0 < bfOf bfs "mu mu"
    ∧ bfOf bfs "v v" = 0 := by
  obtain ⟨bfs, hb⟩ := vector_branching_ok _ Xs.vectorKernelConsts_physical muonPhilic (ecm := 500)
    (by norm_num [muonPhilic]) (by norm_num [muonPhilic]) (by norm_num [muonPhilic]) (by norm_num [muonPhilic])
  refine ⟨bfs, hb, ?_, (vector_closed _ _ hb).2.2 (by norm_num [muonPhilic])⟩
  refine ((bf_sign hb (vector_total_none _ _ _) (vector_nonneg _ Xs.vectorKernelConsts_physical muonPhilic
    (by norm_num [muonPhilic]) (by norm_num [muonPhilic]) (by norm_num [muonPhilic]) (by norm_num [muonPhilic]))
    (n := "mu mu") rfl rfl).2).mpr ?_
  exact ((Xs.vector_annihilation_signs _ Xs.vectorKernelConsts_physical 500 muonPhilic.mx muonPhilic.mv
    muonPhilic.gvxx muonPhilic.gvmumu muonPhilic.gvuu muonPhilic.gvdd muonPhilic.width pyLeptons.mmu
    (by norm_num [muonPhilic]) (by norm_num [muonPhilic]) (by norm_num [muonPhilic])
    (by norm_num [pyLeptons])).1 (by norm_num [muonPhilic])).2.1.mpr
    ⟨by norm_num [pyLeptons], by norm_num [muonPhilic], by norm_num [muonPhilic], by norm_num [muonPhilic]⟩

/-- C272: the window of `vector_endpoint_gap` is not empty. -/
example : (134.9766 : ℝ) < 134.9767 ∧ (134.9767 : ℝ) < 134.9768
    ∧ (134.9767 : ℝ) / 2 < 67.4884 ∧ (67.4884 : ℝ) ≤ 134.9768 ^ 2 / (2 * 134.9767) := by norm_num

/-- C273: a coupling of 5 instead of 1 and a width of 7 MeV instead of 1 MeV change nothing at 500 MeV. -/
example : vectorBranching Xs.vectorKernelConsts { muonPhilic with gvxx := 5, width := 7 } 500
    = vectorBranching Xs.vectorKernelConsts muonPhilic 500 :=
  (vector_coupling_independent Xs.vectorKernelConsts muonPhilic 5 7 500 (by norm_num [muonPhilic]) (by norm_num)
    (by norm_num [muonPhilic, Xs.propagator]) (by norm_num [muonPhilic, Xs.propagator])
    (by norm_num [muonPhilic])).1

/-- C275: for a scalar of 500 MeV no positron above 150 MeV comes from annihilation at 300 MeV. -/
example (w bfs : Dict ℝ) (s : ScalarModel.Base) (hs : s = ⟨100, 500, 1, 1, 1, 1, 1000, 0, 1⟩)
    (hw : ScalarModel.partialWidths Xs.pythonConsts s = .ok w) (hb : scalarBranching s 300 = .ok bfs) :
    ∀ p ∈ scalarPositronSpectra s w bfs 151 300, p.2 = 0 :=
  (scalar_positron_spectra s w bfs 151 300 hw hb (by rw [hs]) (by rw [hs]; norm_num) (by rw [hs]; norm_num)
    (by rw [hs]; norm_num [CythonKernels.legacyE]) (by rw [hs]; norm_num) (by rw [hs]; norm_num)
    (by rw [hs]; norm_num)).2.2 (Or.inl (by norm_num))

end Hazma.EndToEnd
