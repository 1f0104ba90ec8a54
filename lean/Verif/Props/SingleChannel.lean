import Verif.Model.SingleChannel
import Mathlib.Tactic

/-! # Single-channel models: switching the final state, thresholds and lines -/

namespace Hazma.SingleChannel

open Hazma Hazma.Theory

/-- What an observer sees of a model: everything the public methods are computed from. -/
def SameObservations (a b : Model) : Prop :=
  a.mx = b.mx ∧ a.fs = b.fs ∧ a.rate = b.rate
  ∧ fsMass a = fsMass b
  ∧ (∀ e, xsec a e = xsec b e)
  ∧ widths a = widths b
  ∧ (∀ e, gammaLines a e = gammaLines b e)
  ∧ (∀ e, positronLines a e = positronLines b e)

/-- C47 for annihilation: assigning a valid final state gives a model that cannot be told from a freshly
built one; an invalid one raises the constructor's `KeyError`. -/
theorem ann_switch_is_fresh (m : Model) (fs : List String) :
    (∀ n, mk m.mx fs m.rate = .ok n →
        (setFsAnn m fs).2 = .ok () ∧ SameObservations (setFsAnn m fs).1 n)
    ∧ (∀ e, mk m.mx fs m.rate = .error e → (setFsAnn m fs).2 = .error e) := by
  rcases h : massList fs with e | ms
  · constructor
    · intro n hn
      simp [mk, h, bind, Except.bind] at hn
    · intro e' he
      simp only [mk, h, bind, Except.bind, Except.error.injEq] at he
      simp [setFsAnn, h, he]
  · constructor
    · intro n hn
      simp only [mk, h, bind, Except.bind, pure, Except.pure, Except.ok.injEq] at hn
      subst hn
      simp [setFsAnn, h, SameObservations, fsMass, xsec, widths, gammaLines, positronLines]
    · intro e' he
      simp [mk, h, bind, Except.bind, pure, Except.pure] at he

/-- The masses of two final states. -/
theorem massList_e_e : massList ["e", "e"] = .ok [0.5109989461, 0.5109989461] := by
  simp [massList, index, smMasses, Dict.get?, bind, Except.bind, pure, Except.pure]

theorem massList_mu_mu : massList ["mu", "mu"] = .ok [105.6583745, 105.6583745] := by
  simp [massList, index, smMasses, Dict.get?, bind, Except.bind, pure, Except.pure]

/-- C47 is false for decay: after switching an electron model to muons the threshold is still that of
electrons, and a positron line is reported under the name of the muon channel at the electron's energy. -/
theorem dec_switch_stale (mx width : ℝ) :
    ∃ m n, mk mx ["e", "e"] width = .ok m ∧ mk mx ["mu", "mu"] width = .ok n
      ∧ (setFsDec m ["mu", "mu"]).1.fs = n.fs
      ∧ fsMass (setFsDec m ["mu", "mu"]).1 = .ok (2 * 0.5109989461)
      ∧ fsMass n = .ok (2 * 105.6583745)
      ∧ (∃ v, positronLines (setFsDec m ["mu", "mu"]).1 mx = .ok [("mu mu", v)])
      ∧ positronLines n mx = .ok []
      ∧ ¬ SameObservations (setFsDec m ["mu", "mu"]).1 n := by
  have hk : key ["mu", "mu"] = "mu mu" := by rfl
  refine ⟨⟨mx, ["e", "e"], width, ["e", "e"], [0.5109989461, 0.5109989461]⟩,
    ⟨mx, ["mu", "mu"], width, ["mu", "mu"], [105.6583745, 105.6583745]⟩, ?_, ?_, rfl, ?_, ?_, ?_, ?_, ?_⟩
  · simp [mk, massList_e_e, bind, Except.bind, pure, Except.pure]
  · simp [mk, massList_mu_mu, bind, Except.bind, pure, Except.pure]
  · simp [fsMass, setFsDec, massList_e_e, bind, Except.bind, pure, Except.pure]
    norm_num
  · simp [fsMass, massList_mu_mu, bind, Except.bind, pure, Except.pure]
    norm_num
  · simp [positronLines, setFsDec, hk]
  · simp [positronLines]
  · intro h
    have := h.2.2.2.1
    simp only [fsMass, setFsDec, massList_e_e, massList_mu_mu, bind, Except.bind, pure, Except.pure,
      Except.ok.injEq] at this
    norm_num at this

/-- C47 for decay, the part that holds: the widths follow the new name, and the whole model is up to date
when the new state is the old one. -/
theorem dec_switch_partial (m n : Model) (fs : List String) (h : mk m.mx fs m.rate = .ok n) :
    widths (setFsDec m fs).1 = widths n
    ∧ (m.finalStates = fs → m.fsMasses = n.fsMasses → SameObservations (setFsDec m fs).1 n) := by
  rcases h' : massList fs with e | ms
  · simp [mk, h', bind, Except.bind] at h
  · simp only [mk, h', bind, Except.bind, pure, Except.pure, Except.ok.injEq] at h
    subst h
    refine ⟨rfl, fun h1 h2 => ?_⟩
    simp only [] at h2
    simp [setFsDec, SameObservations, fsMass, xsec, widths, gammaLines, positronLines, h1, h2, h']

example (m : Model) : (setFsAnn m ["mu", "mu"]).2 = .ok () := by
  simp [setFsAnn, massList_mu_mu]

/-- C102 for annihilation: the cross section of a constructed model is `sigma` exactly when both the
initial and the final particles fit, and zero otherwise. -/
theorem ann_threshold (mx sigma : ℝ) (fs : List String) (n : Model) (h : mk mx fs sigma = .ok n) :
    ∃ ms, massList fs = .ok ms
      ∧ ∀ e, xsec n e = .ok (if 2 * mx ≤ e ∧ ms.sum ≤ e then sigma else 0) := by
  rcases h' : massList fs with e | ms
  · simp [mk, h', bind, Except.bind] at h
  · simp only [mk, h', bind, Except.bind, pure, Except.pure, Except.ok.injEq] at h
    subst h
    refine ⟨ms, rfl, fun e => ?_⟩
    by_cases h1 : e < 2 * mx
    · have : ¬ (2 * mx ≤ e ∧ ms.sum ≤ e) := fun q => absurd q.1 (not_le.2 h1)
      simp [xsec, h1, this]
    · by_cases h2 : e < ms.sum
      · have : ¬ (2 * mx ≤ e ∧ ms.sum ≤ e) := fun q => absurd q.2 (not_le.2 h2)
        simp [xsec, h1, fsMass, h', bind, Except.bind, pure, Except.pure, h2, this]
      · have : 2 * mx ≤ e ∧ ms.sum ≤ e := ⟨not_lt.1 h1, not_lt.1 h2⟩
        simp [xsec, h1, fsMass, h', bind, Except.bind, pure, Except.pure, h2, this]

/-- C102 is false for decay: the width into the final state does not depend on the mass of the decaying
particle, so a particle lighter than its decay products decays. -/
theorem dec_no_threshold (width : ℝ) (hw : 0 < width) (mx : ℝ) (hx : mx < 200) :
    ∃ n, mk mx ["mu", "mu"] width = .ok n ∧ (∃ t, fsMass n = .ok t ∧ mx < t)
      ∧ (widths n).get? "mu mu" = some width ∧ 0 < width := by
  refine ⟨⟨mx, ["mu", "mu"], width, ["mu", "mu"], [105.6583745, 105.6583745]⟩, ?_,
    ⟨105.6583745 + 105.6583745, ?_, ?_⟩, ?_, hw⟩
  · simp [mk, massList_mu_mu, bind, Except.bind, pure, Except.pure]
  · simp [fsMass, massList_mu_mu, bind, Except.bind, pure, Except.pure]
  · norm_num; linarith
  · rfl

/-! ## Lines -/

theorem mass_g : smMasses.get? "g" = none := by
  simp [smMasses, Dict.get?]

theorem massList_mem {fs : List String} {ms : List ℝ} (h : massList fs = .ok ms) :
    "g" ∉ fs := by
  induction fs generalizing ms with
  | nil => simp
  | cons s l ih =>
    intro hm
    rcases List.mem_cons.1 hm with rfl | hm
    · simp [massList, index, mass_g, bind, Except.bind] at h
    · rcases hs : index smMasses s with e | x
      · simp [massList, hs, bind, Except.bind] at h
      · rcases hl : massList l with e | r
        · simp [massList, hs, hl, bind, Except.bind] at h
        · exact ih hl hm

/-- C101 is false: no model that can be constructed has a gamma-ray line, whatever its final state. -/
theorem no_gamma_line (mx rate ecm : ℝ) (fs : List String) (n : Model) (h : mk mx fs rate = .ok n) :
    gammaLines n ecm = .ok [] := by
  rcases h' : massList fs with e | ms
  · simp [mk, h', bind, Except.bind] at h
  · have hg := massList_mem h'
    simp only [mk, h', bind, Except.bind, pure, Except.pure, Except.ok.injEq] at h
    subst h
    simp only [gammaLines]
    match fs, h', hg with
    | [], _, _ => rfl
    | [_], _, _ => rfl
    | [s1, s2], h', hg =>
      have hlen : ∃ m1 m2, ms = [m1, m2] := by
        rcases h1 : index smMasses s1 with e | m1
        · simp [massList, h1, bind, Except.bind] at h'
        · rcases h2 : index smMasses s2 with e | m2
          · simp [massList, h1, h2, bind, Except.bind] at h'
          · simp [massList, h1, h2, bind, Except.bind, pure, Except.pure] at h'
            exact ⟨m1, m2, h'.symm⟩
      obtain ⟨m1, m2, rfl⟩ := hlen
      have g1 : s1 ≠ "g" := fun q => hg (by simp [q])
      have g2 : s2 ≠ "g" := fun q => hg (by simp [q])
      simp [g1, g2]
    | _ :: _ :: _ :: _, _, _ => rfl

/-- In particular two photons, under either name the mass table knows, give none. -/
theorem no_photon_line (mx rate ecm : ℝ) :
    (∃ n, mk mx ["photon", "photon"] rate = .ok n ∧ gammaLines n ecm = .ok [])
    ∧ (∃ n, mk mx ["a", "a"] rate = .ok n ∧ gammaLines n ecm = .ok [])
    ∧ mk mx ["g", "g"] rate = .error (.keyError "g") := by
  have h1 : massList ["photon", "photon"] = .ok [0, 0] := by
    simp [massList, index, smMasses, Dict.get?, bind, Except.bind, pure, Except.pure]
  have h2 : massList ["a", "a"] = .ok [0, 0] := by
    simp [massList, index, smMasses, Dict.get?, bind, Except.bind, pure, Except.pure]
  refine ⟨⟨⟨mx, ["photon", "photon"], rate, ["photon", "photon"], [0, 0]⟩, ?_, ?_⟩,
    ⟨⟨mx, ["a", "a"], rate, ["a", "a"], [0, 0]⟩, ?_, ?_⟩, ?_⟩
  · simp only [mk, h1, bind, Except.bind, pure, Except.pure]
  · simp [gammaLines]
  · simp only [mk, h2, bind, Except.bind, pure, Except.pure]
  · simp [gammaLines]
  · simp [mk, massList, index, mass_g, bind, Except.bind]

/-- C100 is false: in every constructible two-body channel with an electron the entry of the line table is
a dictionary, and the sum over lines raises `TypeError`, so `f_eff` and the CMB limit cannot be computed. -/
theorem electron_line_unusable (mx rate ecm : ℝ) (s1 s2 : String) (m1 m2 : ℝ)
    (h1 : smMasses.get? s1 = some m1) (h2 : smMasses.get? s2 = some m2) (he : s1 = "e" ∨ s2 = "e") :
    ∃ n d, mk mx [s1, s2] rate = .ok n ∧ positronLines n ecm = .ok [(key [s1, s2], .dict d)]
      ∧ ∀ f fs emin bfs,
          lineSum f fs emin ecm bfs [(key [s1, s2], .dict d)] = .error (.user "TypeError") := by
  have hm : massList [s1, s2] = .ok [m1, m2] := by
    simp [massList, index, h1, h2, bind, Except.bind, pure, Except.pure]
  have hk : mk mx [s1, s2] rate = .ok ⟨mx, [s1, s2], rate, [s1, s2], [m1, m2]⟩ := by
    simp [mk, hm, bind, Except.bind, pure, Except.pure]
  have hl : ∀ d f fs emin bfs,
      lineSum f fs emin ecm bfs [(key [s1, s2], .dict d)] = .error (.user "TypeError") := by
    intro d f fs emin bfs
    simp [lineSum, lineAbove, bind, Except.bind]
  by_cases e1 : s1 = "e"
  · exact ⟨_, [(key [s1, s2], (twoEnergies ecm m1 m2).1)], hk, by simp [positronLines, e1], hl _⟩
  · have e2 : s2 = "e" := he.resolve_left e1
    exact ⟨_, [(key [s1, s2], (twoEnergies ecm m1 m2).2)], hk, by simp [positronLines, e1, e2], hl _⟩

/-- C100, numerical lines: where every line is a number and has a branching fraction, the sum over the lines is
the efficiency-weighted share of the energy in the lines above `emin`, counted twice for the channel `fs`. -/
theorem numeric_lines (f : ℝ → ℝ) (fs : String) (emin ecm : ℝ) (bfs : Dict ℝ) (ls : List (String × ℝ))
    (b : String → ℝ) (hb : ∀ l ∈ ls, bfs.get? l.1 = some (b l.1)) :
    lineSum f fs emin ecm bfs (ls.map fun l => (l.1, .num l.2))
      = .ok (((ls.filter fun l => emin < l.2).map fun l =>
          (if l.1 = fs then 2 else 1) * b l.1 * (l.2 / ecm) * f l.2).sum) := by
  induction ls with
  | nil => rfl
  | cons l ls ih =>
    obtain ⟨ch, e⟩ := l
    have h1 : index bfs ch = .ok (b ch) := by
      have := hb (ch, e) (by simp)
      simp only at this
      simp [index, this]
    simp only [List.map_cons, lineSum, lineAbove, h1, ih fun l hl => hb l (by simp [hl]), bind, Except.bind,
      pure, Except.pure]
    by_cases he : emin < e
    · rw [List.filter_cons_of_pos (by simpa using he), List.map_cons, List.sum_cons]
      simp only [he, decide_true, if_true]
      congr 2
      ring
    · rw [List.filter_cons_of_neg (by simpa using he)]
      simp [he]

example : lineSum (fun _ => 1 / 2) "g g" 1 200 [("g g", 1 / 4), ("e e", 3 / 4)]
    [("g g", .num 100), ("e e", .num 1)] = .ok (1 / 8) := by
  have := numeric_lines (fun _ => 1 / 2) "g g" 1 200 [("g g", 1 / 4), ("e e", 3 / 4)]
    [("g g", 100), ("e e", 1)] (fun c => if c = "g g" then 1 / 4 else 3 / 4) (by simp [Dict.get?])
  simp only [List.map_cons, List.map_nil] at this
  rw [this]
  norm_num

/-- C100, the part that holds: the energy inside is the one two-body kinematics asks for — together the two
particles carry the whole energy, and each is on its mass shell with the same momentum. -/
theorem electron_line_energy_partial (mx rate ecm : ℝ) (he : 0 < ecm) (s : String) (m : ℝ)
    (hs : smMasses.get? s = some m) :
    ∃ n E, mk mx ["e", s] rate = .ok n
      ∧ positronLines n ecm = .ok [(key ["e", s], .dict [(key ["e", s], E)])]
      ∧ ∃ E', E + E' = ecm ∧ E ^ 2 - 0.5109989461 ^ 2 = E' ^ 2 - m ^ 2 := by
  have h1 : massList ["e", s] = .ok [0.5109989461, m] := by
    have he : smMasses.get? "e" = some 0.5109989461 := by simp [smMasses, Dict.get?]
    simp [massList, index, he, hs, bind, Except.bind, pure, Except.pure]
  refine ⟨⟨mx, ["e", s], rate, ["e", s], [0.5109989461, m]⟩, (twoEnergies ecm 0.5109989461 m).1, ?_, ?_,
    (twoEnergies ecm 0.5109989461 m).2, ?_, ?_⟩
  · simp [mk, h1, bind, Except.bind, pure, Except.pure]
  · simp [positronLines]
  · simp only [twoEnergies]; field_simp; ring
  · simp only [twoEnergies]; field_simp; ring

example : ∃ n d, mk 1 ["e", "e"] 1 = .ok n ∧ positronLines n 2 = .ok [("e e", .dict d)] := by
  obtain ⟨n, d, h1, h2, -⟩ := electron_line_unusable 1 1 2 "e" "e" 0.5109989461 0.5109989461
    (by simp [smMasses, Dict.get?]) (by simp [smMasses, Dict.get?]) (Or.inl rfl)
  exact ⟨n, d, h1, h2⟩

end Hazma.SingleChannel
