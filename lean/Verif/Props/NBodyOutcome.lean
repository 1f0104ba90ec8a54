import Verif.Props.NBody

/-! # n-body spectra: outcomes, direct products, flavours and positron counting -/

namespace Hazma.NBody

open Hazma Hazma.PhaseSpace

/-! ## What a call returns or raises -/

theorem getMasses_ok_iff (fs : List String) :
    (∃ ms, getMasses fs = .ok ms) ↔ ∀ s ∈ fs, (smMasses.get? s).isSome := by
  induction fs with
  | nil => simp [getMasses]
  | cons s l ih =>
    rcases h : smMasses.get? s with _ | m
    · simp [getMasses, h]
    · rcases hl : getMasses l with x | ms
      · rw [hl] at ih
        simp only [reduceCtorEq, exists_false, false_iff] at ih
        simp only [getMasses, h, hl, reduceCtorEq, exists_false, false_iff]
        intro q
        exact ih fun t ht => q t (List.mem_cons_of_mem _ ht)
      · rw [hl] at ih
        have := ih.1 ⟨ms, rfl⟩
        simp only [getMasses, h, hl, Except.ok.injEq, exists_eq', true_iff]
        intro t ht
        rcases List.mem_cons.1 ht with rfl | ht
        · simp [h]
        · exact this t ht

theorem getMasses_error {fs : List String} {x : Err} (h : getMasses fs = .error x) : x = .valueError := by
  induction fs with
  | nil => simp [getMasses] at h
  | cons s l ih =>
    rcases hs : smMasses.get? s with _ | m
    · simp [getMasses, hs] at h; exact h.symm
    · rcases hl : getMasses l with y | ms
      · simp [getMasses, hs, hl] at h
        subst h
        exact ih hl
      · simp [getMasses, hs, hl] at h

/-- The contribution of one final-state particle to the spectrum of an n-body state. -/
noncomputable def share (env : Env) (e : ℝ) (p : Product) (ds : Dist × String) : ℝ :=
  convolve (spec env p ds.2 e) ds.1 + if isProduct ds.2 p then env.direct ds.1 e else 0

theorem decayLoop_ok (env : Env) (e : ℝ) (p : Product) (l : List (Dist × String)) (acc : ℝ)
    (h : ∀ ds ∈ l, ds.2 ∈ decayKeys) :
    decayLoop env e p l acc = .ok (acc + (l.map (share env e p)).sum) := by
  induction l generalizing acc with
  | nil => simp [decayLoop]
  | cons ds l ih =>
    obtain ⟨d, s⟩ := ds
    have hs : s ∈ decayKeys := h (d, s) (by simp)
    simp only [decayLoop, convDnde, if_pos hs]
    rw [ih _ fun x hx => h x (List.mem_cons_of_mem _ hx)]
    simp only [List.map_cons, List.sum_cons, share]
    congr 1
    ring

theorem decayLoop_error (env : Env) (e : ℝ) (p : Product) (l : List (Dist × String)) (acc : ℝ)
    (h : ∃ ds ∈ l, ds.2 ∉ decayKeys) : decayLoop env e p l acc = .error .assertionError := by
  induction l generalizing acc with
  | nil => simp at h
  | cons ds l ih =>
    obtain ⟨d, s⟩ := ds
    by_cases hs : s ∈ decayKeys
    · simp only [decayLoop, convDnde, if_pos hs]
      apply ih
      obtain ⟨x, hx, hn⟩ := h
      rcases List.mem_cons.1 hx with rfl | hx
      · exact absurd hs hn
      · exact ⟨x, hx, hn⟩
    · simp only [decayLoop, convDnde, if_neg hs]

/-- C106: what a call does, for every final state of three or more particles: unknown names and too little
energy raise `ValueError`, known names without a decay table `AssertionError`, everything else returns the
sum over the particles of their contributions, plus the radiation if asked for. -/
theorem nbody_outcome (env : Env) (e cme : ℝ) (fs : List String) (h3 : 3 ≤ fs.length) (p : Product)
    (ed : Fin fs.length → Dist) (inv : Fin fs.length × Fin fs.length → Dist) (fsr avg : Bool) :
    (¬ (∀ s ∈ fs, (smMasses.get? s).isSome) → nbody env e cme fs p ed inv fsr avg = .error .valueError)
    ∧ ∀ ms, getMasses fs = .ok ms →
      (cme < ms.sum → nbody env e cme fs p ed inv fsr avg = .error .valueError)
      ∧ (ms.sum ≤ cme → (∃ s ∈ fs, s ∉ decayKeys) →
          nbody env e cme fs p ed inv fsr avg = .error .assertionError)
      ∧ (ms.sum ≤ cme → (∀ s ∈ fs, s ∈ decayKeys) →
          nbody env e cme fs p ed inv fsr avg = .ok (∑ i, share env e p (ed i, fs.get i)
            + if p = .photon ∧ fsr = true then photonFsr env e fs.get inv avg else 0)) := by
  have hm : ∀ ms, getMasses fs = .ok ms → ms.sum ≤ cme →
      nbody env e cme fs p ed inv fsr avg = multi env e fs p ed inv fsr avg := by
    intro ms h hle
    match fs, h3, ed, inv, h with
    | a :: b :: c :: l, _, ed, inv, h =>
      simp only [nbody, h, if_neg (not_lt.2 hle)]
  refine ⟨?_, ?_⟩
  · intro hu
    rcases h : getMasses fs with x | ms
    · simp only [nbody, h, getMasses_error h]
    · exact absurd ((getMasses_ok_iff fs).1 ⟨ms, h⟩) hu
  · intro ms h
    refine ⟨fun hlt => ?_, fun hle hx => ?_, fun hle hx => ?_⟩
    · simp only [nbody, h, if_pos hlt]
    · rw [hm ms h hle, multi, decayLoop_error]
      obtain ⟨s, hs, hn⟩ := hx
      obtain ⟨i, hi⟩ := List.get_of_mem hs
      exact ⟨(ed i, fs.get i), (List.mem_ofFn).2 ⟨i, rfl⟩, by rw [hi]; exact hn⟩
    · rw [hm ms h hle, multi, decayLoop_ok]
      · simp only [zero_add, List.map_ofFn, List.sum_ofFn, Function.comp_apply]
      · intro ds hds
        rw [List.mem_ofFn] at hds
        obtain ⟨i, rfl⟩ := hds
        exact hx _ (List.get_mem fs i)

/-- The same for two particles: a known pair with enough energy always returns. -/
theorem nbody_two_outcome (env : Env) (e cme : ℝ) (s1 s2 : String) (p : Product)
    (ed : Fin 2 → Dist) (inv : Fin 2 × Fin 2 → Dist) (fsr avg : Bool) :
    (¬ ((smMasses.get? s1).isSome ∧ (smMasses.get? s2).isSome) →
        nbody env e cme [s1, s2] p ed inv fsr avg = .error .valueError)
    ∧ ∀ m1 m2, smMasses.get? s1 = some m1 → smMasses.get? s2 = some m2 →
      (cme < m1 + m2 → nbody env e cme [s1, s2] p ed inv fsr avg = .error .valueError)
      ∧ (m1 + m2 ≤ cme → ∃ v, nbody env e cme [s1, s2] p ed inv fsr avg = .ok v
          ∧ twoBody env e cme s1 s2 p fsr = .ok v) := by
  refine ⟨fun hu => ?_, fun m1 m2 h1 h2 => ?_⟩
  · rcases h : getMasses [s1, s2] with x | ms
    · simp only [nbody, h, getMasses_error h]
    · have := (getMasses_ok_iff [s1, s2]).1 ⟨ms, h⟩
      exact absurd ⟨this s1 (by simp), this s2 (by simp)⟩ hu
  · have h : getMasses [s1, s2] = .ok [m1, m2] := by simp [getMasses, h1, h2]
    refine ⟨fun hlt => ?_, fun hle => ?_⟩
    · have : cme < [m1, m2].sum := by simpa using hlt
      simp only [nbody, h, if_pos this]
    · have : ¬ cme < [m1, m2].sum := by simpa using hle
      simp only [nbody, h, if_neg this]
      simp [twoBody, h]

/-- The same for one particle: a name without a decay table raises `KeyError`. -/
theorem nbody_one_outcome (env : Env) (e cme : ℝ) (s : String) (p : Product)
    (ed : Fin 1 → Dist) (inv : Fin 1 × Fin 1 → Dist) (fsr avg : Bool) :
    (smMasses.get? s = none → nbody env e cme [s] p ed inv fsr avg = .error .valueError)
    ∧ ∀ m, smMasses.get? s = some m →
      (cme < m → nbody env e cme [s] p ed inv fsr avg = .error .valueError)
      ∧ (m ≤ cme → s ∉ decayKeys → nbody env e cme [s] p ed inv fsr avg = .error .keyError)
      ∧ (m ≤ cme → s ∈ decayKeys → nbody env e cme [s] p ed inv fsr avg = .ok (spec env p s e cme)) := by
  refine ⟨fun hu => by simp [nbody, getMasses, hu], fun m h1 => ?_⟩
  have h : getMasses [s] = .ok [m] := by simp [getMasses, h1]
  have hs : [m].sum = m := by simp
  refine ⟨fun hlt => ?_, fun hle hk => ?_, fun hle hk => ?_⟩
  · simp only [nbody, h, hs, if_pos hlt]
  · simp only [nbody, h, hs, if_neg (not_lt.2 hle), if_neg hk]
  · simp only [nbody, h, hs, if_neg (not_lt.2 hle), if_pos hk]

/-! ## C60: the energies of a two-body state -/

/-- C60: the two energies add up to the centre-of-mass energy, and both particles are on their mass shells
with the same momentum. -/
theorem two_body_energies (cme m1 m2 : ℝ) (h : 0 < cme) :
    energy1 cme m1 m2 + energy2 cme m1 m2 = cme
    ∧ energy1 cme m1 m2 ^ 2 - m1 ^ 2 = energy2 cme m1 m2 ^ 2 - m2 ^ 2
    ∧ (0 ≤ m1 → 0 ≤ m2 → m1 + m2 ≤ cme → m1 ≤ energy1 cme m1 m2 ∧ m2 ≤ energy2 cme m1 m2) := by
  refine ⟨?_, ?_, ?_⟩
  · simp only [energy1, energy2]; field_simp; ring
  · simp only [energy1, energy2]; field_simp; ring
  · intro h1 h2 h3
    simp only [energy1, energy2]
    rw [le_div_iff₀ (by linarith), le_div_iff₀ (by linarith)]
    constructor <;> nlinarith

/-- The order of the two particles does not matter. -/
theorem two_body_symmetric (env : Env) (e cme : ℝ) (s1 s2 : String) (p : Product) (fsr : Bool) :
    twoBody env e cme s1 s2 p fsr = twoBody env e cme s2 s1 p fsr := by
  rcases h1 : smMasses.get? s1 with _ | m1
  · rcases h2 : smMasses.get? s2 with _ | m2 <;> simp [twoBody, getMasses, h1, h2]
  · rcases h2 : smMasses.get? s2 with _ | m2
    · simp [twoBody, getMasses, h1, h2]
    · have he : energy2 cme m1 m2 = energy1 cme m2 m1 := by simp only [energy1, energy2]; ring
      have he' : energy1 cme m1 m2 = energy2 cme m2 m1 := by simp only [energy1, energy2]; ring
      simp only [twoBody, getMasses, h1, h2, he, he']
      congr 1
      split <;> ring_nf

/-! ## C104: photons among the final states -/

/-- C104 is false: with three or more particles a photon in the final state raises `AssertionError`, so the
branch that adds it to the spectrum is never reached; in a two-body state the photon is dropped. -/
theorem photon_final_state (env : Env) (e cme : ℝ) :
    (∀ (fs : List String) (_ : 3 ≤ fs.length) (_ : "photon" ∈ fs) (ed : Fin fs.length → Dist) inv fsr avg v,
        nbody env e cme fs .photon ed inv fsr avg ≠ .ok v)
    ∧ (∀ s m, smMasses.get? s = some m → s ∈ stable → s ∉ fsrKeys → ∀ fsr,
        twoBody env e cme "photon" s .photon fsr = .ok 0)
    ∧ ∀ fsr, twoBody env e cme "photon" "photon" .photon fsr = .ok 0 := by
  have hp : smMasses.get? "photon" = some 0 := by simp [smMasses, Dict.get?]
  have hk : "photon" ∉ decayKeys := by decide
  have hf : "photon" ∉ fsrKeys := by decide
  refine ⟨?_, ?_, ?_⟩
  · intro fs h3 hm ed inv fsr avg v
    obtain ⟨h1, h2⟩ := nbody_outcome env e cme fs h3 .photon ed inv fsr avg
    by_cases hall : ∀ s ∈ fs, (smMasses.get? s).isSome
    · obtain ⟨ms, hms⟩ := (getMasses_ok_iff fs).2 hall
      obtain ⟨ha, hb, -⟩ := h2 ms hms
      by_cases hc : cme < ms.sum
      · rw [ha hc]; simp
      · rw [hb (not_lt.1 hc) ⟨"photon", hm, hk⟩]; simp
    · rw [h1 hall]; simp
  · intro s m hm hs hfs fsr
    have h : getMasses ["photon", s] = .ok [0, m] := by simp [getMasses, hp, hm]
    simp only [twoBody, h, if_neg hk, if_neg hf, if_neg hfs, spec, if_pos hs]
    simp
  · intro fsr
    have h : getMasses ["photon", "photon"] = .ok [0, 0] := by simp [getMasses, hp]
    simp only [twoBody, h, if_neg hk, if_neg hf]
    simp

/-! ## C105: neutrino flavours -/

/-- The contribution of a particle to a row of the all-flavour spectrum and to the single-flavour one differ
exactly by direct neutrinos of the other flavours. -/
theorem share_row (env : Env) (e : ℝ) (r : Fin 3) (d : Dist) (s : String) (hs : s ∈ decayKeys) :
    share env e (.nuRow r) (d, s)
      = share env e (.nuFlavour r) (d, s)
        + if (s = "ve" ∨ s = "vm" ∨ s = "vt") ∧ s ≠ nuName r then env.direct d e else 0 := by
  have hsp : spec env (.nuRow r) s e = spec env (.nuFlavour r) s e := rfl
  simp only [share, hsp, add_assoc, add_right_inj]
  simp only [decayKeys, List.mem_cons, List.not_mem_nil, or_false] at hs
  rcases hs with h | h | h | h | h | h | h | h | h | h | h | h | h | h | h | h <;> subst h <;>
    fin_cases r <;> simp [isProduct, Product.name, nuName]

/-- C105 (exact): for three or more particles, row `r` of `dnde_neutrino(flavor=None)` is
`dnde_neutrino(flavor=r)` plus the energy distributions of all direct neutrinos of the other two flavours. -/
theorem neutrino_rows (env : Env) (e cme : ℝ) (fs : List String) (h3 : 3 ≤ fs.length)
    (ed : Fin fs.length → Dist) (inv : Fin fs.length × Fin fs.length → Dist) (fsr avg : Bool) (r : Fin 3)
    (ms : List ℝ) (hm : getMasses fs = .ok ms) (hle : ms.sum ≤ cme) (hk : ∀ s ∈ fs, s ∈ decayKeys) :
    ∃ v w, nbody env e cme fs (.nuRow r) ed inv fsr avg = .ok v
      ∧ nbody env e cme fs (.nuFlavour r) ed inv fsr avg = .ok w
      ∧ v = w + ∑ i, if (fs.get i = "ve" ∨ fs.get i = "vm" ∨ fs.get i = "vt") ∧ fs.get i ≠ nuName r
          then env.direct (ed i) e else 0 := by
  refine ⟨_, _, ((nbody_outcome env e cme fs h3 _ ed inv fsr avg).2 ms hm).2.2 hle hk,
    ((nbody_outcome env e cme fs h3 _ ed inv fsr avg).2 ms hm).2.2 hle hk, ?_⟩
  simp only [reduceCtorEq, false_and, if_false, add_zero]
  rw [← Finset.sum_add_distrib]
  exact Finset.sum_congr rfl fun i _ => share_row env e r (ed i) (fs.get i) (hk _ (List.get_mem fs i))

/-- C105 (the part that holds): the rows agree when the only direct neutrinos have the flavour asked for. -/
theorem neutrino_rows_partial (env : Env) (e cme : ℝ) (fs : List String) (h3 : 3 ≤ fs.length)
    (ed : Fin fs.length → Dist) (inv : Fin fs.length × Fin fs.length → Dist) (fsr avg : Bool) (r : Fin 3)
    (ms : List ℝ) (hm : getMasses fs = .ok ms) (hle : ms.sum ≤ cme) (hk : ∀ s ∈ fs, s ∈ decayKeys)
    (hd : ∀ s ∈ fs, s = "ve" ∨ s = "vm" ∨ s = "vt" → s = nuName r) :
    nbody env e cme fs (.nuRow r) ed inv fsr avg = nbody env e cme fs (.nuFlavour r) ed inv fsr avg := by
  obtain ⟨v, w, h1, h2, h3⟩ := neutrino_rows env e cme fs h3 ed inv fsr avg r ms hm hle hk
  rw [h1, h2, h3, Finset.sum_eq_zero, add_zero]
  intro i _
  rw [if_neg]
  rintro ⟨q1, q2⟩
  exact q2 (hd _ (List.get_mem fs i) q1)

/-- C105 is false: with a muon, an electron and a muon neutrino, the electron row contains the muon
neutrino wherever its distribution is non-zero. -/
theorem neutrino_rows_differ (env : Env) (e cme : ℝ) (hc : 246 ≤ cme)
    (ed : Fin 3 → Dist) (inv : Fin 3 × Fin 3 → Dist) (hpos : 0 < env.direct (ed 2) e) :
    ∃ v w, nbody env e cme ["pi", "mu", "vm"] (.nuRow 0) ed inv false false = .ok v
      ∧ nbody env e cme ["pi", "mu", "vm"] (.nuFlavour 0) ed inv false false = .ok w ∧ w < v := by
  have hm : getMasses ["pi", "mu", "vm"] = .ok [139.57039, 105.6583745, 0] := by
    simp [getMasses, smMasses, Dict.get?]
  obtain ⟨v, w, h1, h2, h3⟩ := neutrino_rows env e cme ["pi", "mu", "vm"] (by simp) ed inv false false 0 _ hm
    (by norm_num; linarith) (by simp [decayKeys])
  refine ⟨v, w, h1, h2, ?_⟩
  have : (∑ i : Fin 3, if (["pi", "mu", "vm"].get i = "ve" ∨ ["pi", "mu", "vm"].get i = "vm"
      ∨ ["pi", "mu", "vm"].get i = "vt") ∧ ["pi", "mu", "vm"].get i ≠ nuName 0 then env.direct (ed i) e else 0)
      = env.direct (ed 2) e := by
    rw [Fin.sum_univ_three]
    simp [nuName]
  have h3' : v = w + env.direct (ed 2) e := by rw [h3]; congr 1
  linarith

/-- With one or two particles the rows agree. -/
theorem neutrino_rows_few (env : Env) (e cme : ℝ) (r : Fin 3) (s1 s2 : String) (fsr avg : Bool)
    (ed : Fin 2 → Dist) (inv : Fin 2 × Fin 2 → Dist) (ed' : Fin 1 → Dist) (inv' : Fin 1 × Fin 1 → Dist) :
    nbody env e cme [s1, s2] (.nuRow r) ed inv fsr avg = nbody env e cme [s1, s2] (.nuFlavour r) ed inv fsr avg
    ∧ nbody env e cme [s1] (.nuRow r) ed' inv' fsr avg = nbody env e cme [s1] (.nuFlavour r) ed' inv' fsr avg := by
  constructor
  · simp only [nbody, twoBody, spec, reduceCtorEq, false_and]
  · simp only [nbody, spec]

/-! ## C103: positrons of a particle-antiparticle pair -/

/-- C103 is false: the pair `s s` (one positively and one negatively charged particle) is given twice the
positron spectrum of the particle, that is a positron from each. -/
theorem pair_positrons_doubled (env : Env) (e cme : ℝ) (hc : 0 < cme) (s : String) (m : ℝ)
    (hm : smMasses.get? s = some m) (hs : s ∈ ["mu", "pi", "k", "rho"]) (fsr : Bool) :
    twoBody env e cme s s .positron fsr = .ok (2 * env.positron s e (cme / 2)) := by
  have h : getMasses [s, s] = .ok [m, m] := by simp [getMasses, hm]
  have e1 : energy1 cme m m = cme / 2 := by simp only [energy1]; field_simp; ring
  have e2 : energy2 cme m m = cme / 2 := by simp only [energy2]; field_simp; ring
  simp only [List.mem_cons, List.not_mem_nil, or_false] at hs
  have hk : s ∈ decayKeys := by rcases hs with rfl | rfl | rfl | rfl <;> decide
  have hn : s ∉ noLepton := by rcases hs with rfl | rfl | rfl | rfl <;> decide
  simp only [twoBody, h, e1, e2, if_pos hk, spec, if_neg hn, reduceCtorEq, false_and, if_false, add_zero]
  congr 1
  ring

/-- The same with a third particle: both members of `e e` are counted as positrons. -/
theorem direct_positrons_doubled (env : Env) (e cme : ℝ) (hc : 136 ≤ cme)
    (ed : Fin 3 → Dist) (inv : Fin 3 × Fin 3 → Dist) :
    nbody env e cme ["e", "e", "pi0"] .positron ed inv false false
      = .ok ((convolve (fun _ => 0) (ed 0) + env.direct (ed 0) e)
          + (convolve (fun _ => 0) (ed 1) + env.direct (ed 1) e) + convolve (fun _ => 0) (ed 2)) := by
  have hm : getMasses ["e", "e", "pi0"] = .ok [0.5109989461, 0.5109989461, 134.9768] := by
    simp [getMasses, smMasses, Dict.get?]
  rw [((nbody_outcome env e cme ["e", "e", "pi0"] (by simp) .positron ed inv false false).2 _ hm).2.2
    (by norm_num; linarith) (by simp [decayKeys])]
  congr 1
  have : (∑ i : Fin 3, share env e .positron (ed i, ["e", "e", "pi0"].get i))
      = (convolve (fun _ => 0) (ed 0) + env.direct (ed 0) e)
          + (convolve (fun _ => 0) (ed 1) + env.direct (ed 1) e) + convolve (fun _ => 0) (ed 2) := by
    rw [Fin.sum_univ_three]
    have z1 : spec env .positron "e" e = fun _ => 0 := by funext x; simp [spec, noLepton]
    have z2 : spec env .positron "pi0" e = fun _ => 0 := by funext x; simp [spec, noLepton]
    simp [share, z1, z2, isProduct, Product.name]
  simp only [reduceCtorEq, false_and, if_false, add_zero]
  exact this

/-- A muon pair at 400 MeV with a flat unit positron spectrum: two positrons per MeV instead of one. -/
example (env : Env) (h : ∀ e E, env.positron "mu" e E = 1) :
    twoBody env 10 400 "mu" "mu" .positron false = .ok 2 := by
  rw [pair_positrons_doubled env 10 400 (by norm_num) "mu" 105.6583745 (by simp [smMasses, Dict.get?])
    (by simp), h]
  norm_num

end Hazma.NBody
