import Verif.Lemmas.Theory

/-!
# Channel aggregation properties (C03-C08)

`funcs` is the dictionary returned by a model's `annihilation_cross_section_funcs` (or `w` the one
returned by `_decay_widths`).  `"total"` is a reserved key.
-/

namespace Hazma.Theory

open Hazma

/-- The sum of a model's cross sections at one centre-of-mass energy (specification). -/
def totalSigma (funcs : Dict (ℝ → ℝ)) (ecm : ℝ) : ℝ := (funcs.map fun kv => kv.2 ecm).sum

/-- A two-channel model used in the examples: 3 units into muons, 1 into electrons above
250 MeV, only electrons below. -/
noncomputable def exampleFuncs : Dict (ℝ → ℝ) :=
  [("mu mu", fun e => if e < 250 then 0 else 3), ("e e", fun _ => 1)]

/-! ## C03 -/

/-- **C03.** Each channel's entry is the value of its function; `"total"` is their sum; there are
no other keys. -/
theorem annihilation_cross_sections_spec (funcs : Dict (ℝ → ℝ)) (hnd : funcs.keys.Nodup)
    (ht : "total" ∉ funcs.keys) (ecm : ℝ) :
    (annihilationCrossSections funcs ecm).keys = funcs.keys ++ ["total"] ∧
    (∀ fs f, (fs, f) ∈ funcs → (annihilationCrossSections funcs ecm).get? fs = some (f ecm)) ∧
    (annihilationCrossSections funcs ecm).get? "total" = some (totalSigma funcs ecm) := by
  refine ⟨?_, ?_, annXs_total funcs ecm⟩
  · rw [annXs_eq funcs ht]
    simp [Dict.keys, Dict.mapVals, Function.comp_def]
  · intro fs f hf
    rw [annXs_eq funcs ht]
    apply Dict.get?_append_of_some
    rw [Dict.get?_mapVals, Dict.get?_of_mem hnd hf]; rfl

/-- **C03.** Branching fractions: same keys as the channels, `σ_fs / Σσ`, all in `[0,1]`, summing
to one when the total is non-zero and identically zero otherwise. -/
theorem annihilation_branching_fractions_distribution (funcs : Dict (ℝ → ℝ))
    (hnd : funcs.keys.Nodup) (ht : "total" ∉ funcs.keys) (ecm : ℝ)
    (hpos : ∀ fs f, (fs, f) ∈ funcs → 0 ≤ f ecm) :
    ∃ bfs, annihilationBranchingFractions funcs ecm = .ok bfs ∧ bfs.keys = funcs.keys ∧
      (∀ fs f, (fs, f) ∈ funcs → bfs.get? fs = some (f ecm / totalSigma funcs ecm)) ∧
      (∀ b ∈ bfs.values, 0 ≤ b ∧ b ≤ 1) ∧
      (totalSigma funcs ecm ≠ 0 → bfs.values.sum = 1) ∧
      (totalSigma funcs ecm = 0 → ∀ b ∈ bfs.values, b = 0) := by
  refine ⟨_, annBf_eq funcs ht ecm, by simp, ?_, ?_, ?_, ?_⟩
  · intro fs f hf
    rw [Dict.get?_mapVals, Dict.get?_of_mem hnd hf]; rfl
  · intro b hb
    simp only [Dict.values, Dict.mapVals, List.map_map, List.mem_map, Function.comp_apply] at hb
    obtain ⟨⟨fs, f⟩, hf, rfl⟩ := hb
    have hall : ∀ x ∈ funcs.map (fun kv => kv.2 ecm), 0 ≤ x := by
      intro x hx
      obtain ⟨⟨fs', f'⟩, hf', rfl⟩ := List.mem_map.mp hx
      exact hpos fs' f' hf'
    have hle : f ecm ≤ (funcs.map fun kv => kv.2 ecm).sum :=
      le_sum_of_mem hall (List.mem_map.mpr ⟨(fs, f), hf, rfl⟩)
    have h0 := hpos fs f hf
    exact ⟨div_nonneg h0 (h0.trans hle), div_le_one_of_le₀ hle (h0.trans hle)⟩
  · intro hne
    have : (Dict.mapVals (fun _ f => f ecm / (funcs.map fun kv => kv.2 ecm).sum) funcs).values
        = (funcs.map fun kv => kv.2 ecm).map fun x => x / (funcs.map fun kv => kv.2 ecm).sum := by
      simp [Dict.values, Dict.mapVals, Function.comp_def]
    rw [this, sum_div]
    exact div_self hne
  · intro h0 b hb
    simp only [Dict.values, Dict.mapVals, List.map_map, List.mem_map, Function.comp_apply] at hb
    obtain ⟨⟨fs, f⟩, hf, rfl⟩ := hb
    unfold totalSigma at h0
    simp [h0]

example : ∃ bfs, annihilationBranchingFractions exampleFuncs 300 = .ok bfs ∧
    bfs.get? "mu mu" = some (3 / 4) ∧ bfs.values.sum = 1 := by
  obtain ⟨bfs, h, -, hv, -, hs, -⟩ := annihilation_branching_fractions_distribution exampleFuncs
    (by simp [exampleFuncs, Dict.keys]) (by simp [exampleFuncs, Dict.keys]) 300
    (by intro fs f hf; simp only [exampleFuncs, List.mem_cons, List.not_mem_nil, or_false,
          Prod.mk.injEq] at hf
        rcases hf with ⟨rfl, rfl⟩ | ⟨rfl, rfl⟩ <;> norm_num)
  have ht : totalSigma exampleFuncs 300 = 4 := by
    simp [totalSigma, exampleFuncs]; norm_num
  refine ⟨bfs, h, ?_, hs (by rw [ht]; norm_num)⟩
  rw [hv "mu mu" _ (List.mem_cons_self), ht]; norm_num

/-! ## C04 -/

/-- What a channel should contribute to the annihilation spectrum (specification). -/
noncomputable def annContribution (funcs : Dict (ℝ → ℝ)) (ecm : ℝ) (v : String → ℝ) (fs : String)
    (sigma : ℝ → ℝ) : ℝ :=
  if 0 < sigma ecm then sigma ecm / totalSigma funcs ecm * v fs else 0

/-- **C04.** If every open channel has a continuum function returning `v fs`, then `spectra`
succeeds, its keys are the channels and `"total"`, each channel's entry is its branching fraction
times its own spectrum (zero if closed) and the total is the sum.  Nothing is assumed about the
functions of closed channels - they may be missing or raise - so they are not evaluated. -/
theorem spectra_ann_weighted (funcs : Dict (ℝ → ℝ)) (specFuncs : Dict SpecFn) (e ecm : ℝ)
    (hnd : funcs.keys.Nodup) (ht : "total" ∉ funcs.keys) (v : String → ℝ)
    (hv : ∀ fs sigma, (fs, sigma) ∈ funcs → 0 < sigma ecm →
      ∃ g, specFuncs.get? fs = some g ∧ g e ecm = .ok (v fs)) :
    ∃ out, spectraAnn funcs (wrapAnn funcs specFuncs) e ecm = .ok out ∧
      out.keys = funcs.keys ++ ["total"] ∧
      (∀ fs sigma, (fs, sigma) ∈ funcs →
        out.get? fs = some (annContribution funcs ecm v fs sigma)) ∧
      out.get? "total" = some ((funcs.map fun kv => annContribution funcs ecm v kv.1 kv.2).sum) ∧
      totalSpectrumAnn funcs (wrapAnn funcs specFuncs) e ecm
        = .ok ((funcs.map fun kv => annContribution funcs ecm v kv.1 kv.2).sum) := by
  have hbuild : buildDict (fun fs (f : SpecFn) => do
      let bf ← index (funcs.mapVals fun _ f => f ecm / totalSigma funcs ecm) fs
      if bf ≠ 0 then
        let v ← f e ecm
        return bf * v
      else
        return 0) (wrapAnn funcs specFuncs) []
      = .ok ((wrapAnn funcs specFuncs).mapVals fun fs _ =>
          match funcs.get? fs with
          | some sigma => annContribution funcs ecm v fs sigma
          | none => 0) := by
    rw [buildDict_ok (g := fun fs _ =>
          match funcs.get? fs with
          | some sigma => annContribution funcs ecm v fs sigma
          | none => 0)]
    · simp
    · simpa [wrapAnn] using hnd
    · simp [Dict.keys]
    · intro k g hg
      simp only [wrapAnn, Dict.mapVals, List.mem_map] at hg
      obtain ⟨⟨fs, sigma⟩, hmem, heq⟩ := hg
      simp only [Prod.mk.injEq] at heq
      obtain ⟨rfl, rfl⟩ := heq
      have hget := Dict.get?_of_mem hnd hmem
      have hbf : (funcs.mapVals fun _ f => f ecm / totalSigma funcs ecm).get? fs
          = some (sigma ecm / totalSigma funcs ecm) := by
        rw [Dict.get?_mapVals, hget]; rfl
      simp only [index_ok hbf, index_ok hget, hget, bind, Except.bind, pure, Except.pure,
        annContribution]
      by_cases hs : 0 < sigma ecm
      · obtain ⟨g, hg, hge⟩ := hv fs sigma hmem hs
        simp only [hs, if_true, index_ok hg, hge]
        split_ifs with hb
        · rfl
        · have : sigma ecm / totalSigma funcs ecm = 0 := not_not.mp hb
          rw [this]; simp
      · simp only [hs, if_false]
        split_ifs <;> simp
  have hbuild' : ((wrapAnn funcs specFuncs).mapVals fun fs _ =>
          match funcs.get? fs with
          | some sigma => annContribution funcs ecm v fs sigma
          | none => 0) = funcs.mapVals fun fs sigma => annContribution funcs ecm v fs sigma := by
    simp only [wrapAnn, Dict.mapVals, List.map_map]
    apply List.map_congr_left
    intro kv hkv
    obtain ⟨fs, sigma⟩ := kv
    simp only [Function.comp_apply, Dict.get?_of_mem hnd hkv]
  rw [hbuild'] at hbuild
  have hspec : spectraAnn funcs (wrapAnn funcs specFuncs) e ecm
      = .ok ((funcs.mapVals fun fs sigma => annContribution funcs ecm v fs sigma) ++
        [("total", (funcs.map fun kv => annContribution funcs ecm v kv.1 kv.2).sum)]) := by
    unfold spectraAnn
    rw [annBf_eq funcs ht ecm]
    simp only [bind, Except.bind] at hbuild ⊢
    unfold totalSigma at hbuild
    rw [hbuild]
    simp only [pure, Except.pure]
    rw [Dict.set_of_not_mem (by simpa using ht)]
    simp [Dict.values, Dict.mapVals, Function.comp_def]
  have htot : ((funcs.mapVals fun fs sigma => annContribution funcs ecm v fs sigma) ++
        [("total", (funcs.map fun kv => annContribution funcs ecm v kv.1 kv.2).sum)] : Dict ℝ).get?
          "total" = some ((funcs.map fun kv => annContribution funcs ecm v kv.1 kv.2).sum) := by
    rw [Dict.get?_append_of_none ((Dict.get?_eq_none_iff _ _).mpr (by simpa using ht))]
    simp [Dict.get?]
  refine ⟨_, hspec, ?_, ?_, htot, ?_⟩
  · simp [Dict.keys, Dict.mapVals, Function.comp_def]
  · intro fs sigma hmem
    apply Dict.get?_append_of_some
    rw [Dict.get?_mapVals, Dict.get?_of_mem hnd hmem]; rfl
  · unfold totalSpectrumAnn
    rw [hspec]
    simp only [bind, Except.bind]
    exact index_ok htot

/-- Concrete case: at 200 MeV the muon channel is closed; its spectrum function raises, and the
spectrum is still the electron one. -/
example : totalSpectrumAnn exampleFuncs (wrapAnn exampleFuncs
    [("mu mu", fun _ _ => .error (.user "boom")), ("e e", fun e _ => .ok (7 * e))]) 10 200
    = .ok 70 := by
  obtain ⟨out, -, -, -, -, h⟩ := spectra_ann_weighted exampleFuncs
    [("mu mu", fun _ _ => .error (.user "boom")), ("e e", fun e _ => .ok (7 * e))] 10 200
    (by simp [exampleFuncs, Dict.keys]) (by simp [exampleFuncs, Dict.keys]) (fun _ => 70)
    (by intro fs f hf h0
        simp only [exampleFuncs, List.mem_cons, List.not_mem_nil, or_false, Prod.mk.injEq] at hf
        rcases hf with ⟨rfl, rfl⟩ | ⟨rfl, rfl⟩
        · norm_num at h0
        · exact ⟨fun e _ => .ok (7 * e), by simp [Dict.get?], by norm_num⟩)
  rw [h]
  simp [exampleFuncs, annContribution, totalSigma]
  norm_num

/-- **C04.** The same for `positron_spectra`, whose loop has no test of the branching fraction: the
wrapper alone keeps closed channels from being evaluated. -/
theorem positron_spectra_ann_weighted (funcs : Dict (ℝ → ℝ)) (specFuncs : Dict SpecFn) (e ecm : ℝ)
    (hnd : funcs.keys.Nodup) (ht : "total" ∉ funcs.keys) (v : String → ℝ)
    (hv : ∀ fs sigma, (fs, sigma) ∈ funcs → 0 < sigma ecm →
      ∃ g, specFuncs.get? fs = some g ∧ g e ecm = .ok (v fs)) :
    ∃ out, positronSpectraAnn funcs (wrapAnn funcs specFuncs) e ecm = .ok out ∧
      out.keys = funcs.keys ++ ["total"] ∧
      (∀ fs sigma, (fs, sigma) ∈ funcs →
        out.get? fs = some (annContribution funcs ecm v fs sigma)) ∧
      out.get? "total" = some ((funcs.map fun kv => annContribution funcs ecm v kv.1 kv.2).sum) := by
  have hbuild : buildDict (fun fs (f : SpecFn) => do
      let bf ← index (funcs.mapVals fun _ f => f ecm / totalSigma funcs ecm) fs
      let v ← f e ecm
      return bf * v) (wrapAnn funcs specFuncs) []
      = .ok ((wrapAnn funcs specFuncs).mapVals fun fs _ =>
          match funcs.get? fs with
          | some sigma => annContribution funcs ecm v fs sigma
          | none => 0) := by
    rw [buildDict_ok (g := fun fs _ =>
          match funcs.get? fs with
          | some sigma => annContribution funcs ecm v fs sigma
          | none => 0)]
    · simp
    · simpa [wrapAnn] using hnd
    · simp [Dict.keys]
    · intro k g hg
      simp only [wrapAnn, Dict.mapVals, List.mem_map] at hg
      obtain ⟨⟨fs, sigma⟩, hmem, heq⟩ := hg
      simp only [Prod.mk.injEq] at heq
      obtain ⟨rfl, rfl⟩ := heq
      have hget := Dict.get?_of_mem hnd hmem
      have hbf : (funcs.mapVals fun _ f => f ecm / totalSigma funcs ecm).get? fs
          = some (sigma ecm / totalSigma funcs ecm) := by
        rw [Dict.get?_mapVals, hget]; rfl
      simp only [index_ok hbf, index_ok hget, hget, bind, Except.bind, pure, Except.pure,
        annContribution]
      by_cases hs : 0 < sigma ecm
      · obtain ⟨g, hg, hge⟩ := hv fs sigma hmem hs
        simp only [hs, if_true, index_ok hg, hge]
      · simp only [hs, if_false, mul_zero]
  have hbuild' : ((wrapAnn funcs specFuncs).mapVals fun fs _ =>
          match funcs.get? fs with
          | some sigma => annContribution funcs ecm v fs sigma
          | none => 0) = funcs.mapVals fun fs sigma => annContribution funcs ecm v fs sigma := by
    simp only [wrapAnn, Dict.mapVals, List.map_map]
    apply List.map_congr_left
    intro kv hkv
    obtain ⟨fs, sigma⟩ := kv
    simp only [Function.comp_apply, Dict.get?_of_mem hnd hkv]
  rw [hbuild'] at hbuild
  have hspec : positronSpectraAnn funcs (wrapAnn funcs specFuncs) e ecm
      = .ok ((funcs.mapVals fun fs sigma => annContribution funcs ecm v fs sigma) ++
        [("total", (funcs.map fun kv => annContribution funcs ecm v kv.1 kv.2).sum)]) := by
    unfold positronSpectraAnn
    rw [annBf_eq funcs ht ecm]
    simp only [bind, Except.bind] at hbuild ⊢
    unfold totalSigma at hbuild
    rw [hbuild]
    simp only [pure, Except.pure]
    rw [Dict.set_of_not_mem (by simpa using ht)]
    simp [Dict.values, Dict.mapVals, Function.comp_def]
  have htot : ((funcs.mapVals fun fs sigma => annContribution funcs ecm v fs sigma) ++
        [("total", (funcs.map fun kv => annContribution funcs ecm v kv.1 kv.2).sum)] : Dict ℝ).get?
          "total" = some ((funcs.map fun kv => annContribution funcs ecm v kv.1 kv.2).sum) := by
    rw [Dict.get?_append_of_none ((Dict.get?_eq_none_iff _ _).mpr (by simpa using ht))]
    simp [Dict.get?]
  refine ⟨_, hspec, ?_, ?_, htot⟩
  · simp [Dict.keys, Dict.mapVals, Function.comp_def]
  · intro fs sigma hmem
    apply Dict.get?_append_of_some
    rw [Dict.get?_mapVals, Dict.get?_of_mem hnd hmem]; rfl

/-- Concrete case: the closed muon channel has no positron function at all. -/
example : ∃ out, positronSpectraAnn exampleFuncs (wrapAnn exampleFuncs
    [("e e", fun e _ => .ok (7 * e))]) 10 200 = .ok out ∧ out.get? "total" = some 70 := by
  obtain ⟨out, h, -, -, h2⟩ := positron_spectra_ann_weighted exampleFuncs
    [("e e", fun e _ => .ok (7 * e))] 10 200
    (by simp [exampleFuncs, Dict.keys]) (by simp [exampleFuncs, Dict.keys]) (fun _ => 70)
    (by intro fs f hf h0
        simp only [exampleFuncs, List.mem_cons, List.not_mem_nil, or_false, Prod.mk.injEq] at hf
        rcases hf with ⟨rfl, rfl⟩ | ⟨rfl, rfl⟩
        · norm_num at h0
        · exact ⟨fun e _ => .ok (7 * e), by simp [Dict.get?], by norm_num⟩)
  refine ⟨out, h, ?_⟩
  rw [h2]
  simp [exampleFuncs, annContribution, totalSigma]
  norm_num

/-! ## C05 -/

theorem buildDict_isError {β γ : Type} {body : String → β → Except Err γ} {k : String} {v : β}
    {err : Err} (he : body k v = .error err) :
    ∀ (d : Dict β) (acc : Dict γ), (k, v) ∈ d → ∃ err', buildDict body d acc = .error err'
  | [], _, h => by simp at h
  | (j, w) :: d, acc, h => by
    simp only [buildDict]
    cases hb : body j w with
    | error e => exact ⟨e, rfl⟩
    | ok r =>
      simp only [List.mem_cons, Prod.mk.injEq] at h
      rcases h with ⟨rfl, rfl⟩ | h
      · rw [he] at hb; cases hb
      · exact buildDict_isError he d _ h

/-- **C05 (violated).** Whenever an open channel has no entry in `_spectrum_funcs` - as the
documentation allows for a channel without continuum photons - `spectra` raises, whatever the
other channels do. -/
theorem spectra_ann_raises_for_missing_channel (funcs : Dict (ℝ → ℝ)) (specFuncs : Dict SpecFn)
    (e ecm : ℝ) (hnd : funcs.keys.Nodup) (ht : "total" ∉ funcs.keys)
    (hpos : ∀ fs f, (fs, f) ∈ funcs → 0 ≤ f ecm)
    (fs : String) (sigma : ℝ → ℝ) (hmem : (fs, sigma) ∈ funcs) (hopen : 0 < sigma ecm)
    (hmiss : specFuncs.get? fs = none) :
    ∃ err, spectraAnn funcs (wrapAnn funcs specFuncs) e ecm = .error err := by
  have hall : ∀ x ∈ funcs.map (fun kv => kv.2 ecm), 0 ≤ x := by
    intro x hx
    obtain ⟨⟨fs', f'⟩, hf', rfl⟩ := List.mem_map.mp hx
    exact hpos fs' f' hf'
  have hle : sigma ecm ≤ (funcs.map fun kv => kv.2 ecm).sum :=
    le_sum_of_mem hall (List.mem_map.mpr ⟨(fs, sigma), hmem, rfl⟩)
  have htot : 0 < (funcs.map fun kv => kv.2 ecm).sum := hopen.trans_le hle
  have hget := Dict.get?_of_mem hnd hmem
  have hbf : (funcs.mapVals fun _ f => f ecm / (funcs.map fun kv => kv.2 ecm).sum).get? fs
      = some (sigma ecm / (funcs.map fun kv => kv.2 ecm).sum) := by
    rw [Dict.get?_mapVals, hget]; rfl
  have hne : sigma ecm / (funcs.map fun kv => kv.2 ecm).sum ≠ 0 := (div_pos hopen htot).ne'
  unfold spectraAnn
  rw [annBf_eq funcs ht ecm]
  simp only [bind, Except.bind]
  obtain ⟨err, herr⟩ := buildDict_isError
    (body := fun fs (f : SpecFn) => do
      let bf ← index (funcs.mapVals fun _ f => f ecm / (funcs.map fun kv => kv.2 ecm).sum) fs
      if bf ≠ 0 then
        let v ← f e ecm
        return bf * v
      else
        return 0)
    (k := fs) (v := fun e ecm => do
      let sigma ← index funcs fs
      if 0 < sigma ecm then
        let f ← index specFuncs fs
        f e ecm
      else
        return 0) (err := .keyError fs)
    (by simp [index_ok hbf, index_ok hget, hne, hopen, index_error hmiss, bind, Except.bind])
    (wrapAnn funcs specFuncs) ([] : Dict ℝ)
    (by simp only [wrapAnn, Dict.mapVals, List.mem_map]
        exact ⟨(fs, sigma), hmem, rfl⟩)
  simp only [bind, Except.bind] at herr
  rw [herr]
  exact ⟨err, rfl⟩

/-- Concrete case: a model annihilating into photons (a line) and electrons with no continuum
entry for the photons. -/
example : ∃ err, spectraAnn [("e e", fun _ => 1), ("g g", fun _ => 2)]
    (wrapAnn [("e e", fun _ => 1), ("g g", fun _ => 2)] [("e e", fun _ _ => .ok 5)]) 10 200
    = .error err :=
  spectra_ann_raises_for_missing_channel _ _ 10 200 (by simp [Dict.keys]) (by simp [Dict.keys])
    (by intro fs f hf
        simp only [List.mem_cons, List.not_mem_nil, or_false, Prod.mk.injEq] at hf
        rcases hf with ⟨rfl, rfl⟩ | ⟨rfl, rfl⟩ <;> norm_num)
    "g g" (fun _ => 2) (by simp) (by norm_num) (by simp [Dict.get?])

/-! ## C06 -/

/-- **C06.** `decay_widths` adds the sum under `"total"` and `decay_branching_fractions` is a
probability distribution over the channels. -/
theorem decay_branching_fractions_distribution (w : Dict ℝ) (hnd : w.keys.Nodup)
    (ht : "total" ∉ w.keys) (hpos : ∀ fs x, (fs, x) ∈ w → 0 ≤ x) :
    decayWidths w = w ++ [("total", w.values.sum)] ∧
    ∃ bfs, decayBranchingFractions w = .ok bfs ∧ bfs.keys = w.keys ∧
      (∀ fs x, (fs, x) ∈ w → bfs.get? fs = some (x / w.values.sum)) ∧
      (∀ b ∈ bfs.values, 0 ≤ b ∧ b ≤ 1) ∧
      (w.values.sum ≠ 0 → bfs.values.sum = 1) ∧
      (w.values.sum = 0 → ∀ b ∈ bfs.values, b = 0) := by
  refine ⟨decW_eq w ht, _, decBf_eq w ht, by simp, ?_, ?_, ?_, ?_⟩
  · intro fs f hf
    rw [Dict.get?_mapVals, Dict.get?_of_mem hnd hf]; rfl
  · intro b hb
    simp only [Dict.values, Dict.mapVals, List.map_map, List.mem_map, Function.comp_apply] at hb
    obtain ⟨⟨fs, x⟩, hf, rfl⟩ := hb
    have hall : ∀ x ∈ w.map Prod.snd, 0 ≤ x := by
      intro x hx
      obtain ⟨⟨fs', f'⟩, hf', rfl⟩ := List.mem_map.mp hx
      exact hpos fs' f' hf'
    have hle : x ≤ (w.map Prod.snd).sum :=
      le_sum_of_mem hall (List.mem_map.mpr ⟨(fs, x), hf, rfl⟩)
    have h0 := hpos fs x hf
    exact ⟨div_nonneg h0 (h0.trans hle), div_le_one_of_le₀ hle (h0.trans hle)⟩
  · intro hne
    have : (w.mapVals fun _ x => x / w.values.sum).values
        = w.values.map fun x => x / w.values.sum := by
      simp [Dict.values, Dict.mapVals, Function.comp_def]
    rw [this, sum_div]
    exact div_self hne
  · intro h0 b hb
    simp only [Dict.values, Dict.mapVals, List.map_map, List.mem_map, Function.comp_apply] at hb
    obtain ⟨⟨fs, f⟩, hf, rfl⟩ := hb
    unfold Dict.values at h0
    simp [h0]

example : ∃ bfs, decayBranchingFractions [("e e", (3 : ℝ)), ("g g", 1)] = .ok bfs ∧
    bfs.get? "g g" = some (1 / 4) := by
  obtain ⟨-, bfs, h, -, hv, -⟩ := decay_branching_fractions_distribution
    [("e e", (3 : ℝ)), ("g g", 1)] (by simp [Dict.keys]) (by simp [Dict.keys])
    (by intro fs f hf
        simp only [List.mem_cons, List.not_mem_nil, or_false, Prod.mk.injEq] at hf
        rcases hf with ⟨rfl, rfl⟩ | ⟨rfl, rfl⟩ <;> norm_num)
  refine ⟨bfs, h, ?_⟩
  rw [hv "g g" 1 (by simp)]
  norm_num [Dict.values]

/-! ## C07 -/

/-- What a channel should contribute to a decay spectrum (specification). -/
noncomputable def decContribution (w : Dict ℝ) (v : String → ℝ) (fs : String) : ℝ :=
  match w.get? fs with
  | some x => if 0 < x then x / w.values.sum * v fs else 0
  | none => 0

/-- **C07.** For a decaying model each channel of `spectra` is weighted with its own branching
fraction and uses its own spectrum function (closed channels are not evaluated), and the total is
the sum. -/
theorem spectra_dec_weighted (w : Dict ℝ) (fns : Dict DecFn) (e : ℝ) (hwnd : w.keys.Nodup)
    (ht : "total" ∉ w.keys) (hnd : fns.keys.Nodup) (hsub : ∀ fs ∈ fns.keys, fs ∈ w.keys)
    (v : String → ℝ)
    (hv : ∀ fs f x, (fs, f) ∈ fns → (fs, x) ∈ w → 0 < x → f e = .ok (v fs)) :
    ∃ out, spectraDec w fns e = .ok out ∧ out.keys = fns.keys ++ ["total"] ∧
      (∀ fs ∈ fns.keys, out.get? fs = some (decContribution w v fs)) ∧
      out.get? "total" = some ((fns.keys.map (decContribution w v)).sum) := by
  have htf : "total" ∉ fns.keys := fun h => ht (hsub _ h)
  have hfuncs : spectrumFuncsDec w fns = .ok (fns.mapVals fun fs dnde =>
      match w.get? fs with
      | some x => if 0 < x then dnde else fun _ => .ok 0
      | none => dnde) := by
    unfold spectrumFuncsDec
    simp only
    rw [buildDict_ok (g := fun fs dnde =>
      match w.get? fs with
      | some x => if 0 < x then dnde else fun _ => .ok 0
      | none => dnde) _ _ hnd (by simp [Dict.keys])]
    · simp
    · intro k f hk
      have hkw : k ∈ w.keys := hsub k (List.mem_map.mpr ⟨_, hk, rfl⟩)
      obtain ⟨⟨k', x⟩, hx, rfl⟩ := List.mem_map.mp hkw
      have hget := Dict.get?_of_mem hwnd hx
      have hidx : (decayWidths w).get? k' = some x := by
        rw [decW_eq w ht]; exact Dict.get?_append_of_some hget
      simp only [index_ok hidx, hget, bind, Except.bind, pure, Except.pure]
      split_ifs <;> rfl
  have hbuild : buildDict (fun k (f : DecFn) => do
      let bf ← index (w.mapVals fun _ x => x / w.values.sum) k
      let v ← f e
      return bf * v) (fns.mapVals fun fs dnde =>
      match w.get? fs with
      | some x => if 0 < x then dnde else fun _ => .ok 0
      | none => dnde) []
      = .ok (fns.mapVals fun fs _ => decContribution w v fs) := by
    rw [buildDict_ok (g := fun fs _ => decContribution w v fs)]
    · simp [Dict.mapVals, Function.comp_def]
    · simpa using hnd
    · simp [Dict.keys]
    · intro k g hg
      simp only [Dict.mapVals, List.mem_map] at hg
      obtain ⟨⟨fs, f⟩, hmem, heq⟩ := hg
      simp only [Prod.mk.injEq] at heq
      obtain ⟨rfl, rfl⟩ := heq
      have hkw : fs ∈ w.keys := hsub fs (List.mem_map.mpr ⟨_, hmem, rfl⟩)
      obtain ⟨⟨k', x⟩, hx, hk'⟩ := List.mem_map.mp hkw
      simp only at hk'; subst hk'
      have hget := Dict.get?_of_mem hwnd hx
      have hbf : (w.mapVals fun _ x => x / w.values.sum).get? k' = some (x / w.values.sum) := by
        rw [Dict.get?_mapVals, hget]; rfl
      simp only [index_ok hbf, hget, bind, Except.bind, pure, Except.pure, decContribution]
      by_cases h0 : 0 < x
      · simp only [h0, if_true, hv k' f x hmem hx h0]
      · simp only [h0, if_false, mul_zero]
  have hspec : spectraDec w fns e = .ok ((fns.mapVals fun fs _ => decContribution w v fs) ++
      [("total", (fns.keys.map (decContribution w v)).sum)]) := by
    unfold spectraDec
    rw [decBf_eq w ht, hfuncs]
    simp only [bind, Except.bind] at hbuild ⊢
    rw [hbuild]
    simp only [pure, Except.pure]
    rw [Dict.set_of_not_mem (by simpa using htf)]
    simp [Dict.values, Dict.mapVals, Dict.keys, Function.comp_def]
  refine ⟨_, hspec, ?_, ?_, ?_⟩
  · simp [Dict.keys, Dict.mapVals, Function.comp_def]
  · intro fs hfs
    obtain ⟨⟨k', f⟩, hf, rfl⟩ := List.mem_map.mp hfs
    apply Dict.get?_append_of_some
    rw [Dict.get?_mapVals, Dict.get?_of_mem hnd hf]; rfl
  · rw [Dict.get?_append_of_none ((Dict.get?_eq_none_iff _ _).mpr (by simpa using htf))]
    simp [Dict.get?]

/-- Concrete case with two open channels. -/
example : ∃ out, spectraDec [("a", 1), ("b", 3)] [("a", fun _ => .ok 8), ("b", fun _ => .ok 4)] 1
    = .ok out ∧ out.get? "total" = some 5 := by
  obtain ⟨out, h, -, -, hv⟩ := spectra_dec_weighted [("a", 1), ("b", 3)]
    [("a", fun _ => .ok 8), ("b", fun _ => .ok 4)] 1 (by simp [Dict.keys]) (by simp [Dict.keys])
    (by simp [Dict.keys]) (by simp [Dict.keys])
    (fun s => if s = "a" then 8 else 4)
    (by intro fs f x hf _ _
        simp only [List.mem_cons, List.not_mem_nil, or_false, Prod.mk.injEq] at hf
        rcases hf with ⟨rfl, rfl⟩ | ⟨rfl, rfl⟩ <;> simp)
  refine ⟨out, h, ?_⟩
  rw [hv]
  simp [Dict.keys, decContribution, Dict.get?, Dict.values]
  norm_num

/-! ## C08 -/

/-- **C08 (what the code does).** For a decaying model with at least one positron channel, *every*
channel of `positron_spectra` is its branching fraction times the spectrum of the **last** channel
(zero if the last channel is closed). -/
theorem positron_spectra_dec_uses_last_channel (w : Dict ℝ) (fns : Dict DecFn) (e : ℝ)
    (hwnd : w.keys.Nodup) (ht : "total" ∉ w.keys) (hnd : fns.keys.Nodup)
    (hsub : ∀ fs ∈ fns.keys, fs ∈ w.keys) (last : String) (flast : DecFn) (xlast vlast : ℝ)
    (hlast : fns.getLast? = some (last, flast)) (hx : (last, xlast) ∈ w)
    (hv : 0 < xlast → flast e = .ok vlast) :
    ∃ out, positronSpectraDec w fns e = .ok out ∧ out.keys = fns.keys ++ ["total"] ∧
      ∀ fs x, fs ∈ fns.keys → (fs, x) ∈ w →
        out.get? fs = some (x / w.values.sum * if 0 < xlast then vlast else 0) := by
  have htf : "total" ∉ fns.keys := fun h => ht (hsub _ h)
  have hspecs : positronSpectrumFuncsDec w fns
      = fns.mapVals fun _ _ => closureBody (decayWidths w) (some (last, flast)) := by
    unfold positronSpectrumFuncsDec
    obtain ⟨h1, h2⟩ := positronLoop_spec (decayWidths w) fns none [] hnd (by simp [Dict.keys])
    simp only
    rw [h2, h1, hlast]
    simp [Dict.mapVals, Function.comp_def]
  have hgl := Dict.get?_of_mem hwnd hx
  have hidx : (decayWidths w).get? last = some xlast := by
    rw [decW_eq w ht]; exact Dict.get?_append_of_some hgl
  have hclo : closureBody (decayWidths w) (some (last, flast)) e
      = .ok (if 0 < xlast then vlast else 0) := by
    simp only [closureBody, index_ok hidx, bind, Except.bind, pure, Except.pure]
    by_cases h0 : 0 < xlast
    · simp [h0, hv h0]
    · simp [h0]
  have hbuild : buildDict (fun k (f : DecFn) => do
      let bf ← index (w.mapVals fun _ x => x / w.values.sum) k
      let v ← f e
      return bf * v) (fns.mapVals fun _ _ => closureBody (decayWidths w) (some (last, flast))) []
      = .ok (fns.mapVals fun fs _ =>
        (match w.get? fs with | some x => x / w.values.sum | none => 0)
          * if 0 < xlast then vlast else 0) := by
    rw [buildDict_ok (g := fun fs _ =>
        (match w.get? fs with | some x => x / w.values.sum | none => 0)
          * if 0 < xlast then vlast else 0)]
    · simp [Dict.mapVals, Function.comp_def]
    · simpa using hnd
    · simp [Dict.keys]
    · intro k g hg
      simp only [Dict.mapVals, List.mem_map] at hg
      obtain ⟨⟨fs, f⟩, hmem, heq⟩ := hg
      simp only [Prod.mk.injEq] at heq
      obtain ⟨rfl, rfl⟩ := heq
      have hkw : fs ∈ w.keys := hsub fs (List.mem_map.mpr ⟨_, hmem, rfl⟩)
      obtain ⟨⟨k', x⟩, hx', hk'⟩ := List.mem_map.mp hkw
      simp only at hk'; subst hk'
      have hget := Dict.get?_of_mem hwnd hx'
      have hbf : (w.mapVals fun _ x => x / w.values.sum).get? k' = some (x / w.values.sum) := by
        rw [Dict.get?_mapVals, hget]; rfl
      simp only [index_ok hbf, hget, bind, Except.bind, pure, Except.pure, hclo]
  have hspec : positronSpectraDec w fns e = .ok ((fns.mapVals fun fs _ =>
        (match w.get? fs with | some x => x / w.values.sum | none => 0)
          * if 0 < xlast then vlast else 0) ++ [("total", (fns.mapVals fun fs _ =>
        (match w.get? fs with | some x => x / w.values.sum | none => 0)
          * if 0 < xlast then vlast else 0).values.sum)]) := by
    unfold positronSpectraDec
    rw [decBf_eq w ht, hspecs]
    simp only [bind, Except.bind] at hbuild ⊢
    rw [hbuild]
    simp only [pure, Except.pure]
    rw [Dict.set_of_not_mem (by simpa using htf)]
  refine ⟨_, hspec, ?_, ?_⟩
  · simp [Dict.keys, Dict.mapVals, Function.comp_def]
  · intro fs x hfs hfx
    obtain ⟨⟨k', f⟩, hf, rfl⟩ := List.mem_map.mp hfs
    apply Dict.get?_append_of_some
    rw [Dict.get?_mapVals, Dict.get?_of_mem hnd hf, Dict.get?_of_mem hwnd hfx]; rfl

/-- **C08 (violated).** A model with two open channels whose positron spectra differ: channel
`"a"` is reported with the spectrum of channel `"b"`. -/
theorem positron_spectra_dec_wrong_channel :
    ∃ (w : Dict ℝ) (fns : Dict DecFn) (out : Dict ℝ), positronSpectraDec w fns 1 = .ok out ∧
      w = [("a", 1), ("b", 1)] ∧ fns = [("a", fun _ => .ok 8), ("b", fun _ => .ok 2)] ∧
      out.get? "a" = some 1 ∧ (1 : ℝ) ≠ 1 / 2 * 8 := by
  obtain ⟨out, h, -, hv⟩ := positron_spectra_dec_uses_last_channel [("a", 1), ("b", 1)]
    [("a", fun _ => .ok 8), ("b", fun _ => .ok 2)] 1 (by simp [Dict.keys]) (by simp [Dict.keys])
    (by simp [Dict.keys]) (by simp [Dict.keys]) "b" (fun _ => .ok 2) 1 2 rfl (by simp)
    (fun _ => rfl)
  refine ⟨_, _, out, h, rfl, rfl, ?_, by norm_num⟩
  rw [hv "a" 1 (by simp [Dict.keys]) (by simp)]
  norm_num [Dict.values]

/-- **C08 (partial).** With a single positron channel the positron spectrum is right: the
branching fraction times that channel's own spectrum.  Missing: more than one channel, where
`positron_spectra_dec_uses_last_channel` shows the code uses the wrong function. -/
theorem positron_spectra_dec_weighted_partial (w : Dict ℝ) (fs : String) (f : DecFn) (e x v : ℝ)
    (hwnd : w.keys.Nodup) (ht : "total" ∉ w.keys) (hx : (fs, x) ∈ w)
    (hv : 0 < x → f e = .ok v) :
    ∃ out, positronSpectraDec w [(fs, f)] e = .ok out ∧
      out.get? fs = some (x / w.values.sum * if 0 < x then v else 0) := by
  obtain ⟨out, h, -, hget⟩ := positron_spectra_dec_uses_last_channel w [(fs, f)] e hwnd ht
    (by simp [Dict.keys])
    (by intro k hk
        simp only [Dict.keys, List.map_cons, List.map_nil, List.mem_singleton] at hk
        subst hk; exact List.mem_map.mpr ⟨_, hx, rfl⟩) fs f x v rfl hx hv
  exact ⟨out, h, hget fs x (by simp [Dict.keys]) hx⟩

example : ∃ out, positronSpectraDec [("e e", 1), ("g g", 3)] [("e e", fun e => .ok (2 * e))] 5
    = .ok out ∧ out.get? "e e" = some (10 / 4) := by
  obtain ⟨out, h, hv⟩ := positron_spectra_dec_weighted_partial [("e e", 1), ("g g", 3)] "e e"
    (fun e => .ok (2 * e)) 5 1 10 (by simp [Dict.keys]) (by simp [Dict.keys]) (by simp)
    (fun _ => by norm_num)
  refine ⟨out, h, ?_⟩
  rw [hv]; norm_num [Dict.values]

/-! ## C62 -/

/-- **C62.** Every line of an annihilating model is reported at the energy the model gave, with its
channel's branching fraction, when its final state is one of the model's channels. -/
theorem lines_ann_spec (funcs : Dict (ℝ → ℝ)) (lineE : Dict ℝ) (ecm : ℝ)
    (hnd : funcs.keys.Nodup) (ht : "total" ∉ funcs.keys) (hlnd : lineE.keys.Nodup)
    (hsub : ∀ fs ∈ lineE.keys, fs ∈ funcs.keys) :
    ∃ out, linesAnn funcs lineE ecm = .ok out ∧ out.keys = lineE.keys ∧
      ∀ fs E sigma, (fs, E) ∈ lineE → (fs, sigma) ∈ funcs →
        out.get? fs = some (E, sigma ecm / totalSigma funcs ecm) := by
  have key : linesAnn funcs lineE ecm = .ok (lineE.mapVals fun fs E =>
      (E, match funcs.get? fs with | some s => s ecm / totalSigma funcs ecm | none => 0)) := by
    unfold linesAnn
    rw [annBf_eq funcs ht ecm]
    simp only [bind, Except.bind]
    rw [buildDict_ok (g := fun fs E =>
      (E, match funcs.get? fs with | some s => s ecm / totalSigma funcs ecm | none => 0)) _ _ hlnd
      (by simp [Dict.keys])]
    · simp
    · intro k E hk
      obtain ⟨⟨k', s⟩, hs, hk'⟩ := List.mem_map.mp (hsub k (List.mem_map.mpr ⟨_, hk, rfl⟩))
      simp only at hk'; subst hk'
      have hget := Dict.get?_of_mem hnd hs
      have hbf : (funcs.mapVals fun _ f => f ecm / (funcs.map fun kv => kv.2 ecm).sum).get? k'
          = some (s ecm / (funcs.map fun kv => kv.2 ecm).sum) := by
        rw [Dict.get?_mapVals, hget]; rfl
      simp only [index_ok hbf, hget, pure, Except.pure, totalSigma]
  refine ⟨_, key, by simp, ?_⟩
  intro fs E sigma hE hs
  rw [Dict.get?_mapVals, Dict.get?_of_mem hlnd hE]
  simp [Dict.get?_of_mem hnd hs]

/-- **C62.** The same for a decaying model. -/
theorem lines_dec_spec (w : Dict ℝ) (lineE : Dict ℝ)
    (hnd : w.keys.Nodup) (ht : "total" ∉ w.keys) (hlnd : lineE.keys.Nodup)
    (hsub : ∀ fs ∈ lineE.keys, fs ∈ w.keys) :
    ∃ out, linesDec w lineE = .ok out ∧ out.keys = lineE.keys ∧
      ∀ fs E x, (fs, E) ∈ lineE → (fs, x) ∈ w → out.get? fs = some (E, x / w.values.sum) := by
  have key : linesDec w lineE = .ok (lineE.mapVals fun fs E =>
      (E, match w.get? fs with | some x => x / w.values.sum | none => 0)) := by
    unfold linesDec
    rw [decBf_eq w ht]
    simp only [bind, Except.bind]
    rw [buildDict_ok (g := fun fs E =>
      (E, match w.get? fs with | some x => x / w.values.sum | none => 0)) _ _ hlnd
      (by simp [Dict.keys])]
    · simp
    · intro k E hk
      obtain ⟨⟨k', s⟩, hs, hk'⟩ := List.mem_map.mp (hsub k (List.mem_map.mpr ⟨_, hk, rfl⟩))
      simp only at hk'; subst hk'
      have hget := Dict.get?_of_mem hnd hs
      have hbf : (w.mapVals fun _ x => x / w.values.sum).get? k' = some (s / w.values.sum) := by
        rw [Dict.get?_mapVals, hget]; rfl
      simp only [index_ok hbf, hget, pure, Except.pure]
  refine ⟨_, key, by simp, ?_⟩
  intro fs E x hE hs
  rw [Dict.get?_mapVals, Dict.get?_of_mem hlnd hE]
  simp [Dict.get?_of_mem hnd hs]

/-- **C62.** A line whose final state is not a channel makes the call raise, even if every other
line is fine. -/
theorem lines_ann_unknown_channel_raises (funcs : Dict (ℝ → ℝ)) (lineE : Dict ℝ) (ecm : ℝ)
    (ht : "total" ∉ funcs.keys) (fs : String) (E : ℝ) (hE : (fs, E) ∈ lineE)
    (hmiss : fs ∉ funcs.keys) : ∃ err, linesAnn funcs lineE ecm = .error err := by
  have hbf : (funcs.mapVals fun _ f => f ecm / (funcs.map fun kv => kv.2 ecm).sum).get? fs
      = none := (Dict.get?_eq_none_iff _ _).mpr (by simpa using hmiss)
  unfold linesAnn
  rw [annBf_eq funcs ht ecm]
  simp only [bind, Except.bind]
  exact buildDict_isError (k := fs) (v := E) (err := .keyError fs)
    (by simp only [index_error hbf]) lineE [] hE

example : ∃ out, linesAnn [("e e", fun _ => 1), ("g g", fun _ => 3)] [("g g", 100)] 200 = .ok out ∧
    out.get? "g g" = some (100, 3 / 4) := by
  obtain ⟨out, h, -, hv⟩ := lines_ann_spec [("e e", fun _ => 1), ("g g", fun _ => 3)]
    [("g g", 100)] 200 (by simp [Dict.keys]) (by simp [Dict.keys]) (by simp [Dict.keys])
    (by simp [Dict.keys])
  refine ⟨out, h, ?_⟩
  rw [hv "g g" 100 (fun _ => 3) (by simp) (by simp)]
  norm_num [totalSigma]

example : ∃ err, linesAnn [("e e", fun _ => 1)] [("g g", 100)] 200 = .error err :=
  lines_ann_unknown_channel_raises _ _ 200 (by simp [Dict.keys]) "g g" 100 (by simp)
    (by simp [Dict.keys])

end Hazma.Theory
