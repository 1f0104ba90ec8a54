import Mathlib.Tactic
import Verif.Model.MediatorSpectra

/-!
# Photon spectra of the mediator models: accepted arguments and composition
-/

namespace Hazma.MediatorSpectra

open Hazma.Mediator (Modes modesOf RestPhoton scalarRest scalarPoint vectorPoint vectorRest photonIntegrand
  VMode)

/-! ## What a photon of energy `e` should be counted as -/

/-- Photons per annihilation into the channel `fs` of the scalar mediator. -/
noncomputable def scalarPt (k : ScalarKernels) (ecm : ℝ) (fs : String) (e : ℝ) : ℝ :=
  if fs = "mu mu" then k.fsrMu e ecm + 2 * k.mu e (ecm / 2)
  else if fs = "e e" then k.fsrE e ecm
  else if fs = "pi0 pi0" then 2 * k.pi0 e (ecm / 2)
  else if fs = "pi pi" then k.fsrPi e ecm + 2 * k.pi e (ecm / 2)
  else if k.total = 0 then 0 else 2 * k.med ⟨true, true, true, true, true, true, true⟩ e (ecm / 2)

/-- Photons per annihilation into the channel `fs` of the vector mediator. -/
noncomputable def vectorPt (k : VectorKernels) (ecm : ℝ) (fs : String) (e : ℝ) : ℝ :=
  if fs = "mu mu" then k.fsrMu e ecm + 2 * k.mu e (ecm / 2)
  else if fs = "e e" then k.fsrE e ecm
  else if fs = "pi pi" then k.fsrPi e ecm + 2 * k.pi e (ecm / 2)
  else if fs = "pi0 g" then k.pi0 e ((ecm ^ 2 + k.mpi0 ^ 2) / (2 * ecm))
  else if fs = "pi0 v" then
    k.pi0 e ((ecm ^ 2 + k.mpi0 ^ 2 - k.mv ^ 2) / (2 * ecm))
      + if k.total = 0 then 0
        else k.med "total" e ((ecm ^ 2 - k.mpi0 ^ 2 + k.mv ^ 2) / (2 * ecm))
  else if k.total = 0 then 0 else 2 * k.med "total" e (ecm / 2)

def scalarChannels : List String := ["mu mu", "e e", "pi0 pi0", "pi pi", "s s"]
def vectorChannels : List String := ["mu mu", "e e", "pi pi", "pi0 g", "pi0 v", "v v"]

/-- The dictionary of arrays in which each energy is treated on its own. -/
noncomputable def arrays (chs : List String) (bf : String → ℝ) (pt : String → ℝ → ℝ)
    (es : List ℝ) : List (String × Out) :=
  chs.map (fun fs => (fs, Out.array (es.map fun e => bf fs * pt fs e)))
    ++ [("total", Out.array (es.map fun e => (chs.map fun fs => bf fs * pt fs e).sum))]

/-- The dictionary of numbers for one energy. -/
noncomputable def numbers (chs : List String) (bf : String → ℝ) (pt : String → ℝ → ℝ)
    (e : ℝ) : List (String × Out) :=
  chs.map (fun fs => (fs, Out.scalar (bf fs * pt fs e)))
    ++ [("total", Out.scalar ((chs.map fun fs => bf fs * pt fs e).sum))]

/-! ## Helpers -/

theorem add_map (f g : ℝ → ℝ) (es : List ℝ) :
    (Out.array (es.map f)).add (.array (es.map g)) = .array (es.map fun e => f e + g e) := by
  simp [Out.add, List.zipWith_map]

theorem scale_map (c : ℝ) (f : ℝ → ℝ) (es : List ℝ) :
    (Out.array (es.map f)).scale c = .array (es.map fun e => c * f e) := by
  simp [Out.scale]

theorem zero_add_map (f : ℝ → ℝ) (es : List ℝ) :
    (Out.scalar 0).add (.array (es.map f)) = .array (es.map f) := by
  simp [Out.add]

theorem modesOf_all : modesOf smDecayModes = ⟨true, true, true, true, true, true, true⟩ := by
  simp [modesOf, smDecayModes]

/-- A loop all of whose entries evaluate. -/
theorem loop_ok (bf : String → ℝ) (E : Energies) (pt : String → Out) :
    ∀ l : List (String × Except Err Out),
      (∀ p ∈ l, (if bf p.1 ≠ 0 then p.2.map fun a => a.scale (bf p.1) else closed E) = .ok (pt p.1)) →
      spectraLoop bf E l = .ok (l.map fun p => (p.1, pt p.1))
  | [], _ => rfl
  | p :: l, h => by
    obtain ⟨fs, f⟩ := p
    have h1 := h (fs, f) (by simp)
    have h2 := loop_ok bf E pt l fun q hq => h q (by simp [hq])
    simp only [spectraLoop]
    simp only at h1
    rw [h1, h2]
    rfl

theorem total_arrays (bf : String → ℝ) (pt : String → ℝ → ℝ) (es : List ℝ) :
    ∀ (chs : List String) (acc : ℝ → ℝ),
      (chs.map fun fs => (fs, Out.array (es.map fun e => bf fs * pt fs e))).foldl
        (fun (a : Out) (p : String × Out) => a.add p.2) (Out.array (es.map acc))
      = Out.array (es.map fun e => acc e + (chs.map fun fs => bf fs * pt fs e).sum)
  | [], acc => by simp
  | c :: chs, acc => by
    simp only [List.map_cons, List.foldl_cons, add_map]
    rw [total_arrays bf pt es chs]
    simp only [List.sum_cons, add_assoc]

theorem total_arrays' (c : String) (chs : List String) (bf : String → ℝ) (pt : String → ℝ → ℝ)
    (es : List ℝ) :
    total ((c :: chs).map fun fs => (fs, Out.array (es.map fun e => bf fs * pt fs e)))
      = .array (es.map fun e => ((c :: chs).map fun fs => bf fs * pt fs e).sum) := by
  simp only [total, List.map_cons, List.foldl_cons, zero_add_map]
  rw [total_arrays bf pt es chs]
  simp only [List.sum_cons]

/-- One entry of the scalar mediator for an array or a list. -/
theorem scalar_entry (k : ScalarKernels) (ecm : ℝ) (es : List ℝ) (E : Energies)
    (hE : E = .ndarray es ∨ E = .pyList es) :
    scalarFuncs k E ecm
      = scalarChannels.map fun fs => (fs, .ok (.array (es.map fun e => scalarPt k ecm fs e))) := by
  rcases hE with rfl | rfl <;> by_cases ht : k.total = 0 <;>
  simp [scalarFuncs, scalarChannels, scalarPt, sMuMu, sEE, sPi0Pi0, sPiPi, sSS, split, Energies.map,
    Energies.zerosLen, Except.bind, Except.map, add_map, Out.scale, ModesArg.flags, modesOf_all, ht,
    Out.add, List.zipWith_map, Function.comp_def, -List.map_const, -List.map_const']

/-- One entry of the vector mediator for an array that is not empty. -/
theorem vector_entry (k : VectorKernels) (ecm : ℝ) (e : ℝ) (es : List ℝ) :
    vectorFuncs k (.ndarray (e :: es)) ecm
      = vectorChannels.map fun fs =>
        (fs, .ok (.array ((e :: es).map fun e => vectorPt k ecm fs e))) := by
  by_cases ht : k.total = 0 <;>
  simp [vectorFuncs, vectorChannels, vectorPt, vMuMu, vEE, vPi0G, vPiPi, vPi0V, vVV, vDecay, split,
    Energies.map, Energies.vectorize, Energies.zerosLen, Except.bind, Except.map, Out.scale, ht,
    Out.add, List.zipWith_map, Function.comp_def, -List.map_const, -List.map_const']

theorem arrays_of_entries (chs : List String) (c : String) (bf : String → ℝ)
    (pt : String → ℝ → ℝ) (es : List ℝ) :
    spectraLoop bf (.ndarray es)
        ((c :: chs).map fun fs => (fs, .ok (.array (es.map fun e => pt fs e))))
      = .ok ((c :: chs).map fun fs => (fs, Out.array (es.map fun e => bf fs * pt fs e))) := by
  rw [loop_ok bf _ (fun fs => .array (es.map fun e => bf fs * pt fs e))]
  · simp [List.map_map, Function.comp_def]
  · intro p hp
    obtain ⟨fs, -, rfl⟩ := List.mem_map.1 hp
    by_cases h : bf fs = 0
    · simp [h, closed]
    · simp [h, Except.map, scale_map]

/-! ## Arrays -/

/-- `spectra` of the scalar mediator on an array: every energy is treated on its own and `total` is
the sum over the channels, each weighted with its branching fraction. -/
theorem scalar_spectra_array (k : ScalarKernels) (bf : String → ℝ) (ecm : ℝ) (es : List ℝ) :
    spectra bf (.ndarray es) (fun E => scalarFuncs k E ecm)
      = .ok (arrays scalarChannels bf (scalarPt k ecm) es) := by
  simp only [spectra]
  rw [scalar_entry k ecm es _ (Or.inl rfl)]
  simp only [scalarChannels]
  rw [arrays_of_entries]
  simp only [Except.map, arrays]
  rw [total_arrays']

/-- The same for the vector mediator, if the array is not empty. -/
theorem vector_spectra_array_partial (k : VectorKernels) (bf : String → ℝ) (ecm : ℝ) (es : List ℝ)
    (hes : es ≠ []) :
    spectra bf (.ndarray es) (fun E => vectorFuncs k E ecm)
      = .ok (arrays vectorChannels bf (vectorPt k ecm) es) := by
  obtain ⟨e, es, rfl⟩ := List.exists_cons_of_ne_nil hes
  simp only [spectra]
  rw [vector_entry]
  simp only [vectorChannels]
  rw [arrays_of_entries]
  simp only [Except.map, arrays]
  rw [total_arrays']

/-- On an empty array the vector mediator raises `ValueError` as soon as annihilation into muons or
electrons is open. -/
theorem vector_empty_array_raises (k : VectorKernels) (bf : String → ℝ) (ecm : ℝ)
    (h : bf "mu mu" ≠ 0 ∨ bf "e e" ≠ 0) :
    spectra bf (.ndarray []) (fun E => vectorFuncs k E ecm) = .error .valueError := by
  by_cases h1 : bf "mu mu" = 0
  · have h2 : bf "e e" ≠ 0 := by tauto
    simp [spectra, vectorFuncs, spectraLoop, h1, h2, closed, vEE, split, Energies.vectorize,
      Except.bind, Except.map]
  · simp [spectra, vectorFuncs, spectraLoop, h1, vMuMu, split, Energies.vectorize,
      Except.bind, Except.map]

/-! ## One energy -/

/-- A single energy given to `spectra` of the scalar mediator raises `TypeError` exactly when
annihilation into electrons or into neutral pions is open. -/
theorem scalar_spectra_float (k : ScalarKernels) (bf : String → ℝ) (ecm e : ℝ) :
    spectra bf (.pyFloat e) (fun E => scalarFuncs k E ecm)
      = if bf "e e" ≠ 0 ∨ bf "pi0 pi0" ≠ 0 then .error .typeError
        else .ok (numbers scalarChannels bf (scalarPt k ecm) e) := by
  by_cases h1 : bf "mu mu" = 0 <;> by_cases h2 : bf "e e" = 0 <;> by_cases h3 : bf "pi0 pi0" = 0 <;>
    by_cases h4 : bf "pi pi" = 0 <;> by_cases h5 : bf "s s" = 0 <;> by_cases ht : k.total = 0 <;>
  simp [spectra, scalarFuncs, spectraLoop, h1, h2, h3, h4, h5, ht, closed, sMuMu, sEE, sPi0Pi0, sPiPi,
    sSS, split, Energies.map, Energies.zerosLen, Except.bind, Except.map, numbers, scalarChannels,
    scalarPt, Out.scale, Out.add, total, ModesArg.flags, modesOf_all, add_assoc]

/-- The same for the vector mediator, with electrons and `pi0 g`. -/
theorem vector_spectra_float (k : VectorKernels) (bf : String → ℝ) (ecm e : ℝ) :
    spectra bf (.pyFloat e) (fun E => vectorFuncs k E ecm)
      = if bf "e e" ≠ 0 ∨ bf "pi0 g" ≠ 0 then .error .typeError
        else .ok (numbers vectorChannels bf (vectorPt k ecm) e) := by
  by_cases h1 : bf "mu mu" = 0 <;> by_cases h2 : bf "e e" = 0 <;> by_cases h3 : bf "pi pi" = 0 <;>
    by_cases h4 : bf "pi0 g" = 0 <;> by_cases h5 : bf "pi0 v" = 0 <;> by_cases h6 : bf "v v" = 0 <;>
    by_cases ht : k.total = 0 <;>
  simp [spectra, vectorFuncs, spectraLoop, h1, h2, h3, h4, h5, h6, ht, closed, vMuMu, vEE, vPi0G, vPiPi,
    vPi0V, vVV, vDecay, split, Energies.map, Energies.vectorize, Energies.zerosLen, Except.bind,
    Except.map, numbers, vectorChannels, vectorPt, Out.scale, Out.add, total, add_assoc]

/-- `total_spectrum` accepts a single energy in both models and returns an array of length one. -/
theorem totalSpectrum_float (ks : ScalarKernels) (kv : VectorKernels) (bf : String → ℝ) (ecm e : ℝ) :
    totalSpectrum bf (.pyFloat e) (fun E => scalarFuncs ks E ecm)
        = .ok (.array [(scalarChannels.map fun fs => bf fs * scalarPt ks ecm fs e).sum])
      ∧ totalSpectrum bf (.pyFloat e) (fun E => vectorFuncs kv E ecm)
        = .ok (.array [(vectorChannels.map fun fs => bf fs * vectorPt kv ecm fs e).sum]) := by
  constructor
  · simp only [totalSpectrum]
    rw [scalar_entry ks ecm [e] _ (Or.inl rfl)]
    simp only [scalarChannels]
    rw [arrays_of_entries]
    simp only [Except.map]
    rw [total_arrays']
    rfl
  · simp only [totalSpectrum]
    rw [vector_entry]
    simp only [vectorChannels]
    rw [arrays_of_entries]
    simp only [Except.map]
    rw [total_arrays']
    rfl

/-- A NumPy float is treated like a Python float, also where a channel is closed. -/
theorem numpy_float (ks : ScalarKernels) (kv : VectorKernels) (bf : String → ℝ) (ecm e : ℝ) :
    spectra bf (.npFloat e) (fun E => scalarFuncs ks E ecm)
        = spectra bf (.pyFloat e) (fun E => scalarFuncs ks E ecm)
      ∧ spectra bf (.npFloat e) (fun E => vectorFuncs kv E ecm)
        = spectra bf (.pyFloat e) (fun E => vectorFuncs kv E ecm)
      ∧ totalSpectrum bf (.npFloat e) (fun E => scalarFuncs ks E ecm)
        = totalSpectrum bf (.pyFloat e) (fun E => scalarFuncs ks E ecm)
      ∧ totalSpectrum bf (.npFloat e) (fun E => vectorFuncs kv E ecm)
        = totalSpectrum bf (.pyFloat e) (fun E => vectorFuncs kv E ecm) := by
  have loop : ∀ l : List (String × Except Err Out),
      spectraLoop bf (.npFloat e) l = spectraLoop bf (.pyFloat e) l := by
    intro l
    induction l with
    | nil => rfl
    | cons p l ih =>
      obtain ⟨fs, f⟩ := p
      simp only [spectraLoop, ih]
      rfl
  refine ⟨?_, ?_, rfl, rfl⟩
  · simp only [spectra, loop]
    rfl
  · simp only [spectra, loop]
    by_cases ht : kv.total = 0 <;>
      simp [vectorFuncs, vMuMu, vEE, vPi0G, vPiPi, vPi0V, vVV, vDecay, split, Energies.map,
        Energies.vectorize, Energies.zerosLen, ht]

/-! ## Lists -/

/-- A list of energies is treated like an array by the scalar mediator when every channel is open,
and raises `AttributeError` as soon as one is closed. -/
theorem scalar_spectra_list (k : ScalarKernels) (bf : String → ℝ) (ecm : ℝ) (es : List ℝ) :
    spectra bf (.pyList es) (fun E => scalarFuncs k E ecm)
      = if ∀ fs ∈ scalarChannels, bf fs ≠ 0 then .ok (arrays scalarChannels bf (scalarPt k ecm) es)
        else .error .attributeError := by
  simp only [spectra]
  rw [scalar_entry k ecm es _ (Or.inr rfl)]
  split_ifs with h
  · rw [loop_ok bf _ (fun fs => .array (es.map fun e => bf fs * scalarPt k ecm fs e))]
    · simp only [List.map_map, Function.comp_def, Except.map, arrays]
      simp only [scalarChannels]
      rw [total_arrays']
    · intro p hp
      obtain ⟨fs, hfs, rfl⟩ := List.mem_map.1 hp
      simp [h fs hfs, Except.map, scale_map]
  · by_cases h1 : bf "mu mu" = 0 <;> by_cases h2 : bf "e e" = 0 <;> by_cases h3 : bf "pi0 pi0" = 0 <;>
      by_cases h4 : bf "pi pi" = 0 <;> by_cases h5 : bf "s s" = 0 <;>
    first
    | (exfalso; apply h; simp [scalarChannels, h1, h2, h3, h4, h5]; done)
    | simp [scalarChannels, spectraLoop, h1, h2, h3, h4, h5, closed, Except.bind, Except.map]

/-- A list of energies is never accepted by `spectra` of the vector mediator when the mediator can
decay. -/
theorem vector_spectra_list_raises (k : VectorKernels) (bf : String → ℝ) (ecm : ℝ) (es : List ℝ)
    (ht : k.total ≠ 0) :
    ∃ err, spectra bf (.pyList es) (fun E => vectorFuncs k E ecm) = .error err := by
  have hv : ∃ err, (if bf "v v" ≠ 0 then (vVV k (.pyList es) ecm "total").map fun a => a.scale (bf "v v")
      else closed (.pyList es)) = .error err := by
    by_cases h : bf "v v" = 0
    · exact ⟨.attributeError, by simp [h, closed]⟩
    · exact ⟨.typeError, by simp [h, vVV, vDecay, ht, Except.map]⟩
  have key : ∀ l : List (String × Except Err Out), ∀ p ∈ l,
      (∃ err, (if bf p.1 ≠ 0 then p.2.map fun a => a.scale (bf p.1) else closed (.pyList es))
        = .error err) → ∃ err, spectraLoop bf (.pyList es) l = .error err := by
    intro l
    induction l with
    | nil => intro p hp; simp at hp
    | cons q l ih =>
      intro p hp he
      obtain ⟨fs, f⟩ := q
      simp only [spectraLoop]
      rcases List.mem_cons.1 hp with rfl | hp
      · obtain ⟨err, he⟩ := he
        simp only at he
        exact ⟨err, by rw [he]; rfl⟩
      · obtain ⟨err, he⟩ := ih p hp he
        rw [he]
        obtain ⟨v, hv⟩ : ∃ v, v = (if bf fs ≠ 0 then f.map fun a => a.scale (bf fs)
          else closed (.pyList es)) := ⟨_, rfl⟩
        rw [← hv]
        cases v with
        | error e' => exact ⟨e', rfl⟩
        | ok v => exact ⟨err, rfl⟩
  obtain ⟨err, h⟩ := key (vectorFuncs k (.pyList es) ecm) ("v v", vVV k (.pyList es) ecm "total")
    (by simp [vectorFuncs]) hv
  exact ⟨err, by simp only [spectra]; rw [h]; rfl⟩

/-! ## `spectrum_type` -/

/-- The functions with an argument `spectrum_type`: for arrays that are not empty, `fsr` and `decay`
evaluate and `all` is their sum; any other name raises `ValueError`. -/
theorem kinds (ks : ScalarKernels) (kv : VectorKernels) (ecm e : ℝ) (es : List ℝ)
    (f : Kind → Except Err Out)
    (hf : f ∈ [sEE ks (.ndarray (e :: es)) ecm, sMuMu ks (.ndarray (e :: es)) ecm,
      sPi0Pi0 ks (.ndarray (e :: es)) ecm, sPiPi ks (.ndarray (e :: es)) ecm,
      vEE kv (.ndarray (e :: es)) ecm, vMuMu kv (.ndarray (e :: es)) ecm,
      vPi0G kv (.ndarray (e :: es)) ecm, vPiPi kv (.ndarray (e :: es)) ecm]) :
    (∃ a b : ℝ → ℝ, f .fsr = .ok (.array ((e :: es).map a)) ∧ f .decay = .ok (.array ((e :: es).map b))
      ∧ f .all = .ok (.array ((e :: es).map fun x => a x + b x)))
    ∧ f .other = .error .valueError := by
  simp only [List.mem_cons, List.not_mem_nil, or_false] at hf
  rcases hf with rfl | rfl | rfl | rfl | rfl | rfl | rfl | rfl
  · exact ⟨⟨fun x => ks.fsrE x ecm, fun _ => 0, rfl, rfl, by
      simp [sEE, split, Energies.map, Energies.zerosLen, Except.bind, Except.map, Out.add,
        List.zipWith_map, -List.map_const, -List.map_const']⟩, rfl⟩
  · exact ⟨⟨fun x => ks.fsrMu x ecm, fun x => 2 * ks.mu x (ecm / 2), rfl, by
      simp [sMuMu, split, Energies.map, Out.scale], by
      simp [sMuMu, split, Energies.map, Except.bind, Except.map, Out.add, Out.scale,
        List.zipWith_map, -List.map_const, -List.map_const']⟩, rfl⟩
  · exact ⟨⟨fun _ => 0, fun x => 2 * ks.pi0 x (ecm / 2), rfl, by
      simp [sPi0Pi0, split, Energies.map, Out.scale], by
      simp [sPi0Pi0, split, Energies.map, Energies.zerosLen, Except.bind, Except.map, Out.add,
        Out.scale, List.zipWith_map, -List.map_const, -List.map_const']⟩, rfl⟩
  · exact ⟨⟨fun x => ks.fsrPi x ecm, fun x => 2 * ks.pi x (ecm / 2), rfl, by
      simp [sPiPi, split, Energies.map, Out.scale], by
      simp [sPiPi, split, Energies.map, Except.bind, Except.map, Out.add, Out.scale,
        List.zipWith_map, -List.map_const, -List.map_const']⟩, rfl⟩
  · exact ⟨⟨fun x => kv.fsrE x ecm, fun _ => 0, rfl, rfl, by
      simp [vEE, split, Energies.map, Energies.vectorize, Energies.zerosLen, Except.bind, Except.map,
        Out.add, List.zipWith_map, -List.map_const, -List.map_const']⟩, rfl⟩
  · exact ⟨⟨fun x => kv.fsrMu x ecm, fun x => 2 * kv.mu x (ecm / 2), rfl, by
      simp [vMuMu, split, Energies.map, Energies.vectorize, Except.map, Out.scale], by
      simp [vMuMu, split, Energies.map, Energies.vectorize, Except.bind, Except.map, Out.add, Out.scale,
        List.zipWith_map, -List.map_const, -List.map_const']⟩, rfl⟩
  · exact ⟨⟨fun _ => 0, fun x => kv.pi0 x ((ecm ^ 2 + kv.mpi0 ^ 2) / (2 * ecm)), rfl, rfl, by
      simp [vPi0G, split, Energies.map, Energies.zerosLen, Except.bind, Except.map, Out.add,
        List.zipWith_map, -List.map_const, -List.map_const']⟩, rfl⟩
  · exact ⟨⟨fun x => kv.fsrPi x ecm, fun x => 2 * kv.pi x (ecm / 2), rfl, by
      simp [vPiPi, split, Energies.map, Out.scale], by
      simp [vPiPi, split, Energies.map, Except.bind, Except.map, Out.add, Out.scale,
        List.zipWith_map, -List.map_const, -List.map_const']⟩, rfl⟩

/-! ## `modes` of `dnde_ss` -/

/-- A string is accepted as `modes`.  Among the documented names it selects the mode of that name
and nothing else, except that `"pi pi g"` and `"mu mu g"` also select `"pi pi"` and `"mu mu"`. -/
theorem string_modes (s : String) (hs : s ∈ smDecayModes) :
    modesOfString s = modesOf [s] ↔ s ≠ "pi pi g" ∧ s ≠ "mu mu g" := by
  simp only [smDecayModes, List.mem_cons, List.not_mem_nil, or_false] at hs
  rcases hs with rfl | rfl | rfl | rfl | rfl | rfl | rfl <;>
  simp only [modesOfString, modesOf, occurs, Modes.mk.injEq] <;> decide +kernel

/-- So asking for the radiation off pions by its name as a string also counts the decays of the
pions. -/
theorem string_ppg_counts_decays (r : RestPhoton) (pws : Fin 5 → ℝ) (e : ℝ) :
    scalarRest r pws (ModesArg.str "pi pi g").flags e
      = scalarRest r pws (ModesArg.list ["pi pi g"]).flags e
        + scalarRest r pws (ModesArg.list ["pi pi"]).flags e := by
  have h : (ModesArg.str "pi pi g").flags = ⟨true, false, false, false, false, true, false⟩ := by
    simp only [ModesArg.flags, modesOfString, occurs, Modes.mk.injEq]
    decide +kernel
  rw [h]
  simp [scalarRest, ModesArg.flags, modesOf]

/-- Names that are not documented are ignored: a list without documented names gives the flags of the
empty list. -/
theorem unknown_modes (l : List String) (h : ∀ s ∈ l, s ∉ smDecayModes) : modesOf l = modesOf [] := by
  have h' : ∀ s ∈ smDecayModes, s ∉ l := fun s hs hl => h s hl hs
  simp only [smDecayModes, List.forall_mem_cons] at h'
  simp [modesOf, h']

/-- Misspelt modes give a spectrum of exactly zero instead of an error, at every energy, in both
models. -/
theorem misspelt_modes_zero (r : RestPhoton) (pws : Fin 5 → ℝ) (e E m : ℝ) (l : List String)
    (h : ∀ s ∈ l, s ∉ smDecayModes) :
    scalarPoint r pws (modesOf l) e E m = 0 ∧ vectorPoint r pws .other e E m = 0 := by
  rw [unknown_modes l h]
  constructor
  · simp [scalarPoint, photonIntegrand, scalarRest, modesOf]
  · simp [vectorPoint, photonIntegrand, vectorRest]

/-! ## Examples -/

/-- Kernels for the examples. -/
noncomputable def exS : ScalarKernels :=
  ⟨fun e _ => e, fun e _ => 2 * e, fun e _ => 3 * e, fun e q => e + q, fun e q => e * q, fun _ q => q,
    fun _ e _ => e, 1⟩

/-- Only muons open: one energy is accepted. -/
example : spectra (fun fs => if fs = "mu mu" then 1 else 0) (.pyFloat 10)
    (fun E => scalarFuncs exS E 400)
    = .ok [("mu mu", .scalar 440), ("e e", .scalar 0), ("pi0 pi0", .scalar 0), ("pi pi", .scalar 0),
      ("s s", .scalar 0), ("total", .scalar 440)] := by
  rw [scalar_spectra_float]
  simp [numbers, scalarChannels, scalarPt, exS]
  norm_num

/-- Electrons open: one energy is not accepted, an array of length one is. -/
example : spectra (fun fs => if fs = "e e" then 1 else 0) (.pyFloat 10)
    (fun E => scalarFuncs exS E 400) = .error .typeError := by
  rw [scalar_spectra_float]; simp

example : totalSpectrum (fun fs => if fs = "e e" then 1 else 0) (.pyFloat 10)
    (fun E => scalarFuncs exS E 400) = .ok (.array [10]) := by
  rw [(totalSpectrum_float exS ⟨fun _ _ => 0, fun _ _ => 0, fun _ _ => 0, fun _ _ => 0, fun _ _ => 0,
    fun _ _ => 0, fun _ _ _ => 0, 0, 0, 0⟩ _ 400 10).1]
  simp [scalarChannels, scalarPt, exS]

example : modesOf ["tau tau"] = modesOf [] := unknown_modes _ (by decide +kernel)

end Hazma.MediatorSpectra
