import Verif.Model.Theory
import Verif.Lemmas.Dict

/-! # Lemmas about channel aggregation -/

namespace Hazma.Theory

open Hazma

theorem index_ok {β : Type} {d : Dict β} {k : String} {v : β} (h : d.get? k = some v) :
    index d k = .ok v := by simp [index, h]

theorem index_error {β : Type} {d : Dict β} {k : String} (h : d.get? k = none) :
    index d k = .error (.keyError k) := by simp [index, h]

theorem buildDict_ok {β γ : Type} {body : String → β → Except Err γ} (g : String → β → γ) :
    ∀ (d : Dict β) (acc : Dict γ), d.keys.Nodup → (∀ k ∈ d.keys, k ∉ acc.keys) →
      (∀ k v, (k, v) ∈ d → body k v = .ok (g k v)) →
      buildDict body d acc = .ok (acc ++ d.mapVals g)
  | [], acc, _, _, _ => by simp [buildDict, Dict.mapVals]
  | (k, v) :: d, acc, hnd, hdis, hb => by
    have hk : body k v = .ok (g k v) := hb k v (by simp)
    simp only [buildDict, hk]
    simp only [Dict.keys, List.map_cons, List.nodup_cons] at hnd
    have hka : k ∉ acc.keys := hdis k (by simp [Dict.keys])
    rw [Dict.set_of_not_mem hka]
    rw [buildDict_ok g d _ hnd.2]
    · simp [Dict.mapVals]
    · intro j hj
      simp only [Dict.keys, List.map_append, List.map_cons, List.map_nil, List.mem_append,
        List.mem_singleton, not_or]
      refine ⟨hdis j (by simp only [Dict.keys, List.map_cons, List.mem_cons]; right; exact hj), ?_⟩
      rintro rfl
      exact hnd.1 hj
    · intro j w hj
      exact hb j w (List.mem_cons_of_mem _ hj)

theorem buildDict_error {β γ : Type} {body : String → β → Except Err γ} {err : Err} :
    ∀ (d : Dict β) (acc : Dict γ) (pre : Dict β) (k : String) (v : β) (post : Dict β),
      d = pre ++ (k, v) :: post → (∀ j w, (j, w) ∈ pre → ∃ r, body j w = .ok r) →
      body k v = .error err → buildDict body d acc = .error err
  | d, acc, [], k, v, post, hd, _, he => by
    subst hd; simp [buildDict, he]
  | d, acc, (j, w) :: pre, k, v, post, hd, hpre, he => by
    subst hd
    obtain ⟨r, hr⟩ := hpre j w (by simp)
    simp only [List.cons_append, buildDict, hr]
    exact buildDict_error _ _ pre k v post rfl (fun a b h => hpre a b (by simp [h])) he

theorem annXs_eq (funcs : Dict (ℝ → ℝ)) (ht : "total" ∉ funcs.keys) (ecm : ℝ) :
    annihilationCrossSections funcs ecm
      = funcs.mapVals (fun _ f => f ecm) ++ [("total", (funcs.map fun kv => kv.2 ecm).sum)] := by
  unfold annihilationCrossSections
  simp only
  rw [Dict.set_of_not_mem (by simpa using ht)]
  simp [Dict.values, Dict.mapVals, Function.comp_def]

theorem annXs_erase (funcs : Dict (ℝ → ℝ)) (ht : "total" ∉ funcs.keys) (ecm : ℝ) :
    (annihilationCrossSections funcs ecm).erase "total" = funcs.mapVals (fun _ f => f ecm) := by
  rw [annXs_eq funcs ht, Dict.erase_append_self (by simpa using ht)]

theorem annXs_total (funcs : Dict (ℝ → ℝ)) (ecm : ℝ) :
    (annihilationCrossSections funcs ecm).get? "total"
      = some ((funcs.map fun kv => kv.2 ecm).sum) := by
  unfold annihilationCrossSections
  simp only
  rw [Dict.get?_set_self]
  simp [Dict.values, Dict.mapVals, Function.comp_def]

theorem annBf_eq (funcs : Dict (ℝ → ℝ)) (ht : "total" ∉ funcs.keys) (ecm : ℝ) :
    annihilationBranchingFractions funcs ecm
      = .ok (funcs.mapVals fun _ f => f ecm / (funcs.map fun kv => kv.2 ecm).sum) := by
  unfold annihilationBranchingFractions
  simp only [index_ok (annXs_total funcs ecm), annXs_erase funcs ht, bind, Except.bind]
  split_ifs with h
  · simp only [h, div_zero, pure, Except.pure, Dict.mapVals, List.map_map, Function.comp_def]
  · simp only [pure, Except.pure, Dict.mapVals, List.map_map, Function.comp_def]

theorem decW_eq (w : Dict ℝ) (ht : "total" ∉ w.keys) :
    decayWidths w = w ++ [("total", w.values.sum)] := by
  unfold decayWidths
  have hid : (w.mapVals fun _ x => x) = w := by
    simp [Dict.mapVals]
  simp only [hid]
  rw [Dict.set_of_not_mem ht]

theorem decBf_eq (w : Dict ℝ) (ht : "total" ∉ w.keys) :
    decayBranchingFractions w = .ok (w.mapVals fun _ x => x / w.values.sum) := by
  unfold decayBranchingFractions
  have h1 : (decayWidths w).get? "total" = some w.values.sum := by
    rw [decW_eq w ht, Dict.get?_append_of_none ((Dict.get?_eq_none_iff _ _).mpr ht)]
    simp [Dict.get?]
  simp only [index_ok h1, bind, Except.bind]
  rw [decW_eq w ht, Dict.erase_append_self ht]
  split_ifs with h
  · simp only [h, div_zero, pure, Except.pure]
  · simp only [pure, Except.pure]

theorem sum_div (l : List ℝ) (c : ℝ) : (l.map fun x => x / c).sum = l.sum / c := by
  induction l with
  | nil => simp
  | cons a l ih => simp [ih, add_div]

theorem le_sum_of_mem {l : List ℝ} (h : ∀ x ∈ l, 0 ≤ x) {a : ℝ} (ha : a ∈ l) : a ≤ l.sum :=
  List.single_le_sum h a ha

/-- The closures of the positron loop ignore which channel they were created for. -/
theorem positronLoop_spec (widths : Dict ℝ) :
    ∀ (d : Dict DecFn) (cell : Cell) (acc : Dict (Cell → DecFn)), d.keys.Nodup →
      (∀ k ∈ d.keys, k ∉ acc.keys) →
      (positronLoop widths d cell acc).1 = (match d.getLast? with | none => cell | some l => some l)
      ∧ (positronLoop widths d cell acc).2 = acc ++ d.mapVals (fun _ _ => closureBody widths)
  | [], cell, acc, _, _ => by simp [positronLoop, Dict.mapVals]
  | (fs, dnde) :: rest, cell, acc, hnd, hdis => by
    simp only [Dict.keys, List.map_cons, List.nodup_cons] at hnd
    have hka : fs ∉ acc.keys := hdis fs (by simp [Dict.keys])
    simp only [positronLoop]
    rw [Dict.set_of_not_mem hka]
    have ih := positronLoop_spec widths rest (some (fs, dnde))
      (acc ++ [(fs, closureBody widths)]) hnd.2 (by
        intro j hj
        simp only [Dict.keys, List.map_append, List.map_cons, List.map_nil, List.mem_append,
          List.mem_singleton, not_or]
        refine ⟨hdis j (by
          simp only [Dict.keys, List.map_cons, List.mem_cons]; right; exact hj), ?_⟩
        rintro rfl
        exact hnd.1 hj)
    refine ⟨?_, ?_⟩
    · rw [ih.1, List.getLast?_cons]
      cases h : rest.getLast? <;> simp
    · rw [ih.2]; simp [Dict.mapVals]

end Hazma.Theory
