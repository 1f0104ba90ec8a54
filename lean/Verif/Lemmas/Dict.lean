import Verif.Model.Dict
import Mathlib.Tactic

/-! # Lemmas about dictionaries -/

namespace Hazma.Dict

variable {β γ : Type}

theorem get?_eq_none_iff (d : Dict β) (k : String) : d.get? k = none ↔ k ∉ d.keys := by
  induction d with
  | nil => simp [get?, keys]
  | cons kv d ih =>
    obtain ⟨a, v⟩ := kv
    simp only [get?, keys, List.map_cons, List.mem_cons, not_or]
    by_cases h : a = k
    · simp [h]
    · simp only [h, if_false, ih, keys]
      constructor
      · intro hh; exact ⟨fun e => h e.symm, hh⟩
      · intro hh; exact hh.2

theorem get?_of_mem {d : Dict β} (hnd : d.keys.Nodup) {k : String} {v : β} (h : (k, v) ∈ d) :
    d.get? k = some v := by
  induction d with
  | nil => simp at h
  | cons kv d ih =>
    obtain ⟨a, w⟩ := kv
    simp only [keys, List.map_cons, List.nodup_cons] at hnd
    simp only [List.mem_cons, Prod.mk.injEq] at h
    rcases h with ⟨rfl, rfl⟩ | h
    · simp [get?]
    · have : a ≠ k := by
        rintro rfl
        exact hnd.1 (List.mem_map.mpr ⟨_, h, rfl⟩)
      simp only [get?, this, if_false]
      exact ih hnd.2 h

theorem mem_of_get? {d : Dict β} {k : String} {v : β} (h : d.get? k = some v) : (k, v) ∈ d := by
  induction d with
  | nil => simp [get?] at h
  | cons kv d ih =>
    obtain ⟨a, w⟩ := kv
    simp only [get?] at h
    split_ifs at h with hk
    · simp only [Option.some.injEq] at h; subst hk; subst h; simp
    · exact List.mem_cons_of_mem _ (ih h)

theorem set_of_not_mem {d : Dict β} {k : String} (h : k ∉ d.keys) (v : β) :
    d.set k v = d ++ [(k, v)] := by
  induction d with
  | nil => rfl
  | cons kv d ih =>
    obtain ⟨a, w⟩ := kv
    simp only [keys, List.map_cons, List.mem_cons, not_or] at h
    have : ¬ a = k := fun e => h.1 e.symm
    simp only [set, this, if_false, List.cons_append]
    rw [ih h.2]

theorem get?_append_of_none {d e : Dict β} {k : String} (h : d.get? k = none) :
    (d ++ e : Dict β).get? k = e.get? k := by
  induction d with
  | nil => rfl
  | cons kv d ih =>
    obtain ⟨a, w⟩ := kv
    simp only [get?] at h
    split_ifs at h with hk
    simp only [List.cons_append, get?, hk, if_false]
    exact ih h

theorem get?_append_of_some {d e : Dict β} {k : String} {v : β} (h : d.get? k = some v) :
    (d ++ e : Dict β).get? k = some v := by
  induction d with
  | nil => simp [get?] at h
  | cons kv d ih =>
    obtain ⟨a, w⟩ := kv
    simp only [get?] at h
    simp only [List.cons_append, get?]
    split_ifs at h ⊢ with hk
    · exact h
    · exact ih h

theorem get?_set_self (d : Dict β) (k : String) (v : β) : (d.set k v).get? k = some v := by
  induction d with
  | nil => simp [set, get?]
  | cons kv d ih =>
    obtain ⟨a, w⟩ := kv
    simp only [set]
    split_ifs with h
    · simp [get?, h]
    · simp [get?, h, ih]

theorem get?_set_ne (d : Dict β) {k k' : String} (hne : k' ≠ k) (v : β) :
    (d.set k v).get? k' = d.get? k' := by
  induction d with
  | nil => simp [set, get?, hne.symm]
  | cons kv d ih =>
    obtain ⟨a, w⟩ := kv
    simp only [set]
    split_ifs with h
    · subst h; simp [get?, hne.symm]
    · simp only [get?]; split_ifs <;> simp_all

@[simp] theorem keys_mapVals (f : String → β → γ) (d : Dict β) : (d.mapVals f).keys = d.keys := by
  simp [keys, mapVals, Function.comp_def]

theorem get?_mapVals (f : String → β → γ) (d : Dict β) (k : String) :
    (d.mapVals f).get? k = (d.get? k).map (f k) := by
  induction d with
  | nil => rfl
  | cons kv d ih =>
    obtain ⟨a, w⟩ := kv
    simp only [mapVals, List.map_cons, get?]
    split_ifs with h
    · subst h; rfl
    · exact ih

theorem erase_append_self {d : Dict β} {k : String} (h : k ∉ d.keys) (v : β) :
    erase k (d ++ [(k, v)]) = d := by
  simp only [erase, List.filter_append, List.filter_cons, List.filter_nil]
  simp only [ne_eq, not_true_eq_false, decide_false, Bool.false_eq_true, if_false, List.append_nil]
  apply List.filter_eq_self.mpr
  intro kv hkv
  simp only [decide_eq_true_eq]
  rintro rfl
  exact h (List.mem_map.mpr ⟨kv, hkv, rfl⟩)

end Hazma.Dict
