import Verif.Model.FinalStates
import Verif.Props.ThermalTotal
import Verif.Props.ScalarModel
import Verif.Props.VectorModel
import Verif.Props.GevRegistry
import Mathlib.Tactic

/-!
# Final states are listed exactly if dark matter can annihilate into them (C305)
-/

namespace Hazma.FinalStates

open Hazma.ThermalTotal

/-- **C305.** The scalar and vector mediators list exactly the final states with a cross section, in the same order. -/
theorem mediators_listed (l : Leptons) (k : ScalarModel.Consts) (s : ScalarModel.Base) (k' : VectorModel.Consts) (v : VectorModel.Base) :
    (scalarFuncs l k s).keys = scalar ∧ (vectorFuncs l k' v).keys = vector := ⟨rfl, rfl⟩

/-- A cross section that is never different from zero (it may raise at a pole). -/
def Vanishes (f : ℝ → Except Xs.Err ℝ) : Prop := ∀ e x, f e = .ok x → x = 0

/-- **C305, heavy quark.** After any history of assignments the states that are not listed have no cross section. -/
theorem heavy_quark_listed (c : ScalarModel.Consts) (hc : c.Physical) (h0 : ScalarModel.Heavy) (hf : ScalarModel.FreshHeavy c h0)
    (hist : List (ScalarModel.HeavyAttr × ℝ)) (l : Leptons) (k : ScalarModel.Consts) :
    let s := (ScalarModel.run (ScalarModel.setHeavy c) h0 hist).base
    (∀ fs ∈ heavyQuark, fs ∈ (scalarFuncs l k s).keys)
    ∧ ∀ fs f, (scalarFuncs l k s).get? fs = some f → fs ∈ heavyQuark ∨ Vanishes f := by
  intro s
  refine ⟨by simp [heavyQuark, scalarFuncs, Dict.keys], fun fs f h => ?_⟩
  have hg : s.gsff = 0 := (ScalarModel.heavy_couplings_tied c hc h0 hf hist).1.1
  have hmem : (fs, f) ∈ scalarFuncs l k s := Dict.mem_of_get? h
  simp only [scalarFuncs, List.mem_cons, Prod.mk.injEq, List.not_mem_nil, or_false, hg] at hmem
  rcases hmem with ⟨rfl, rfl⟩ | ⟨rfl, rfl⟩ | ⟨rfl, -⟩ | ⟨rfl, -⟩ | ⟨rfl, -⟩ | ⟨rfl, -⟩
  · exact Or.inr fun e x hx => scalarFF_zero hx
  · exact Or.inr fun e x hx => scalarFF_zero hx
  all_goals exact Or.inl (by decide)

/-- **C305, quarks only.** -/
theorem quarks_only_listed (c : VectorModel.Consts) (hc : c.Physical) (mx mv gvxx gvuu gvdd gvss : ℝ) (s0 : VectorModel.Base)
    (h0 : VectorModel.createQuarks c mx mv gvxx gvuu gvdd gvss = .ok s0) (hx : 0 ≤ mx)
    (hist : List (VectorModel.Attr × ℝ)) (hm : ∀ p ∈ hist, p.1 = .mx → 0 ≤ p.2) (l : Leptons) (k : VectorModel.Consts) :
    let s := VectorModel.run (VectorModel.setQuarks c) s0 hist
    (∀ fs ∈ quarksOnly, fs ∈ (vectorFuncs l k s).keys)
    ∧ ∀ fs f, (vectorFuncs l k s).get? fs = some f → fs ∈ quarksOnly ∨ Vanishes f := by
  intro s
  refine ⟨by simp [quarksOnly, vectorFuncs, Dict.keys], fun fs f h => ?_⟩
  obtain ⟨-, he, hmu, -⟩ := VectorModel.quarks_history_fresh c hc mx mv gvxx gvuu gvdd gvss s0 h0 hx hist hm
  have hmem : (fs, f) ∈ vectorFuncs l k s := Dict.mem_of_get? h
  simp only [vectorFuncs, List.mem_cons, Prod.mk.injEq, List.not_mem_nil, or_false] at hmem
  rcases hmem with ⟨rfl, rfl⟩ | ⟨rfl, rfl⟩ | ⟨rfl, -⟩ | ⟨rfl, -⟩ | ⟨rfl, -⟩ | ⟨rfl, -⟩
  · refine Or.inr fun e x hx => ?_
    simp only [s] at hx
    rw [hmu, vectorFF_zero] at hx
    simpa using hx.symm
  · refine Or.inr fun e x hx => ?_
    simp only [s] at hx
    rw [he, vectorFF_zero] at hx
    simpa using hx.symm
  all_goals exact Or.inl (by decide)

/-- Electrons are not listed for the quark-only model and indeed never produced, whatever was assigned before. -/
example (c : VectorModel.Consts) (hc : c.Physical) (s0 : VectorModel.Base) (h0 : VectorModel.createQuarks c 250 1000 1 1 0 0 = .ok s0)
    (l : Leptons) (k : VectorModel.Consts) (e x : ℝ) (f : ℝ → Except Xs.Err ℝ)
    (hf : (vectorFuncs l k (VectorModel.run (VectorModel.setQuarks c) s0 [(.gvee, 1), (.gvuu, 2)])).get? "e e" = some f)
    (hx : f e = .ok x) : x = 0 := by
  rcases (quarks_only_listed c hc 250 1000 1 1 0 0 s0 h0 (by norm_num) [(.gvee, 1), (.gvuu, 2)] (by simp) l k).2 _ _ hf with h | h
  · exact absurd h (by decide)
  · exact h e x hx

end Hazma.FinalStates
