import Verif.Model.Aliasing
import Mathlib.Tactic

/-! # Shared mutable state -/

namespace Hazma.Aliasing

/-- Distinct, allocated argument arrays. -/
structure Sound (h : Heap) (a : FluxArgs) : Prop where
  l1 : a.eLows < h.next
  l2 : a.eHighs < h.next
  l3 : a.fluxes < h.next
  l4 : a.upper < h.next
  l5 : a.lower < h.next
  d1 : a.eLows ≠ a.fluxes
  d2 : a.eHighs ≠ a.fluxes
  d4 : a.upper ≠ a.fluxes
  d5 : a.lower ≠ a.fluxes

/-- What the caller sees: every array allocated before, except the one passed as `fluxes`, is unchanged;
that one holds the measurement's fluxes. -/
theorem flux_effect (h : Heap) (a : FluxArgs) (r : ℕ) (hr : r < h.next) :
    (mkFlux h a).1.data r = if r = a.fluxes
      then divPow (h.data a.fluxes) (centers (h.data a.eLows) (h.data a.eHighs)) a.power
      else h.data r := by
  have h1 : r ≠ h.next := by omega
  have h2 : r ≠ h.next + 1 := by omega
  simp only [mkFlux, Heap.alloc, Heap.write]
  rw [if_neg h2, if_neg h1]

/-- C45 (the part that holds): the bin edges and error-bar arrays of the caller are not modified, and the
object's error bars are the distances of the given coordinates from the central flux. -/
theorem flux_leaves_others_partial (h : Heap) (a : FluxArgs) (s : Sound h a) :
    (∀ r, r < h.next → r ≠ a.fluxes → (mkFlux h a).1.data r = h.data r)
    ∧ (let m := mkFlux h a
       let bins := centers (h.data a.eLows) (h.data a.eHighs)
       m.1.data m.2.fluxes = divPow (h.data a.fluxes) bins a.power
       ∧ m.1.data m.2.upper = subArr (divPow (h.data a.upper) bins a.power) (m.1.data m.2.fluxes)
       ∧ m.1.data m.2.lower = subArr (m.1.data m.2.fluxes) (divPow (h.data a.lower) bins a.power)) := by
  refine ⟨fun r hr hne => by rw [flux_effect h a r hr, if_neg hne], ?_⟩
  have n3 : a.fluxes ≠ h.next := s.l3.ne
  have n3' : a.fluxes ≠ h.next + 1 := by have := s.l3; omega
  have n5 : a.lower ≠ h.next := s.l5.ne
  simp only [mkFlux, Heap.alloc, Heap.write, if_neg n3, if_neg n3', if_neg s.d4, if_neg s.d5, if_neg n5,
    if_true]
  refine ⟨trivial, ?_, trivial⟩
  rw [if_neg (by omega)]

/-- The numbers: in every bin the stored flux and error bars are the given coordinates divided by the power of
the mean of the bin edges, the error bars being distances from the flux. -/
theorem flux_bin_values (h : Heap) (a : FluxArgs) (s : Sound h a) (i : ℕ) (lo hi f u d : ℝ)
    (h1 : (h.data a.eLows)[i]? = some lo) (h2 : (h.data a.eHighs)[i]? = some hi)
    (h3 : (h.data a.fluxes)[i]? = some f) (h4 : (h.data a.upper)[i]? = some u)
    (h5 : (h.data a.lower)[i]? = some d) :
    let m := mkFlux h a
    let c := ((lo + hi) / 2) ^ a.power
    (m.1.data m.2.fluxes)[i]? = some (f / c) ∧ (m.1.data m.2.upper)[i]? = some ((u - f) / c)
      ∧ (m.1.data m.2.lower)[i]? = some ((f - d) / c) := by
  obtain ⟨-, e1, e2, e3⟩ := flux_leaves_others_partial h a s
  intro m c
  have hc : (centers (h.data a.eLows) (h.data a.eHighs))[i]? = some ((lo + hi) / 2) := by
    simp only [centers, List.getElem?_zipWith, h1, h2]
    congr 1; ring
  have k : ∀ (l : List ℝ) (x : ℝ), l[i]? = some x →
      (divPow l (centers (h.data a.eLows) (h.data a.eHighs)) a.power)[i]? = some (x / c) := by
    intro l x hx
    simp only [divPow, List.getElem?_zipWith, hx, hc, c]
  have ef : (m.1.data m.2.fluxes)[i]? = some (f / c) := by rw [e1]; exact k _ _ h3
  refine ⟨ef, ?_, ?_⟩
  · rw [e2]
    simp only [subArr, List.getElem?_zipWith, k _ _ h4]
    rw [show (mkFlux h a).1.data (mkFlux h a).2.fluxes = m.1.data m.2.fluxes from rfl, ef]
    simp only [sub_div]
  · rw [e3]
    simp only [subArr, List.getElem?_zipWith, k _ _ h5]
    rw [show (mkFlux h a).1.data (mkFlux h a).2.fluxes = m.1.data m.2.fluxes from rfl, ef]
    simp only [sub_div]

/-- C45 is false: the caller's flux array is overwritten with the rescaled fluxes, and a second
measurement built from the same arrays divides once more. -/
theorem flux_overwrites_caller (h : Heap) (a : FluxArgs) (s : Sound h a) :
    (mkFlux h a).1.data a.fluxes
        = divPow (h.data a.fluxes) (centers (h.data a.eLows) (h.data a.eHighs)) a.power
    ∧ (mkFlux (mkFlux h a).1 a).1.data a.fluxes
        = divPow (divPow (h.data a.fluxes) (centers (h.data a.eLows) (h.data a.eHighs)) a.power)
            (centers (h.data a.eLows) (h.data a.eHighs)) a.power := by
  have e := flux_effect h a a.fluxes s.l3
  rw [if_pos rfl] at e
  refine ⟨e, ?_⟩
  have hn : (mkFlux h a).1.next = h.next + 2 := rfl
  rw [flux_effect (mkFlux h a).1 a a.fluxes (by rw [hn]; have := s.l3; omega), if_pos rfl, e,
    flux_effect h a a.eLows s.l1, if_neg s.d1, flux_effect h a a.eHighs s.l2, if_neg s.d2]

/-- One bin from 1 to 3 MeV with `E² Φ = 8`: the caller's 8 becomes 2, a second measurement reports 1/2. -/
example :
    let h : Heap := ⟨fun r => if r = 0 then [1] else if r = 1 then [3] else if r = 2 then [8]
      else if r = 3 then [12] else [4], 5⟩
    let a : FluxArgs := ⟨0, 1, 2, 3, 4, 2⟩
    (mkFlux h a).1.data 2 = [2] ∧ (mkFlux (mkFlux h a).1 a).1.data 2 = [1 / 2] := by
  intro h a
  have s : Sound h a := by constructor <;> simp [h, a]
  obtain ⟨h1, h2⟩ := flux_overwrites_caller h a s
  refine ⟨?_, ?_⟩
  · rw [show (2 : ℕ) = a.fluxes from rfl, h1]
    norm_num [divPow, centers, h, a]
  · rw [show (2 : ℕ) = a.fluxes from rfl, h2]
    norm_num [divPow, centers, h, a]

/-- C45 for files: reading the same file twice gives equal measurements and touches nothing that existed. -/
theorem flux_from_file (h : Heap) (c1 c2 c3 c4 c5 : List ℝ) (p : ℕ) :
    let m := fluxFromFile h c1 c2 c3 c4 c5 p
    let m' := fluxFromFile m.1 c1 c2 c3 c4 c5 p
    (∀ r, r < h.next → m.1.data r = h.data r)
    ∧ m'.1.data m'.2.fluxes = m.1.data m.2.fluxes
    ∧ m'.1.data m'.2.upper = m.1.data m.2.upper
    ∧ m'.1.data m'.2.lower = m.1.data m.2.lower
    ∧ m'.1.data m.2.fluxes = m.1.data m.2.fluxes := by
  intro m m'
  have key : ∀ h : Heap, let m := fluxFromFile h c1 c2 c3 c4 c5 p
      (∀ r, r < h.next → m.1.data r = h.data r)
      ∧ m.1.data m.2.fluxes = divPow c3 (centers c1 c2) p
      ∧ m.1.data m.2.upper = subArr (divPow c4 (centers c1 c2) p) (divPow c3 (centers c1 c2) p)
      ∧ m.1.data m.2.lower = subArr (divPow c3 (centers c1 c2) p) (divPow c5 (centers c1 c2) p)
      ∧ m.2.fluxes < m.1.next := by
    intro h
    simp only [fluxFromFile, mkFlux, Heap.alloc, Heap.write]
    have f2 : h.next ≠ h.next + 1 + 1 := by omega
    have f3 : h.next ≠ h.next + 1 + 1 + 1 := by omega
    have f4 : h.next ≠ h.next + 1 + 1 + 1 + 1 := by omega
    have f5 : h.next + 1 + 1 ≠ h.next := by omega
    refine ⟨?_, ?_, ?_, ?_, ?_⟩
    · intro r hr
      have e0 : r ≠ h.next := by omega
      have e1 : r ≠ h.next + 1 := by omega
      have e2 : r ≠ h.next + 1 + 1 := by omega
      have e3 : r ≠ h.next + 1 + 1 + 1 := by omega
      have e4 : r ≠ h.next + 1 + 1 + 1 + 1 := by omega
      have e5 : r ≠ h.next + 1 + 1 + 1 + 1 + 1 := by omega
      have e6 : r ≠ h.next + 1 + 1 + 1 + 1 + 1 + 1 := by omega
      simp only [if_neg e0, if_neg e1, if_neg e2, if_neg e3, if_neg e4, if_neg e5, if_neg e6]
    · simp [f2, f3, f4]
    · simp [f2, f3, f4]
    · simp [f2, f3, f4, f5]
    · omega
  obtain ⟨a1, a2, a3, a4, a5⟩ := key h
  obtain ⟨b1, b2, b3, b4, -⟩ := key m.1
  exact ⟨a1, b2.trans a2.symm, b3.trans a3.symm, b4.trans a4.symm, b1 _ a5⟩

/-- C46 is false: two constrainers built with the default argument are one list, so whatever is added to
one appears in the other. -/
theorem default_constrainers_shared (h : LHeap) (n : String) :
    let a := mkComp none
    let b := mkComp none
    (add h a n).data b.ref = h.data b.ref ++ [n] ∧ size (add h a n) b = size h b + 1 := by
  simp [mkComp, add, size]

/-- C46 (the part that holds): constrainers on different lists — given explicitly or after a reset — do
not affect each other. -/
theorem constrainers_independent_partial (h : LHeap) (a b : Comp) (hne : a.ref ≠ b.ref) (n : String)
    (hb : b.ref < h.next) :
    (add h a n).data b.ref = h.data b.ref
    ∧ (let r := reset h a
       r.1.data b.ref = h.data b.ref ∧ r.2.ref ≠ b.ref ∧ size r.1 r.2 = 0
       ∧ ∀ m, (add r.1 r.2 m).data b.ref = h.data b.ref) := by
  have h1 : b.ref ≠ h.next := hb.ne
  refine ⟨by simp [add, hne.symm], ?_⟩
  simp only [reset, LHeap.alloc, add, size, if_neg h1, if_true, List.length_nil]
  exact ⟨trivial, h1.symm, trivial, fun _ => trivial⟩

example : size (add initial (mkComp none) "cmb") (mkComp none) = 1 :=
  (default_constrainers_shared initial "cmb").2

/-- C46 (the part that holds): a constrainer built on a list of its own works on that list — it starts
with its elements, an addition is appended to them — and the default list is left alone. -/
theorem own_list_used_partial (h : LHeap) (hd : defaultRef < h.next) (l : List String) (n : String) :
    let p := h.alloc l
    let c := mkComp (some p.2)
    p.1.data c.ref = l ∧ size p.1 c = l.length ∧ (add p.1 c n).data c.ref = l ++ [n]
    ∧ (add p.1 c n).data (mkComp none).ref = h.data (mkComp none).ref := by
  have h1 : defaultRef ≠ h.next := hd.ne
  simp [mkComp, LHeap.alloc, add, size, h1]

end Hazma.Aliasing
