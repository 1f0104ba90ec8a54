import Mathlib.Data.Real.Basic

/-!
# Objects that share mutable state with their caller

Models `hazma/flux_measurement.py` and `hazma/limits/_abstract.py` with an explicit heap: a reference
is a number, an array a list of reals.  Arrays are floating point and of equal lengths.
-/

namespace Hazma.Aliasing

/-- Arrays by reference; `next` is the first unused reference. -/
structure Heap where
  data : ℕ → List ℝ
  next : ℕ

/-- Allocate a new array. -/
def Heap.alloc (h : Heap) (a : List ℝ) : Heap × ℕ :=
  (⟨fun r => if r = h.next then a else h.data r, h.next + 1⟩, h.next)

/-- Overwrite the contents of an array (NumPy in-place operators). -/
def Heap.write (h : Heap) (r : ℕ) (a : List ℝ) : Heap :=
  ⟨fun q => if q = r then a else h.data q, h.next⟩

/-- The arguments of `FluxMeasurement`. -/
structure FluxArgs where
  eLows : ℕ
  eHighs : ℕ
  fluxes : ℕ
  upper : ℕ
  lower : ℕ
  power : ℕ

/-- The attributes of a `FluxMeasurement`. -/
structure Flux where
  eLows : ℕ
  eHighs : ℕ
  fluxes : ℕ
  upper : ℕ
  lower : ℕ
  deriving DecidableEq

/-- `0.5 * (e_lows + e_highs)` (`flux_measurement.py:74`). -/
noncomputable def centers (lo hi : List ℝ) : List ℝ := List.zipWith (fun a b => 0.5 * (a + b)) lo hi

/-- `a / bins**power` (`flux_measurement.py:77,80,81`). -/
noncomputable def divPow (a bins : List ℝ) (p : ℕ) : List ℝ := List.zipWith (fun x e => x / e ^ p) a bins

/-- `a - b` (`flux_measurement.py:80-81`). -/
def subArr (a b : List ℝ) : List ℝ := List.zipWith (fun x y => x - y) a b

/-- `FluxMeasurement.__init__` (`flux_measurement.py:67-87`): `self.fluxes /= …` works in place, the two
error bars are new arrays. -/
noncomputable def mkFlux (h : Heap) (a : FluxArgs) : Heap × Flux :=
  let bins := centers (h.data a.eLows) (h.data a.eHighs)
  let h := h.write a.fluxes (divPow (h.data a.fluxes) bins a.power)
  let up := h.alloc (subArr (divPow (h.data a.upper) bins a.power) (h.data a.fluxes))
  let h := up.1
  let lo := h.alloc (subArr (h.data a.fluxes) (divPow (h.data a.lower) bins a.power))
  (lo.1, ⟨a.eLows, a.eHighs, a.fluxes, up.2, lo.2⟩)

/-- `FluxMeasurement.from_file` (`flux_measurement.py:89-107`): the five columns are fresh arrays. -/
noncomputable def fluxFromFile (h : Heap) (c1 c2 c3 c4 c5 : List ℝ) (power : ℕ) : Heap × Flux :=
  let r1 := h.alloc c1
  let r2 := r1.1.alloc c2
  let r3 := r2.1.alloc c3
  let r4 := r3.1.alloc c4
  let r5 := r4.1.alloc c5
  mkFlux r5.1 ⟨r1.2, r2.2, r3.2, r4.2, r5.2, power⟩

/-! ## Composite constrainers -/

/-- Python lists of constrainers (by name) by reference. -/
structure LHeap where
  data : ℕ → List String
  next : ℕ

/-- A `CompositeConstrainer`: the reference `self._constrainers`. -/
structure Comp where
  ref : ℕ
  deriving DecidableEq

/-- The default argument of `CompositeConstrainer.__init__`, evaluated once: reference 0
(`limits/_abstract.py:48`). -/
def defaultRef : ℕ := 0

/-- The heap after import: only the default list, empty. -/
def initial : LHeap := ⟨fun _ => [], 1⟩

/-- `CompositeConstrainer()` and `CompositeConstrainer(lst)` (`limits/_abstract.py:48-49`). -/
def mkComp (arg : Option ℕ) : Comp := ⟨arg.getD defaultRef⟩

/-- A new list. -/
def LHeap.alloc (h : LHeap) (a : List String) : LHeap × ℕ :=
  (⟨fun r => if r = h.next then a else h.data r, h.next + 1⟩, h.next)

/-- `add_constrainer` (`limits/_abstract.py:51-52`). -/
def add (h : LHeap) (c : Comp) (n : String) : LHeap :=
  ⟨fun r => if r = c.ref then h.data r ++ [n] else h.data r, h.next⟩

/-- `reset_constrainers` (`limits/_abstract.py:54-55`). -/
def reset (h : LHeap) (_ : Comp) : LHeap × Comp :=
  let p := h.alloc []
  (p.1, ⟨p.2⟩)

/-- `len(self)` (`limits/_abstract.py:62-63`). -/
def size (h : LHeap) (c : Comp) : ℕ := (h.data c.ref).length

end Hazma.Aliasing
