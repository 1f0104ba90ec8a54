import Verif.Model.Dispatch
import Mathlib.Tactic

/-!
# C53: argument dispatch of the array entry points
-/

namespace Hazma.Dispatch

/-- The ndarray an object is or becomes. -/
def PyObj.seenAs (o : PyObj) (a : NdArray) : Prop := o = .array a ∨ o = .sized (.ok a)

/-- The object is a real number `x`: a float, anything without a length that converts to a float, or a
rank-0 array of a boolean, integer or floating dtype. -/
def IsScalar (o : PyObj) (x : ℝ) : Prop :=
  o = .float x ∨ o = .unsized (some x) ∨
    ∃ a, o.seenAs a ∧ a.ndim = 0 ∧ a.kind ∈ ['b', 'i', 'u', 'f'] ∧ a.asFloat = some x

/-- The object is a 1-d float64 array (or a sequence numpy turns into one) with elements `v`. -/
def IsVector (o : PyObj) (v : List ℝ) : Prop :=
  ∃ a, o.seenAs a ∧ a.ndim = 1 ∧ a.dtype = "float64" ∧ a.elems = v

theorem classify_scalar {o : PyObj} {x : ℝ} (h : IsScalar o x) (q : String) :
    classify o q = .ok (.scalar x) := by
  rcases h with rfl | rfl | ⟨a, h, h0, hk, hx⟩
  · rfl
  · rfl
  · have : classifyArray a q = .ok (.scalar x) := by
      have hn : hasNumericDtype a = true := by
        simp only [List.mem_cons, List.not_mem_nil, or_false] at hk
        simp only [hasNumericDtype, Bool.or_eq_true, decide_eq_true_eq]
        tauto
      simp [classifyArray, h0, hn, hx]
    rcases h with rfl | rfl <;> simpa [classify] using this

theorem classify_vector {o : PyObj} {v : List ℝ} (h : IsVector o v) (q : String) :
    classify o q = .ok (.vector v) := by
  obtain ⟨a, h, h1, hd, rfl⟩ := h
  have : classifyArray a q = .ok (.vector a.elems) := by
    simp [classifyArray, extractVector, h1, hd]
  rcases h with rfl | rfl <;> simpa [classify] using this

theorem classifyArray_ok {a : NdArray} {q : String} {r : Argument} (h : classifyArray a q = .ok r) :
    (∃ x, r = .scalar x ∧ a.ndim = 0 ∧ a.kind ∈ ['b', 'i', 'u', 'f'] ∧ a.asFloat = some x) ∨
      (r = .vector a.elems ∧ a.ndim = 1 ∧ a.dtype = "float64") := by
  unfold classifyArray extractVector at h
  split_ifs at h with h0 h1 h2
  · left
    cases hx : a.asFloat with
    | none => simp [hx] at h
    | some x =>
      simp only [hx, Except.ok.injEq] at h
      refine ⟨x, h.symm, h0, ?_, rfl⟩
      simp only [hasNumericDtype, Bool.or_eq_true, decide_eq_true_eq] at h1
      simp only [List.mem_cons, List.not_mem_nil, or_false]
      tauto
  · right
    rename_i h3
    simp only [Except.ok.injEq] at h
    exact ⟨h.symm, h3.1, h3.2⟩

theorem classify_ok {o : PyObj} {q : String} {r : Argument} (h : classify o q = .ok r) :
    (∃ x, r = .scalar x ∧ IsScalar o x) ∨ ∃ v, r = .vector v ∧ IsVector o v := by
  unfold classify at h
  split at h
  · simp only [Except.ok.injEq] at h
    exact Or.inl ⟨_, h.symm, Or.inl rfl⟩
  · rename_i a
    rcases classifyArray_ok h with ⟨x, rfl, h0, hk, hx⟩ | ⟨rfl, h1, hd⟩
    · exact Or.inl ⟨x, rfl, Or.inr (Or.inr ⟨a, Or.inl rfl, h0, hk, hx⟩)⟩
    · exact Or.inr ⟨_, rfl, a, Or.inl rfl, h1, hd, rfl⟩
  · rename_i a
    rcases classifyArray_ok h with ⟨x, rfl, h0, hk, hx⟩ | ⟨rfl, h1, hd⟩
    · exact Or.inl ⟨x, rfl, Or.inr (Or.inr ⟨a, Or.inr rfl, h0, hk, hx⟩)⟩
    · exact Or.inr ⟨_, rfl, a, Or.inr rfl, h1, hd, rfl⟩
  · simp at h
  · simp only [Except.ok.injEq] at h
    exact Or.inl ⟨_, h.symm, Or.inr (Or.inl rfl)⟩
  · simp at h

/-- C53: a number gives a number, a 1-d float64 array gives an equally long array whose `i`-th entry is the
kernel at the `i`-th energy, and nothing else is accepted. -/
theorem dispatch_map (kernel : ℝ → ℝ) (o : PyObj) (q : String) :
    (∀ x, IsScalar o x → mapUnary o q kernel = .ok (.float (kernel x))) ∧
    (∀ v, IsVector o v → ∃ w, mapUnary o q kernel = .ok (.array1 w) ∧ w.length = v.length ∧
      ∀ i : ℕ, ∀ e, v[i]? = some e → w[i]? = some (kernel e)) ∧
    (∀ out, mapUnary o q kernel = .ok out → (∃ x, IsScalar o x) ∨ ∃ v, IsVector o v) := by
  refine ⟨?_, ?_, ?_⟩
  · intro x h
    simp [mapUnary, classify_scalar h, bind, Except.bind, pure, Except.pure]
  · intro v h
    refine ⟨v.map kernel, ?_, by simp, ?_⟩
    · simp [mapUnary, classify_vector h, bind, Except.bind, pure, Except.pure]
    · intro i e he
      simp [he]
  · intro out h
    cases hc : classify o q with
    | error e => simp [mapUnary, hc, bind, Except.bind] at h
    | ok r =>
      rcases classify_ok hc with ⟨x, _, hx⟩ | ⟨v, _, hv⟩
      · exact Or.inl ⟨x, hx⟩
      · exact Or.inr ⟨v, hv⟩

/-- C53: which exception a rejected argument raises: rank two or more and wrong dtypes are `ValueError`s
naming the quantity, a sizeless non-number is a `TypeError`, an exception of `np.asarray` is passed on
unchanged; every entry-point shape raises the same one. -/
theorem dispatch_rejects (kernel : ℝ → ℝ) (try_ : ℝ → Except PyErr ℝ) (flav : ℝ → Triple) (q : String)
    (o : PyObj) (e : PyErr)
    (h : (∃ a, o.seenAs a ∧ 2 ≤ a.ndim ∧ e = .valueError (q ++ " must be 0 or 1-dimensional.")) ∨
      (∃ a, o.seenAs a ∧ ((a.ndim = 1 ∧ a.dtype ≠ "float64") ∨
        (a.ndim = 0 ∧ a.kind ∉ ['b', 'i', 'u', 'f'])) ∧
        e = .valueError (q ++ " must be a float64 array; got dtype " ++ a.dtype ++ ".")) ∨
      (o = .unsized none ∧ e = .typeError (q ++ " must be a float or a NumPy array.")) ∨
      o = .sized (.error e)) :
    mapUnary o q kernel = .error e ∧ mapUnaryTry o q try_ = .error e ∧
      mapFlavors o q flav = .error e := by
  have hc : classify o q = .error e := by
    rcases h with ⟨a, h, h2, rfl⟩ | ⟨a, h, h2, rfl⟩ | ⟨rfl, rfl⟩ | rfl
    · have : classifyArray a q = .error (dimensionError q) := by
        simp [classifyArray, show a.ndim ≠ 0 by omega, show a.ndim ≠ 1 by omega]
      rcases h with rfl | rfl <;> simpa [classify, dimensionError] using this
    · have : classifyArray a q = .error (dtypeError a q) := by
        rcases h2 with ⟨h1, hd⟩ | ⟨h0, hk⟩
        · simp [classifyArray, extractVector, h1, hd]
        · have hn : hasNumericDtype a = false := by
            simp only [List.mem_cons, List.not_mem_nil, or_false, not_or] at hk
            simp [hasNumericDtype, hk.1, hk.2.1, hk.2.2.1, hk.2.2.2]
          simp [classifyArray, h0, hn]
      rcases h with rfl | rfl <;> simpa [classify, dtypeError] using this
    · rfl
    · rfl
  simp [mapUnary, mapUnaryTry, mapFlavors, hc, bind, Except.bind]

theorem collect_ok {kernel : ℝ → Except PyErr ℝ} {v w : List ℝ} (h : collect kernel v = .ok w) :
    w.length = v.length ∧ ∀ i : ℕ, ∀ x, v[i]? = some x → ∃ y, kernel x = .ok y ∧ w[i]? = some y := by
  induction v generalizing w with
  | nil => simp only [collect, Except.ok.injEq] at h; subst h; simp
  | cons x l ih =>
    simp only [collect, bind, Except.bind, pure, Except.pure] at h
    cases hx : kernel x with
    | error e => simp [hx] at h
    | ok y =>
      cases hl : collect kernel l with
      | error e => simp [hx, hl] at h
      | ok r =>
        simp only [hx, hl, Except.ok.injEq] at h
        subst h
        obtain ⟨h1, h2⟩ := ih hl
        refine ⟨by simp [h1], ?_⟩
        intro i z hz
        cases i with
        | zero =>
          simp only [List.getElem?_cons_zero, Option.some.injEq] at hz
          subst hz
          exact ⟨y, hx, by simp⟩
        | succ i =>
          simp only [List.getElem?_cons_succ] at hz
          obtain ⟨y', hy, hw⟩ := h2 i z hz
          exact ⟨y', hy, by simpa using hw⟩

theorem collect_error {kernel : ℝ → Except PyErr ℝ} {v : List ℝ} {i : ℕ} {x : ℝ} {e : PyErr}
    (hx : v[i]? = some x) (he : kernel x = .error e)
    (hb : ∀ j, j < i → ∀ y, v[j]? = some y → ∃ z, kernel y = .ok z) :
    collect kernel v = .error e := by
  induction v generalizing i with
  | nil => simp at hx
  | cons y l ih =>
    cases i with
    | zero =>
      simp only [List.getElem?_cons_zero, Option.some.injEq] at hx
      subst hx
      simp [collect, he, bind, Except.bind]
    | succ i =>
      obtain ⟨z, hz⟩ := hb 0 (by omega) y (by simp)
      have := ih (i := i) (by simpa using hx)
        (fun j hj w hw => hb (j + 1) (by omega) w (by simpa using hw))
      simp [collect, hz, this, bind, Except.bind]

/-- C53: with a kernel that can fail, the call succeeds exactly when every element does, and then returns
the element results in order; otherwise the whole call raises the exception of the first failing element. -/
theorem dispatch_failing (kernel : ℝ → Except PyErr ℝ) (o : PyObj) (q : String) (v : List ℝ)
    (ho : IsVector o v) :
    (∀ out, mapUnaryTry o q kernel = .ok out → ∃ w, out = .array1 w ∧ w.length = v.length ∧
      ∀ i : ℕ, ∀ x, v[i]? = some x → ∃ y, kernel x = .ok y ∧ w[i]? = some y) ∧
    (∀ i : ℕ, ∀ x e, v[i]? = some x → kernel x = .error e →
      (∀ j, j < i → ∀ y, v[j]? = some y → ∃ z, kernel y = .ok z) →
      mapUnaryTry o q kernel = .error e) ∧
    ((∀ x ∈ v, ∃ y, kernel x = .ok y) → ∃ out, mapUnaryTry o q kernel = .ok out) := by
  have hc := classify_vector ho q
  have hu : mapUnaryTry o q kernel = (collect kernel v).map PyOut.array1 := by
    simp only [mapUnaryTry, hc, bind, Except.bind, pure, Except.pure]
    cases collect kernel v <;> rfl
  refine ⟨?_, ?_, ?_⟩
  · intro out h
    rw [hu] at h
    cases hw : collect kernel v with
    | error e => simp [hw, Except.map] at h
    | ok w =>
      simp only [hw, Except.map, Except.ok.injEq] at h
      exact ⟨w, h.symm, collect_ok hw⟩
  · intro i x e hx he hb
    rw [hu, collect_error hx he hb]
    rfl
  · intro h
    have : ∃ w, collect kernel v = .ok w := by
      clear hu ho hc
      induction v with
      | nil => exact ⟨[], rfl⟩
      | cons x l ih =>
        obtain ⟨y, hy⟩ := h x (by simp)
        obtain ⟨w, hw⟩ := ih (fun z hz => h z (by simp [hz]))
        exact ⟨y :: w, by simp [collect, hy, hw, bind, Except.bind, pure, Except.pure]⟩
    obtain ⟨w, hw⟩ := this
    exact ⟨.array1 w, by rw [hu, hw]; rfl⟩

/-- C53: a scalar failing in a fallible entry point raises, and otherwise gives a number. -/
theorem dispatch_failing_scalar (kernel : ℝ → Except PyErr ℝ) (o : PyObj) (q : String) (x : ℝ)
    (ho : IsScalar o x) : mapUnaryTry o q kernel = (kernel x).map PyOut.float := by
  simp only [mapUnaryTry, classify_scalar ho, bind, Except.bind, pure, Except.pure]
  cases kernel x <;> rfl

/-- C53: neutrino entry points give the flavours of a number as a triple and those of `N` energies as a
`3 × N` array whose row `r` holds flavour `r` at each energy in order. -/
theorem dispatch_flavors (kernel : ℝ → Triple) (o : PyObj) (q : String) :
    (∀ x, IsScalar o x → mapFlavors o q kernel = .ok (.tuple [kernel x 0, kernel x 1, kernel x 2])) ∧
    (∀ v, IsVector o v → ∃ out, mapFlavors o q kernel = .ok out ∧
      (∃ buf, out = .array2 3 v.length buf ∧ buf.length = 3 * v.length) ∧
      ∀ (r : Fin 3) (c : ℕ) (e : ℝ), v[c]? = some e → out.entry r c = some (kernel e r)) := by
  refine ⟨?_, ?_⟩
  · intro x h
    simp [mapFlavors, classify_scalar h, bind, Except.bind, pure, Except.pure]
  · intro v h
    obtain ⟨rows, hrows⟩ : ∃ rows : List ℝ, rows = (v.map (fun e => kernel e 0) ++
      v.map (fun e => kernel e 1)) ++ v.map (fun e => kernel e 2) := ⟨_, rfl⟩
    have hm : mapFlavors o q kernel = .ok (.array2 3 v.length rows) := by
      simp only [mapFlavors, classify_vector h, bind, Except.bind, pure, Except.pure, hrows,
        List.length_map, List.map_map]
      simp [List.finRange_succ, Function.comp_def]
    refine ⟨_, hm, ⟨rows, rfl, by simp [hrows]; ring⟩, ?_⟩
    intro r c e hc
    have hlt : c < v.length := by
      by_contra hge
      rw [List.getElem?_eq_none (by omega)] at hc
      simp at hc
    simp only [PyOut.entry, r.isLt, hlt, and_self, if_true, hrows]
    fin_cases r
    · simp only [Fin.zero_eta, Fin.val_zero, zero_mul, zero_add]
      rw [List.getElem?_append_left (by simp; omega), List.getElem?_append_left (by simpa using hlt)]
      simp [hc]
    · simp only [Fin.mk_one, Fin.val_one, one_mul]
      rw [List.getElem?_append_left (by simp; omega), List.getElem?_append_right (by simp)]
      simp [hc]
    · rw [List.getElem?_append_right (by simp; omega)]
      simp only [List.length_append, List.length_map]
      rw [show 2 * v.length + c - (v.length + v.length) = c by omega]
      simp [hc]

/-- C53: an argument that must be a vector is accepted exactly when it is one, and is returned unchanged. -/
theorem dispatch_require (o : PyObj) (q : String) (v : List ℝ) :
    requireVector o q = .ok v ↔ IsVector o v := by
  constructor
  · intro h
    unfold requireVector extractVector at h
    cases o with
    | float x => simp at h
    | unsized x => simp at h
    | array a =>
      simp only at h
      split_ifs at h with h1 h2
      simp only [Except.ok.injEq] at h
      exact ⟨a, Or.inl rfl, h2.1, h2.2, h⟩
    | sized r =>
      cases r with
      | error e => simp at h
      | ok a =>
        simp only at h
        split_ifs at h with h1 h2
        simp only [Except.ok.injEq] at h
        exact ⟨a, Or.inr rfl, h2.1, h2.2, h⟩
  · rintro ⟨a, h, h1, hd, rfl⟩
    rcases h with rfl | rfl <;> simp [requireVector, extractVector, h1, hd]

/-- A list of three floats is mapped element by element. -/
example : mapUnary (.sized (.ok ⟨1, 'f', "float64", [1, 2, 3], none⟩)) "Photon energies" (fun e => 2 * e)
    = .ok (.array1 [2, 4, 6]) := by
  simp [mapUnary, classify, classifyArray, extractVector, bind, Except.bind, pure, Except.pure]
  norm_num

/-- A list of ints becomes an int64 array and is rejected, although each int alone is accepted. -/
example (k : ℝ → ℝ) :
    mapUnary (.sized (.ok ⟨1, 'i', "int64", [1, 2], none⟩)) "Photon energies" k
      = .error (.valueError "Photon energies must be a float64 array; got dtype int64.") ∧
    mapUnary (.unsized (some 1)) "Photon energies" k = .ok (.float (k 1)) := by
  constructor
  · simp [mapUnary, classify, classifyArray, extractVector, bind, Except.bind, dtypeError]
  · simp [mapUnary, classify, bind, Except.bind, pure, Except.pure]

/-- The second flavour of the second of two energies. -/
example : ∃ out, mapFlavors (.array ⟨1, 'f', "float64", [5, 7], none⟩) "Neutrino energies"
    (fun e i => e + i.val) = .ok out ∧ out.entry 1 1 = some 8 := by
  obtain ⟨out, h, _, he⟩ := (dispatch_flavors (fun e i => e + i.val)
    (.array ⟨1, 'f', "float64", [5, 7], none⟩) "Neutrino energies").2 [5, 7] ⟨_, Or.inl rfl, rfl, rfl, rfl⟩
  refine ⟨out, h, ?_⟩
  have := he 1 1 7 rfl
  norm_num at this
  exact this

end Hazma.Dispatch
