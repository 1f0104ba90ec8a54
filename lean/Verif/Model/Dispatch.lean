import Mathlib.Data.Real.Basic

/-!
# Argument dispatch of the compiled entry points (`rust/src/dispatch.rs`)

A Python object is described by what the dispatcher can observe of it: whether it is a `float`, whether it
is an ndarray (rank, dtype kind, whether the dtype is `float64`, the elements as numbers), whether it has
`__len__` and what `np.asarray` makes of it, and what `float(obj)` gives.  `np.asarray` itself may raise
(for example on a ragged list); that outcome is a field.  The text after the quantity name in a message is
part of the error.  Floats are reals.
-/

namespace Hazma.Dispatch

/-- Exceptions with their message (`dispatch.rs:68-91,320-337`). -/
inductive PyErr where
  | valueError (msg : String)
  | typeError (msg : String)
  /-- whatever numpy or a kernel raised -/
  | other (msg : String)
deriving DecidableEq

/-- An ndarray: rank, `dtype.kind`, dtype name, and its elements in logical order. `asFloat` is the outcome
of `float(array)` used for rank 0. -/
structure NdArray where
  ndim : ℕ
  kind : Char
  dtype : String
  elems : List ℝ
  asFloat : Option ℝ

/-- What the dispatcher can observe of a Python object. -/
inductive PyObj where
  /-- `float` and its subclasses, `np.float64` among them -/
  | float (x : ℝ)
  | array (a : NdArray)
  /-- anything else with `__len__`, with the outcome of `np.asarray` -/
  | sized (asArray : Except PyErr NdArray)
  /-- anything else without `__len__`, with the outcome of `float(obj)` -/
  | unsized (asFloat : Option ℝ)

/-- `Argument` (`dispatch.rs:61-64`). -/
inductive Argument where
  | scalar (x : ℝ)
  | vector (v : List ℝ)

/-- `dimension_error` (`dispatch.rs:68-70`). -/
def dimensionError (q : String) : PyErr := .valueError (q ++ " must be 0 or 1-dimensional.")
/-- `dtype_error` (`dispatch.rs:79-84`). -/
def dtypeError (a : NdArray) (q : String) : PyErr :=
  .valueError (q ++ " must be a float64 array; got dtype " ++ a.dtype ++ ".")
/-- `type_error` (`dispatch.rs:89-91`). -/
def typeErr (q : String) : PyErr := .typeError (q ++ " must be a float or a NumPy array.")

/-- `has_numeric_dtype` (`dispatch.rs:113-116`). -/
def hasNumericDtype (a : NdArray) : Bool := a.kind = 'b' || a.kind = 'i' || a.kind = 'u' || a.kind = 'f'

/-- `extract::<PyReadonlyArray1<f64>>`: rank 1 and dtype exactly `float64` (`dispatch.rs:136-140`). -/
def extractVector (a : NdArray) : Option (List ℝ) :=
  if a.ndim = 1 ∧ a.dtype = "float64" then some a.elems else none

/-- `classify_array` (`dispatch.rs:124-143`). -/
def classifyArray (a : NdArray) (q : String) : Except PyErr Argument :=
  if a.ndim = 0 then
    if hasNumericDtype a then
      match a.asFloat with
      | some x => .ok (.scalar x)
      | none => .error (dtypeError a q)
    else .error (dtypeError a q)
  else if a.ndim = 1 then
    match extractVector a with
    | some v => .ok (.vector v)
    | none => .error (dtypeError a q)
  else .error (dimensionError q)

/-- `classify` (`dispatch.rs:151-199`). -/
def classify (o : PyObj) (q : String) : Except PyErr Argument :=
  match o with
  | .float x => .ok (.scalar x)
  | .array a => classifyArray a q
  | .sized (.ok a) => classifyArray a q
  | .sized (.error e) => .error e
  | .unsized (some x) => .ok (.scalar x)
  | .unsized none => .error (typeErr q)

/-- What an entry point returns: a `float`, a 1-d array, a tuple of floats, or a 2-d array given by its
shape and its row-major buffer. -/
inductive PyOut where
  | float (x : ℝ)
  | array1 (v : List ℝ)
  | tuple (v : List ℝ)
  | array2 (rows cols : ℕ) (buf : List ℝ)

/-- `map_unary` (`dispatch.rs:211-227`). -/
def mapUnary (o : PyObj) (q : String) (kernel : ℝ → ℝ) : Except PyErr PyOut := do
  match ← classify o q with
  | .scalar x => return .float (kernel x)
  | .vector v => return .array1 (v.map kernel)

/-- `.map(kernel).collect::<PyResult<Vec<f64>>>()`: stops at the first error (`dispatch.rs:257-261`). -/
def collect (kernel : ℝ → Except PyErr ℝ) : List ℝ → Except PyErr (List ℝ)
  | [] => .ok []
  | x :: l => do
    let y ← kernel x
    let r ← collect kernel l
    return y :: r

/-- `map_unary_try` (`dispatch.rs:249-266`). -/
def mapUnaryTry (o : PyObj) (q : String) (kernel : ℝ → Except PyErr ℝ) : Except PyErr PyOut := do
  match ← classify o q with
  | .scalar x => do
    let y ← kernel x
    return .float y
  | .vector v => do
    let r ← collect kernel v
    return .array1 r

/-- A neutrino kernel's result: electron, muon, tau. -/
abbrev Triple := Fin 3 → ℝ

/-- `map_flavors` (`dispatch.rs:282-303`): the kernel is applied once per energy, then the three rows are
concatenated. -/
def mapFlavors (o : PyObj) (q : String) (kernel : ℝ → Triple) : Except PyErr PyOut := do
  match ← classify o q with
  | .scalar x => return .tuple [kernel x 0, kernel x 1, kernel x 2]
  | .vector v =>
    let flavors := v.map kernel
    let rows := (List.finRange 3).foldl (fun acc k => acc ++ flavors.map (fun t => t k)) []
    return .array2 3 flavors.length rows

/-- `require_vector` (`dispatch.rs:315-345`). -/
def requireVector (o : PyObj) (q : String) : Except PyErr (List ℝ) :=
  let check := fun (a : NdArray) =>
    if a.ndim ≠ 1 then .error (PyErr.valueError (q ++ " must be 1-dimensional."))
    else match extractVector a with
      | some v => .ok v
      | none => .error (dtypeError a q)
  match o with
  | .float _ => .error (.valueError (q ++ " must be a list or array."))
  | .unsized _ => .error (.valueError (q ++ " must be a list or array."))
  | .array a => check a
  | .sized (.ok a) => check a
  | .sized (.error e) => .error e

/-- Entry `(r, c)` of a row-major buffer. -/
def PyOut.entry (o : PyOut) (r c : ℕ) : Option ℝ :=
  match o with
  | .array2 rows cols buf => if r < rows ∧ c < cols then buf[r * cols + c]? else none
  | _ => none

end Hazma.Dispatch
