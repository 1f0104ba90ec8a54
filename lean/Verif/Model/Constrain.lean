import Verif.Model.Limits

/-!
# Scans of parameter space

Model of `hazma/theory/_theory_constrain.py` (`custom_constrain`, `constrain`, `constrain_binned_gamma` and its
helper).  The attributes of the theory are an abstract state.  `_img_to_ls`, which nothing calls, is not
modelled.
-/

namespace Hazma.Constrain

open Hazma.Limits

inductive ConErr where
  | valueError
  | indexError
  | notImplemented
  deriving DecidableEq

/-- A two-dimensional numpy array. -/
structure Img where
  rows : ℕ
  cols : ℕ
  data : ℕ → ℕ → ℝ

/-- `np.zeros([r, c])`. -/
def Img.zeros (r c : ℕ) : Img := ⟨r, c, fun _ _ => 0⟩

/-- `img[i, j] = v`. -/
def Img.set (im : Img) (i j : ℕ) (v : ℝ) : Except ConErr Img :=
  if i < im.rows ∧ j < im.cols then
    .ok { im with data := fun a b => if a = i ∧ b = j then v else im.data a b }
  else .error .indexError

variable {S : Type}

/-- Theory attributes, images and the grid points evaluated so far. -/
structure Scan (S : Type) where
  theory : S
  imgs : String → Img
  log : List (ℕ × ℕ)

/-- The innermost loop (`_theory_constrain.py:102-104`, `47-48`): all constraints at the current point. -/
def visit (cs : List (String × (S → ℝ))) (s : S) (at_ : ℕ × ℕ) (imgs : String → Img) :
    Except ConErr (String → Img) :=
  cs.foldlM (fun imgs c => do
    let im ← (imgs c.1).set at_.1 at_.2 (c.2 s)
    pure (Function.update imgs c.1 im)) imgs

/-- One grid point (`_theory_constrain.py:98-104`, `42-48`): set the parameters, then evaluate. -/
def step (cs : List (String × (S → ℝ))) (move : ℕ × ℕ → S → S) (idx : ℕ × ℕ → ℕ × ℕ) (st : Scan S)
    (p : ℕ × ℕ) : Except ConErr (Scan S) := do
  let s := move p st.theory
  let imgs ← visit cs s (idx p) st.imgs
  pure ⟨s, imgs, st.log ++ [p]⟩

/-- The two nested loops (`_theory_constrain.py:96-97`, `40-41`). -/
def grid (n m : ℕ) : List (ℕ × ℕ) := (List.range n).flatMap fun i => (List.range m).map fun j => (i, j)

/-- `ls_or_img`. -/
inductive Want where
  | image
  | ls
  | other
  deriving DecidableEq

/-- The end of both functions (`_theory_constrain.py:106-109`, `50-53`); the third case returns `None`. -/
def finish (cs : List (String × (S → ℝ))) (want : Want) (st : Scan S) :
    Except ConErr (Option (List (String × Img))) :=
  match want with
  | .image => .ok (some (cs.map fun c => (c.1, st.imgs c.1)))
  | .ls => .error .notImplemented
  | .other => .ok none

/-- What the caller sees: the result and, when the loops ran to the end, the theory and the points. -/
structure Outcome (S : Type) where
  result : Except ConErr (Option (List (String × Img)))
  after : Option (Scan S)

/-- Loops and return. -/
def run (cs : List (String × (S → ℝ))) (move : ℕ × ℕ → S → S) (idx : ℕ × ℕ → ℕ × ℕ) (shape : ℕ × ℕ)
    (pts : List (ℕ × ℕ)) (want : Want) (s0 : S) : Outcome S :=
  match pts.foldlM (step cs move idx) ⟨s0, fun _ => Img.zeros shape.1 shape.2, []⟩ with
  | .error e => ⟨.error e, none⟩
  | .ok st => ⟨finish cs want st, some st⟩

/-- `constrain` (`_theory_constrain.py:54-109`). -/
def constrain (setattr : String → ℝ → S → S) (cs : List (String × (S → ℝ))) (p1 : String) (v1 : List ℝ)
    (p2 : String) (v2 : List ℝ) (want : Want) (s0 : S) : Outcome S :=
  if p1 = p2 then ⟨.error .valueError, none⟩
  else run cs (fun p s => setattr p2 (v2.getD p.2 0) (setattr p1 (v1.getD p.1 0) s)) (fun p => (p.2, p.1))
    (v2.length, v1.length) (grid v1.length v2.length) want s0

/-- `custom_constrain` (`_theory_constrain.py:8-53`); `param_grid` has shape `(n_rows, n_cols)` and
`update` is `self.__dict__.update`.  The images are made with shape `[n_rows, n_rows]` (line 37). -/
def customConstrain {P : Type} (update : P → S → S) (cs : List (String × (S → ℝ))) (nRows nCols : ℕ)
    (paramGrid : ℕ → ℕ → P) (want : Want) (s0 : S) : Outcome S :=
  run cs (fun p s => update (paramGrid p.1 p.2) s) id (nRows, nRows) (grid nRows nCols) want s0

/-! ## Binned measurements -/

/-- `bin_constraint` (`_theory_constrain.py:140-156`); a NaN integral is `none`. -/
noncomputable def binConstraint (factor dw nSigma : ℝ) (integral : ℝ → ℝ → Option ℝ) (b : Bin) :
    Except LimErr (WithTop ℝ) :=
  match integral b.eLow b.eHigh with
  | none => .ok ⊤
  | some x =>
    let phi := factor * x
    if 0 < phi then
      let phiMax := dw * (b.eHigh - b.eLow) * (nSigma * b.upperErr + b.flux)
      if 0 < phiMax then .ok ((phiMax - phi : ℝ) : WithTop ℝ) else .error .assertion
    else .ok ⊤

/-- `_constrain_binned_gamma_helper` (`_theory_constrain.py:113-171`) for a theory with `kind` "ann" or
"dec", `sv` being the total cross section times the velocity. -/
noncomputable def binnedGamma (kind : Kind) (mx sv J dw nSigma : ℝ) (integral : ℝ → ℝ → Option ℝ)
    (bins : List Bin) (m : Method) : Except LimErr (WithTop ℝ) :=
  match kind with
  | .ann =>
    let factor := sv * J * dw / (2 * 2 * mx ^ 2 * 4 * Real.pi)
    match bins.mapM (binConstraint factor dw nSigma integral) with
    | .error e => .error e
    | .ok l => if m = .oneBin then npMin l else .error .notImplemented
  | _ => .error .notImplemented

end Hazma.Constrain
