import Verif.Model.Constrain
import Verif.Props.Limits

/-!
# Scans of parameter space (C49, C109–C111)
-/

namespace Hazma.Constrain

open Hazma.Limits

variable {S : Type}

theorem visit_ok (cs : List (String × (S → ℝ))) (hn : (cs.map Prod.fst).Nodup) (s : S) (i j : ℕ)
    (imgs : String → Img) (hr : ∀ c ∈ cs, i < (imgs c.1).rows ∧ j < (imgs c.1).cols) :
    ∃ imgs', visit cs s (i, j) imgs = .ok imgs'
      ∧ (∀ c ∈ cs, imgs' c.1 = { imgs c.1 with data := fun a b => if a = i ∧ b = j then c.2 s else (imgs c.1).data a b })
      ∧ ∀ n, n ∉ cs.map Prod.fst → imgs' n = imgs n := by
  induction cs generalizing imgs with
  | nil => exact ⟨imgs, rfl, by simp, fun _ _ => rfl⟩
  | cons c t ih =>
    simp only [List.map_cons, List.nodup_cons] at hn
    have hc := hr c (by simp)
    obtain ⟨im, him⟩ : ∃ im : Img, im = { imgs c.1 with data := fun a b => if a = i ∧ b = j then c.2 s else (imgs c.1).data a b } := ⟨_, rfl⟩
    have hne : ∀ d ∈ t, d.1 ≠ c.1 := by
      intro d hd he
      exact hn.1 (he ▸ List.mem_map_of_mem hd)
    obtain ⟨imgs', h1, h2, h3⟩ := ih hn.2 (Function.update imgs c.1 im) (by
      intro d hd
      rw [Function.update_of_ne (hne d hd)]
      exact hr d (by simp [hd]))
    refine ⟨imgs', ?_, ?_, ?_⟩
    · have : (imgs c.1).set i j (c.2 s) = .ok im := by rw [him, Img.set, if_pos hc]
      simp only [visit, List.foldlM_cons, this, bind, Except.bind, pure, Except.pure] at h1 ⊢
      exact h1
    · intro d hd
      rcases List.mem_cons.mp hd with rfl | hd
      · rw [h3 _ hn.1, Function.update_self, him]
      · rw [h2 d hd, Function.update_of_ne (hne d hd)]
    · intro n hnn
      simp only [List.map_cons, List.mem_cons, not_or] at hnn
      rw [h3 n hnn.2, Function.update_of_ne hnn.1]

/-- The loops over any list of points inside the images. -/
theorem scan_ok (cs : List (String × (S → ℝ))) (hn : (cs.map Prod.fst).Nodup) (move : ℕ × ℕ → S → S)
    (hmove : ∀ p q s, move p (move q s) = move p s) (idx : ℕ × ℕ → ℕ × ℕ) (hidx : Function.Injective idx)
    (R C : ℕ) (s0 : S) (pts : List (ℕ × ℕ)) (hpts : ∀ p ∈ pts, (idx p).1 < R ∧ (idx p).2 < C)
    (st : Scan S) (hst : ∀ p, move p st.theory = move p s0)
    (hsh : ∀ c ∈ cs, (st.imgs c.1).rows = R ∧ (st.imgs c.1).cols = C) :
    ∃ st', pts.foldlM (step cs move idx) st = .ok st'
      ∧ st'.log = st.log ++ pts
      ∧ (∀ h : pts ≠ [], st'.theory = move (pts.getLast h) s0)
      ∧ (∀ c ∈ cs, (st'.imgs c.1).rows = R ∧ (st'.imgs c.1).cols = C)
      ∧ (∀ c ∈ cs, ∀ p ∈ pts, (st'.imgs c.1).data (idx p).1 (idx p).2 = c.2 (move p s0))
      ∧ (∀ c ∈ cs, ∀ a b, (∀ p ∈ pts, idx p ≠ (a, b)) → (st'.imgs c.1).data a b = (st.imgs c.1).data a b) := by
  induction pts generalizing st with
  | nil => exact ⟨st, rfl, by simp, fun h => absurd rfl h, hsh, by simp, fun _ _ _ _ _ => rfl⟩
  | cons p t ih =>
    have hp := hpts p (by simp)
    obtain ⟨imgs', h1, h2, -⟩ := visit_ok cs hn (move p st.theory) (idx p).1 (idx p).2 st.imgs (by
      intro c hc
      obtain ⟨e1, e2⟩ := hsh c hc
      rw [e1, e2]; exact hp)
    have hstep : step cs move idx st p = .ok ⟨move p st.theory, imgs', st.log ++ [p]⟩ := by
      simp only [step, bind, Except.bind, pure, Except.pure]
      rw [show idx p = ((idx p).1, (idx p).2) from rfl, h1]
    obtain ⟨st', k1, k2, k3, k4, k5, k6⟩ := ih (fun q hq => hpts q (by simp [hq]))
      ⟨move p st.theory, imgs', st.log ++ [p]⟩ (fun q => by rw [hmove, hst]) (fun c hc => by
        simp only; rw [h2 c hc]; exact hsh c hc)
    refine ⟨st', ?_, ?_, ?_, k4, ?_, ?_⟩
    · rw [List.foldlM_cons, hstep]; exact k1
    · rw [k2]; simp
    · intro h
      cases t with
      | nil =>
        have : st' = ⟨move p st.theory, imgs', st.log ++ [p]⟩ := by
          simpa [pure, Except.pure] using k1.symm
        rw [this]; exact hst p
      | cons q u => rw [k3 (by simp)]; rfl
    · intro c hc q hq
      by_cases hqt : q ∈ t
      · exact k5 c hc q hqt
      · have hqp : q = p := by
          rcases List.mem_cons.mp hq with h | h
          · exact h
          · exact absurd h hqt
        subst hqp
        rw [k6 c hc _ _ (fun r hr he => hqt (by
          have : idx r = idx q := he
          exact hidx this ▸ hr))]
        simp only [h2 c hc]
        simp only [and_self, if_true]
        rw [hst]
    · intro c hc a b hab
      rw [k6 c hc a b (fun q hq => hab q (by simp [hq]))]
      simp only [h2 c hc]
      rw [if_neg]
      rintro ⟨rfl, rfl⟩
      exact hab p (by simp) rfl

theorem getD_lt (l : List ℝ) {i : ℕ} (h : i < l.length) : l.getD i 0 = l[i] := by
  simp [List.getD, h]

theorem mem_grid {n m : ℕ} {p : ℕ × ℕ} : p ∈ grid n m ↔ p.1 < n ∧ p.2 < m := by
  simp only [grid, List.mem_flatMap, List.mem_range, List.mem_map]
  constructor
  · rintro ⟨i, hi, j, hj, rfl⟩; exact ⟨hi, hj⟩
  · rintro ⟨h1, h2⟩; exact ⟨p.1, h1, p.2, h2, rfl⟩

theorem grid_nodup (n m : ℕ) : (grid n m).Nodup := by
  unfold grid
  rw [List.nodup_flatMap]
  refine ⟨fun i _ => (List.nodup_range).map (fun a b h => (Prod.mk.inj h).2), ?_⟩
  refine (List.nodup_range (n := n)).imp fun {a b} hab => ?_
  simp only [Function.onFun, List.disjoint_left, List.mem_map, List.mem_range]
  rintro x ⟨i, -, rfl⟩ ⟨j, -, hj⟩
  exact hab (Prod.mk.inj hj).1.symm

theorem grid_last {n m : ℕ} (hn : 0 < n) (hm : 0 < m) (h : grid n m ≠ []) :
    (grid n m).getLast h = (n - 1, m - 1) := by
  obtain ⟨k, rfl⟩ : ∃ k, n = k + 1 := ⟨n - 1, by omega⟩
  obtain ⟨l, rfl⟩ : ∃ l, m = l + 1 := ⟨m - 1, by omega⟩
  have e : grid (k + 1) (l + 1) = (grid k (l + 1) ++ (List.range l).map fun j => (k, j)) ++ [(k, l)] := by
    simp [grid, List.range_succ]
  simp only [e]
  simp

/-- C49: with setters that overwrite, the image of a constraint at row `j`, column `i` is the constraint of
the theory with `p1` at its `i`-th and `p2` at its `j`-th value; the image has a row per value of `p2` and a
column per value of `p1`; every grid point is evaluated exactly once. -/
theorem scan_image (setattr : String → ℝ → S → S) (cs : List (String × (S → ℝ)))
    (hn : (cs.map Prod.fst).Nodup) (p1 p2 : String) (v1 v2 : List ℝ) (hp : p1 ≠ p2) (s0 : S)
    (hset : ∀ a b a' b' s, setattr p2 b (setattr p1 a (setattr p2 b' (setattr p1 a' s)))
      = setattr p2 b (setattr p1 a s)) :
    ∃ imgs st, constrain setattr cs p1 v1 p2 v2 .image s0 = ⟨.ok (some imgs), some st⟩
      ∧ imgs.map Prod.fst = cs.map Prod.fst
      ∧ (∀ c ∈ cs, ∃ im, (c.1, im) ∈ imgs ∧ im.rows = v2.length ∧ im.cols = v1.length
        ∧ ∀ i j (hi : i < v1.length) (hj : j < v2.length),
          im.data j i = c.2 (setattr p2 v2[j] (setattr p1 v1[i] s0)))
      ∧ st.log.Nodup ∧ (∀ p, p ∈ st.log ↔ p.1 < v1.length ∧ p.2 < v2.length) := by
  obtain ⟨st, k1, k2, -, k4, k5, -⟩ := scan_ok cs hn
    (fun p s => setattr p2 (v2.getD p.2 0) (setattr p1 (v1.getD p.1 0) s))
    (fun p q s => hset _ _ _ _ _) (fun p => (p.2, p.1))
    (fun a b h => Prod.ext (Prod.mk.inj h).2 (Prod.mk.inj h).1) v2.length v1.length s0
    (grid v1.length v2.length) (fun p h => (mem_grid.mp h).symm)
    ⟨s0, fun _ => Img.zeros v2.length v1.length, []⟩ (fun _ => rfl) (fun _ _ => ⟨rfl, rfl⟩)
  refine ⟨cs.map fun c => (c.1, st.imgs c.1), st, ?_, ?_, ?_, ?_, ?_⟩
  · simp only [constrain, if_neg hp, run, k1, finish]
  · simp [Function.comp_def]
  · intro c hc
    refine ⟨st.imgs c.1, List.mem_map.mpr ⟨c, hc, rfl⟩, (k4 c hc).1, (k4 c hc).2, fun i j hi hj => ?_⟩
    have := k5 c hc (i, j) (mem_grid.mpr ⟨hi, hj⟩)
    simp only [getD_lt v1 hi, getD_lt v2 hj] at this
    exact this
  · rw [k2]; exact grid_nodup _ _
  · intro p; rw [k2]; exact mem_grid

/-- The setters of ordinary attributes overwrite. -/
theorem attributes_overwrite (p1 p2 : String) (a b a' b' : ℝ) (s : String → ℝ) :
    Function.update (Function.update (Function.update (Function.update s p1 a') p2 b') p1 a) p2 b
      = Function.update (Function.update s p1 a) p2 b := by
  funext x
  simp only [Function.update_apply]
  split_ifs <;> rfl

/-- A scan over `mx` and `g` of the constraint `mx - 10 g` from a grid of two masses and three couplings. -/
example : ∃ imgs st, constrain (S := String → ℝ) (fun n v s => Function.update s n v)
      [("c", fun s => s "mx" - 10 * s "g")] "mx" [100, 200] "g" [1, 2, 3] .image (fun _ => 0)
        = ⟨.ok (some imgs), some st⟩ ∧ ∃ im, ("c", im) ∈ imgs ∧ im.data 2 1 = 170 := by
  obtain ⟨imgs, st, h1, -, h3, -⟩ := scan_image (S := String → ℝ) (fun n v s => Function.update s n v)
    [("c", fun s => s "mx" - 10 * s "g")] (by simp) "mx" "g" [100, 200] [1, 2, 3] (by decide) (fun _ => 0)
    (fun a b a' b' s => attributes_overwrite "mx" "g" a b a' b' s)
  obtain ⟨im, h4, -, -, h5⟩ := h3 _ (List.mem_singleton_self _)
  refine ⟨imgs, st, h1, im, h4, ?_⟩
  rw [h5 1 2 (by simp) (by simp)]
  simp
  norm_num

/-- C109 is false: the docstring promises `I_ij` at `(p1_vals[i], p2_vals[j])`.  With two masses, three
couplings and the constraint `mx - 10 g` the entry `[0, 1]` belongs to the second mass and first coupling. -/
theorem image_transposed :
    ∃ imgs st im, constrain (S := String → ℝ) (fun n v s => Function.update s n v)
        [("c", fun s => s "mx" - 10 * s "g")] "mx" [100, 200] "g" [1, 2, 3] .image (fun _ => 0)
          = ⟨.ok (some imgs), some st⟩ ∧ ("c", im) ∈ imgs ∧ im.rows = 3 ∧ im.cols = 2
      ∧ im.data 0 1 = 190 ∧ im.data 0 1 ≠ 100 - 10 * 2 := by
  obtain ⟨imgs, st, h1, -, h3, -⟩ := scan_image (S := String → ℝ) (fun n v s => Function.update s n v)
    [("c", fun s => s "mx" - 10 * s "g")] (by simp) "mx" "g" [100, 200] [1, 2, 3] (by decide) (fun _ => 0)
    (fun a b a' b' s => attributes_overwrite "mx" "g" a b a' b' s)
  obtain ⟨im, h4, hr, hc, h5⟩ := h3 _ (List.mem_singleton_self _)
  have e : im.data 0 1 = 190 := by
    rw [h5 1 0 (by simp) (by simp)]
    simp
    norm_num
  exact ⟨imgs, st, im, h1, h4, hr, hc, e, by rw [e]; norm_num⟩

/-- C110: what a scan does besides returning images.  Equal names are refused before anything happens;
otherwise the theory keeps the values of the last grid point, level sets are refused only after the whole scan,
and an unknown request returns nothing. -/
theorem scan_effects (setattr : String → ℝ → S → S) (cs : List (String × (S → ℝ)))
    (hn : (cs.map Prod.fst).Nodup) (p1 p2 : String) (v1 v2 : List ℝ) (s0 : S) (want : Want)
    (hset : ∀ a b a' b' s, setattr p2 b (setattr p1 a (setattr p2 b' (setattr p1 a' s)))
      = setattr p2 b (setattr p1 a s)) :
    (p1 = p2 → constrain setattr cs p1 v1 p2 v2 want s0 = ⟨.error .valueError, none⟩)
    ∧ (p1 ≠ p2 → ∀ (h1 : v1 ≠ []) (h2 : v2 ≠ []),
        ∃ st, (constrain setattr cs p1 v1 p2 v2 want s0).after = some st
          ∧ st.theory = setattr p2 (v2.getLast h2) (setattr p1 (v1.getLast h1) s0)
          ∧ st.log.length = v1.length * v2.length
          ∧ (want = .ls → (constrain setattr cs p1 v1 p2 v2 want s0).result = .error .notImplemented)
          ∧ (want = .other → (constrain setattr cs p1 v1 p2 v2 want s0).result = .ok none)) := by
  refine ⟨fun h => by simp only [constrain, if_pos h], fun hp h1 h2 => ?_⟩
  obtain ⟨st, k1, k2, k3, -, -, -⟩ := scan_ok cs hn
    (fun p s => setattr p2 (v2.getD p.2 0) (setattr p1 (v1.getD p.1 0) s))
    (fun p q s => hset _ _ _ _ _) (fun p => (p.2, p.1))
    (fun a b h => Prod.ext (Prod.mk.inj h).2 (Prod.mk.inj h).1) v2.length v1.length s0
    (grid v1.length v2.length) (fun p h => (mem_grid.mp h).symm)
    ⟨s0, fun _ => Img.zeros v2.length v1.length, []⟩ (fun _ => rfl) (fun _ _ => ⟨rfl, rfl⟩)
  have l1 := List.length_pos_iff.mpr h1
  have l2 := List.length_pos_iff.mpr h2
  have hg : grid v1.length v2.length ≠ [] := List.ne_nil_of_mem (mem_grid (p := (0, 0)).mpr ⟨l1, l2⟩)
  refine ⟨st, ?_, ?_, ?_, ?_, ?_⟩
  · simp only [constrain, if_neg hp, run, k1]
  · rw [k3 hg, grid_last l1 l2]
    simp only
    rw [List.getLast_eq_getElem, List.getLast_eq_getElem, getD_lt v1 (by omega),
      getD_lt v2 (by omega)]
  · rw [k2]
    simp [grid, List.length_flatMap]
  · rintro rfl; simp only [constrain, if_neg hp, run, k1, finish]
  · rintro rfl; simp only [constrain, if_neg hp, run, k1, finish]

/-! ### Custom grids -/

/-- C111 is false: a grid with more columns than rows raises `IndexError`. -/
theorem custom_wide_fails {P : Type} (update : P → S → S) (cs : List (String × (S → ℝ)))
    (hn : (cs.map Prod.fst).Nodup) (hcs : cs ≠ []) (nRows nCols : ℕ) (h0 : 0 < nRows) (h : nRows < nCols)
    (g : ℕ → ℕ → P) (hup : ∀ a b s, update a (update b s) = update a s) (want : Want) (s0 : S) :
    customConstrain update cs nRows nCols g want s0 = ⟨.error .indexError, none⟩ := by
  obtain ⟨k, rfl⟩ : ∃ k, nRows = k + 1 := ⟨nRows - 1, by omega⟩
  obtain ⟨d, rfl⟩ : ∃ d, nCols = (k + 1) + (d + 1) := ⟨nCols - (k + 1) - 1, by omega⟩
  have hgrid : ∃ rest, grid (k + 1) (k + 1 + (d + 1))
      = ((List.range (k + 1)).map fun j => (0, j)) ++ (0, k + 1) :: rest := by
    refine ⟨((List.range d).map fun j => (0, k + 1 + (j + 1)))
      ++ ((List.range k).map Nat.succ).flatMap fun i => (List.range (k + 1 + (d + 1))).map fun j => (i, j), ?_⟩
    unfold grid
    rw [List.range_succ_eq_map (n := k), List.flatMap_cons, List.range_add (n := k + 1) (m := d + 1), List.map_append,
      List.append_assoc]
    congr 1
    · rw [List.range_succ_eq_map (n := k)]
    · rw [List.range_succ_eq_map (n := d)]
      simp [Function.comp_def]
  obtain ⟨rest, hrest⟩ := hgrid
  obtain ⟨st, k1, -, -, k4, -, -⟩ := scan_ok cs hn (fun p s => update (g p.1 p.2) s)
    (fun p q s => hup _ _ _) id Function.injective_id (k + 1) (k + 1) s0
    ((List.range (k + 1)).map fun j => (0, j)) (by
      intro p hp
      obtain ⟨j, hj, rfl⟩ := List.mem_map.mp hp
      exact ⟨Nat.succ_pos k, List.mem_range.mp hj⟩)
    ⟨s0, fun _ => Img.zeros (k + 1) (k + 1), []⟩ (fun _ => rfl) (fun _ _ => ⟨rfl, rfl⟩)
  have hstep : step cs (fun p s => update (g p.1 p.2) s) id st (0, k + 1) = .error .indexError := by
    obtain ⟨c, t, rfl⟩ : ∃ c t, cs = c :: t := List.exists_cons_of_ne_nil hcs
    have hc := k4 c (by simp)
    simp only [step, visit, id, List.foldlM_cons, Img.set, hc.1, hc.2, lt_irrefl, and_false, if_false, bind,
      Except.bind]
  have hfold : (grid (k + 1) (k + 1 + (d + 1))).foldlM (step cs (fun p s => update (g p.1 p.2) s) id)
      ⟨s0, fun _ => Img.zeros (k + 1) (k + 1), []⟩ = .error .indexError := by
    rw [hrest, List.foldlM_append, k1]
    change List.foldlM _ st _ = _
    rw [List.foldlM_cons, hstep]
    rfl
  simp only [customConstrain, run, hfold]

/-- C111, what holds: for at least as many rows as columns every entry of the grid is right, but the image is
square, with columns of zeros to the right of the grid; a square grid is handled correctly. -/
theorem custom_tall_partial {P : Type} (update : P → S → S) (cs : List (String × (S → ℝ)))
    (hn : (cs.map Prod.fst).Nodup) (nRows nCols : ℕ) (h : nCols ≤ nRows)
    (g : ℕ → ℕ → P) (hup : ∀ a b s, update a (update b s) = update a s) (s0 : S) :
    ∃ imgs st, customConstrain update cs nRows nCols g .image s0 = ⟨.ok (some imgs), some st⟩
      ∧ ∀ c ∈ cs, ∃ im, (c.1, im) ∈ imgs ∧ im.rows = nRows ∧ im.cols = nRows
        ∧ (∀ i j, i < nRows → j < nCols → im.data i j = c.2 (update (g i j) s0))
        ∧ (∀ i j, nCols ≤ j → im.data i j = 0) := by
  obtain ⟨st, k1, -, -, k4, k5, k6⟩ := scan_ok cs hn (fun p s => update (g p.1 p.2) s)
    (fun p q s => hup _ _ _) id Function.injective_id nRows nRows s0 (grid nRows nCols)
    (fun p hp => ⟨(mem_grid.mp hp).1, lt_of_lt_of_le (mem_grid.mp hp).2 h⟩)
    ⟨s0, fun _ => Img.zeros nRows nRows, []⟩ (fun _ => rfl) (fun _ _ => ⟨rfl, rfl⟩)
  refine ⟨cs.map fun c => (c.1, st.imgs c.1), st, ?_, fun c hc => ?_⟩
  · simp only [customConstrain, run, k1, finish]
  · refine ⟨st.imgs c.1, List.mem_map.mpr ⟨c, hc, rfl⟩, (k4 c hc).1, (k4 c hc).2, fun i j hi hj => ?_,
      fun i j hj => ?_⟩
    · exact k5 c hc (i, j) (mem_grid.mpr ⟨hi, hj⟩)
    · rw [k6 c hc i j]
      · rfl
      · intro p hp he
        have h2 := (mem_grid.mp hp).2
        have h3 : p.2 = j := congrArg Prod.snd he
        omega

/-- A 2 × 3 grid of masses. -/
example : customConstrain (S := ℝ) (fun p _ => p) [("c", fun s => s)] 2 3 (fun i j => (i + j : ℝ)) .image 0
    = ⟨.error .indexError, none⟩ :=
  custom_wide_fails (P := ℝ) (fun p _ => p) [("c", fun s => s)] (by simp) (by simp) 2 3 (by norm_num) (by norm_num) (fun i j => (i + j : ℝ)) (fun _ _ _ => rfl) .image 0

/-! ### Binned measurements -/

theorem mapM_ok {α β ε : Type} (f : α → Except ε β) (g : α → β) (l : List α) (h : ∀ a ∈ l, f a = .ok (g a)) :
    l.mapM f = .ok (l.map g) := by
  induction l with
  | nil => rfl
  | cons a t ih =>
    rw [List.mapM_cons, h a (by simp), ih fun b hb => h b (by simp [hb])]
    rfl

/-- C112: the scan of a binned measurement agrees with the limit from the same measurement: the image is
non-negative exactly when the annihilation rate is at most the one-bin limit. -/
theorem binned_image_agrees_with_limit (mx sv J D dw n : ℝ) (hsv : 0 ≤ sv) (integral : ℝ → ℝ → ℝ)
    (ppf : ℝ → ℕ → ℝ) (bins : List Bin) (hne : bins ≠ []) (htol : ∀ b ∈ bins, 0 < toleratedFlux dw n b) :
    ∃ v L, binnedGamma .ann mx sv J dw n (fun a b => some (integral a b)) bins .oneBin = .ok v
      ∧ binnedLimit .ann mx ⟨some J, some D, some dw⟩ integral ppf bins n .oneBin = .ok L
      ∧ (0 ≤ v ↔ (sv : WithTop ℝ) ≤ L) := by
  obtain ⟨L, hL, hiff, -⟩ := one_bin_limit_is_largest_allowed_rate .ann (by decide) mx J D dw n integral ppf bins
    hne (fun b hb => (htol b hb).le)
  obtain ⟨v0, hv0⟩ : ∃ f : Bin → WithTop ℝ, f = fun b =>
      if 0 < predictedFlux .ann mx J D dw integral sv b
        then ((toleratedFlux dw n b - predictedFlux .ann mx J D dw integral sv b : ℝ) : WithTop ℝ) else ⊤ :=
    ⟨_, rfl⟩
  have hphi : ∀ b, sv * J * dw / (2 * 2 * mx ^ 2 * 4 * Real.pi) * integral b.eLow b.eHigh
      = predictedFlux .ann mx J D dw integral sv b := by
    intro b
    simp only [predictedFlux]
    by_cases hm : mx = 0
    · simp [hm]
    · have := Real.pi_ne_zero
      field_simp
      try ring
  have hb : ∀ b ∈ bins, binConstraint (sv * J * dw / (2 * 2 * mx ^ 2 * 4 * Real.pi)) dw n
      (fun a b => some (integral a b)) b = .ok (v0 b) := by
    intro b hb
    have ht : dw * (b.eHigh - b.eLow) * (n * b.upperErr + b.flux) = toleratedFlux dw n b := by
      simp only [toleratedFlux]; ring
    simp only [binConstraint, hphi, ht, hv0, if_pos (htol b hb)]
    split_ifs <;> rfl
  obtain ⟨v, h1, h2, h3⟩ := npMin_spec (bins.map v0) (by simpa using hne)
  refine ⟨v, L, ?_, hL, ?_⟩
  · simp only [binnedGamma, mapM_ok _ v0 bins hb, if_true, h1]
  · rw [hiff sv hsv]
    have key : ∀ b, 0 ≤ v0 b ∧ 0 < toleratedFlux dw n b
        ↔ predictedFlux .ann mx J D dw integral sv b ≤ toleratedFlux dw n b ∧ 0 < toleratedFlux dw n b := by
      intro b
      refine and_congr_left fun ht => ?_
      simp only [hv0]
      split_ifs with hp
      · rw [← WithTop.coe_zero, WithTop.coe_le_coe, sub_nonneg]
      · simp only [le_top, true_iff]
        exact (not_lt.mp hp).trans ht.le
    constructor
    · intro hv b hb
      have := h3 (v0 b) (List.mem_map_of_mem hb)
      exact ((key b).mp ⟨hv.trans this, htol b hb⟩).1
    · intro hall
      obtain ⟨b, hb, rfl⟩ := List.mem_map.mp h2
      exact ((key b).mpr ⟨hall b hb, htol b hb⟩).1

end Hazma.Constrain
