import Verif.Lemmas.Spence

/-! # Polynomials with rational coefficients, evaluated by the kernel -/

namespace Hazma.Special

/-- Value of a polynomial, lowest coefficient first. -/
noncomputable def ev : List ℚ → ℝ → ℝ
  | [], _ => 0
  | a :: l, w => a + w * ev l w

/-- Sum of polynomials. -/
def padd : List ℚ → List ℚ → List ℚ
  | [], m => m
  | l, [] => l
  | a :: l, b :: m => (a + b) :: padd l m

/-- Multiple of a polynomial. -/
def pscale (c : ℚ) : List ℚ → List ℚ
  | [] => []
  | a :: l => c * a :: pscale c l

/-- Product of polynomials. -/
def pmul : List ℚ → List ℚ → List ℚ
  | [], _ => []
  | a :: l, m => padd (pscale a m) (0 :: pmul l m)

/-- The polynomial in `u = w - c`. -/
def pshift (c : ℚ) : List ℚ → List ℚ
  | [] => []
  | a :: l => padd [a] (padd (pscale c (pshift c l)) (0 :: pshift c l))

/-- Bound of a polynomial on `[-r, r]` by the absolute values of its coefficients. -/
def pabs (r : ℚ) : List ℚ → ℚ
  | [] => 0
  | a :: l => (if a < 0 then -a else a) + r * pabs r l

theorem ev_padd (w : ℝ) : ∀ l m, ev (padd l m) w = ev l w + ev m w
  | [], m => by simp [padd, ev]
  | a :: l, [] => by simp [padd, ev]
  | a :: l, b :: m => by
    simp only [padd, ev, ev_padd w l m]; push_cast; ring

theorem ev_pscale (w : ℝ) (c : ℚ) : ∀ l, ev (pscale c l) w = c * ev l w
  | [] => by simp [pscale, ev]
  | a :: l => by simp only [pscale, ev, ev_pscale w c l]; push_cast; ring

theorem ev_pmul (w : ℝ) (m : List ℚ) : ∀ l, ev (pmul l m) w = ev l w * ev m w
  | [] => by simp [pmul, ev]
  | a :: l => by simp only [pmul, ev_padd, ev_pscale, ev, ev_pmul w m l]; push_cast; ring

theorem ev_pshift (c : ℚ) (u : ℝ) : ∀ l, ev (pshift c l) u = ev l (c + u)
  | [] => by simp [pshift, ev]
  | a :: l => by
    simp only [pshift, ev_padd, ev_pscale, ev, ev_pshift c u l]; push_cast; ring

theorem abs_ev_le {r : ℚ} {u : ℝ} (hu : |u| ≤ r) : ∀ l, |ev l u| ≤ (pabs r l : ℝ)
  | [] => by simp [ev, pabs]
  | a :: l => by
    have ih := abs_ev_le hu l
    have h1 : |((a : ℚ) : ℝ)| = ((if a < 0 then -a else a : ℚ) : ℝ) := by
      split_ifs with h
      · rw [abs_of_neg (by exact_mod_cast h)]; push_cast; ring
      · rw [abs_of_nonneg (by exact_mod_cast not_lt.mp h)]
    simp only [ev, pabs]
    push_cast
    refine (abs_add_le _ _).trans ?_
    rw [abs_mul, h1]
    have h0 : (0 : ℝ) ≤ r := (abs_nonneg u).trans hu
    push_cast
    gcongr

theorem ev_ge_head {u : ℝ} (hu : 0 ≤ u) : ∀ (a : ℚ) (l : List ℚ), (∀ b ∈ l, 0 ≤ b) →
    (a : ℝ) ≤ ev (a :: l) u := by
  have hnn : ∀ l : List ℚ, (∀ b ∈ l, 0 ≤ b) → 0 ≤ ev l u := by
    intro l
    induction l with
    | nil => intro _; simp [ev]
    | cons b l ih =>
      intro h
      have h1 : (0 : ℝ) ≤ b := by exact_mod_cast h b (List.mem_cons_self ..)
      have h2 := ih fun x hx => h x (List.mem_cons_of_mem _ hx)
      simp only [ev]
      positivity
  intro a l h
  have := mul_nonneg hu (hnn l h)
  simp only [ev]
  linarith

theorem ev_series (f : ℕ → ℚ) (w : ℝ) : ∀ N k : ℕ,
    ev ((List.range' k N).map f) w = ∑ n ∈ Finset.range N, (f (k + n) : ℝ) * w ^ n
  | 0, k => by simp [ev]
  | N + 1, k => by
    rw [List.range'_succ, List.map_cons, ev, ev_series f w N (k + 1), Finset.sum_range_succ',
      Finset.mul_sum]
    rw [add_comm]
    congr 1
    · apply Finset.sum_congr rfl
      intro n _
      rw [show k + 1 + n = k + (n + 1) by ring, pow_succ]; ring
    · simp

/-- Coefficients of `∑ (-w)ⁿ/(n+1)²`. -/
def seriesCoeffs (N : ℕ) : List ℚ := (List.range' 0 N).map fun n : ℕ =>
  (-1 : ℚ) ^ n / ((n : ℚ) + 1) ^ 2

theorem ev_seriesCoeffs (N : ℕ) (w : ℝ) : ev (seriesCoeffs N) w = partialSum N w := by
  unfold seriesCoeffs partialSum
  rw [ev_series]
  apply Finset.sum_congr rfl
  intro n _
  push_cast
  rw [neg_pow w, zero_add]
  ring

/-- `SPENCE_A`, lowest coefficient first. -/
def coeffsA : List ℚ :=
  [1.00000000000000000126e0, 3.29771340985225106936e0, 4.25697156008121755724e0,
    2.71149851196553469920e0, 8.79691311754530315341e-1, 1.33847639578309018650e-1,
    7.31589045238094711071e-3, 4.65128586073990045278e-5]

/-- `SPENCE_B`, lowest coefficient first. -/
def coeffsB : List ℚ :=
  [9.99999999999999998740e-1, 3.54771340985225096217e0, 5.03278880143316990390e0,
    3.63800533345137075418e0, 1.41172597751831069617e0, 2.82974860602568089943e-1,
    2.54043763932544379113e-2, 6.90990488912553276999e-4]

/-- `P - T Q`. -/
def errPoly : List ℚ := padd coeffsA (pscale (-1) (pmul (seriesCoeffs 56) coeffsB))

/-- What the kernel checks on a cell `|w - c| ≤ 1/16`: the error polynomial is small compared with
the value of `Q` at the left end, and the coefficients of `Q` there are non-negative. -/
def cellOk (c : ℚ) : Bool :=
  match pshift (c - 1 / 16) coeffsB with
  | [] => false
  | q :: qs => decide (0 < q) && qs.all (fun b => decide (0 ≤ b)) &&
      decide (pabs (1 / 16) (pshift c errPoly) ≤ 5.5e-16 * q)

theorem cells_ok : ∀ k ∈ List.range 8, cellOk (-7 / 16 + (k : ℚ) / 8) = true := by
  decide +kernel

end Hazma.Special
