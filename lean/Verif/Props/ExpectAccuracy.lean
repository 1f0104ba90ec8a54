import Verif.Props.PhaseApi
import Mathlib.Tactic

/-! # C254: how far apart the two quadratures of an expectation value are -/

namespace Hazma.PhaseApi

open Set MeasureTheory Hazma.PhaseSpace

/-- Bins of width at most `h`. -/
def Mesh (h : ℝ) : List ℝ → Prop
  | x :: y :: l => y - x ≤ h ∧ Mesh h (y :: l)
  | _ => True

/-- One cell: a linear density times a Lipschitz function against the trapezium of the products. -/
theorem cell_error {f : ℝ → ℝ} {K : NNReal} {a b h y y' : ℝ} (hab : a < b) (hh : b - a ≤ h)
    (hf : LipschitzOnWith K f (Icc a b)) (hy : 0 ≤ y) (hy' : 0 ≤ y') :
    IntervalIntegrable (fun x => ((y' - y) / (b - a) * (x - a) + y) * f x) volume a b ∧
    |(∫ x in a..b, ((y' - y) / (b - a) * (x - a) + y) * f x) - (b - a) * (y * f a + y' * f b) / 2|
      ≤ K * h * ((b - a) * (y + y') / 2) := by
  have hd : 0 < b - a := by linarith
  have hc : ContinuousOn f (uIcc a b) := by rw [uIcc_of_le hab.le]; exact hf.continuousOn
  have i1 : IntervalIntegrable (fun x => ((y' - y) / (b - a) * (x - a) + y) * f x) volume a b :=
    ContinuousOn.intervalIntegrable ((Continuous.continuousOn (by fun_prop)).mul hc)
  refine ⟨i1, ?_⟩
  obtain ⟨u, hu⟩ : ∃ u, u = y / (b - a) := ⟨_, rfl⟩
  obtain ⟨v, hv⟩ : ∃ v, v = y' / (b - a) := ⟨_, rfl⟩
  have hu0 : 0 ≤ u := by rw [hu]; positivity
  have hv0 : 0 ≤ v := by rw [hv]; positivity
  have ey : y = u * (b - a) := by rw [hu]; field_simp
  have ey' : y' = v * (b - a) := by rw [hv]; field_simp
  have hp : ∀ x, (y' - y) / (b - a) * (x - a) + y = u * (b - x) + v * (x - a) := by
    intro x; rw [ey, ey']; field_simp; ring
  have lin : ∀ p q : ℝ, ∫ x in a..b, (p * (b - x) + q * (x - a)) = (b - a) * (p * (b - a) + q * (b - a)) / 2 := by
    intro p q
    have e : ∀ x, p * (b - x) + q * (x - a) = (q - p) * x + (p * b - q * a) := fun x => by ring
    simp only [e]
    rw [intervalIntegral.integral_add (Continuous.intervalIntegrable (by fun_prop) _ _)
      (Continuous.intervalIntegrable (by fun_prop) _ _), intervalIntegral.integral_const_mul, integral_id,
      intervalIntegral.integral_const, smul_eq_mul]
    ring
  have e1 : (b - a) * (y * f a + y' * f b) / 2
      = ∫ x in a..b, (u * f a * (b - x) + v * f b * (x - a)) := by
    rw [lin, ey, ey']; ring
  have e2 : K * h * ((b - a) * (y + y') / 2) = ∫ x in a..b, K * h * (u * (b - x) + v * (x - a)) := by
    rw [intervalIntegral.integral_const_mul, lin, ey, ey']
  rw [e1, e2, ← intervalIntegral.integral_sub i1 (Continuous.intervalIntegrable (by fun_prop) _ _)]
  refine (intervalIntegral.abs_integral_le_integral_abs hab.le).trans ?_
  refine intervalIntegral.integral_mono_on hab.le
    (i1.sub (Continuous.intervalIntegrable (by fun_prop) _ _)).abs
    (Continuous.intervalIntegrable (by fun_prop) _ _) fun x hx => ?_
  rw [hp]
  have ea := hf.dist_le_mul x hx a (left_mem_Icc.2 hab.le)
  have eb := hf.dist_le_mul x hx b (right_mem_Icc.2 hab.le)
  rw [Real.dist_eq, Real.dist_eq] at ea eb
  have hxa : |x - a| ≤ h := by rw [abs_of_nonneg (by linarith [hx.1])]; linarith [hx.2]
  have hxb : |x - b| ≤ h := by rw [abs_sub_comm, abs_of_nonneg (by linarith [hx.2])]; linarith [hx.1]
  have ea' : |f x - f a| ≤ K * h := ea.trans (mul_le_mul_of_nonneg_left hxa K.2)
  have eb' : |f x - f b| ≤ K * h := eb.trans (mul_le_mul_of_nonneg_left hxb K.2)
  have w1 : 0 ≤ u * (b - x) := mul_nonneg hu0 (by linarith [hx.2])
  have w2 : 0 ≤ v * (x - a) := mul_nonneg hv0 (by linarith [hx.1])
  calc |(u * (b - x) + v * (x - a)) * f x - (u * f a * (b - x) + v * f b * (x - a))|
      = |u * (b - x) * (f x - f a) + v * (x - a) * (f x - f b)| := by congr 1; ring
    _ ≤ |u * (b - x) * (f x - f a)| + |v * (x - a) * (f x - f b)| := abs_add_le _ _
    _ = u * (b - x) * |f x - f a| + v * (x - a) * |f x - f b| := by
        rw [abs_mul (u * (b - x)), abs_mul (v * (x - a)), abs_of_nonneg w1, abs_of_nonneg w2]
    _ ≤ u * (b - x) * (K * h) + v * (x - a) * (K * h) :=
        add_le_add (mul_le_mul_of_nonneg_left ea' w1) (mul_le_mul_of_nonneg_left eb' w2)
    _ = K * h * (u * (b - x) + v * (x - a)) := by ring

/-- All cells. -/
theorem interp0_error {f : ℝ → ℝ} {K : NNReal} {h : ℝ} {a : ℝ} {l ys : List ℝ} (hs : (a :: l).Pairwise (· < ·))
    (hm : Mesh h (a :: l)) (hl : (a :: l).length = ys.length) (hy : ∀ y ∈ ys, 0 ≤ y)
    (hf : LipschitzOnWith K f (Icc a ((a :: l).getLast (by simp)))) :
    IntervalIntegrable (fun x => interp0 (a :: l) ys x * f x) volume a ((a :: l).getLast (by simp)) ∧
    |(∫ x in a..((a :: l).getLast (by simp)), interp0 (a :: l) ys x * f x)
      - trapezoid (a :: l) (List.zipWith (fun p f => p * f) ys ((a :: l).map f))|
      ≤ K * h * trapezoid (a :: l) ys := by
  induction l generalizing a ys with
  | nil =>
    match ys, hl with
    | [y], _ => simp [trapezoid]
  | cons b l ih =>
    match ys, hl with
    | y :: y' :: ys, hl =>
      have hab : a < b := List.rel_of_pairwise_cons hs (by simp)
      have hlast : (a :: b :: l).getLast (by simp) = (b :: l).getLast (by simp) := by simp
      have hbl := head_le_last hs.tail
      rw [hlast] at hf
      obtain ⟨i2, e2⟩ := ih (ys := y' :: ys) hs.tail hm.2 (by simpa using hl)
        (fun z hz => hy z (List.mem_cons_of_mem _ hz)) (hf.mono (Icc_subset_Icc hab.le le_rfl))
      obtain ⟨j1, e1⟩ := cell_error (f := f) (K := K) (y := y) (y' := y') hab hm.1
        (hf.mono (Icc_subset_Icc le_rfl hbl)) (hy y (by simp)) (hy y' (by simp))
      have c1 : Set.EqOn (fun x => interp0 (a :: b :: l) (y :: y' :: ys) x * f x)
          (fun x => ((y' - y) / (b - a) * (x - a) + y) * f x) (Set.uIoo a b) := by
        intro x hx
        rw [Set.uIoo_of_le hab.le] at hx
        simp [interp0, not_lt.mpr hx.1.le, hx.2]
      have c2 : Set.EqOn (fun x => interp0 (a :: b :: l) (y :: y' :: ys) x * f x)
          (fun x => interp0 (b :: l) (y' :: ys) x * f x) (Set.uIoo b ((b :: l).getLast (by simp))) := by
        intro x hx
        rw [Set.uIoo_of_le hbl] at hx
        simp only [interp0, if_neg (not_lt.mpr (hab.le.trans hx.1.le)), if_neg (not_lt.mpr hx.1.le)]
      have i1 := (intervalIntegrable_congr_uIoo (μ := volume) c1).mpr j1
      have i2' := (intervalIntegrable_congr_uIoo (μ := volume) c2).mpr i2
      refine ⟨by rw [hlast]; exact i1.trans i2', ?_⟩
      rw [hlast, ← intervalIntegral.integral_add_adjacent_intervals i1 i2',
        intervalIntegral.integral_congr_uIoo c2, intervalIntegral.integral_congr_uIoo c1]
      simp only [List.map_cons, List.zipWith_cons_cons, trapezoid] at e2 ⊢
      rw [abs_le] at e1 e2 ⊢
      constructor <;> linarith [e1.1, e1.2, e2.1, e2.2]

theorem centers_mesh {h : ℝ} : ∀ {l : List ℝ}, Mesh h l → Mesh h (binCenters l)
  | [], _ => by simp [binCenters, Mesh]
  | [_], _ => by simp [binCenters, Mesh]
  | [_, _], _ => by simp [binCenters, Mesh]
  | a :: b :: c :: l, hm => by
    have ih := centers_mesh (l := b :: c :: l) hm.2
    simp only [binCenters, Mesh] at ih ⊢
    exact ⟨by linarith [hm.1, hm.2.1], ih⟩

/-- **C254, what holds.** For a Lipschitz function and non-negative probabilities the two methods differ by no more than
the Lipschitz constant times the width of the bins (times the expectation value of one). -/
theorem expect_methods_close_partial {fn : ℝ → ℝ} {K : NNReal} {h a b : ℝ} {l ps : List ℝ}
    (hs : (a :: b :: l).Pairwise (· < ·)) (hm : Mesh h (a :: b :: l)) (hl : (a :: b :: l).length = ps.length + 1)
    (hp : ∀ p ∈ ps, 0 ≤ p) (hf : LipschitzOnWith K fn (Icc a ((a :: b :: l).getLast (by simp)))) :
    |expectQuad fn (a :: b :: l) ps - expectTrapz fn (a :: b :: l) ps|
      ≤ K * h * expectTrapz (fun _ => 1) (a :: b :: l) ps := by
  obtain ⟨h1, h2, h3, h4⟩ := centers_sorted hs
  have hmc := centers_mesh hm
  have h1t : expectTrapz (fun _ => 1) (a :: b :: l) ps = trapezoid (binCenters (a :: b :: l)) ps := by
    unfold expectTrapz
    simp only []
    rw [trapezoid_scale, one_mul]
  rw [h1t]
  unfold expectQuad expectTrapz
  simp only []
  obtain ⟨x0, xs, hx⟩ : ∃ x0 xs, binCenters (a :: b :: l) = x0 :: xs :=
    List.exists_cons_of_ne_nil (by intro h; rw [h] at h4; simp at h4)
  have hx0 : x0 = (b + a) / 2 := by
    rw [binCenters] at hx
    exact ((List.cons.inj hx).1).symm
  have hlen : (x0 :: xs).length = ps.length := by
    rw [← hx, h4]; simpa using hl
  have hmem := List.getLast_mem (l := x0 :: xs) (by simp)
  have hlt : (x0 :: xs).getLast (by simp) < (a :: b :: l).getLast (by simp) :=
    (h3 _ (by rw [hx]; exact hmem)).2
  rw [hx] at h1 hmc ⊢
  have hax : a ≤ x0 := by rw [hx0]; exact h2.le
  obtain ⟨i2, e2⟩ := interp0_error h1 hmc hlen hp (hf.mono (Icc_subset_Icc hax hlt.le))
  have c1 : Set.EqOn (fun x => interp0 (x0 :: xs) ps x * fn x) (fun _ => (0 : ℝ)) (Set.uIoo a x0) := by
    intro x hx'
    rw [Set.uIoo_of_le hax] at hx'
    simp only [interp0_left hx'.2, zero_mul]
  have c3 : Set.EqOn (fun x => interp0 (x0 :: xs) ps x * fn x) (fun _ => (0 : ℝ))
      (Set.uIoo ((x0 :: xs).getLast (by simp)) ((a :: b :: l).getLast (by simp))) := by
    intro x hx'
    rw [Set.uIoo_of_le hlt.le] at hx'
    simp only
    rw [interp0_right h1, zero_mul]
    intro d hd
    refine lt_of_le_of_lt ?_ hx'.1
    rcases List.mem_iff_append.mp hd with ⟨p, q, hpq⟩
    by_cases hq : q = []
    · subst hq
      have : (x0 :: xs).getLast (by simp) = d := by simp [hpq]
      rw [this]
    · have hg : (x0 :: xs).getLast (by simp) = q.getLast hq := by
        simp only [hpq]
        have hdq : d :: q ≠ [] := by simp
        rw [List.getLast_append_of_ne_nil (by simp) hdq, List.getLast_cons hq]
      rw [hg]
      rw [hpq] at h1
      have := (List.pairwise_append.mp h1).2.1
      exact (List.rel_of_pairwise_cons this (List.getLast_mem hq)).le
  have i1 := (intervalIntegrable_congr_uIoo (μ := volume) c1).mpr
    (Continuous.intervalIntegrable (by fun_prop) _ _)
  have i3 := (intervalIntegrable_congr_uIoo (μ := volume) c3).mpr
    (Continuous.intervalIntegrable (by fun_prop) _ _)
  have hd : (a :: b :: l).headD 0 = a := rfl
  have hg : (a :: b :: l).getLastD 0 = (a :: b :: l).getLast (by simp) := by
    simp [List.getLastD_eq_getLast?, List.getLast?_eq_getLast_of_ne_nil]
  rw [hd, hg, ← intervalIntegral.integral_add_adjacent_intervals (i1.trans i2) i3,
    ← intervalIntegral.integral_add_adjacent_intervals i1 i2,
    intervalIntegral.integral_congr_uIoo c1, intervalIntegral.integral_congr_uIoo c3]
  simpa using e2

/-- A concrete case: the mean over three bins. -/
example : |expectQuad (fun x => x) [0, 1, 2, 3] [1 / 2, 1 / 4, 1 / 4]
    - expectTrapz (fun x => x) [0, 1, 2, 3] [1 / 2, 1 / 4, 1 / 4]| ≤ 5 / 8 := by
  have h := expect_methods_close_partial (fn := fun x => x) (K := 1) (h := 1) (a := 0) (b := 1) (l := [2, 3])
    (ps := [1 / 2, 1 / 4, 1 / 4]) (by norm_num) (by norm_num [Mesh]) (by simp) (by norm_num)
    LipschitzWith.id.lipschitzOnWith
  norm_num [expectTrapz, binCenters, trapezoid] at h ⊢
  exact h

end Hazma.PhaseApi
