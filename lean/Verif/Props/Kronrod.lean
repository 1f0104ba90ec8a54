import Verif.Model.Kronrod
import Mathlib.Tactic
import Mathlib.Algebra.Polynomial.Degree.Lemmas
import Mathlib.Algebra.Polynomial.Eval.Degree
import Mathlib.Analysis.SpecialFunctions.Integrals.Basic
import Mathlib.MeasureTheory.Integral.IntervalIntegral.Basic

/-!
# C52 and C120: what the Gauss–Kronrod rules integrate, and where they evaluate
-/

namespace Hazma.Quad

open MeasureTheory

/-! ## Closed forms of the two node loops -/

/-- Abscissae and Kronrod weights of a rule. -/
def Rule.nodes (R : Rule) : List (ℝ × ℝ) := R.gauss.map (fun p => (p.1, p.2.1)) ++ R.extra

theorem gauss_fold (f : ℝ → ℝ) (c h : ℝ) (l : List (ℝ × ℝ × ℝ)) (s : Acc) :
    l.foldl (gaussStep f c h) s =
      ⟨s.resg + (l.map (fun p => p.2.2 * (f (c - h * p.1) + f (c + h * p.1)))).sum,
       s.resk + (l.map (fun p => p.2.1 * (f (c - h * p.1) + f (c + h * p.1)))).sum,
       s.resabs + (l.map (fun p => p.2.1 * (|f (c - h * p.1)| + |f (c + h * p.1)|))).sum,
       s.vals ++ l.map (fun p => (p.2.1, f (c - h * p.1), f (c + h * p.1))),
       s.pts ++ l.flatMap (fun p => [c - h * p.1, c + h * p.1])⟩ := by
  induction l generalizing s with
  | nil => simp
  | cons p l ih =>
    rw [List.foldl_cons, ih]
    simp only [gaussStep, List.map_cons, List.sum_cons, List.flatMap_cons, List.append_assoc,
      List.singleton_append, Acc.mk.injEq]
    refine ⟨by ring, by ring, by ring, trivial, trivial⟩

theorem extra_fold (f : ℝ → ℝ) (c h : ℝ) (l : List (ℝ × ℝ)) (s : Acc) :
    l.foldl (extraStep f c h) s =
      ⟨s.resg,
       s.resk + (l.map (fun p => p.2 * (f (c - h * p.1) + f (c + h * p.1)))).sum,
       s.resabs + (l.map (fun p => p.2 * (|f (c - h * p.1)| + |f (c + h * p.1)|))).sum,
       s.vals ++ l.map (fun p => (p.2, f (c - h * p.1), f (c + h * p.1))),
       s.pts ++ l.flatMap (fun p => [c - h * p.1, c + h * p.1])⟩ := by
  induction l generalizing s with
  | nil => simp
  | cons p l ih =>
    rw [List.foldl_cons, ih]
    simp only [extraStep, List.map_cons, List.sum_cons, List.flatMap_cons, List.append_assoc,
      List.singleton_append, Acc.mk.injEq]
    refine ⟨trivial, by ring, by ring, trivial, trivial⟩

theorem foldl_add_eq {β : Type*} (g : β → ℝ) (l : List β) (t : ℝ) :
    l.foldl (fun t v => t + g v) t = t + (l.map g).sum := by
  induction l generalizing t with
  | nil => simp
  | cons x l ih => rw [List.foldl_cons, ih]; simp; ring

/-- The value of a rule. -/
theorem kronrod_result (R : Rule) (M : Mach) (f : ℝ → ℝ) (a b : ℝ) :
    (kronrod R M f a b).result = (b - a) / 2 * (R.wkc * f ((a + b) / 2) +
      (R.nodes.map (fun p => p.2 * (f ((a + b) / 2 - (b - a) / 2 * p.1) +
        f ((a + b) / 2 + (b - a) / 2 * p.1)))).sum) := by
  have hc : (0.5 : ℝ) * (a + b) = (a + b) / 2 := by ring
  have hh : (0.5 : ℝ) * (b - a) = (b - a) / 2 := by ring
  simp only [kronrod, kronrodError, gauss_fold, extra_fold, hc, hh, Rule.nodes, List.map_append,
    List.sum_append, List.map_map, Function.comp_def]
  ring

/-- The points of a rule, in the order they are evaluated. -/
theorem kronrod_pts (R : Rule) (M : Mach) (f : ℝ → ℝ) (a b : ℝ) :
    (kronrod R M f a b).pts = (a + b) / 2 ::
      R.nodes.flatMap (fun p => [(a + b) / 2 - (b - a) / 2 * p.1, (a + b) / 2 + (b - a) / 2 * p.1]) := by
  have hc : (0.5 : ℝ) * (a + b) = (a + b) / 2 := by ring
  have hh : (0.5 : ℝ) * (b - a) = (b - a) / 2 := by ring
  simp only [kronrod, kronrodError, gauss_fold, extra_fold, hc, hh, Rule.nodes, List.flatMap_append,
    List.flatMap_map, List.cons_append, List.nil_append]

/-- The third output of a rule: the rule applied to `|f|`. -/
theorem kronrod_resabs (R : Rule) (hw : 0 ≤ R.wkc) (M : Mach) (f : ℝ → ℝ) (a b : ℝ) :
    (kronrod R M f a b).resabs = |(b - a) / 2| * (R.wkc * |f ((a + b) / 2)| +
      (R.nodes.map (fun p => p.2 * (|f ((a + b) / 2 - (b - a) / 2 * p.1)| +
        |f ((a + b) / 2 + (b - a) / 2 * p.1)|))).sum) := by
  have hc : (0.5 : ℝ) * (a + b) = (a + b) / 2 := by ring
  have hh : (0.5 : ℝ) * (b - a) = (b - a) / 2 := by ring
  simp only [kronrod, kronrodError, gauss_fold, extra_fold, hc, hh, Rule.nodes, List.map_append,
    List.sum_append, List.map_map, Function.comp_def, abs_mul, abs_of_nonneg hw]
  ring

/-- The tables are what a Kronrod rule needs: positive weights, abscissae strictly inside `(0, 1)`. -/
def Rule.Good (R : Rule) : Prop := 0 < R.wkc ∧ ∀ p ∈ R.nodes, 0 < p.1 ∧ p.1 < 1 ∧ 0 < p.2

theorem rule15_good : rule15.Good := by
  constructor
  · norm_num [rule15]
  · intro p hp
    simp only [Rule.nodes, rule15, List.map_cons, List.map_nil, List.cons_append, List.nil_append,
      List.mem_cons, List.not_mem_nil, or_false] at hp
    rcases hp with rfl | rfl | rfl | rfl | rfl | rfl | rfl <;> norm_num

theorem rule21_good : rule21.Good := by
  constructor
  · norm_num [rule21]
  · intro p hp
    simp only [Rule.nodes, rule21, List.map_cons, List.map_nil, List.cons_append, List.nil_append,
      List.mem_cons, List.not_mem_nil, or_false] at hp
    rcases hp with rfl | rfl | rfl | rfl | rfl | rfl | rfl | rfl | rfl | rfl <;> norm_num

/-! ## Where the integrand is evaluated -/

theorem kronrod_inside (R : Rule) (hR : R.Good) (M : Mach) (f : ℝ → ℝ) (a b : ℝ) (hab : a < b) :
    ∀ x ∈ (kronrod R M f a b).pts, a < x ∧ x < b := by
  intro x hx
  rw [kronrod_pts] at hx
  simp only [List.mem_cons, List.mem_flatMap, List.not_mem_nil, or_false] at hx
  rcases hx with rfl | ⟨p, hp, hx⟩
  · constructor <;> linarith
  · obtain ⟨h0, h1, _⟩ := hR.2 p hp
    have hh : 0 < (b - a) / 2 := by linarith
    have hlt : (b - a) / 2 * p.1 < (b - a) / 2 := by nlinarith
    have hpos : 0 < (b - a) / 2 * p.1 := mul_pos hh h0
    rcases hx with rfl | rfl <;> constructor <;> linarith

theorem kronrod_inside_rev (R : Rule) (hR : R.Good) (M : Mach) (f : ℝ → ℝ) (a b : ℝ) (hab : b < a) :
    ∀ x ∈ (kronrod R M f a b).pts, b < x ∧ x < a := by
  intro x hx
  rw [kronrod_pts] at hx
  simp only [List.mem_cons, List.mem_flatMap, List.not_mem_nil, or_false] at hx
  rcases hx with rfl | ⟨p, hp, hx⟩
  · constructor <;> linarith
  · obtain ⟨h0, h1, _⟩ := hR.2 p hp
    have hh : 0 < (a - b) / 2 := by linarith
    have hlt : (a - b) / 2 * p.1 < (a - b) / 2 := by nlinarith
    have hpos : 0 < (a - b) / 2 * p.1 := mul_pos hh h0
    rcases hx with rfl | rfl <;> constructor <;> linarith

/-- C120: a rule evaluates the integrand 15 or 21 times, strictly inside the interval, so never at an
endpoint, whatever the integrand is there. -/
theorem rules_evaluate_inside (M : Mach) (f : ℝ → ℝ) (a b : ℝ) (hab : a < b) :
    (qk15 M f a b).pts.length = 15 ∧ (qk21 M f a b).pts.length = 21 ∧
      (∀ x ∈ (qk15 M f a b).pts, a < x ∧ x < b) ∧ (∀ x ∈ (qk21 M f a b).pts, a < x ∧ x < b) := by
  refine ⟨?_, ?_, kronrod_inside _ rule15_good M f a b hab, kronrod_inside _ rule21_good M f a b hab⟩
  · rw [qk15, kronrod_pts]; simp [Rule.nodes, rule15]
  · rw [qk21, kronrod_pts]; simp [Rule.nodes, rule21]

theorem qk21_pts_length (M : Mach) (f : ℝ → ℝ) (a b : ℝ) : (qk21 M f a b).pts.length = 21 := by
  rw [qk21, kronrod_pts]; simp [Rule.nodes, rule21]

/-- C120: the value, the error estimate and the two moments depend on the integrand at those points only. -/
theorem rules_local (R : Rule) (M : Mach) (f g : ℝ → ℝ) (a b : ℝ)
    (h : ∀ x ∈ (kronrod R M f a b).pts, f x = g x) : kronrod R M f a b = kronrod R M g a b := by
  rw [kronrod_pts] at h
  simp only [List.mem_cons, List.mem_flatMap, List.not_mem_nil, or_false] at h
  have hc : f (0.5 * (a + b)) = g (0.5 * (a + b)) := by
    have := h _ (Or.inl rfl)
    rwa [show (a + b) / 2 = 0.5 * (a + b) by norm_num; ring] at this
  have hn : ∀ p ∈ R.nodes, f (0.5 * (a + b) - 0.5 * (b - a) * p.1) = g (0.5 * (a + b) - 0.5 * (b - a) * p.1) ∧
      f (0.5 * (a + b) + 0.5 * (b - a) * p.1) = g (0.5 * (a + b) + 0.5 * (b - a) * p.1) := by
    intro p hp
    have h1 := h _ (Or.inr ⟨p, hp, Or.inl rfl⟩)
    have h2 := h _ (Or.inr ⟨p, hp, Or.inr rfl⟩)
    rw [show (a + b) / 2 = 0.5 * (a + b) by norm_num; ring,
      show (b - a) / 2 = 0.5 * (b - a) by norm_num; ring] at h1 h2
    exact ⟨h1, h2⟩
  have hg : ∀ s, R.gauss.foldl (gaussStep f (0.5 * (a + b)) (0.5 * (b - a))) s =
      R.gauss.foldl (gaussStep g (0.5 * (a + b)) (0.5 * (b - a))) s := by
    intro s
    refine List.foldl_ext _ _ _ ?_
    intro s p hp
    obtain ⟨h1, h2⟩ := hn (p.1, p.2.1) (by
      simp only [Rule.nodes, List.mem_append, List.mem_map]; exact Or.inl ⟨p, hp, rfl⟩)
    simp only [gaussStep, h1, h2]
  have he : ∀ s, R.extra.foldl (extraStep f (0.5 * (a + b)) (0.5 * (b - a))) s =
      R.extra.foldl (extraStep g (0.5 * (a + b)) (0.5 * (b - a))) s := by
    intro s
    refine List.foldl_ext _ _ _ ?_
    intro s p hp
    obtain ⟨h1, h2⟩ := hn p (by simp only [Rule.nodes, List.mem_append]; exact Or.inr hp)
    simp only [extraStep, h1, h2]
  simp only [kronrod, hc, hg, he]

/-! ## Symmetry and exactness -/

/-- C52: a part of the integrand odd about the centre contributes exactly nothing. -/
theorem rules_drop_odd (R : Rule) (M : Mach) (f g : ℝ → ℝ) (a b : ℝ)
    (hodd : ∀ t, g ((a + b) / 2 + t) = -g ((a + b) / 2 - t)) :
    (kronrod R M (fun x => f x + g x) a b).result = (kronrod R M f a b).result := by
  have h0 : g ((a + b) / 2) = 0 := by have := hodd 0; simp at this; linarith
  rw [kronrod_result, kronrod_result]
  simp only [h0, add_zero]
  congr 3
  refine List.map_congr_left ?_
  intro p _
  rw [hodd]
  ring

/-- The rules are linear in the integrand. -/
theorem rules_linear (R : Rule) (M : Mach) (f g : ℝ → ℝ) (s t a b : ℝ) :
    (kronrod R M (fun x => s * f x + t * g x) a b).result =
      s * (kronrod R M f a b).result + t * (kronrod R M g a b).result := by
  simp only [kronrod_result]
  have : ∀ l : List (ℝ × ℝ), (l.map (fun p : ℝ × ℝ => p.2 *
      (s * f ((a + b) / 2 - (b - a) / 2 * p.1) + t * g ((a + b) / 2 - (b - a) / 2 * p.1) +
        (s * f ((a + b) / 2 + (b - a) / 2 * p.1) + t * g ((a + b) / 2 + (b - a) / 2 * p.1))))).sum =
      s * (l.map (fun p : ℝ × ℝ => p.2 * (f ((a + b) / 2 - (b - a) / 2 * p.1) +
        f ((a + b) / 2 + (b - a) / 2 * p.1)))).sum +
      t * (l.map (fun p : ℝ × ℝ => p.2 * (g ((a + b) / 2 - (b - a) / 2 * p.1) +
        g ((a + b) / 2 + (b - a) / 2 * p.1)))).sum := by
    intro l
    induction l with
    | nil => simp
    | cons p l ih => simp only [List.map_cons, List.sum_cons, ih]; ring
  rw [this]
  ring

/-- C52: reversing the interval negates the value and keeps the error estimate. -/
theorem rules_reverse (R : Rule) (M : Mach) (f : ℝ → ℝ) (a b : ℝ) :
    (kronrod R M f b a).result = -(kronrod R M f a b).result ∧
      (kronrod R M f b a).resabs = (kronrod R M f a b).resabs ∧
      (kronrod R M f b a).abserr = (kronrod R M f a b).abserr := by
  have hc : (0.5 : ℝ) * (b + a) = 0.5 * (a + b) := by ring
  have hh : (0.5 : ℝ) * (a - b) = -(0.5 * (b - a)) := by ring
  obtain ⟨c, hcc⟩ : ∃ c, c = (0.5 : ℝ) * (a + b) := ⟨_, rfl⟩
  obtain ⟨h, hhh⟩ : ∃ h, h = (0.5 : ℝ) * (b - a) := ⟨_, rfl⟩
  have hswap : ∀ x : ℝ, c - -h * x = c + h * x ∧ c + -h * x = c - h * x := by
    intro x; constructor <;> ring
  have hasc : ∀ (t : ℝ) (l : List (ℝ × ℝ × ℝ)) (m : List (ℝ × ℝ)),
      ((l.map (fun p : ℝ × ℝ × ℝ => (p.2.1, f (c + h * p.1), f (c - h * p.1))) ++
        m.map (fun p : ℝ × ℝ => (p.2, f (c + h * p.1), f (c - h * p.1)))).map
          (fun v : ℝ × ℝ × ℝ => v.1 * (|v.2.1 - t| + |v.2.2 - t|))).sum =
      ((l.map (fun p : ℝ × ℝ × ℝ => (p.2.1, f (c - h * p.1), f (c + h * p.1))) ++
        m.map (fun p : ℝ × ℝ => (p.2, f (c - h * p.1), f (c + h * p.1)))).map
          (fun v : ℝ × ℝ × ℝ => v.1 * (|v.2.1 - t| + |v.2.2 - t|))).sum := by
    intro t l m
    simp only [List.map_append, List.map_map, Function.comp_def, add_comm]
  have e1 : ∀ x y : ℝ, f x + f y = f y + f x := fun x y => add_comm _ _
  have e2 : ∀ x y : ℝ, |f x| + |f y| = |f y| + |f x| := fun x y => add_comm _ _
  simp only [kronrod, hc, hh, ← hcc, ← hhh, gauss_fold, extra_fold, (hswap _).1, (hswap _).2,
    List.nil_append, foldl_add_eq, hasc]
  simp only [e1 (c + h * _) (c - h * _), e2 (c + h * _) (c - h * _)]
  simp only [kronrodError, abs_neg, mul_neg, and_self]

/-- The moment of degree `k` of a rule on `[-1, 1]`. -/
noncomputable def Rule.moment (R : Rule) (k : ℕ) : ℝ :=
  R.wkc * (0 : ℝ) ^ k + (R.nodes.map (fun p => p.2 * ((-p.1) ^ k + p.1 ^ k))).sum

theorem kronrod_poly (R : Rule) (M : Mach) (f : ℝ → ℝ) (a b : ℝ) (n : ℕ) (q : ℕ → ℝ)
    (hf : ∀ t, f ((a + b) / 2 + (b - a) / 2 * t) = ∑ k ∈ Finset.range n, q k * t ^ k) :
    (kronrod R M f a b).result = (b - a) / 2 * ∑ k ∈ Finset.range n, q k * R.moment k := by
  rw [kronrod_result]
  congr 1
  have h0 : f ((a + b) / 2) = ∑ k ∈ Finset.range n, q k * (0 : ℝ) ^ k := by
    have := hf 0; simpa using this
  have hm : ∀ x, f ((a + b) / 2 - (b - a) / 2 * x) = ∑ k ∈ Finset.range n, q k * (-x) ^ k := by
    intro x
    have := hf (-x)
    rw [← this]; congr 1; ring
  have hl : ∀ l : List (ℝ × ℝ), (l.map (fun p : ℝ × ℝ => p.2 *
      (f ((a + b) / 2 - (b - a) / 2 * p.1) + f ((a + b) / 2 + (b - a) / 2 * p.1)))).sum =
      ∑ k ∈ Finset.range n, q k * (l.map (fun p : ℝ × ℝ => p.2 * ((-p.1) ^ k + p.1 ^ k))).sum := by
    intro l
    induction l with
    | nil => simp
    | cons p l ih =>
      simp only [List.map_cons, List.sum_cons]
      rw [ih, hm, hf, ← Finset.sum_add_distrib, Finset.mul_sum, ← Finset.sum_add_distrib]
      exact Finset.sum_congr rfl (fun k _ => by ring)
  rw [hl, h0, Finset.mul_sum, ← Finset.sum_add_distrib]
  refine Finset.sum_congr rfl (fun k _ => ?_)
  rw [Rule.moment]; ring

theorem moment_odd (R : Rule) (k : ℕ) (hk : Odd k) : R.moment k = 0 := by
  have h0 : (0 : ℝ) ^ k = 0 := zero_pow (by rintro rfl; simp at hk)
  simp [Rule.moment, hk.neg_pow, h0]

theorem moment15 (k : ℕ) (hk : k ≤ 22) :
    |rule15.moment k - (if Even k then 2 / ((k : ℝ) + 1) else 0)| ≤ 1 / 10 ^ 32 := by
  rcases Nat.even_or_odd k with he | ho
  · rw [if_pos he]
    obtain ⟨m, rfl⟩ := he
    have hm : m ≤ 11 := by omega
    interval_cases m <;>
      norm_num [Rule.moment, Rule.nodes, rule15, abs_le]
  · rw [if_neg (Nat.not_even_iff_odd.mpr ho), moment_odd _ _ ho]
    norm_num

theorem moment21 (k : ℕ) (hk : k ≤ 31) :
    |rule21.moment k - (if Even k then 2 / ((k : ℝ) + 1) else 0)| ≤ 1 / 10 ^ 32 := by
  rcases Nat.even_or_odd k with he | ho
  · rw [if_pos he]
    obtain ⟨m, rfl⟩ := he
    have hm : m ≤ 15 := by omega
    interval_cases m <;>
      norm_num [Rule.moment, Rule.nodes, rule21, abs_le]
  · rw [if_neg (Nat.not_even_iff_odd.mpr ho), moment_odd _ _ ho]
    norm_num

theorem integral_poly (f : ℝ → ℝ) (a b : ℝ) (hab : a ≠ b) (n : ℕ) (q : ℕ → ℝ)
    (hf : ∀ t, f ((a + b) / 2 + (b - a) / 2 * t) = ∑ k ∈ Finset.range n, q k * t ^ k) :
    ∫ x in a..b, f x = (b - a) / 2 * ∑ k ∈ Finset.range n,
      q k * (if Even k then 2 / ((k : ℝ) + 1) else 0) := by
  have hh : (b - a) / 2 ≠ 0 := by
    intro h; apply hab; linarith
  have h1 := intervalIntegral.integral_comp_add_mul f hh ((a + b) / 2) (a := -1) (b := 1)
  have ea : (a + b) / 2 + (b - a) / 2 * -1 = a := by ring
  have eb : (a + b) / 2 + (b - a) / 2 * 1 = b := by ring
  rw [ea, eb] at h1
  have h2 : ∫ x in a..b, f x = (b - a) / 2 * ∫ t in (-1 : ℝ)..1, f ((a + b) / 2 + (b - a) / 2 * t) := by
    rw [h1, smul_eq_mul, ← mul_assoc, mul_inv_cancel₀ hh, one_mul]
  rw [h2]
  congr 1
  simp only [hf]
  rw [intervalIntegral.integral_finsetSum]
  · refine Finset.sum_congr rfl (fun k _ => ?_)
    rw [intervalIntegral.integral_const_mul, integral_pow]
    congr 1
    rcases Nat.even_or_odd k with he | ho
    · rw [if_pos he, (he.add_one).neg_pow]
      simp; ring
    · rw [if_neg (Nat.not_even_iff_odd.mpr ho), (ho.add_one).neg_pow]
      simp
  · intro k _
    exact (continuous_const.mul (continuous_id.pow k)).intervalIntegrable _ _

theorem rule_exact (R : Rule) (d : ℕ) (hR : ∀ k ≤ d,
    |R.moment k - (if Even k then 2 / ((k : ℝ) + 1) else 0)| ≤ 1 / 10 ^ 32)
    (M : Mach) (f : ℝ → ℝ) (a b : ℝ) (q : ℕ → ℝ)
    (hf : ∀ t, f ((a + b) / 2 + (b - a) / 2 * t) = ∑ k ∈ Finset.range (d + 1), q k * t ^ k) :
    |(kronrod R M f a b).result - ∫ x in a..b, f x| ≤
      |b - a| / 2 * (∑ k ∈ Finset.range (d + 1), |q k|) / 10 ^ 32 := by
  rcases eq_or_ne a b with rfl | hab
  · rw [kronrod_result]; simp
  · rw [kronrod_poly R M f a b _ q hf, integral_poly f a b hab _ q hf, ← mul_sub,
      ← Finset.sum_sub_distrib, abs_mul, abs_div, abs_two, mul_div_assoc]
    refine mul_le_mul_of_nonneg_left ?_ (by positivity)
    rw [Finset.sum_div]
    refine (Finset.abs_sum_le_sum_abs _ _).trans (Finset.sum_le_sum fun k hk => ?_)
    rw [← mul_sub, abs_mul, div_eq_mul_one_div |q k|]
    exact mul_le_mul_of_nonneg_left (hR k (by simp at hk; omega)) (abs_nonneg _)

/-- C52: on every interval the 15-point rule integrates every polynomial of degree at most 22 and the
21-point rule every polynomial of degree at most 31 up to the rounding of the tables: the error is at most
`|b - a| / 2 · 10⁻³²` times the sum of the moduli of the coefficients in the centred variable. -/
theorem rules_polynomial (M : Mach) (f : ℝ → ℝ) (a b : ℝ) (q : ℕ → ℝ) :
    ((∀ t, f ((a + b) / 2 + (b - a) / 2 * t) = ∑ k ∈ Finset.range 23, q k * t ^ k) →
      |(qk15 M f a b).result - ∫ x in a..b, f x| ≤
        |b - a| / 2 * (∑ k ∈ Finset.range 23, |q k|) / 10 ^ 32) ∧
    ((∀ t, f ((a + b) / 2 + (b - a) / 2 * t) = ∑ k ∈ Finset.range 32, q k * t ^ k) →
      |(qk21 M f a b).result - ∫ x in a..b, f x| ≤
        |b - a| / 2 * (∑ k ∈ Finset.range 32, |q k|) / 10 ^ 32) :=
  ⟨rule_exact rule15 22 moment15 M f a b q, rule_exact rule21 31 moment21 M f a b q⟩

/-- The sum of all weights of a rule. -/
noncomputable def Rule.total (R : Rule) : ℝ := R.wkc + 2 * (R.nodes.map Prod.snd).sum

/-- C52: an affine integrand is integrated to its integral times half the sum of the weights; that sum is
exactly 2 for the 15-point table and within `10⁻³³` of it for the 21-point one. -/
theorem rules_affine (R : Rule) (M : Mach) (u v a b : ℝ) :
    (kronrod R M (fun x => u + v * x) a b).result = R.total / 2 * ∫ x in a..b, (u + v * x) := by
  have hint : ∫ x in a..b, (u + v * x) = (b - a) * (u + v * ((a + b) / 2)) := by
    have h2 : IntervalIntegrable (fun x : ℝ => v * x) volume a b :=
      (continuous_const.mul continuous_id).intervalIntegrable _ _
    rw [intervalIntegral.integral_add (continuous_const.intervalIntegrable _ _) h2,
      intervalIntegral.integral_const, intervalIntegral.integral_const_mul, integral_id]
    simp; ring
  have hl : ∀ l : List (ℝ × ℝ), (l.map (fun p : ℝ × ℝ => p.2 *
      (u + v * ((a + b) / 2 - (b - a) / 2 * p.1) + (u + v * ((a + b) / 2 + (b - a) / 2 * p.1))))).sum =
      2 * (l.map Prod.snd).sum * (u + v * ((a + b) / 2)) := by
    intro l
    induction l with
    | nil => simp
    | cons p l ih => simp only [List.map_cons, List.sum_cons, ih]; ring
  rw [kronrod_result, hl, hint, Rule.total]
  ring

theorem rules_total : rule15.total = 2 ∧ |rule21.total - 2| ≤ 1 / 10 ^ 33 := by
  constructor
  · norm_num [Rule.total, Rule.nodes, rule15]
  · norm_num [Rule.total, Rule.nodes, rule21, abs_le]

/-! ## Bounds -/

theorem sum_le_of_le (l : List (ℝ × ℝ)) (u v : ℝ × ℝ → ℝ) (h : ∀ p ∈ l, u p ≤ v p) :
    (l.map u).sum ≤ (l.map v).sum := List.sum_le_sum h

/-- C52: the weights are positive, so a smaller integrand gets a smaller value. -/
theorem rules_monotone (R : Rule) (hR : R.Good) (M : Mach) (f g : ℝ → ℝ) (a b : ℝ) (hab : a ≤ b)
    (h : ∀ x, a ≤ x → x ≤ b → f x ≤ g x) :
    (kronrod R M f a b).result ≤ (kronrod R M g a b).result := by
  have hh : 0 ≤ (b - a) / 2 := by linarith
  rw [kronrod_result, kronrod_result]
  refine mul_le_mul_of_nonneg_left (add_le_add ?_ (sum_le_of_le _ _ _ ?_)) hh
  · exact mul_le_mul_of_nonneg_left (h _ (by linarith) (by linarith)) hR.1.le
  · intro p hp
    obtain ⟨h0, h1, h2⟩ := hR.2 p hp
    have hlt : (b - a) / 2 * p.1 ≤ (b - a) / 2 := by nlinarith
    have hpos : 0 ≤ (b - a) / 2 * p.1 := mul_nonneg hh h0.le
    refine mul_le_mul_of_nonneg_left (add_le_add ?_ ?_) h2.le <;>
      exact h _ (by linarith) (by linarith)

theorem kronrod_abserr_nonneg (R : Rule) (hR : R.Good) (M : Mach) (f : ℝ → ℝ) (a b : ℝ) :
    0 ≤ (kronrod R M f a b).abserr := by
  have hasc : 0 ≤ (kronrod R M f a b).resasc := by
    simp only [kronrod, kronrodError, gauss_fold, extra_fold, foldl_add_eq, List.nil_append]
    refine mul_nonneg (add_nonneg (mul_nonneg hR.1.le (abs_nonneg _)) (List.sum_nonneg ?_)) (abs_nonneg _)
    intro x hx
    simp only [List.map_append, List.map_map, List.mem_append, List.mem_map, Function.comp] at hx
    rcases hx with ⟨p, hp, rfl⟩ | ⟨p, hp, rfl⟩
    · have := (hR.2 (p.1, p.2.1) (by simp only [Rule.nodes, List.mem_append, List.mem_map]; exact Or.inl ⟨p, hp, rfl⟩)).2.2
      exact mul_nonneg this.le (by positivity)
    · have := (hR.2 p (by simp only [Rule.nodes, List.mem_append]; exact Or.inr hp)).2.2
      exact mul_nonneg this.le (by positivity)
  have key : ∀ rk rg ra rs h pts, 0 ≤ (kronrodError M rk rg ra rs h pts).resasc →
      0 ≤ (kronrodError M rk rg ra rs h pts).abserr := by
    intro rk rg ra rs h pts hs
    simp only [kronrodError] at hs ⊢
    have h1 : 0 ≤ (if rs * |h| ≠ 0 ∧ |(rk - rg) * h| ≠ 0 then
        rs * |h| * min 1 ((200 * |(rk - rg) * h| / (rs * |h|)) ^ (1.5 : ℝ)) else |(rk - rg) * h|) := by
      split_ifs
      · exact mul_nonneg hs (le_min zero_le_one (Real.rpow_nonneg (by positivity) _))
      · exact abs_nonneg _
    generalize (if rs * |h| ≠ 0 ∧ |(rk - rg) * h| ≠ 0 then
        rs * |h| * min 1 ((200 * |(rk - rg) * h| / (rs * |h|)) ^ (1.5 : ℝ)) else |(rk - rg) * h|) = e at *
    split_ifs with hc
    · exact le_max_of_le_right h1
    · exact h1
  exact key _ _ _ _ _ _ hasc

/-- C52: the modulus of the value is at most the rule applied to the modulus. -/
theorem rules_resabs (R : Rule) (hR : R.Good) (M : Mach) (f : ℝ → ℝ) (a b : ℝ) :
    |(kronrod R M f a b).result| ≤ (kronrod R M f a b).resabs ∧ 0 ≤ (kronrod R M f a b).abserr := by
  refine ⟨?_, kronrod_abserr_nonneg R hR M f a b⟩
  rw [kronrod_result, kronrod_resabs R hR.1.le, abs_mul]
  refine mul_le_mul_of_nonneg_left ?_ (abs_nonneg _)
  refine (abs_add_le _ _).trans (add_le_add (by rw [abs_mul, abs_of_pos hR.1]) ?_)
  have : ∀ l : List (ℝ × ℝ), (∀ p ∈ l, 0 < p.2) → |(l.map (fun p : ℝ × ℝ => p.2 *
      (f ((a + b) / 2 - (b - a) / 2 * p.1) + f ((a + b) / 2 + (b - a) / 2 * p.1)))).sum| ≤
      (l.map (fun p : ℝ × ℝ => p.2 * (|f ((a + b) / 2 - (b - a) / 2 * p.1)| +
        |f ((a + b) / 2 + (b - a) / 2 * p.1)|))).sum := by
    intro l hl
    induction l with
    | nil => simp
    | cons p l ih =>
      simp only [List.map_cons, List.sum_cons]
      refine (abs_add_le _ _).trans (add_le_add ?_ (ih fun x hx => hl x (by simp [hx])))
      rw [abs_mul, abs_of_pos (hl p (by simp))]
      exact mul_le_mul_of_nonneg_left (abs_add_le _ _) (hl p (by simp)).le
  exact this _ fun p hp => (hR.2 p hp).2.2

/-! ## Examples -/

/-- `∫₀² x³ dx = 4` to 31 digits. -/
example (M : Mach) : |(qk21 M (fun x => x ^ 3) 0 2).result - 4| ≤ 1 / 10 ^ 31 := by
  have h := (rules_polynomial M (fun x => x ^ 3) 0 2
    (fun k => if k = 0 then 1 else if k = 1 then 3 else if k = 2 then 3 else if k = 3 then 1 else 0)).2
    (by intro t; simp [Finset.sum_range_succ]; ring)
  have hi : ∫ x in (0 : ℝ)..2, x ^ 3 = 4 := by rw [integral_pow]; norm_num
  rw [hi] at h
  refine h.trans ?_
  simp [Finset.sum_range_succ]
  norm_num

/-- An odd integrand on a symmetric interval gives exactly zero. -/
example (M : Mach) : (qk21 M (fun x => 0 + Real.sin x) (-3) 3).result = 0 := by
  have h := rules_drop_odd rule21 M (fun _ => 0) Real.sin (-3) 3 (by intro t; simp)
  rw [qk21]
  rw [h, kronrod_result]
  simp

/-! ## The error estimate -/

/-- The Gauss rule inside a Kronrod rule, as a rule of its own. -/
def Rule.embedded (R : Rule) : Rule where
  wkc := R.wgc
  wgc := 0
  gauss := []
  extra := R.gauss.map (fun p => (p.1, p.2.2))

theorem kronrod_delta (R : Rule) (M : Mach) (f : ℝ → ℝ) (a b : ℝ) :
    ∃ resk resg resasc resabs pts, kronrod R M f a b = kronrodError M resk resg resabs resasc (0.5 * (b - a)) pts ∧
      (resk - resg) * (0.5 * (b - a)) =
        (kronrod R M f a b).result - (kronrod R.embedded M f a b).result := by
  have hc : (0.5 : ℝ) * (a + b) = (a + b) / 2 := by ring
  have hh : (0.5 : ℝ) * (b - a) = (b - a) / 2 := by ring
  refine ⟨_, _, _, _, _, rfl, ?_⟩
  rw [kronrod_result, kronrod_result]
  simp only [gauss_fold, extra_fold, hc, hh, Rule.nodes, Rule.embedded, List.map_append, List.map_nil,
    List.nil_append, List.sum_append, List.map_map, Function.comp_def]
  ring

/-- The scaling of `kronrod_error`, from the two sums and their difference. -/
theorem kronrod_abserr (R : Rule) (M : Mach) (f : ℝ → ℝ) (a b : ℝ) :
    ∃ d base, d = |(kronrod R M f a b).result - (kronrod R.embedded M f a b).result| ∧
      base = (if (kronrod R M f a b).resasc ≠ 0 ∧ d ≠ 0 then (kronrod R M f a b).resasc *
        min 1 ((200 * d / (kronrod R M f a b).resasc) ^ (1.5 : ℝ)) else d) ∧
      (kronrod R M f a b).abserr = if (kronrod R M f a b).resabs > M.uflow / (50 * M.eps) then
        max (M.eps * 50 * (kronrod R M f a b).resabs) base else base := by
  obtain ⟨resk, resg, resasc, resabs, pts, h, hd⟩ := kronrod_delta R M f a b
  refine ⟨_, _, rfl, rfl, ?_⟩
  rw [← hd, h]
  simp only [kronrodError]
  congr!

theorem resasc_nonneg (R : Rule) (hR : R.Good) (M : Mach) (f : ℝ → ℝ) (a b : ℝ) :
    0 ≤ (kronrod R M f a b).resasc := by
  simp only [kronrod, kronrodError, gauss_fold, extra_fold, foldl_add_eq, List.nil_append]
  refine mul_nonneg (add_nonneg (mul_nonneg hR.1.le (abs_nonneg _)) (List.sum_nonneg ?_)) (abs_nonneg _)
  intro x hx
  simp only [List.map_append, List.map_map, List.mem_append, List.mem_map, Function.comp_def] at hx
  rcases hx with ⟨p, hp, rfl⟩ | ⟨p, hp, rfl⟩
  · exact mul_nonneg (hR.2 (p.1, p.2.1) (by simp only [Rule.nodes, List.mem_append, List.mem_map]; exact Or.inl ⟨p, hp, rfl⟩)).2.2.le
      (add_nonneg (abs_nonneg _) (abs_nonneg _))
  · exact mul_nonneg (hR.2 p (by simp only [Rule.nodes, List.mem_append]; exact Or.inr hp)).2.2.le
      (add_nonneg (abs_nonneg _) (abs_nonneg _))

theorem gauss_moment15 (k : ℕ) (hk : k ≤ 13) :
    |rule15.embedded.moment k - (if Even k then 2 / ((k : ℝ) + 1) else 0)| ≤ 1 / 10 ^ 32 := by
  rcases Nat.even_or_odd k with he | ho
  · rw [if_pos he]
    obtain ⟨m, rfl⟩ := he
    have hm : m ≤ 6 := by omega
    interval_cases m <;>
      norm_num [Rule.moment, Rule.nodes, Rule.embedded, rule15, abs_le]
  · rw [if_neg (Nat.not_even_iff_odd.mpr ho), moment_odd _ _ ho]
    norm_num

theorem gauss_moment21 (k : ℕ) (hk : k ≤ 19) :
    |rule21.embedded.moment k - (if Even k then 2 / ((k : ℝ) + 1) else 0)| ≤ 1 / 10 ^ 32 := by
  rcases Nat.even_or_odd k with he | ho
  · rw [if_pos he]
    obtain ⟨m, rfl⟩ := he
    have hm : m ≤ 9 := by omega
    interval_cases m <;>
      norm_num [Rule.moment, Rule.nodes, Rule.embedded, rule21, abs_le]
  · rw [if_neg (Nat.not_even_iff_odd.mpr ho), moment_odd _ _ ho]
    norm_num

theorem error_polynomial (R : Rule) (hR : R.Good) (d : ℕ)
    (h1 : ∀ k ≤ d, |R.moment k - (if Even k then 2 / ((k : ℝ) + 1) else 0)| ≤ 1 / 10 ^ 32)
    (h2 : ∀ k ≤ d, |R.embedded.moment k - (if Even k then 2 / ((k : ℝ) + 1) else 0)| ≤ 1 / 10 ^ 32)
    (M : Mach) (f : ℝ → ℝ) (a b : ℝ) (q : ℕ → ℝ)
    (hf : ∀ t, f ((a + b) / 2 + (b - a) / 2 * t) = ∑ k ∈ Finset.range (d + 1), q k * t ^ k) :
    ∃ e, e = |b - a| * (∑ k ∈ Finset.range (d + 1), |q k|) / 10 ^ 32 ∧
      (kronrod R M f a b).abserr ≤ max (M.eps * 50 * (kronrod R M f a b).resabs)
        (max e ((kronrod R M f a b).resasc * (200 * e / (kronrod R M f a b).resasc) ^ (1.5 : ℝ))) := by
  refine ⟨_, rfl, ?_⟩
  have k1 := rule_exact R d h1 M f a b q hf
  have k2 := rule_exact R.embedded d h2 M f a b q hf
  obtain ⟨dd, base, hd, hb, he⟩ := kronrod_abserr R M f a b
  have hle : dd ≤ |b - a| * (∑ k ∈ Finset.range (d + 1), |q k|) / 10 ^ 32 := by
    rw [hd]
    have := abs_sub_le (kronrod R M f a b).result (∫ x in a..b, f x) (kronrod R.embedded M f a b).result
    rw [abs_sub_comm (∫ x in a..b, f x)] at this
    have h3 : |b - a| / 2 * (∑ k ∈ Finset.range (d + 1), |q k|) / 10 ^ 32 +
        |b - a| / 2 * (∑ k ∈ Finset.range (d + 1), |q k|) / 10 ^ 32 =
        |b - a| * (∑ k ∈ Finset.range (d + 1), |q k|) / 10 ^ 32 := by ring
    linarith
  generalize |b - a| * (∑ k ∈ Finset.range (d + 1), |q k|) / 10 ^ 32 = e at hle ⊢
  have hdn : 0 ≤ dd := by rw [hd]; exact abs_nonneg _
  have hasc := resasc_nonneg R hR M f a b
  have hbase : base ≤ max e ((kronrod R M f a b).resasc *
      (200 * e / (kronrod R M f a b).resasc) ^ (1.5 : ℝ)) := by
    rw [hb]
    split_ifs with hc
    · refine le_max_of_le_right (mul_le_mul_of_nonneg_left ((min_le_right _ _).trans ?_) hasc)
      refine Real.rpow_le_rpow (by positivity) ?_ (by norm_num)
      exact div_le_div_of_nonneg_right (by linarith) hasc
    · exact le_max_of_le_left hle
  rw [he]
  split_ifs
  · exact max_le_max (le_refl _) hbase
  · exact le_max_of_le_right hbase

/-- C52: for polynomials up to the degree of the embedded Gauss rule (13 for seven points, 19 for ten points)
the error estimate is the round-off floor, or what the rounding `e` of the tables gives. -/
theorem rules_error_polynomial (M : Mach) (f : ℝ → ℝ) (a b : ℝ) (q : ℕ → ℝ) :
    ((∀ t, f ((a + b) / 2 + (b - a) / 2 * t) = ∑ k ∈ Finset.range 14, q k * t ^ k) →
      ∃ e, e = |b - a| * (∑ k ∈ Finset.range 14, |q k|) / 10 ^ 32 ∧
        (qk15 M f a b).abserr ≤ max (M.eps * 50 * (qk15 M f a b).resabs)
          (max e ((qk15 M f a b).resasc * (200 * e / (qk15 M f a b).resasc) ^ (1.5 : ℝ)))) ∧
    ((∀ t, f ((a + b) / 2 + (b - a) / 2 * t) = ∑ k ∈ Finset.range 20, q k * t ^ k) →
      ∃ e, e = |b - a| * (∑ k ∈ Finset.range 20, |q k|) / 10 ^ 32 ∧
        (qk21 M f a b).abserr ≤ max (M.eps * 50 * (qk21 M f a b).resabs)
          (max e ((qk21 M f a b).resasc * (200 * e / (qk21 M f a b).resasc) ^ (1.5 : ℝ)))) :=
  ⟨error_polynomial rule15 rule15_good 13 (fun k hk => moment15 k (by omega)) gauss_moment15 M f a b q,
    error_polynomial rule21 rule21_good 19 (fun k hk => moment21 k (by omega)) gauss_moment21 M f a b q⟩

/-- The constant one on `[0, 2]`: the estimate of the 21-point rule is at most `10⁻¹³`. -/
example : (qk21 binary64 (fun _ => 1) 0 2).abserr ≤ 1 / 10 ^ 13 := by
  norm_num [qk21, kronrod, kronrodError, rule21, gaussStep, extraStep, binary64]
  have h : ∀ c m : ℝ, 0 ≤ c → c ≤ 1 / 10000000000000 → c * min 1 m ≤ 1 / 10000000000000 := fun c m h0 h1 =>
    (mul_le_of_le_one_right h0 (min_le_left _ _)).trans h1
  split_ifs
  · exact max_le (by norm_num) (h _ _ (by norm_num) (by norm_num))
  · exact h _ _ (by norm_num) (by norm_num)

end Hazma.Quad
