import Verif.Model.PairwiseSum
import Mathlib.Algebra.BigOperators.Group.List.Basic
import Mathlib.Data.Multiset.Basic
import Mathlib.Tactic

/-!
# Pairwise summation (C17)
-/

namespace Hazma.PairwiseSum

variable {M : Type} [AddCommMonoid M]

theorem sum_zipWith_add : ∀ (a b : List M), a.length = b.length →
    (List.zipWith (· + ·) a b).sum = a.sum + b.sum
  | [], [], _ => by simp
  | [], _ :: _, h => by simp at h
  | _ :: _, [], h => by simp at h
  | x :: a, y :: b, h => by
    simp only [List.zipWith_cons_cons, List.sum_cons]
    rw [sum_zipWith_add a b (by simpa using h)]
    exact add_add_add_comm x y a.sum b.sum

theorem accLoop_spec (values : List M) : ∀ (r : List M) (i unrolled : ℕ), r.length = 8 →
    i ≤ unrolled → 8 ∣ unrolled - i → unrolled ≤ values.length →
    (accLoop values r i unrolled).2 = unrolled ∧
    (accLoop values r i unrolled).1.length = 8 ∧
    (accLoop values r i unrolled).1.sum = r.sum + ((values.drop i).take (unrolled - i)).sum := by
  intro r i unrolled
  induction h : unrolled - i using Nat.strong_induction_on generalizing r i with
  | _ d ih =>
    intro hr hi hd hu
    rw [accLoop]
    split_ifs with hlt
    · obtain ⟨k, hk⟩ := hd
      have hchunk : ((values.drop i).take 8).length = 8 := by
        simp only [List.length_take, List.length_drop]; omega
      obtain ⟨h1, h2, h3⟩ := ih (unrolled - (i + 8)) (by omega)
        (List.zipWith (· + ·) r ((values.drop i).take 8)) (i + 8) rfl
        (by simp [List.length_zipWith, hr, hchunk]) (by omega) ⟨k - 1, by omega⟩ hu
      refine ⟨h1, h2, ?_⟩
      rw [h3, sum_zipWith_add _ _ (by rw [hr, hchunk]), add_assoc]
      congr 1
      have : unrolled - i = 8 + (unrolled - (i + 8)) := by omega
      rw [← h, this, List.take_add, List.sum_append, List.drop_drop]
    · have : unrolled - i = 0 := by omega
      refine ⟨by simp only; omega, hr, ?_⟩
      rw [← h, this]; simp

theorem tree_spec : ∀ (r : List M), r.length = 8 → tree r = r.sum
  | [r0, r1, r2, r3, r4, r5, r6, r7], _ => by
    simp only [tree, List.sum_cons, List.sum_nil, add_zero]
    abel
  | [], h => by simp at h
  | [_], h => by simp at h
  | [_, _], h => by simp at h
  | [_, _, _], h => by simp at h
  | [_, _, _, _], h => by simp at h
  | [_, _, _, _, _], h => by simp at h
  | [_, _, _, _, _, _], h => by simp at h
  | [_, _, _, _, _, _, _], h => by simp at h
  | _ :: _ :: _ :: _ :: _ :: _ :: _ :: _ :: _ :: _, h => by simp at h

theorem foldl_add (l : List M) (a : M) : l.foldl (· + ·) a = a + l.sum := by
  induction l generalizing a with
  | nil => simp
  | cons x l ih => simp [ih, add_assoc]

/-- **C17.** For every length, the blocked summation returns the sum of all elements.  Stated in an
arbitrary commutative monoid: taking multisets (`pairwise_sum_each_once`) shows that every element
is used exactly once. -/
theorem pairwise_sum_eq_sum (values : List M) : pairwiseSum values = values.sum := by
  induction h : values.length using Nat.strong_induction_on generalizing values with
  | _ n ih =>
    rw [pairwiseSum]
    simp only
    split_ifs with h8 h128
    · rw [foldl_add, zero_add]
    · obtain ⟨h1, h2, h3⟩ := accLoop_spec values (values.take 8) 8
        (values.length - values.length % 8) (by simp only [List.length_take]; omega) (by omega)
        ⟨values.length / 8 - 1, by omega⟩ (by omega)
      generalize hacc : accLoop values (values.take 8) 8 (values.length - values.length % 8) = res
        at h1 h2 h3
      obtain ⟨r, i⟩ := res
      simp only at h1 h2 h3 ⊢
      rw [foldl_add, tree_spec r h2, h3, h1]
      have e1 : (values.take 8).sum
          + ((values.drop 8).take (values.length - values.length % 8 - 8)).sum
          = (values.take (values.length - values.length % 8)).sum := by
        have : values.length - values.length % 8
            = 8 + (values.length - values.length % 8 - 8) := by omega
        conv_rhs => rw [this, List.take_add, List.sum_append]
      rw [e1, ← List.sum_append, List.take_append_drop]
    · rw [ih _ (by simp only [List.length_take]; omega) _ rfl,
        ih _ (by simp only [List.length_drop]; omega) _ rfl, ← List.sum_append,
        List.take_append_drop]

/-- **C17.** Every element is added exactly once, whatever the length. -/
theorem pairwise_sum_each_once {α : Type} (values : List α) :
    pairwiseSum (values.map fun v => ({v} : Multiset α)) = (values : Multiset α) := by
  rw [pairwise_sum_eq_sum]
  induction values with
  | nil => rfl
  | cons a l ih =>
    rw [List.map_cons, List.sum_cons, ih]
    exact Multiset.singleton_add a (l : Multiset α)

/-- Concrete case: 1000 elements, through the recursive branch. -/
example : pairwiseSum (List.replicate 1000 (3 : ℕ)) = 3000 := by
  rw [pairwise_sum_eq_sum, List.sum_replicate]; norm_num

end Hazma.PairwiseSum
