import Mathlib.Tactic
import Mathlib.Analysis.SpecialFunctions.Pow.Deriv
import Verif.Model.Fisher

/-!
# Background models and Fisher forecasts

What a user of `fisher_limit` relies on: the matrix is a genuine information matrix, the limit on the rate
does not depend on how the background is parametrised, nuisance parameters only weaken it, it scales with
observing time and flux as statistics demands, and it agrees in normalisation with `unbinned_limit`.
The derivatives and fiducial parameters of the two parametric backgrounds are compared with the flux they
belong to.
-/

namespace Hazma.Fisher

open Hazma.Limits

/-! ## The trapezoidal rule as a positive linear functional -/

theorem trapz_add (g : List ℝ) (f h : ℝ → ℝ) :
    trapz g (fun e => f e + h e) = trapz g f + trapz g h := by
  induction g with
  | nil => simp [trapz]
  | cons x xs ih =>
    cases xs with
    | nil => simp [trapz]
    | cons y ys => simp only [trapz] at ih ⊢; rw [ih]; ring

theorem trapz_smul (g : List ℝ) (c : ℝ) (f : ℝ → ℝ) :
    trapz g (fun e => c * f e) = c * trapz g f := by
  induction g with
  | nil => simp [trapz]
  | cons x xs ih =>
    cases xs with
    | nil => simp [trapz]
    | cons y ys => simp only [trapz] at ih ⊢; rw [ih]; ring

theorem trapz_zero (g : List ℝ) : trapz g (fun _ => 0) = 0 := by
  have := trapz_smul g 0 (fun _ => 0)
  simpa using this

theorem trapz_sum {ι : Type*} (s : Finset ι) (g : List ℝ) (f : ι → ℝ → ℝ) :
    trapz g (fun e => ∑ i ∈ s, f i e) = ∑ i ∈ s, trapz g (f i) := by
  classical
  induction s using Finset.induction_on with
  | empty => simpa using trapz_zero g
  | insert a s ha ih =>
    simp only [Finset.sum_insert ha]
    rw [trapz_add, ih]

theorem trapz_congr {g : List ℝ} {f h : ℝ → ℝ} (H : ∀ e ∈ g, f e = h e) : trapz g f = trapz g h := by
  induction g with
  | nil => simp [trapz]
  | cons x xs ih =>
    cases xs with
    | nil => simp [trapz]
    | cons y ys =>
      have ih' := ih fun e he => H e (List.mem_cons_of_mem _ he)
      simp only [trapz] at ih' ⊢
      rw [ih', H x List.mem_cons_self, H y (List.mem_cons_of_mem _ List.mem_cons_self)]

theorem trapz_nonneg {g : List ℝ} (hg : g.Pairwise (· ≤ ·)) {f : ℝ → ℝ} (H : ∀ e ∈ g, 0 ≤ f e) :
    0 ≤ trapz g f := by
  induction g with
  | nil => simp [trapz]
  | cons x xs ih =>
    cases xs with
    | nil => simp [trapz]
    | cons y ys =>
      have ih' := ih hg.of_cons fun e he => H e (List.mem_cons_of_mem _ he)
      simp only [trapz] at ih' ⊢
      have h1 := H x List.mem_cons_self
      have h2 := H y (List.mem_cons_of_mem _ List.mem_cons_self)
      have h3 : x ≤ y := List.rel_of_pairwise_cons hg List.mem_cons_self
      have : 0 ≤ (y - x) * (f x + f y) / 2 := by
        have : 0 ≤ y - x := by linarith
        positivity
      linarith

theorem trapz_cons_le {x : ℝ} {g : List ℝ} (hg : (x :: g).Pairwise (· ≤ ·)) {f : ℝ → ℝ}
    (H : ∀ e ∈ x :: g, 0 ≤ f e) : trapz g f ≤ trapz (x :: g) f := by
  cases g with
  | nil => simp [trapz]
  | cons y ys =>
    simp only [trapz]
    have h1 := H x List.mem_cons_self
    have h2 := H y (List.mem_cons_of_mem _ List.mem_cons_self)
    have h3 : x ≤ y := List.rel_of_pairwise_cons hg List.mem_cons_self
    have : 0 ≤ (y - x) * (f x + f y) / 2 := by
      have : 0 ≤ y - x := by linarith
      positivity
    linarith

theorem trapz_dropWhile_le {g : List ℝ} (hg : g.Pairwise (· ≤ ·)) {f : ℝ → ℝ}
    (H : ∀ e ∈ g, 0 ≤ f e) (p : ℝ → Bool) : trapz (g.dropWhile p) f ≤ trapz g f := by
  induction g with
  | nil => simp
  | cons x xs ih =>
    rw [List.dropWhile_cons]
    split_ifs
    · exact (ih hg.of_cons fun e he => H e (List.mem_cons_of_mem _ he)).trans (trapz_cons_le hg H)
    · exact le_rfl

theorem trapz_takeWhile_le {g : List ℝ} (hg : g.Pairwise (· ≤ ·)) {f : ℝ → ℝ}
    (H : ∀ e ∈ g, 0 ≤ f e) (p : ℝ → Bool) : trapz (g.takeWhile p) f ≤ trapz g f := by
  induction g with
  | nil => simp
  | cons x xs ih =>
    rw [List.takeWhile_cons]
    split_ifs
    · have ih' := ih hg.of_cons fun e he => H e (List.mem_cons_of_mem _ he)
      cases xs with
      | nil => simp [trapz]
      | cons y ys =>
        rw [List.takeWhile_cons] at ih' ⊢
        split_ifs at ih' ⊢ with h
        · simp only [trapz] at ih' ⊢; linarith
        · exact trapz_nonneg hg H
    · exact trapz_nonneg hg H

/-! ## The matrix -/

/-- The physical situation: an increasing energy grid, positive background and solid angle,
non-negative effective area and observing time. -/
structure Physical (grid : List ℝ) (bg : ParamBg) (dOmega : ℝ) (aeff : ℝ → ℝ) (tobs : ℝ) : Prop where
  sorted : grid.Pairwise (· ≤ ·)
  flux : ∀ e ∈ grid, 0 < bg.flux e
  omega : 0 < dOmega
  area : ∀ e ∈ grid, 0 ≤ aeff e
  time : 0 ≤ tobs

theorem quad_form (grid : List ℝ) (phiS : ℝ → ℝ) (bg : ParamBg) (dOmega : ℝ) (aeff : ℝ → ℝ)
    (tobs : ℝ) (v : Fin (fisherParams bg).length → ℝ) :
    ∑ i, ∑ j, v i * v j * (fisherMatrix grid phiS bg dOmega aeff tobs).mat i j =
      trapz grid fun e => (∑ i, v i * dphi phiS bg ((fisherParams bg).get i).1 e) ^ 2 /
        (bg.flux e * dOmega) * aeff e * tobs := by
  have h1 : (fun e => (∑ i, v i * dphi phiS bg ((fisherParams bg).get i).1 e) ^ 2 /
        (bg.flux e * dOmega) * aeff e * tobs) = fun e => ∑ i, ∑ j, v i * v j *
        (dphi phiS bg ((fisherParams bg).get j).1 e * dphi phiS bg ((fisherParams bg).get i).1 e /
          (bg.flux e * dOmega) * aeff e * tobs) := by
    funext e
    rw [pow_two, Finset.sum_mul_sum]
    simp only [Finset.sum_div, Finset.sum_mul]
    refine Finset.sum_congr rfl fun i _ => Finset.sum_congr rfl fun j _ => ?_
    ring
  rw [h1, trapz_sum]
  refine Finset.sum_congr rfl fun i _ => ?_
  rw [trapz_sum]
  refine Finset.sum_congr rfl fun j _ => ?_
  rw [trapz_smul]
  rfl

/-- **The Fisher matrix is an information matrix**: symmetric and positive semi-definite for every
spectrum, background, effective area and grid; its first parameter is the rate with fiducial value zero
and the remaining keys are those of the background. -/
theorem fisher_information {grid : List ℝ} {bg : ParamBg} {dOmega : ℝ} {aeff : ℝ → ℝ} {tobs : ℝ}
    (h : Physical grid bg dOmega aeff tobs) (phiS : ℝ → ℝ) :
    (fisherMatrix grid phiS bg dOmega aeff tobs).mat.IsSymm ∧
    (∀ v : Fin (fisherParams bg).length → ℝ, 0 ≤ ∑ i, ∑ j, v i * v j * (fisherMatrix grid phiS bg dOmega aeff tobs).mat i j) ∧
    (fisherMatrix grid phiS bg dOmega aeff tobs).params.head? = some ("rate", 0) ∧
    (∀ k x, k ≠ "rate" →
      ((k, x) ∈ (fisherMatrix grid phiS bg dOmega aeff tobs).params ↔ (k, x) ∈ bg.params)) ∧
    ((bg.params.map Prod.fst).Nodup →
      ((fisherMatrix grid phiS bg dOmega aeff tobs).params.map Prod.fst).Nodup) := by
  refine ⟨?_, fun v => ?_, rfl, fun k x hk => ?_, fun hn => ?_⟩
  · ext i j
    show element grid phiS bg dOmega aeff tobs ((fisherParams bg).get i).1 ((fisherParams bg).get j).1 =
      element grid phiS bg dOmega aeff tobs ((fisherParams bg).get j).1 ((fisherParams bg).get i).1
    unfold element
    refine trapz_congr fun e _ => ?_
    ring
  · rw [quad_form]
    refine trapz_nonneg h.sorted fun e he => ?_
    have := h.flux e he
    have := h.omega
    have := h.area e he
    have := h.time
    positivity
  · simp [fisherMatrix, fisherParams, hk]
  · simp only [fisherMatrix, fisherParams, List.map_cons, List.nodup_cons]
    constructor
    · simp only [List.mem_map, List.mem_filter, not_exists]
      rintro ⟨k, x⟩ ⟨⟨-, h2⟩, h3⟩
      simp at h2 h3
      exact h2 h3
    · exact hn.sublist (List.filter_sublist.map _)

/-! ## Limits and rescaling -/

/-- Multiply a limit by a factor. -/
noncomputable def LimitOut.scale (c : ℝ) : LimitOut → LimitOut
  | .keyError => .keyError
  | .nan => .nan
  | .value x => .value (c * x)

theorem limitAt_scale {n : ℕ} {m m' : Matrix (Fin n) (Fin n) ℝ} {s : ℝ} (hs : 0 < s)
    {d : Fin n → ℝ} (hd : ∀ i, d i ≠ 0) (h' : ∀ a b, m' a b = s * (d a * m a b * d b)) (sigma : ℝ)
    (i : Fin n) :
    limitAt m' sigma i = (limitAt m sigma i).scale (1 / (Real.sqrt s * |d i|)) := by
  have hM : m' = s • (Matrix.diagonal d * m * Matrix.diagonal d) := by
    ext a b
    rw [Matrix.smul_apply, Matrix.mul_diagonal, Matrix.diagonal_mul, smul_eq_mul, h']
  have hdet : (∏ i, d i) ≠ 0 := Finset.prod_ne_zero_iff.2 fun i _ => hd i
  have hdetM : m'.det = s ^ n * ((∏ i, d i) * m.det * ∏ i, d i) := by
    rw [hM, Matrix.det_smul, Matrix.det_mul, Matrix.det_mul, Matrix.det_diagonal, Fintype.card_fin]
  unfold limitAt
  by_cases hm : m.det = 0
  · rw [if_pos hm, if_pos (by rw [hdetM, hm]; simp)]
    rfl
  · have hm' : m'.det ≠ 0 := by
      rw [hdetM]
      positivity
    rw [if_neg hm, if_neg hm']
    have hinv : m'⁻¹ i i = 1 / s * (m⁻¹ i i / (d i) ^ 2) := by
      have hmu : IsUnit m.det := isUnit_iff_ne_zero.2 hm
      have hdd : Matrix.diagonal d * Matrix.diagonal (fun a => (d a)⁻¹) = 1 := by
        rw [Matrix.diagonal_mul_diagonal]
        rw [← Matrix.diagonal_one]
        congr 1
        funext a
        exact mul_inv_cancel₀ (hd a)
      have hright : m' * ((1 / s) •
          (Matrix.diagonal (fun a => (d a)⁻¹) * m⁻¹ * Matrix.diagonal fun a => (d a)⁻¹)) = 1 := by
        rw [hM, Matrix.smul_mul, Matrix.mul_smul, smul_smul, mul_one_div_cancel hs.ne', one_smul]
        calc Matrix.diagonal d * m * Matrix.diagonal d *
              (Matrix.diagonal (fun a => (d a)⁻¹) * m⁻¹ * Matrix.diagonal fun a => (d a)⁻¹)
            = Matrix.diagonal d * m * (Matrix.diagonal d * Matrix.diagonal (fun a => (d a)⁻¹)) * m⁻¹ *
              Matrix.diagonal (fun a => (d a)⁻¹) := by simp only [Matrix.mul_assoc]
          _ = Matrix.diagonal d * (m * m⁻¹) * Matrix.diagonal (fun a => (d a)⁻¹) := by
              rw [hdd, Matrix.mul_one, Matrix.mul_assoc (Matrix.diagonal d) m]
          _ = 1 := by rw [Matrix.mul_nonsing_inv _ hmu, Matrix.mul_one, hdd]
      rw [Matrix.inv_eq_right_inv hright, Matrix.smul_apply, Matrix.mul_diagonal, Matrix.diagonal_mul,
        smul_eq_mul]
      have := hd i
      field_simp
    rw [hinv]
    have hd2 : 0 < (d i) ^ 2 := by have := hd i; positivity
    by_cases hneg : m⁻¹ i i < 0
    · rw [if_pos hneg, if_pos]
      · rfl
      · exact mul_neg_of_pos_of_neg (by positivity) (div_neg_of_neg_of_pos hneg hd2)
    · push Not at hneg
      rw [if_neg (not_lt.2 hneg), if_neg (not_lt.2 (by positivity))]
      simp only [LimitOut.scale]
      congr 1
      rw [Real.sqrt_mul (by positivity), Real.sqrt_div hneg, Real.sqrt_sq_eq_abs, Real.sqrt_div zero_le_one,
        Real.sqrt_one]
      have := abs_pos.2 (hd i)
      have := Real.sqrt_pos.2 hs
      field_simp

/-- Replace the derivatives of the background by multiples of themselves. -/
def rescale (bg : ParamBg) (c : String → ℝ) : ParamBg :=
  { bg with deriv := fun k e => c k * bg.deriv k e }

theorem keyIndex_spec {params : List (String × ℝ)} {key : String} {i : Fin params.length}
    (h : keyIndex params key = some i) : (params.get i).1 = key := by
  unfold keyIndex at h
  rw [List.findFinIdx?_eq_some_iff] at h
  simpa using h.1

/-- **Only the span of the derivatives matters for the rate.**  Multiplying each background derivative
by its own non-zero factor, the signal flux by `s` and the observing time by `T` leaves every limit the same
up to the expected factor: the limit on the rate changes by `1/(|s| √T)`, that on a background parameter by
`1/(|c| √T)`; in particular the limit on the rate does not see the factors `c` at all. -/
theorem limit_rescaling (grid : List ℝ) (phiS : ℝ → ℝ) (bg : ParamBg) (dOmega : ℝ) (aeff : ℝ → ℝ)
    (tobs sigma : ℝ) (c : String → ℝ) (hc : ∀ k, c k ≠ 0) {s T : ℝ} (hs : s ≠ 0) (hT : 0 < T)
    (key : String) :
    (fisherMatrix grid (fun e => s * phiS e) (rescale bg c) dOmega aeff (T * tobs)).limit sigma key =
      ((fisherMatrix grid phiS bg dOmega aeff tobs).limit sigma key).scale
        (1 / (Real.sqrt T * |if key = "rate" then s else c key|)) := by
  show limitKey (fisherParams bg) (entries grid (fun e => s * phiS e) (rescale bg c) dOmega aeff
    (T * tobs)) sigma key = (limitKey (fisherParams bg) (entries grid phiS bg dOmega aeff tobs) sigma
      key).scale _
  unfold limitKey
  obtain ⟨o, ho⟩ : ∃ o, o = keyIndex (fisherParams bg) key := ⟨_, rfl⟩
  rw [← ho]
  match o, ho with
  | none, _ => rfl
  | some i, ho =>
    have hkey := keyIndex_spec ho.symm
    obtain ⟨d, hd⟩ : ∃ d : Fin (fisherParams bg).length → ℝ, d = fun a =>
      if ((fisherParams bg).get a).1 = "rate" then s else c ((fisherParams bg).get a).1 := ⟨_, rfl⟩
    have hd0 : ∀ a, d a ≠ 0 := by
      intro a
      rw [hd]
      simp only
      split_ifs
      · exact hs
      · exact hc _
    have hdphi : ∀ k e, dphi (fun e => s * phiS e) (rescale bg c) k e =
        (if k = "rate" then s else c k) * dphi phiS bg k e := by
      intro k e
      unfold dphi
      split_ifs <;> rfl
    have hmat : ∀ a b, entries grid (fun e => s * phiS e) (rescale bg c) dOmega aeff (T * tobs) a b =
        T * (d a * entries grid phiS bg dOmega aeff tobs a b * d b) := by
      intro a b
      show element grid (fun e => s * phiS e) (rescale bg c) dOmega aeff (T * tobs)
        ((fisherParams bg).get b).1 ((fisherParams bg).get a).1 = T * (d a *
          element grid phiS bg dOmega aeff tobs ((fisherParams bg).get b).1
            ((fisherParams bg).get a).1 * d b)
      unfold element
      rw [show T * (d a * trapz grid (fun e => dphi phiS bg ((fisherParams bg).get b).1 e *
          dphi phiS bg ((fisherParams bg).get a).1 e / (bg.flux e * dOmega) * aeff e * tobs) * d b) =
        (T * d a * d b) * trapz grid (fun e => dphi phiS bg ((fisherParams bg).get b).1 e *
          dphi phiS bg ((fisherParams bg).get a).1 e / (bg.flux e * dOmega) * aeff e * tobs) by ring,
        ← trapz_smul]
      refine trapz_congr fun e _ => ?_
      rw [hdphi, hdphi, hd]
      simp only [rescale]
      ring
    have := limitAt_scale hT hd0 hmat sigma i
    rw [show d i = if key = "rate" then s else c key by rw [hd]; simp only [hkey]] at this
    exact this

/-- **The missing solid angle.**  Full statement: `limit(sigma, key)` is the forecast error of the
parameter `key` of the observed flux `dOmega * dPhi/dEdOmega`.  What holds: `fisher` differentiates
`dPhi/dEdOmega` without the factor `dOmega`; compared with the matrix of the flux actually used in the
denominator, the limit on the rate is nevertheless exact, and the error of every background parameter is
too large by exactly the factor `dOmega`. -/
theorem background_errors_partial (grid : List ℝ) (phiS : ℝ → ℝ) (bg : ParamBg) {dOmega : ℝ}
    (hw : 0 < dOmega) (aeff : ℝ → ℝ) (tobs sigma : ℝ) :
    (fisherMatrix grid phiS bg dOmega aeff tobs).limit sigma "rate" =
      (fisherMatrix grid phiS (rescale bg fun _ => dOmega) dOmega aeff tobs).limit sigma "rate" ∧
    ∀ key, key ≠ "rate" → (fisherMatrix grid phiS bg dOmega aeff tobs).limit sigma key =
      ((fisherMatrix grid phiS (rescale bg fun _ => dOmega) dOmega aeff tobs).limit sigma key).scale
        dOmega := by
  have h := fun key => limit_rescaling grid phiS bg dOmega aeff tobs sigma (fun _ => dOmega)
    (fun _ => hw.ne') one_ne_zero one_pos key
  simp only [one_mul, Real.sqrt_one] at h
  refine ⟨?_, fun key hk => ?_⟩
  · rw [h "rate"]
    simp only [if_true, abs_one, one_div, inv_one]
    cases (fisherMatrix grid phiS bg dOmega aeff tobs).limit sigma "rate" <;> simp [LimitOut.scale]
  · rw [h key, if_neg hk, abs_of_pos hw]
    cases (fisherMatrix grid phiS bg dOmega aeff tobs).limit sigma key <;> simp [LimitOut.scale]
    rw [mul_inv_cancel_left₀ hw.ne']

theorem inv_diag {n : ℕ} {m : Matrix (Fin n) (Fin n) ℝ} (hsymm : m.IsSymm)
    (hpsd : ∀ v : Fin n → ℝ, 0 ≤ ∑ i, ∑ j, v i * v j * m i j) (hdet : m.det ≠ 0) (i : Fin n) :
    0 < m i i ∧ 1 / m i i ≤ m⁻¹ i i := by
  have hu : IsUnit m.det := isUnit_iff_ne_zero.2 hdet
  have hmm := Matrix.mul_nonsing_inv m hu
  have key : ∀ t : ℝ, 0 ≤ m⁻¹ i i - 2 * t + t ^ 2 * m i i := by
    intro t
    have h := hpsd fun a => m⁻¹ a i - t * (if a = i then 1 else 0)
    have hcol : ∀ a, ∑ b, m a b * m⁻¹ b i = if a = i then 1 else 0 := by
      intro a
      have := congrFun (congrFun hmm a) i
      rw [Matrix.mul_apply] at this
      rw [this, Matrix.one_apply]
    have hexp : ∑ a, ∑ b, (m⁻¹ a i - t * (if a = i then 1 else 0)) *
        (m⁻¹ b i - t * (if b = i then 1 else 0)) * m a b =
        (∑ a, m⁻¹ a i * ∑ b, m a b * m⁻¹ b i) - t * (∑ b, m i b * m⁻¹ b i)
          - t * (∑ a, m⁻¹ a i * m a i) + t ^ 2 * m i i := by
      have h1 : ∀ a, ∑ b, (m⁻¹ a i - t * (if a = i then 1 else 0)) *
          (m⁻¹ b i - t * (if b = i then 1 else 0)) * m a b =
          m⁻¹ a i * (∑ b, m a b * m⁻¹ b i) - t * (if a = i then ∑ b, m a b * m⁻¹ b i else 0)
            - t * (m⁻¹ a i * m a i) + t ^ 2 * (if a = i then m a i else 0) := by
        intro a
        have h2 : ∑ b, (m⁻¹ a i - t * (if a = i then 1 else 0)) *
          (m⁻¹ b i - t * (if b = i then 1 else 0)) * m a b =
          (m⁻¹ a i - t * (if a = i then 1 else 0)) * (∑ b, m a b * m⁻¹ b i) -
          (m⁻¹ a i - t * (if a = i then 1 else 0)) * t * ∑ b, (if b = i then m a b else 0) := by
          rw [Finset.mul_sum, Finset.mul_sum, ← Finset.sum_sub_distrib]
          refine Finset.sum_congr rfl fun b _ => ?_
          split_ifs <;> ring
        rw [h2, Finset.sum_ite_eq' Finset.univ i (fun b => m a b)]
        simp only [Finset.mem_univ, if_true]
        split_ifs <;> ring
      simp_rw [h1]
      rw [Finset.sum_add_distrib, Finset.sum_sub_distrib, Finset.sum_sub_distrib, ← Finset.mul_sum,
        ← Finset.mul_sum, ← Finset.mul_sum, Finset.sum_ite_eq' Finset.univ i (fun a => ∑ b, m a b * m⁻¹ b i),
        Finset.sum_ite_eq' Finset.univ i (fun a => m a i)]
      simp only [Finset.mem_univ, if_true]
    rw [hexp] at h
    have hrow : ∑ a, m⁻¹ a i * m a i = 1 := by
      have := hcol i
      rw [if_pos rfl] at this
      rw [← this]
      refine Finset.sum_congr rfl fun a _ => ?_
      rw [mul_comm]
      congr 1
      exact (congrFun (congrFun hsymm a) i).symm
    have hfirst : ∑ a, m⁻¹ a i * ∑ b, m a b * m⁻¹ b i = m⁻¹ i i := by
      simp_rw [hcol]
      simp
    rw [hfirst, hrow, hcol i, if_pos rfl] at h
    linarith
  have hpos : 0 < m i i := by
    by_contra hn
    push Not at hn
    have h1 := key (|m⁻¹ i i| + 1)
    have h2 : (|m⁻¹ i i| + 1) ^ 2 * m i i ≤ 0 := mul_nonpos_of_nonneg_of_nonpos (sq_nonneg _) hn
    have h3 := le_abs_self (m⁻¹ i i)
    have h4 := abs_nonneg (m⁻¹ i i)
    linarith
  refine ⟨hpos, ?_⟩
  have h1 := key (1 / m i i)
  have h2 : (1 / m i i) ^ 2 * m i i = 1 / m i i := by field_simp
  linarith

/-- **Nuisance parameters never strengthen a limit**, and the result is NaN exactly for a singular
matrix: for every key of the result, either the matrix is singular and the limit is NaN, or the limit is at
least `sigma / √F` with `F` the diagonal entry of the parameter (what one would quote with all other
parameters held fixed). -/
theorem nuisance_weakens {grid : List ℝ} {bg : ParamBg} {dOmega : ℝ} {aeff : ℝ → ℝ} {tobs : ℝ}
    (h : Physical grid bg dOmega aeff tobs) (phiS : ℝ → ℝ) {sigma : ℝ} (hs : 0 ≤ sigma)
    {key : String} (hk : key ∈ (fisherParams bg).map Prod.fst) :
    ((fisherMatrix grid phiS bg dOmega aeff tobs).limit sigma key = .nan ∧
      (fisherMatrix grid phiS bg dOmega aeff tobs).mat.det = 0) ∨
    ∃ x, (fisherMatrix grid phiS bg dOmega aeff tobs).limit sigma key = .value x ∧
      0 < element grid phiS bg dOmega aeff tobs key key ∧
      sigma / Real.sqrt (element grid phiS bg dOmega aeff tobs key key) ≤ x := by
  obtain ⟨o, ho⟩ : ∃ o, o = keyIndex (fisherParams bg) key := ⟨_, rfl⟩
  show (limitKey (fisherParams bg) (entries grid phiS bg dOmega aeff tobs) sigma key = .nan ∧
      (entries grid phiS bg dOmega aeff tobs).det = 0) ∨
    ∃ x, limitKey (fisherParams bg) (entries grid phiS bg dOmega aeff tobs) sigma key = .value x ∧ _
  unfold limitKey
  rw [← ho]
  match o, ho with
  | none, ho =>
    exfalso
    obtain ⟨⟨k, x⟩, hp, rfl⟩ := List.mem_map.1 hk
    unfold keyIndex at ho
    have := (List.findFinIdx?_eq_none_iff.1 ho.symm) (k, x) hp
    simp at this
  | some i, ho =>
    have hkey := keyIndex_spec ho.symm
    have hinfo := fisher_information h phiS
    simp only
    unfold limitAt
    by_cases hdet : (entries grid phiS bg dOmega aeff tobs).det = 0
    · left; exact ⟨if_pos hdet, hdet⟩
    · right
      obtain ⟨h1, h2⟩ := inv_diag (m := entries grid phiS bg dOmega aeff tobs) hinfo.1 hinfo.2.1 hdet i
      have hel : (entries grid phiS bg dOmega aeff tobs) i i =
          element grid phiS bg dOmega aeff tobs key key := by
        show element grid phiS bg dOmega aeff tobs ((fisherParams bg).get i).1
          ((fisherParams bg).get i).1 = _
        rw [hkey]
      rw [hel] at h1 h2
      have h3 : 0 ≤ (entries grid phiS bg dOmega aeff tobs)⁻¹ i i :=
        le_trans (by positivity) h2
      rw [if_neg hdet, if_neg (not_lt.2 h3)]
      refine ⟨_, rfl, h1, ?_⟩
      have h4 := Real.sqrt_le_sqrt h2
      rw [Real.sqrt_div zero_le_one, Real.sqrt_one] at h4
      rw [div_eq_mul_one_div]
      exact mul_le_mul_of_nonneg_left h4 hs

theorem keyIndex_rate (bg : ParamBg) :
    keyIndex (fisherParams bg) "rate" = some ⟨0, Nat.succ_pos _⟩ := by
  simp [keyIndex, fisherParams, List.findFinIdx?_cons]

/-- **No signal gives NaN, not infinity**: when the convolved spectrum vanishes on the grid, the limit on
the rate is NaN at every significance. -/
theorem no_signal_nan (grid : List ℝ) (bg : ParamBg) (dOmega : ℝ) (aeff : ℝ → ℝ) (tobs sigma : ℝ)
    {phiS : ℝ → ℝ} (h0 : ∀ e ∈ grid, phiS e = 0) :
    (fisherMatrix grid phiS bg dOmega aeff tobs).limit sigma "rate" = .nan := by
  show limitKey (fisherParams bg) (entries grid phiS bg dOmega aeff tobs) sigma "rate" = .nan
  unfold limitKey
  rw [keyIndex_rate]
  show limitAt (entries grid phiS bg dOmega aeff tobs) sigma ⟨0, Nat.succ_pos _⟩ = .nan
  unfold limitAt
  refine if_pos (Matrix.det_eq_zero_of_row_eq_zero (⟨0, Nat.succ_pos _⟩) fun j => ?_)
  show element grid phiS bg dOmega aeff tobs ((fisherParams bg).get j).1 "rate" = 0
  unfold element
  rw [← trapz_zero grid]
  refine trapz_congr fun e he => ?_
  simp [dphi, h0 e he]

/-! ## Comparison with `unbinned_limit` -/

/-- Without background parameters the limit is `sigma / √F`. -/
theorem limit_no_nuisance (grid : List ℝ) (phiS flux : ℝ → ℝ) (dv : String → ℝ → ℝ) (dOmega : ℝ)
    (aeff : ℝ → ℝ) (tobs sigma : ℝ)
    (hF : 0 < element grid phiS ⟨[], flux, dv⟩ dOmega aeff tobs "rate" "rate") :
    (fisherMatrix grid phiS ⟨[], flux, dv⟩ dOmega aeff tobs).limit sigma "rate" =
      .value (sigma / Real.sqrt (element grid phiS ⟨[], flux, dv⟩ dOmega aeff tobs "rate" "rate")) := by
  obtain ⟨F, hFF⟩ : ∃ F, F = element grid phiS ⟨[], flux, dv⟩ dOmega aeff tobs "rate" "rate" :=
    ⟨_, rfl⟩
  rw [← hFF] at hF ⊢
  obtain ⟨m, hm⟩ : ∃ m : Matrix (Fin 1) (Fin 1) ℝ, m = entries grid phiS ⟨[], flux, dv⟩ dOmega aeff
    tobs := ⟨_, rfl⟩
  have hlim : (fisherMatrix grid phiS ⟨[], flux, dv⟩ dOmega aeff tobs).limit sigma "rate" =
      limitAt m sigma 0 := by
    rw [hm]
    rfl
  have hm00 : m 0 0 = F := by rw [hm, hFF]; rfl
  rw [hlim]
  unfold limitAt
  have hdet : m.det = F := by rw [Matrix.det_fin_one, hm00]
  have hinv : m⁻¹ 0 0 = 1 / F := by
    have : m * (Matrix.of fun _ _ => 1 / F) = 1 := by
      ext i j
      have hi : i = 0 := Subsingleton.elim _ _
      have hj : j = 0 := Subsingleton.elim _ _
      subst hi hj
      rw [Matrix.mul_apply]
      simp [hF.ne', hm00]
    rw [Matrix.inv_eq_right_inv this]
    rfl
  rw [hdet, if_neg hF.ne', hinv, if_neg (not_lt.2 (by positivity)), Real.sqrt_div zero_le_one,
    Real.sqrt_one]
  congr 1
  ring

/-- The nodes of the grid inside a window. -/
noncomputable def window (grid : List ℝ) (lo hi : ℝ) : List ℝ :=
  (grid.dropWhile fun e => decide (e < lo)).takeWhile fun e => decide (e ≤ hi)

theorem pairwise_window {grid : List ℝ} (hg : grid.Pairwise (· ≤ ·)) (lo hi : ℝ) :
    (window grid lo hi).Pairwise (· ≤ ·) :=
  hg.sublist ((List.takeWhile_sublist _).trans (List.dropWhile_sublist _))

theorem mem_window {grid : List ℝ} {lo hi e : ℝ} (h : e ∈ window grid lo hi) : e ∈ grid :=
  ((List.takeWhile_sublist _).trans (List.dropWhile_sublist _)).subset h

theorem trapz_window_le {grid : List ℝ} (hg : grid.Pairwise (· ≤ ·)) {f : ℝ → ℝ}
    (H : ∀ e ∈ grid, 0 ≤ f e) (lo hi : ℝ) : trapz (window grid lo hi) f ≤ trapz grid f :=
  (trapz_takeWhile_le (hg.sublist (List.dropWhile_sublist _))
    (fun e he => H e ((List.dropWhile_sublist _).subset he)) _).trans (trapz_dropWhile_le hg H _)

/-- Cauchy–Schwarz for the trapezoidal rule. -/
theorem trapz_cauchy {g : List ℝ} (hg : g.Pairwise (· ≤ ·)) {s b a : ℝ → ℝ}
    (hb : ∀ e ∈ g, 0 < b e) (ha : ∀ e ∈ g, 0 ≤ a e) :
    (trapz g fun e => s e * a e) ^ 2 ≤
      (trapz g fun e => b e * a e) * trapz g fun e => s e ^ 2 / b e * a e := by
  obtain ⟨S, hS⟩ : ∃ S, S = trapz g fun e => s e * a e := ⟨_, rfl⟩
  obtain ⟨B, hB⟩ : ∃ B, B = trapz g fun e => b e * a e := ⟨_, rfl⟩
  obtain ⟨Q, hQ⟩ : ∃ Q, Q = trapz g fun e => s e ^ 2 / b e * a e := ⟨_, rfl⟩
  rw [← hS, ← hB, ← hQ]
  have key : ∀ x y : ℝ, 0 ≤ x ^ 2 * Q - 2 * x * y * S + y ^ 2 * B := by
    intro x y
    have h1 : 0 ≤ trapz g fun e => (x * s e - y * b e) ^ 2 / b e * a e :=
      trapz_nonneg hg fun e he => by
        have := hb e he
        have := ha e he
        positivity
    have h2 : (trapz g fun e => (x * s e - y * b e) ^ 2 / b e * a e) =
        trapz g fun e => x ^ 2 * (s e ^ 2 / b e * a e) + ((-(2 * x * y)) * (s e * a e) +
          y ^ 2 * (b e * a e)) := by
      refine trapz_congr fun e he => ?_
      have := (hb e he).ne'
      field_simp
      ring
    rw [h2, trapz_add, trapz_add, trapz_smul, trapz_smul, trapz_smul, ← hS, ← hB, ← hQ] at h1
    linarith
  have hBn : 0 ≤ B := by have := key 0 1; simpa using this
  rcases hBn.eq_or_lt with h0 | h0
  · have h1 := key 1 (S * (|Q| + 1))
    rw [← h0] at h1 ⊢
    have h2 : S ^ 2 * (2 * (|Q| + 1)) ≤ Q := by nlinarith
    have h3 := le_abs_self Q
    have h4 := abs_nonneg Q
    by_contra hc
    have h5 : 0 < S ^ 2 := by rw [zero_mul] at hc; exact not_le.1 hc
    have h6 := key (|S|) 0
    have h7 := key 1 ((|Q| + 1) / S)
    have hS0 : S ≠ 0 := by intro h; rw [h] at h5; simp at h5
    rw [← h0] at h7
    have h8 : 2 * 1 * ((|Q| + 1) / S) * S = 2 * (|Q| + 1) := by field_simp
    rw [h8] at h7
    linarith
  · have h1 := key B S
    have h2 : 0 ≤ B * (B * Q - S ^ 2) := by nlinarith
    have := nonneg_of_mul_nonneg_right h2 h0
    linarith

theorem nanmax2_mem (x y : XReal) : nanmax2 x y = x ∨ nanmax2 x y = y := by
  cases x <;> cases y <;> simp [nanmax2]
  rename_i a b
  rcases le_total a b with h | h
  · right; exact h
  · left; exact h

theorem nanmax_mem (l : List XReal) : nanmax l = .nan ∨ nanmax l ∈ l := by
  induction l with
  | nil => left; rfl
  | cons x xs ih =>
    show nanmax2 x (nanmax xs) = .nan ∨ nanmax2 x (nanmax xs) ∈ x :: xs
    rcases nanmax2_mem x (nanmax xs) with h | h
    · rw [h]; right; exact List.mem_cons_self
    · rw [h]
      rcases ih with h' | h'
      · left; exact h'
      · right; exact List.mem_cons_of_mem _ h'

/-- The flux factor of a target with J- or D-factor `J`. -/
def targetOf (J D dw : ℝ) : Target := ⟨some J, some D, some dw⟩

/-- **The two forecasts share their normalisation.**  Without background parameters, for the same
spectrum, background, effective area, target and observing time and the same energy nodes, the Fisher
limit on `<sigma v>` (or on the decay rate) is never weaker than the limit of `unbinned_limit`, whatever
windows the latter is given: both are `4π m²·4/(J √(T ΔΩ))` (`4π m/(D √(T ΔΩ))`) times `n_sigma` over a
signal-to-noise ratio, and the likelihood-optimal one bounds every window. -/
theorem fisher_le_unbinned {kind : Kind} (hkind : kind ≠ .other) {mx J D dw tobs sigma : ℝ}
    (hmx : 0 < mx) (hJ : 0 < J) (hD : 0 < D) (ht : 0 < tobs) (hsig : 0 < sigma)
    {grid : List ℝ} {flux aeff dnde : ℝ → ℝ} {dv : String → ℝ → ℝ}
    (h : Physical grid ⟨[], flux, dv⟩ dw aeff tobs) (hd : ∀ e ∈ grid, 0 ≤ dnde e) {eg : List ℝ} {L : ℝ}
    (hL : unbinnedLimit kind mx (if kind = .ann then J else D) dw tobs sigma
      (fun lo hi => trapz (window grid lo hi) fun e => dnde e * aeff e)
      (fun lo hi => trapz (window grid lo hi) fun e => flux e * aeff e) eg = .ok (.num L)) :
    ∃ x, fisherLimit kind mx (targetOf J D dw) dnde ⟨[], flux, dv⟩ grid aeff tobs [sigma] =
      .ok [.value x] ∧ 0 < x ∧ x ≤ L := by
  have hw := h.omega
  obtain ⟨Q, hQ⟩ : ∃ Q, Q = trapz grid fun e => dnde e ^ 2 / flux e * aeff e := ⟨_, rfl⟩
  obtain ⟨P, hP⟩ : ∃ P, P = unbinnedPrefactor kind mx (if kind = .ann then J else D) dw tobs :=
    ⟨_, rfl⟩
  obtain ⟨pref, hpref⟩ : ∃ pref, signalFluxPrefactor kind mx (targetOf J D dw) false = .ok pref ∧
      0 < pref ∧ P = Real.sqrt dw / (Real.sqrt tobs * pref) := by
    have hsq : Real.sqrt (tobs * dw) = Real.sqrt tobs * Real.sqrt dw := Real.sqrt_mul ht.le _
    have h1 := Real.sqrt_pos.2 ht
    have h2 := Real.sqrt_pos.2 hw
    have h3 := Real.mul_self_sqrt hw.le
    have hpi := Real.pi_pos
    cases kind with
    | ann =>
      refine ⟨_, rfl, ?_, ?_⟩
      · simp only [Bool.false_eq_true, if_false]; positivity
      · rw [hP]
        simp only [unbinnedPrefactor, Bool.false_eq_true, if_false, if_true]
        rw [hsq]
        obtain ⟨w, hww⟩ : ∃ w, w = Real.sqrt dw := ⟨_, rfl⟩
        rw [← hww] at h2 h3 ⊢
        rw [← h3]
        field_simp
    | dec =>
      refine ⟨_, rfl, ?_, ?_⟩
      · positivity
      · rw [hP]
        simp only [unbinnedPrefactor, reduceCtorEq, if_false]
        rw [hsq]
        obtain ⟨w, hww⟩ : ∃ w, w = Real.sqrt dw := ⟨_, rfl⟩
        rw [← hww] at h2 h3 ⊢
        rw [← h3]
        field_simp
    | other => exact absurd rfl hkind
  obtain ⟨hp1, hp2, hp3⟩ := hpref
  have hel : element grid (fun e => pref * dnde e) ⟨[], flux, dv⟩ dw aeff tobs "rate" "rate" =
      pref ^ 2 * tobs / dw * Q := by
    unfold element
    rw [hQ, ← trapz_smul]
    refine trapz_congr fun e he => ?_
    have := (h.flux e he).ne'
    have := hw.ne'
    simp only [dphi, if_true]
    field_simp
  -- the window that gives the unbinned limit
  obtain ⟨s, hs, hLs⟩ : ∃ s, 0 < s ∧ s ^ 2 ≤ Q ∧ L = P * sigma / s := by
    have hcs : ∀ lo hi, (trapz (window grid lo hi) fun e => dnde e * aeff e) ^ 2 ≤
        (trapz (window grid lo hi) fun e => flux e * aeff e) * Q := by
      intro lo hi
      have h1 := trapz_cauchy (pairwise_window h.sorted lo hi) (s := dnde) (b := flux) (a := aeff)
        (fun e he => h.flux e (mem_window he)) (fun e he => h.area e (mem_window he))
      have h2 : (trapz (window grid lo hi) fun e => dnde e ^ 2 / flux e * aeff e) ≤ Q := by
        rw [hQ]
        exact trapz_window_le h.sorted (fun e he => by
          have := h.flux e he
          have := h.area e he
          positivity) lo hi
      have h3 : 0 ≤ trapz (window grid lo hi) fun e => flux e * aeff e :=
        trapz_nonneg (pairwise_window h.sorted lo hi) fun e he =>
          mul_nonneg (h.flux e (mem_window he)).le (h.area e (mem_window he))
      exact h1.trans (mul_le_mul_of_nonneg_left h2 h3)
    unfold unbinnedLimit at hL
    rw [← hP] at hL
    simp only at hL
    split_ifs at hL
    injection hL with hL
    obtain ⟨M, hM⟩ : ∃ M, M = nanmax ((windows eg).map fun w =>
      snr (trapz (window grid w.1 w.2) fun e => dnde e * aeff e)
        (trapz (window grid w.1 w.2) fun e => flux e * aeff e)) := ⟨_, rfl⟩
    rw [← hM] at hL
    have hmem := nanmax_mem ((windows eg).map fun w =>
      snr (trapz (window grid w.1 w.2) fun e => dnde e * aeff e)
        (trapz (window grid w.1 w.2) fun e => flux e * aeff e))
    rw [← hM] at hmem
    rcases hmem with hnan | hmem
    · rw [hnan] at hL; simp [divX] at hL
    · obtain ⟨w, -, hw'⟩ := List.mem_map.1 hmem
      obtain ⟨S, hS⟩ : ∃ S, S = trapz (window grid w.1 w.2) fun e => dnde e * aeff e := ⟨_, rfl⟩
      obtain ⟨B, hB⟩ : ∃ B, B = trapz (window grid w.1 w.2) fun e => flux e * aeff e := ⟨_, rfl⟩
      have hc := hcs w.1 w.2
      have hSn : 0 ≤ S := by
        rw [hS]
        exact trapz_nonneg (pairwise_window h.sorted _ _) fun e he =>
          mul_nonneg (hd e (mem_window he)) (h.area e (mem_window he))
      have hBn : 0 ≤ B := by
        rw [hB]
        exact trapz_nonneg (pairwise_window h.sorted _ _) fun e he =>
          mul_nonneg (h.flux e (mem_window he)).le (h.area e (mem_window he))
      rw [← hS, ← hB] at hc hw'
      unfold snr at hw'
      rw [if_neg (not_lt.2 hBn)] at hw'
      rcases hBn.eq_or_lt with hB0 | hB0
      · rw [← hB0] at hc hw'
        have hS0 : S = 0 := by
          rw [zero_mul] at hc
          exact pow_eq_zero_iff two_ne_zero |>.1 (le_antisymm hc (sq_nonneg _))
        rw [hS0] at hw'
        simp at hw'
        rw [← hw'] at hL
        simp [divX] at hL
      · rw [if_neg hB0.ne'] at hw'
        rw [← hw'] at hL
        have hsb := Real.sqrt_pos.2 hB0
        simp only [divX] at hL
        split_ifs at hL with hz
        · refine ⟨S / Real.sqrt B, ?_, ?_, ?_⟩
          · exact lt_of_le_of_ne (by positivity) (Ne.symm hz)
          · rw [div_pow, Real.sq_sqrt hB0.le, div_le_iff₀ hB0]
            linarith
          · injection hL with hL; exact hL.symm
  obtain ⟨hs2, hLs⟩ := hLs
  have hQ0 : 0 < Q := lt_of_lt_of_le (by positivity) hs2
  have hF : 0 < element grid (fun e => pref * dnde e) ⟨[], flux, dv⟩ dw aeff tobs "rate" "rate" := by
    rw [hel]; positivity
  have hlim := limit_no_nuisance grid (fun e => pref * dnde e) flux dv dw aeff tobs sigma hF
  have hval : sigma / Real.sqrt (element grid (fun e => pref * dnde e) ⟨[], flux, dv⟩ dw aeff tobs
      "rate" "rate") = P * sigma / Real.sqrt Q := by
    rw [hel, hp3, Real.sqrt_mul (by positivity), Real.sqrt_div (by positivity),
      Real.sqrt_mul (by positivity), Real.sqrt_sq hp2.le]
    have h1 := Real.sqrt_pos.2 ht
    have h2 := Real.sqrt_pos.2 hw
    have h3 := Real.sqrt_pos.2 hQ0
    field_simp
  have hP0 : 0 < P := by
    rw [hp3]
    have h1 := Real.sqrt_pos.2 ht
    have h2 := Real.sqrt_pos.2 hw
    positivity
  refine ⟨P * sigma / Real.sqrt Q, ?_, ?_, ?_⟩
  · unfold fisherLimit fisher
    rw [hp1]
    simp only [targetOf, List.map_cons, List.map_nil]
    rw [hlim, hval]
  · have h3 := Real.sqrt_pos.2 hQ0
    positivity
  · rw [hLs]
    have h4 : s ≤ Real.sqrt Q := Real.le_sqrt_of_sq_le hs2
    gcongr

/-- The hypotheses can be met: two nodes, everything equal to one. -/
example : ∃ L, unbinnedLimit .ann 1 1 1 1 5 (fun lo hi => trapz (window [1, 2] lo hi) fun _ => 1 * 1)
    (fun lo hi => trapz (window [1, 2] lo hi) fun _ => 1 * 1) [1, 2] = .ok (.num L) := by
  have h1 : trapz (window [1, 2] 1 2) (fun _ => 1 * 1) = 1 := by
    norm_num [window, trapz, List.dropWhile, List.takeWhile]
  simp only [unbinnedLimit, windows, List.map_cons, List.map_nil, List.append_nil, h1]
  norm_num [nanmax, nanmax2, snr, divX]

/-! ## The parametric backgrounds -/

/-- The value of a key in a result dictionary. -/
def lookupKey (l : List (String × α)) (key : String) : Option α := (l.find? fun p => p.1 == key).map Prod.snd

/-- Set one parameter of the galactic-centre model by name. -/
def Gc.set (g : Gc) (key : String) (x : ℝ) : Gc :=
  if key = "galactic_amplitude" then { g with ampG := x }
  else if key = "galactic_power_law_index" then { g with alphaG := x }
  else if key = "galactic_exponential_cutoff" then { g with ec := x }
  else if key = "galactic_exponential_index" then { g with gamma := x }
  else if key = "extra_galactic_amplitude" then { g with ampEg := x }
  else { g with alphaEg := x }

/-- The parameter of that name. -/
def Gc.get (g : Gc) (key : String) : ℝ :=
  if key = "galactic_amplitude" then g.ampG
  else if key = "galactic_power_law_index" then g.alphaG
  else if key = "galactic_exponential_cutoff" then g.ec
  else if key = "galactic_exponential_index" then g.gamma
  else if key = "extra_galactic_amplitude" then g.ampEg
  else g.alphaEg

theorem hasDerivAt_rpow_neg {e : ℝ} (he : 0 < e) (a : ℝ) :
    HasDerivAt (fun x : ℝ => e ^ (-x)) (-(e ^ (-a)) * Real.log e) a := by
  have h1 : HasDerivAt (fun x : ℝ => -x) (-1) a := (hasDerivAt_id a).neg
  have h2 := h1.const_rpow he
  exact h2.congr_deriv (by ring)

/-- **The derivatives of the galactic-centre background are the derivatives of its flux**: for every
positive energy and cutoff and non-zero amplitudes, each of the six entries of `derivatives` is the partial
derivative of `dPhi_dEdOmega` with respect to the parameter of that name, and the keys are those of
`params`. -/
theorem gc_derivatives (g : Gc) {e : ℝ} (he : 0 < e) (hec : 0 < g.ec) (h1 : g.ampG ≠ 0)
    (h2 : g.ampEg ≠ 0) :
    (g.derivatives e).map Prod.fst = g.params.map Prod.fst ∧
    ∀ key d, (key, d) ∈ g.derivatives e →
      ∃ d', d = some d' ∧ HasDerivAt (fun x => (g.set key x).flux e) d' (g.get key) := by
  refine ⟨rfl, fun key d hd => ?_⟩
  have hq : 0 < e / g.ec := div_pos he hec
  simp only [Gc.derivatives, List.mem_cons, Prod.mk.injEq, List.not_mem_nil, or_false] at hd
  rcases hd with ⟨rfl, rfl⟩ | ⟨rfl, rfl⟩ | ⟨rfl, rfl⟩ | ⟨rfl, rfl⟩ | ⟨rfl, rfl⟩ | ⟨rfl, rfl⟩
  · refine ⟨_, if_neg h1, ?_⟩
    simp only [Gc.set, Gc.get, if_true, Gc.flux]
    refine ((((hasDerivAt_id g.ampG).mul_const (e ^ (-g.alphaG))).mul_const
      (Real.exp (-((e / g.ec) ^ g.gamma)))).add_const _).congr_deriv ?_
    field_simp
  · refine ⟨_, rfl, ?_⟩
    simp only [Gc.set, Gc.get, String.reduceEq, if_true, if_false, Gc.flux]
    refine ((((hasDerivAt_rpow_neg he g.alphaG).const_mul g.ampG).mul_const
      (Real.exp (-((e / g.ec) ^ g.gamma)))).add_const _).congr_deriv ?_
    ring
  · refine ⟨_, rfl, ?_⟩
    simp only [Gc.set, Gc.get, String.reduceEq, if_true, if_false, Gc.flux]
    have h3 : HasDerivAt (fun x : ℝ => e / x) (-e / g.ec ^ 2) g.ec := by
      have := (hasDerivAt_inv hec.ne').const_mul e
      simp only [div_eq_mul_inv]
      exact this.congr_deriv (by ring)
    have h4 := (h3.rpow_const (p := g.gamma) (Or.inl hq.ne')).neg.exp
    refine ((h4.const_mul (g.ampG * e ^ (-g.alphaG))).add_const _).congr_deriv ?_
    rw [Real.rpow_sub hq, Real.rpow_one]
    show g.ampG * e ^ (-g.alphaG) * (Real.exp (-((e / g.ec) ^ g.gamma)) * _) = _
    field_simp
  · refine ⟨_, rfl, ?_⟩
    simp only [Gc.set, Gc.get, String.reduceEq, if_true, if_false, Gc.flux]
    have h3 : HasDerivAt (fun x : ℝ => (e / g.ec) ^ x) ((e / g.ec) ^ g.gamma * Real.log (e / g.ec))
        g.gamma := by
      have := (hasDerivAt_id g.gamma).const_rpow hq
      exact this.congr_deriv (by simp; ring)
    refine ((h3.neg.exp.const_mul (g.ampG * e ^ (-g.alphaG))).add_const _).congr_deriv ?_
    show g.ampG * e ^ (-g.alphaG) * (Real.exp (-((e / g.ec) ^ g.gamma)) * _) = _
    ring
  · refine ⟨_, if_neg h2, ?_⟩
    simp only [Gc.set, Gc.get, String.reduceEq, if_true, if_false, Gc.flux]
    refine (((hasDerivAt_id g.ampEg).mul_const (e ^ (-g.alphaEg))).const_add _).congr_deriv ?_
    field_simp
  · refine ⟨_, rfl, ?_⟩
    simp only [Gc.set, Gc.get, String.reduceEq, if_false, Gc.flux]
    refine (((hasDerivAt_rpow_neg he g.alphaEg).const_mul g.ampEg).const_add _).congr_deriv ?_
    ring

/-- **Fiducial parameters of the galactic-centre model.**  Full statement: `params[key]` is the parameter
called `key`.  What holds: this is so for five of the six names; `params["galactic_exponential_index"]` is
the cutoff energy, so it is right only for a model whose index happens to equal its cutoff in MeV (as the
defaults do). -/
theorem gc_params_partial (g : Gc) :
    (∀ key x, (key, x) ∈ g.params → key ≠ "galactic_exponential_index" → x = g.get key) ∧
    ("galactic_exponential_index", g.ec) ∈ g.params ∧
    ((∀ key x, (key, x) ∈ g.params → x = g.get key) ↔ g.gamma = g.ec) := by
  refine ⟨fun key x h hk => ?_, by simp [Gc.params], fun h => ?_, fun h key x hx => ?_⟩
  · simp only [Gc.params, List.mem_cons, Prod.mk.injEq, List.not_mem_nil, or_false] at h
    rcases h with ⟨rfl, rfl⟩ | ⟨rfl, rfl⟩ | ⟨rfl, rfl⟩ | ⟨rfl, rfl⟩ | ⟨rfl, rfl⟩ | ⟨rfl, rfl⟩ <;>
      first | exact absurd rfl hk | simp [Gc.get]
  · have := h "galactic_exponential_index" g.ec (by simp [Gc.params])
    simpa [Gc.get] using this.symm
  · simp only [Gc.params, List.mem_cons, Prod.mk.injEq, List.not_mem_nil, or_false] at hx
    rcases hx with ⟨rfl, rfl⟩ | ⟨rfl, rfl⟩ | ⟨rfl, rfl⟩ | ⟨rfl, rfl⟩ | ⟨rfl, rfl⟩ | ⟨rfl, rfl⟩ <;>
      simp [Gc.get, h]

example : ¬ ∀ key x, (key, x) ∈ (⟨0.013, 1.8, 2, 3, 0.004135, 2.8956⟩ : Gc).params →
    x = (⟨0.013, 1.8, 2, 3, 0.004135, 2.8956⟩ : Gc).get key := by
  rw [(gc_params_partial _).2.2]; norm_num

/-- **The derivatives of the GECCO background.**  Full statement: as for the galactic-centre model, each
entry of `derivatives` is the partial derivative of the flux.  What holds: the amplitude derivative is right;
the derivative with respect to the power-law index has the wrong sign, and is right only where the flux
vanishes or at 1 MeV. -/
theorem gecco_derivatives_partial (g : Gecco) {e : ℝ} (he : 0 < e) :
    ∃ dn da, g.derivatives e = [("amplitude", some dn), ("power_law_index", some da)] ∧
      HasDerivAt (fun x => (⟨x, g.alpha⟩ : Gecco).flux e) dn g.amp ∧
      HasDerivAt (fun x => (⟨g.amp, x⟩ : Gecco).flux e) (-da) g.alpha ∧
      (HasDerivAt (fun x => (⟨g.amp, x⟩ : Gecco).flux e) da g.alpha ↔ g.amp = 0 ∨ e = 1) := by
  have h2 : HasDerivAt (fun x => (⟨g.amp, x⟩ : Gecco).flux e)
      (-(g.amp * e ^ (-g.alpha) * Real.log e)) g.alpha := by
    simp only [Gecco.flux]
    exact ((hasDerivAt_rpow_neg he g.alpha).const_mul g.amp).congr_deriv (by ring)
  refine ⟨_, _, rfl, ?_, h2, ?_⟩
  · simp only [Gecco.flux]
    exact ((hasDerivAt_id g.amp).mul_const (e ^ (-g.alpha))).congr_deriv (by ring)
  · have hp : 0 < e ^ (-g.alpha) := Real.rpow_pos_of_pos he _
    constructor
    · intro h3
      have h4 := h3.unique h2
      have h5 : g.amp * e ^ (-g.alpha) * Real.log e = 0 := by linarith
      rcases mul_eq_zero.1 h5 with h6 | h6
      · left; exact (mul_eq_zero.1 h6).resolve_right hp.ne'
      · right
        rcases Real.log_eq_zero.1 h6 with h7 | h7 | h7 <;> linarith
    · intro h3
      convert h2 using 1
      rcases h3 with h3 | h3 <;> simp [h3]

/-- The sign error of the GECCO model does not move the limit on the rate (nor the errors): a sign is one
of the factors the limits do not see. -/
theorem gecco_sign_harmless (grid : List ℝ) (phiS : ℝ → ℝ) (bg : ParamBg) (dOmega : ℝ) (aeff : ℝ → ℝ)
    (tobs sigma : ℝ) (key : String) :
    (fisherMatrix grid phiS (rescale bg fun k => if k = "power_law_index" then -1 else 1) dOmega aeff
      tobs).limit sigma key = (fisherMatrix grid phiS bg dOmega aeff tobs).limit sigma key := by
  have h := limit_rescaling grid phiS bg dOmega aeff tobs sigma
    (fun k => if k = "power_law_index" then -1 else 1) (fun k => by split_ifs <;> norm_num)
    one_ne_zero one_pos key
  simp only [one_mul, Real.sqrt_one] at h
  rw [h]
  have : |if key = "rate" then (1 : ℝ) else if key = "power_law_index" then -1 else 1| = 1 := by
    split_ifs <;> simp
  rw [this]
  cases (fisherMatrix grid phiS bg dOmega aeff tobs).limit sigma key <;> simp [LimitOut.scale]

/-- The parametric GECCO background with its defaults is the plain one. -/
theorem gecco_models_agree {e : ℝ} (he : 0 < e) : Gecco.default.flux e = geccoBg.flux e := by
  simp only [Gecco.flux, Gecco.default, geccoBg]
  rw [Real.rpow_neg he.le, Real.rpow_two]
  field_simp

/-- **Energies outside the range of a background model.**  Full statement (docstring of
`dPhi_dEdOmega`): outside `e_range` NaN is returned.  What holds: a warning is issued exactly outside the
range, but the function is evaluated there as everywhere else and NaN is never returned. -/
theorem background_range_partial (b : Background) (e : ℝ) :
    ((b.eval e).2 = true ↔ e < b.eLow ∨ b.eHigh < e) ∧ (b.eval e).1 = some (b.flux e) := by
  unfold Background.eval
  split_ifs with h
  · exact ⟨⟨fun _ => h, fun _ => rfl⟩, rfl⟩
  · exact ⟨⟨fun h' => absurd h' (by simp), fun h' => absurd h' h⟩, rfl⟩

/-- The GECCO background at 10 GeV, far outside its range: a number, not NaN. -/
example : geccoBg.eval 10000 = (some 8e-11, true) := by
  simp only [Background.eval, geccoBg]
  norm_num

/-- A case with one nuisance parameter: flat signal and background on the nodes 0, 1, 2, background derivative
`e`.  Held fixed, the 5 sigma limit would be `5 √(1/2)`; with the amplitude free it is `5 √(3/2)`. -/
example : (fisherMatrix [0, 1, 2] (fun _ => 1) ⟨[("amplitude", 1)], fun _ => 1, fun _ e => e⟩ 1
    (fun _ => 1) 1).limit 5 "rate" = .value (5 * Real.sqrt (3 / 2)) := by
  obtain ⟨m, hm⟩ : ∃ m : Matrix (Fin 2) (Fin 2) ℝ, m = entries [0, 1, 2] (fun _ => 1)
    ⟨[("amplitude", 1)], fun _ => 1, fun _ e => e⟩ 1 (fun _ => 1) 1 := ⟨_, rfl⟩
  have hlim : (fisherMatrix [0, 1, 2] (fun _ => 1) ⟨[("amplitude", 1)], fun _ => 1, fun _ e => e⟩ 1
      (fun _ => 1) 1).limit 5 "rate" = limitAt m 5 0 := by
    rw [hm]
    show limitKey (fisherParams _) _ 5 "rate" = _
    unfold limitKey
    rw [keyIndex_rate]
    rfl
  have hel : ∀ k1 k2, element [0, 1, 2] (fun _ => 1) ⟨[("amplitude", 1)], fun _ => 1, fun _ e => e⟩ 1
      (fun _ => 1) 1 k1 k2 = if k1 = "rate" then (if k2 = "rate" then 2 else 2)
        else (if k2 = "rate" then 2 else 3) := by
    intro k1 k2
    unfold element dphi
    split_ifs <;> norm_num [trapz]
  have h00 : m 0 0 = 2 := by rw [hm]; exact hel "rate" "rate"
  have h01 : m 0 1 = 2 := by rw [hm]; exact hel "amplitude" "rate"
  have h10 : m 1 0 = 2 := by rw [hm]; exact hel "rate" "amplitude"
  have h11 : m 1 1 = 3 := by rw [hm]; exact hel "amplitude" "amplitude"
  have hdet : m.det = 2 := by rw [Matrix.det_fin_two, h00, h01, h10, h11]; norm_num
  have hinv : m⁻¹ 0 0 = 3 / 2 := by
    rw [Matrix.inv_def, Matrix.smul_apply, Matrix.adjugate_fin_two, hdet]
    simp [h11]
    ring
  rw [hlim]
  unfold limitAt
  rw [hdet, if_neg (by norm_num), hinv, if_neg (by norm_num)]

end Hazma.Fisher
