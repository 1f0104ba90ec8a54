import Mathlib.Tactic
import Mathlib.Probability.Distributions.Gaussian.Real
import Verif.Model.Detector

/-!
# What the detector convolution promises

`convolved_spectrum_fn` smears a spectrum with the resolution of a detector.  The statements below say
which callbacks are understood, that the response is a normalised density in the reconstructed energy
with the right mean and variance, that smearing neither creates nor destroys photons or energy, how fine
the grid of true energies is, and what `convert_sigmav` does with the documented unit names.
-/

namespace Hazma.Detector

open MeasureTheory ProbabilityTheory

/-! ## Callbacks -/

/-- The callback computes `f` in one of the documented ways: on a float it returns `f`; on an array it
returns `f` elementwise, or a single value when `f` is constant on the array, or it rejects arrays with
`ValueError`/`TypeError`; likewise on a zero-dimensional array. -/
def Computes (cb : Callback) (f : ℝ → ℝ) : Prop :=
  (∀ e, cb.onFloat e = .ok (f e)) ∧
  (∀ es, cb.onArray es = .error .valueError ∨ cb.onArray es = .error .typeError ∨
    cb.onArray es = .ok (.array (es.map f)) ∨
    ∃ c, (cb.onArray es = .ok (.scalar c) ∨ cb.onArray es = .ok (.array [c])) ∧ ∀ e ∈ es, f e = c) ∧
  (∀ e, cb.onZeroD e = .error .valueError ∨ cb.onZeroD e = .error .typeError ∨
    cb.onZeroD e = .ok (.scalar (f e)))

theorem mapFloat_ok {cb : Callback} {f : ℝ → ℝ} (h : ∀ e, cb.onFloat e = .ok (f e)) (es : List ℝ) :
    mapFloat cb es = .ok (es.map f) := by
  induction es with
  | nil => rfl
  | cons e es ih => simp [mapFloat, h, ih]

theorem replicate_eq_map {f : ℝ → ℝ} {c : ℝ} {es : List ℝ} (h : ∀ e ∈ es, f e = c) :
    List.replicate es.length c = es.map f := by
  induction es with
  | nil => rfl
  | cons e es ih =>
    simp only [List.length_cons, List.replicate_succ, List.map_cons]
    rw [ih (fun x hx => h x (List.mem_cons_of_mem _ hx)), h e List.mem_cons_self]

/-- **Every documented kind of callback is evaluated correctly**: whatever mixture of vectorised,
constant and scalar-only behaviour the callback shows, `_eval_energy_res` returns `f` at every energy.
An exception of another type, or an array of the wrong length, is passed on as an error. -/
theorem eval_energy_res (cb : Callback) :
    (∀ f, Computes cb f → (∀ es, evalEnergyRes cb es = .ok (es.map f)) ∧
      ∀ e, evalEnergyRes0 cb e = .ok (f e)) ∧
    (∀ es, cb.onArray es = .error .other → evalEnergyRes cb es = .error .other) ∧
    (∀ es xs, cb.onArray es = .ok (.array xs) → xs.length ≠ es.length → xs.length ≠ 1 →
      evalEnergyRes cb es = .error .valueError) := by
  refine ⟨fun f hf => ⟨fun es => ?_, fun e => ?_⟩, fun es h => ?_, fun es xs h h1 h2 => ?_⟩
  · obtain ⟨h1, h2, -⟩ := hf
    rcases h2 es with h | h | h | ⟨c, h | h, hc⟩
    · simp only [evalEnergyRes, h]; exact mapFloat_ok h1 es
    · simp only [evalEnergyRes, h]; exact mapFloat_ok h1 es
    · simp [evalEnergyRes, h, broadcast]
    · simp only [evalEnergyRes, h, broadcast]
      rw [replicate_eq_map hc]
    · simp only [evalEnergyRes, h, broadcast]
      split_ifs with hl
      · congr 1
        rw [← replicate_eq_map hc, ← hl]; rfl
      · rw [replicate_eq_map hc]
  · obtain ⟨h1, -, h3⟩ := hf
    rcases h3 e with h | h | h
    · simp only [evalEnergyRes0, h]; exact h1 e
    · simp only [evalEnergyRes0, h]; exact h1 e
    · simp only [evalEnergyRes0, h]
  · simp [evalEnergyRes, h]
  · simp only [evalEnergyRes, h, broadcast, if_neg h1]
    match xs, h2 with
    | [], _ => rfl
    | [x], h2 => exact absurd rfl h2
    | _ :: _ :: _, _ => rfl

/-- A callback of the docstring, `lambda e: 0.1 if e < 10 else 0.2`: the truth value of an array of
several energies raises `ValueError`, an array of one energy gives a scalar. -/
noncomputable def stepCallback : Callback where
  onArray := fun es =>
    match es with
    | [e] => .ok (.scalar (if e < 10 then 0.1 else 0.2))
    | _ => .error .valueError
  onZeroD := fun e => .ok (.scalar (if e < 10 then 0.1 else 0.2))
  onFloat := fun e => .ok (if e < 10 then 0.1 else 0.2)

theorem stepCallback_computes : Computes stepCallback (fun e => if e < 10 then 0.1 else 0.2) := by
  refine ⟨fun e => rfl, fun es => ?_, fun e => Or.inr (Or.inr rfl)⟩
  match es with
  | [] => exact Or.inl rfl
  | [e] => exact Or.inr (Or.inr (Or.inr ⟨_, Or.inl rfl, by simp⟩))
  | _ :: _ :: _ => exact Or.inl rfl

example : evalEnergyRes stepCallback [1, 20, 3] = .ok [0.1, 0.2, 0.1] := by
  rw [((eval_energy_res stepCallback).1 _ stepCallback_computes).1]
  norm_num

/-! ## The response -/

theorem response_eq_pdf {r e : ℝ} (h : e * r ≠ 0) (ep : ℝ) :
    response r ep e = gaussianPDFReal e (Real.toNNReal ((e * r) ^ 2)) ep := by
  unfold response gaussianPDFReal
  simp only [if_neg h, one_div, Real.coe_toNNReal _ (sq_nonneg (e * r))]

theorem var_ne {r e : ℝ} (h : e * r ≠ 0) : Real.toNNReal ((e * r) ^ 2) ≠ 0 := by
  intro h0
  have h1 := Real.toNNReal_eq_zero.1 h0
  exact h (pow_eq_zero_iff (two_ne_zero) |>.1 (le_antisymm h1 (sq_nonneg _)))

theorem response_integrable (r e : ℝ) : Integrable (fun ep => response r ep e) := by
  by_cases h : e * r = 0
  · have : (fun ep => response r ep e) = fun _ => 0 := by
      funext ep; simp [response, h]
    rw [this]; exact integrable_zero _ _ _
  · have : (fun ep => response r ep e) = gaussianPDFReal e (Real.toNNReal ((e * r) ^ 2)) := by
      funext ep; exact response_eq_pdf h ep
    rw [this]; exact integrable_gaussianPDFReal _ _

theorem response_integral {r e : ℝ} (h : e * r ≠ 0) : ∫ ep, response r ep e = 1 := by
  have : (fun ep => response r ep e) = gaussianPDFReal e (Real.toNNReal ((e * r) ^ 2)) := by
    funext ep; exact response_eq_pdf h ep
  rw [this]; exact integral_gaussianPDFReal_eq_one _ (var_ne h)

theorem integrable_mul_response {r e : ℝ} {g : ℝ → ℝ}
    (hg : ∀ v, Integrable g (gaussianReal e v)) :
    Integrable (fun ep => g ep * response r ep e) := by
  by_cases h : e * r = 0
  · have : (fun ep => g ep * response r ep e) = fun _ => 0 := by
      funext ep; simp [response, h]
    rw [this]; exact integrable_zero _ _ _
  · have h2 := hg (Real.toNNReal ((e * r) ^ 2))
    rw [gaussianReal_of_var_ne_zero _ (var_ne h)] at h2
    rw [integrable_withDensity_iff_integrable_smul' (measurable_gaussianPDF _ _)
      (ae_of_all _ fun _ => gaussianPDF_lt_top)] at h2
    refine h2.congr (ae_of_all _ fun ep => ?_)
    simp only [toReal_gaussianPDF, smul_eq_mul]
    rw [response_eq_pdf h]; ring

theorem integral_mul_response {r e : ℝ} (h : e * r ≠ 0) (g : ℝ → ℝ) :
    ∫ ep, g ep * response r ep e = ∫ ep, g ep ∂gaussianReal e (Real.toNNReal ((e * r) ^ 2)) := by
  rw [integral_gaussianReal_eq_integral_smul (var_ne h)]
  refine integral_congr_ae (ae_of_all _ fun ep => ?_)
  simp only [smul_eq_mul]
  rw [response_eq_pdf h]; ring

theorem integrable_energy_response (r e : ℝ) : Integrable (fun ep => ep * response r ep e) := by
  refine integrable_mul_response (g := fun ep => ep) fun v => ?_
  exact (memLp_id_gaussianReal (μ := e) (v := v) 1).integrable (by simp)

theorem energy_response_integral {r e : ℝ} (h : e * r ≠ 0) : ∫ ep, ep * response r ep e = e := by
  rw [integral_mul_response h (fun ep => ep)]
  exact integral_id_gaussianReal

/-- **The response is a probability density in the reconstructed energy**, of mean equal to the true
energy and standard deviation equal to the true energy times the resolution there (the width is set by
the true energy, not by the reconstructed one); it is never negative, symmetric about the true energy,
and a vanishing width carries no photons. -/
theorem response_density (r e : ℝ) :
    (∀ ep, 0 ≤ response r ep e) ∧
    (∀ d, response r (e + d) e = response r (e - d) e) ∧
    (e * r ≠ 0 → ∫ ep, response r ep e = 1 ∧ ∫ ep, ep * response r ep e = e ∧
      ∫ ep, (ep - e) ^ 2 * response r ep e = (e * r) ^ 2) ∧
    (e * r = 0 → ∀ ep, response r ep e = 0) := by
  refine ⟨fun ep => ?_, fun d => ?_, fun h => ⟨response_integral h, energy_response_integral h, ?_⟩,
    fun h ep => by simp [response, h]⟩
  · unfold response
    simp only
    split_ifs
    · exact le_rfl
    · positivity
  · unfold response
    simp only
    split_ifs
    · rfl
    · congr 2; ring
  · rw [integral_mul_response h (fun ep => (ep - e) ^ 2)]
    have h1 := variance_fun_id_gaussianReal (μ := e) (v := (Real.toNNReal ((e * r) ^ 2)))
    rw [variance_eq_integral (by fun_prop), integral_id_gaussianReal,
      Real.coe_toNNReal _ (sq_nonneg (e * r))] at h1
    exact h1

example : ∫ ep, response 0.1 ep 10 = 1 := ((response_density 0.1 10).2.2.1 (by norm_num)).1

/-! ## The grid of true energies -/

theorem geomspace_length (lo hi : ℝ) (n : ℕ) : (geomspace lo hi n).length = n := by
  simp [geomspace]

theorem geomspace_get {lo hi : ℝ} {n i : ℕ} (h : i < (geomspace lo hi n).length) :
    (geomspace lo hi n)[i] = lo * (hi / lo) ^ ((i : ℝ) / ((n : ℝ) - 1)) := by
  simp [geomspace]

theorem geomspace_pos {lo hi : ℝ} (hlo : 0 < lo) (hhi : 0 < hi) {n : ℕ} :
    ∀ e ∈ geomspace lo hi n, 0 < e := by
  intro e he
  simp only [geomspace, List.mem_map] at he
  obtain ⟨i, -, rfl⟩ := he
  have : 0 < hi / lo := div_pos hhi hlo
  positivity

/-- The grid has both ends, is strictly increasing and uniform in the logarithm. -/
theorem geomspace_spec {lo hi : ℝ} (hlo : 0 < lo) (hlt : lo < hi) {n : ℕ} (hn : 2 ≤ n) :
    (geomspace lo hi n)[0]? = some lo ∧ (geomspace lo hi n)[n - 1]? = some hi ∧
    (geomspace lo hi n).Pairwise (· < ·) ∧
    ∀ i a b, (geomspace lo hi n)[i]? = some a → (geomspace lo hi n)[i + 1]? = some b →
      Real.log (b / a) = Real.log (hi / lo) / ((n : ℝ) - 1) := by
  have hn1 : (0 : ℝ) < (n : ℝ) - 1 := by
    have : (2 : ℝ) ≤ n := by exact_mod_cast hn
    linarith
  have hq : 1 < hi / lo := (one_lt_div hlo).2 hlt
  have hq0 : 0 < hi / lo := by linarith
  have hget : ∀ i, i < n → (geomspace lo hi n)[i]? =
      some (lo * (hi / lo) ^ ((i : ℝ) / ((n : ℝ) - 1))) := by
    intro i hi'
    rw [List.getElem?_eq_getElem (by rw [geomspace_length]; exact hi'), geomspace_get]
  refine ⟨?_, ?_, ?_, ?_⟩
  · rw [hget 0 (by omega)]; simp
  · rw [hget (n - 1) (by omega)]
    have : ((n - 1 : ℕ) : ℝ) = (n : ℝ) - 1 := by
      rw [Nat.cast_sub (by omega)]; simp
    rw [this, div_self hn1.ne', Real.rpow_one]
    congr 1
    field_simp
  · unfold geomspace
    rw [List.pairwise_map]
    refine List.Pairwise.imp ?_ List.pairwise_lt_range
    intro a b hab
    have : ((a : ℝ)) / ((n : ℝ) - 1) < (b : ℝ) / ((n : ℝ) - 1) := by
      have : (a : ℝ) < b := by exact_mod_cast hab
      gcongr
    exact mul_lt_mul_of_pos_left (Real.rpow_lt_rpow_of_exponent_lt hq this) hlo
  · intro i a b ha hb
    have hib : i + 1 < n := by
      by_contra hc
      rw [List.getElem?_eq_none (by rw [geomspace_length]; omega)] at hb
      exact absurd hb (by simp)
    rw [hget i (by omega)] at ha
    rw [hget (i + 1) hib] at hb
    cases ha
    cases hb
    rw [mul_div_mul_left _ _ hlo.ne', ← Real.rpow_sub hq0, Real.log_rpow hq0]
    push_cast
    ring

theorem foldl_min_spec (x : ℝ) (xs : List ℝ) :
    (∀ y ∈ x :: xs, xs.foldl min x ≤ y) ∧ xs.foldl min x ∈ x :: xs := by
  induction xs generalizing x with
  | nil => simp
  | cons a as ih =>
    obtain ⟨h1, h2⟩ := ih (min x a)
    simp only [List.foldl_cons]
    refine ⟨fun y hy => ?_, ?_⟩
    · have h3 := h1 (min x a) List.mem_cons_self
      rcases List.mem_cons.1 hy with rfl | hy
      · exact h3.trans (min_le_left _ _)
      · rcases List.mem_cons.1 hy with rfl | hy
        · exact h3.trans (min_le_right _ _)
        · exact h1 y (List.mem_cons_of_mem _ hy)
    · rcases List.mem_cons.1 h2 with h | h
      · rw [h]
        rcases min_choice x a with h' | h' <;> rw [h'] <;> simp
      · exact List.mem_cons_of_mem _ (List.mem_cons_of_mem _ h)

/-- **The grid of true energies resolves the detector response.**  For any callback computing `f`, the
grid is a geometric progression from `lo` to `hi` with between `n_pts` and 200 000 points.  Unless it
reaches the cap, its logarithmic step is at most `f(E)/4` times `N/(N-1)` for every energy `E` of the
initial grid where the resolution is positive; when the finest resolution asks for more than 200 000
points the cap is used. -/
theorem true_grid_resolves {cb : Callback} {f : ℝ → ℝ} (hf : Computes cb f) {lo hi : ℝ}
    (hlo : 0 < lo) (hlt : lo < hi) {n : ℕ} (hn : 2 ≤ n) (hcap : n ≤ 200000) :
    ∃ N : ℕ, trueEnergyGrid lo hi cb n = .ok (geomspace lo hi N) ∧ n ≤ N ∧ N ≤ 200000 ∧
      (N < 200000 → ∀ E ∈ geomspace lo hi n, 0 < f E →
        Real.log (hi / lo) / ((N : ℝ) - 1) ≤ f E / 4 * ((N : ℝ) / ((N : ℝ) - 1))) ∧
      ((∃ E ∈ geomspace lo hi n, 0 < f E ∧ 200000 < 4 * Real.log (hi / lo) / f E) → N = 200000) ∧
      ((∀ E ∈ geomspace lo hi n, f E ≤ 0 ∨ 4 * Real.log (hi / lo) / f E ≤ n) → N = n) := by
  have he := ((eval_energy_res cb).1 f hf).1 (geomspace lo hi n)
  have hlog : 0 < Real.log (hi / lo) := Real.log_pos ((one_lt_div hlo).2 hlt)
  unfold trueEnergyGrid
  rw [he]
  simp only
  obtain ⟨l, hl⟩ : ∃ l, l = ((geomspace lo hi n).map f).filter (fun r => decide (0 < r)) := ⟨_, rfl⟩
  have hmem : ∀ r, r ∈ l ↔ (∃ E ∈ geomspace lo hi n, f E = r) ∧ 0 < r := by
    intro r; rw [hl]; simp [List.mem_filter]
  rw [← hl]
  match l, hmem with
  | [], hmem =>
    refine ⟨n, rfl, le_rfl, hcap, fun _ E hE hfE => ?_, fun ⟨E, hE, hfE, _⟩ => ?_, fun _ => rfl⟩
    · exact absurd ((hmem (f E)).2 ⟨⟨E, hE, rfl⟩, hfE⟩) (by simp)
    · exact absurd ((hmem (f E)).2 ⟨⟨E, hE, rfl⟩, hfE⟩) (by simp)
  | r :: rest, hmem =>
    obtain ⟨hmin, hin⟩ := foldl_min_spec r rest
    obtain ⟨m, hm⟩ : ∃ m, m = rest.foldl min r := ⟨_, rfl⟩
    have hlm : listMin (r :: rest) = m := hm.symm
    rw [← hm] at hmin hin
    have hmpos : 0 < m := ((hmem m).1 hin).2
    simp only [hlm]
    obtain ⟨k, hk⟩ : ∃ k : ℤ, k = ⌈4 * Real.log (hi / lo) / m⌉ := ⟨_, rfl⟩
    have hk1 : 4 * Real.log (hi / lo) / m ≤ k := by rw [hk]; exact Int.le_ceil _
    rw [← hk]
    obtain ⟨N, hN⟩ : ∃ N : ℕ, (N : ℤ) = min (max k (n : ℤ)) (maxConvPts : ℤ) :=
      ⟨(min (max k (n : ℤ)) (maxConvPts : ℤ)).toNat,
        Int.toNat_of_nonneg (le_min (le_max_of_le_right (by positivity)) (by positivity))⟩
    have hN' : (min (max k (n : ℤ)) (maxConvPts : ℤ)).toNat = N := by rw [← hN]; simp
    have hMax : (maxConvPts : ℤ) = 200000 := rfl
    rw [hMax] at hN
    have hnN : n ≤ N := by
      have : (n : ℤ) ≤ N := by
        rw [hN]; exact le_min (le_max_right _ _) (by exact_mod_cast hcap)
      exact_mod_cast this
    have hN1 : (0 : ℝ) < (N : ℝ) - 1 := by
      have : (2 : ℝ) ≤ N := by exact_mod_cast hn.trans hnN
      linarith
    refine ⟨N, by rw [hN'], hnN, ?_, fun hlt' E hE hfE => ?_, fun ⟨E, hE, hfE, hbig⟩ => ?_,
      fun hall => ?_⟩
    · have : (N : ℤ) ≤ 200000 := by rw [hN]; exact min_le_right _ _
      exact_mod_cast this
    · have hkN : k ≤ N := by
        have h3 : (N : ℤ) < 200000 := by exact_mod_cast hlt'
        rw [hN] at h3 ⊢
        rcases min_lt_iff.1 h3 with h4 | h4
        · rw [min_eq_left h4.le]; exact le_max_left _ _
        · exact absurd h4 (lt_irrefl _)
      have h5 : 4 * Real.log (hi / lo) / m ≤ N := hk1.trans (by exact_mod_cast hkN)
      rw [div_le_iff₀ hmpos] at h5
      have h6 : m ≤ f E := hmin _ ((hmem _).2 ⟨⟨E, hE, rfl⟩, hfE⟩)
      have h7 : (N : ℝ) * m ≤ N * f E := by gcongr
      rw [div_mul_div_comm, div_le_div_iff₀ hN1 (by positivity)]
      nlinarith
    · have h6 : m ≤ f E := hmin _ ((hmem _).2 ⟨⟨E, hE, rfl⟩, hfE⟩)
      have h7 : 4 * Real.log (hi / lo) / f E ≤ 4 * Real.log (hi / lo) / m := by gcongr
      have h8 : (200000 : ℝ) < k := by linarith
      have h9 : (200000 : ℤ) < k := by exact_mod_cast h8
      have : (N : ℤ) = 200000 := by
        rw [hN]; exact min_eq_right (h9.le.trans (le_max_left _ _))
      exact_mod_cast this
    · obtain ⟨⟨E, hE, hEm⟩, -⟩ := (hmem m).1 hin
      have h1 : 4 * Real.log (hi / lo) / m ≤ n := by
        rcases hall E hE with h | h
        · rw [hEm] at h; linarith
        · rw [hEm] at h; exact h
      have h2 : k ≤ n := by
        rw [hk]; exact Int.ceil_le.2 (by exact_mod_cast h1)
      have : (N : ℤ) = n := by
        rw [hN, max_eq_right h2, min_eq_left (by exact_mod_cast hcap)]
      exact_mod_cast this

/-! ## The convolution -/

theorem trapezoid_map_integral (grid : List ℝ) (g : ℝ → ℝ → ℝ)
    (hg : ∀ E ∈ grid, Integrable (fun ep => g ep E)) :
    Integrable (fun ep => trapezoid grid (grid.map (g ep))) ∧
    ∫ ep, trapezoid grid (grid.map (g ep)) = trapezoid grid (grid.map fun E => ∫ ep, g ep E) := by
  induction grid with
  | nil => simp [trapezoid]
  | cons x xs ih =>
    cases xs with
    | nil => simp [trapezoid]
    | cons y ys =>
      obtain ⟨h1, h2⟩ := ih fun E hE => hg E (List.mem_cons_of_mem _ hE)
      have hx := hg x List.mem_cons_self
      have hy := hg y (List.mem_cons_of_mem _ List.mem_cons_self)
      simp only [List.map_cons, trapezoid] at h1 h2 ⊢
      have h3 : Integrable (fun ep => (y - x) * (g ep x + g ep y) / 2) :=
        ((hx.add hy).const_mul (y - x)).div_const 2
      refine ⟨h3.add h1, ?_⟩
      rw [integral_add h3 h1, h2, integral_div, integral_const_mul, integral_add hx hy]

theorem trapezoid_congr_zero (grid : List ℝ) : trapezoid grid (grid.map fun _ => 0) = 0 := by
  induction grid with
  | nil => rfl
  | cons x xs ih =>
    cases xs with
    | nil => rfl
    | cons y ys => simp only [List.map_cons, trapezoid] at ih ⊢; rw [ih]; ring

theorem zipWith_map_self (grid : List ℝ) (g h : ℝ → ℝ) (op : ℝ → ℝ → ℝ) :
    List.zipWith op (grid.map g) (grid.map h) = grid.map fun E => op (g E) (h E) := by
  induction grid with
  | nil => rfl
  | cons x xs ih => simp [ih]

theorem zipWith_self_map (grid : List ℝ) (h : ℝ → ℝ) (op : ℝ → ℝ → ℝ) :
    List.zipWith op grid (grid.map h) = grid.map fun E => op E (h E) := by
  induction grid with
  | nil => rfl
  | cons x xs ih => simp [ih]

/-- What the detector sees at reconstructed energy `e`: the source folded with the response on the
grid, plus the lines. -/
noncomputable def seen (f src : ℝ → ℝ) (grid : List ℝ) (lines : List Line) (e : ℝ) : ℝ :=
  trapezoid grid (grid.map fun E => src E * response (f E) e E) +
    (lines.map fun l => l.bf * (if l.channel = "g g" then 2 else 1) *
      response (f l.energy) e l.energy).sum

theorem continuumList_ok {cb : Callback} {f : ℝ → ℝ} (hf : Computes cb f) (grid : List ℝ)
    (src : ℝ → ℝ) (es : List ℝ) :
    continuumList cb grid (grid.map src) es =
      .ok (es.map fun e => trapezoid grid (grid.map fun E => src E * response (f E) e E)) := by
  have h1 : ∀ e, continuumAt cb grid (grid.map src) e =
      .ok (trapezoid grid (grid.map fun E => src E * response (f E) e E)) := by
    intro e
    unfold continuumAt specResFn
    rw [((eval_energy_res cb).1 f hf).1]
    simp only
    rw [zipWith_self_map grid f (fun E r => response r e E), zipWith_map_self]
  induction es with
  | nil => rfl
  | cons e es ih => simp only [continuumList, h1, ih, List.map_cons]

theorem addLines_ok {cb : Callback} {f : ℝ → ℝ} (hf : Computes cb f) (es : List ℝ)
    (lines : List Line) (g : ℝ → ℝ) :
    addLines cb es lines (es.map g) = .ok (es.map fun e => g e +
      (lines.map fun l => l.bf * (if l.channel = "g g" then 2 else 1) *
        response (f l.energy) e l.energy).sum) := by
  induction lines generalizing g with
  | nil => simp [addLines]
  | cons l ls ih =>
    unfold addLines specResLine
    rw [((eval_energy_res cb).1 f hf).2]
    simp only
    rw [zipWith_map_self, ih]
    congr 1
    apply List.map_congr_left
    intro e _
    simp only [List.map_cons, List.sum_cons, multiplicity]
    ring

theorem addContinuum_ok {cb : Callback} {f : ℝ → ℝ} (hf : Computes cb f) {eMin eMax : ℝ}
    (src : ℝ → ℝ) {n : ℕ} {grid : List ℝ}
    (hg : trueEnergyGrid (0.1 * eMin) (10 * eMax) cb n = .ok grid) (es : List ℝ) :
    addContinuum eMin eMax cb (some src) n es =
      .ok (es.map fun e => trapezoid grid (grid.map fun E => src E * response (f E) e E)) := by
  unfold addContinuum
  simp only [hg]
  split_ifs with h0
  · congr 1
    apply List.map_congr_left
    intro e _
    have : (grid.map fun E => src E * response (f E) e E) = grid.map fun _ => (0 : ℝ) := by
      apply List.map_congr_left
      intro E hE
      rw [h0 (src E) (List.mem_map_of_mem hE), zero_mul]
    rw [this, trapezoid_congr_zero]
  · exact continuumList_ok hf grid src es

theorem convolved_eq {cb : Callback} {f : ℝ → ℝ} (hf : Computes cb f) {eMin eMax : ℝ}
    (h0 : 0 < eMin) (hlt : eMin < eMax) (src : ℝ → ℝ) (lines : List Line) {n : ℕ} (hn : 2 ≤ n)
    (hcap : n ≤ 200000) :
    ∃ N : ℕ, trueEnergyGrid (0.1 * eMin) (10 * eMax) cb n =
        .ok (geomspace (0.1 * eMin) (10 * eMax) N) ∧ n ≤ N ∧
      convolvedSpectrum eMin eMax cb (some src) (some lines) n = .ok (geomspace eMin eMax n,
        (geomspace eMin eMax n).map (seen f src (geomspace (0.1 * eMin) (10 * eMax) N) lines)) := by
  obtain ⟨N, hN, hnN, -⟩ := true_grid_resolves hf (lo := 0.1 * eMin) (hi := 10 * eMax) (by positivity)
    (by linarith) hn hcap
  refine ⟨N, hN, hnN, ?_⟩
  unfold convolvedSpectrum
  simp only [Option.getD_some]
  rw [addContinuum_ok hf src hN]
  simp only
  rw [addLines_ok hf]
  simp only
  rw [if_pos ⟨hn, hlt⟩]
  rfl

theorem line_sum_integral (f : ℝ → ℝ) (lines : List Line)
    (hl : ∀ l ∈ lines, l.energy * f l.energy ≠ 0) :
    (Integrable fun e => (lines.map fun l => l.bf * (if l.channel = "g g" then 2 else 1) *
      response (f l.energy) e l.energy).sum) ∧
    (∫ e, (lines.map fun l => l.bf * (if l.channel = "g g" then 2 else 1) *
      response (f l.energy) e l.energy).sum) =
      (lines.map fun l => l.bf * (if l.channel = "g g" then 2 else 1)).sum := by
  induction lines with
  | nil => simp
  | cons l ls ih =>
    obtain ⟨h1, h2⟩ := ih fun x hx => hl x (List.mem_cons_of_mem _ hx)
    simp only [List.map_cons, List.sum_cons]
    have h3 := (response_integrable (f l.energy) l.energy).const_mul
      (l.bf * (if l.channel = "g g" then 2 else 1))
    refine ⟨h3.add h1, ?_⟩
    rw [integral_add h3 h1, h2, integral_const_mul, response_integral (hl l List.mem_cons_self),
      mul_one]

theorem line_sum_energy (f : ℝ → ℝ) (lines : List Line)
    (hl : ∀ l ∈ lines, l.energy * f l.energy ≠ 0) :
    (Integrable fun e => e * (lines.map fun l => l.bf * (if l.channel = "g g" then 2 else 1) *
      response (f l.energy) e l.energy).sum) ∧
    (∫ e, e * (lines.map fun l => l.bf * (if l.channel = "g g" then 2 else 1) *
      response (f l.energy) e l.energy).sum) =
      (lines.map fun l => l.bf * (if l.channel = "g g" then 2 else 1) * l.energy).sum := by
  induction lines with
  | nil => simp
  | cons l ls ih =>
    obtain ⟨h1, h2⟩ := ih fun x hx => hl x (List.mem_cons_of_mem _ hx)
    simp only [List.map_cons, List.sum_cons]
    have h3 := (integrable_energy_response (f l.energy) l.energy).const_mul
      (l.bf * (if l.channel = "g g" then 2 else 1))
    have h4 : ∀ e : ℝ, e * (l.bf * (if l.channel = "g g" then 2 else 1) *
        response (f l.energy) e l.energy + (ls.map fun l => l.bf *
        (if l.channel = "g g" then 2 else 1) * response (f l.energy) e l.energy).sum) =
        l.bf * (if l.channel = "g g" then 2 else 1) * (e * response (f l.energy) e l.energy) +
        e * (ls.map fun l => l.bf * (if l.channel = "g g" then 2 else 1) *
          response (f l.energy) e l.energy).sum := by intro e; ring
    simp_rw [h4]
    refine ⟨h3.add h1, ?_⟩
    rw [integral_add h3 h1, h2, integral_const_mul, energy_response_integral (hl l List.mem_cons_self)]

/-- **Smearing conserves photons and energy.**  The values handed to the spline are those of one
function of the reconstructed energy; over all reconstructed energies it contains exactly the photons of
the source (its trapezoidal integral on the grid of true energies) and of the lines (two per
annihilation into `g g`, one otherwise, times the branching fraction), and exactly their energy. -/
theorem convolution_conserves {cb : Callback} {f : ℝ → ℝ} (hf : Computes cb f)
    (hpos : ∀ E, 0 < E → f E ≠ 0) {eMin eMax : ℝ} (h0 : 0 < eMin) (hlt : eMin < eMax)
    (src : ℝ → ℝ) (lines : List Line) (hlines : ∀ l ∈ lines, 0 < l.energy) {n : ℕ} (hn : 2 ≤ n)
    (hcap : n ≤ 200000) :
    ∃ (grid : List ℝ) (smeared : ℝ → ℝ),
      trueEnergyGrid (0.1 * eMin) (10 * eMax) cb n = .ok grid ∧
      convolvedSpectrum eMin eMax cb (some src) (some lines) n =
        .ok (geomspace eMin eMax n, (geomspace eMin eMax n).map smeared) ∧
      (∫ e, smeared e) = trapezoid grid (grid.map src) +
        (lines.map fun l => l.bf * (if l.channel = "g g" then 2 else 1)).sum ∧
      (∫ e, e * smeared e) = trapezoid grid (grid.map fun E => E * src E) +
        (lines.map fun l => l.bf * (if l.channel = "g g" then 2 else 1) * l.energy).sum := by
  obtain ⟨N, hN, -, hc⟩ := convolved_eq hf h0 hlt src lines hn hcap
  refine ⟨_, _, hN, hc, ?_, ?_⟩
  · have hgp := geomspace_pos (lo := 0.1 * eMin) (hi := 10 * eMax) (by positivity)
      (by linarith) (n := N)
    obtain ⟨i1, i2⟩ := trapezoid_map_integral (geomspace (0.1 * eMin) (10 * eMax) N)
      (fun e E => src E * response (f E) e E)
      (fun E _ => (response_integrable (f E) E).const_mul (src E))
    obtain ⟨j1, j2⟩ := line_sum_integral f lines
      fun l hl => mul_ne_zero (hlines l hl).ne' (hpos _ (hlines l hl))
    unfold seen
    rw [integral_add i1 j1, i2, j2]
    congr 2
    apply List.map_congr_left
    intro E hE
    have hE0 := hgp E hE
    rw [integral_const_mul, response_integral (mul_ne_zero hE0.ne' (hpos E hE0)), mul_one]
  · have hgp := geomspace_pos (lo := 0.1 * eMin) (hi := 10 * eMax) (by positivity)
      (by linarith) (n := N)
    obtain ⟨i1, i2⟩ := trapezoid_map_integral (geomspace (0.1 * eMin) (10 * eMax) N)
      (fun e E => src E * (e * response (f E) e E))
      (fun E _ => (integrable_energy_response (f E) E).const_mul (src E))
    obtain ⟨j1, j2⟩ := line_sum_energy f lines
      fun l hl => mul_ne_zero (hlines l hl).ne' (hpos _ (hlines l hl))
    have hscale : ∀ (g : List ℝ) (e : ℝ) (h : ℝ → ℝ), e * trapezoid g (g.map h) =
        trapezoid g (g.map fun E => e * h E) := by
      intro g e h
      induction g with
      | nil => simp [trapezoid]
      | cons x xs ih =>
        cases xs with
        | nil => simp [trapezoid]
        | cons y ys => simp only [List.map_cons, trapezoid] at ih ⊢; rw [← ih]; ring
    have hsplit : ∀ e : ℝ, e * seen f src (geomspace (0.1 * eMin) (10 * eMax) N) lines e =
        trapezoid (geomspace (0.1 * eMin) (10 * eMax) N)
          ((geomspace (0.1 * eMin) (10 * eMax) N).map fun E => src E * (e * response (f E) e E)) +
        e * (lines.map fun l => l.bf * (if l.channel = "g g" then 2 else 1) *
          response (f l.energy) e l.energy).sum := by
      intro e
      unfold seen
      rw [mul_add, hscale]
      congr 2
      apply List.map_congr_left
      intro E _
      ring
    simp_rw [hsplit]
    rw [integral_add i1 j1, i2, j2]
    congr 2
    apply List.map_congr_left
    intro E hE
    have hE0 := hgp E hE
    rw [integral_const_mul, energy_response_integral (mul_ne_zero hE0.ne' (hpos E hE0)), mul_comm]

/-- A single line `g g` at 100 MeV seen with the step resolution of the docstring: two photons carrying
200 MeV in total, however coarse the output grid. -/
example : ∃ (grid : List ℝ) (smeared : ℝ → ℝ),
    convolvedSpectrum 1 200 stepCallback (some fun _ => 0) (some [⟨"g g", 100, 1⟩]) 2 =
      .ok (geomspace 1 200 2, (geomspace 1 200 2).map smeared) ∧
    (∫ e, smeared e) = 2 + trapezoid grid (grid.map fun _ => 0) ∧
    (∫ e, e * smeared e) = 200 + trapezoid grid (grid.map fun E => E * 0) := by
  obtain ⟨g, s, -, h2, h3, h4⟩ := convolution_conserves stepCallback_computes
    (fun E _ => by split_ifs <;> norm_num) (eMin := 1) (eMax := 200) (by norm_num) (by norm_num)
    (fun _ => 0) [⟨"g g", 100, 1⟩] (by simp) (n := 2) le_rfl (by norm_num)
  refine ⟨g, s, h2, ?_, ?_⟩
  · rw [h3]; simp; ring
  · rw [h4]; simp; ring

/-- **Smearing is linear and keeps the sign**: scaling the source and all branching fractions scales
every value; a non-negative source and non-negative fractions give non-negative values; no source and no
lines give zero. -/
theorem convolution_linear {cb : Callback} {f : ℝ → ℝ} (hf : Computes cb f) {eMin eMax : ℝ}
    (h0 : 0 < eMin) (hlt : eMin < eMax) (src : ℝ → ℝ) (lines : List Line) {n : ℕ} (hn : 2 ≤ n)
    (hcap : n ≤ 200000) :
    ∃ vals, convolvedSpectrum eMin eMax cb (some src) (some lines) n =
        .ok (geomspace eMin eMax n, vals) ∧ vals.length = n ∧
      (∀ c, convolvedSpectrum eMin eMax cb (some fun E => c * src E)
        (some (lines.map fun l => { l with bf := c * l.bf })) n =
        .ok (geomspace eMin eMax n, vals.map (c * ·))) ∧
      ((∀ E, 0 < E → 0 ≤ src E) → (∀ l ∈ lines, 0 ≤ l.bf) → ∀ v ∈ vals, 0 ≤ v) ∧
      convolvedSpectrum eMin eMax cb none none n =
        .ok (geomspace eMin eMax n, (geomspace eMin eMax n).map fun _ => 0) := by
  obtain ⟨N, hN, -, hc⟩ := convolved_eq hf h0 hlt src lines hn hcap
  refine ⟨_, hc, by simp [geomspace_length], fun c => ?_, fun hs hb v hv => ?_, ?_⟩
  · obtain ⟨N', hN', -, hc'⟩ := convolved_eq hf h0 hlt (fun E => c * src E)
      (lines.map fun l => { l with bf := c * l.bf }) hn hcap
    rw [hN] at hN'
    have hNN : geomspace (0.1 * eMin) (10 * eMax) N' = geomspace (0.1 * eMin) (10 * eMax) N := by
      injection hN' with h; exact h.symm
    rw [hc', hNN]
    congr 2
    rw [List.map_map]
    apply List.map_congr_left
    intro e _
    have hscale : ∀ (g : List ℝ) (h : ℝ → ℝ), c * trapezoid g (g.map h) =
        trapezoid g (g.map fun E => c * h E) := by
      intro g h
      induction g with
      | nil => simp [trapezoid]
      | cons x xs ih =>
        cases xs with
        | nil => simp [trapezoid]
        | cons y ys => simp only [List.map_cons, trapezoid] at ih ⊢; rw [← ih]; ring
    simp only [seen, Function.comp, mul_add, hscale, List.map_map, ← List.sum_map_mul_left]
    congr 1
    · congr 1
      apply List.map_congr_left
      intro E _
      ring
    · congr 1
      apply List.map_congr_left
      intro l _
      simp only [Function.comp]
      ring
  · obtain ⟨e, -, rfl⟩ := List.mem_map.1 hv
    unfold seen
    have hmono : (geomspace (0.1 * eMin) (10 * eMax) N).Pairwise (· < ·) := by
      obtain ⟨N2, hN2, h2, -⟩ := true_grid_resolves hf (lo := 0.1 * eMin) (hi := 10 * eMax)
        (by positivity) (by linarith) hn hcap
      rw [hN] at hN2
      injection hN2 with h
      rw [h]
      exact (geomspace_spec (by positivity) (by linarith) (hn.trans h2)).2.2.1
    have hgp := geomspace_pos (lo := 0.1 * eMin) (hi := 10 * eMax) (by positivity)
      (by linarith) (n := N)
    have htrap : ∀ (g : List ℝ) (h : ℝ → ℝ), g.Pairwise (· < ·) → (∀ E ∈ g, 0 ≤ h E) →
        0 ≤ trapezoid g (g.map h) := by
      intro g h hp hh
      induction g with
      | nil => simp [trapezoid]
      | cons x xs ih =>
        cases xs with
        | nil => simp [trapezoid]
        | cons y ys =>
          have ih' := ih hp.of_cons fun E hE => hh E (List.mem_cons_of_mem _ hE)
          simp only [List.map_cons, trapezoid] at ih' ⊢
          have hxy : x < y := List.rel_of_pairwise_cons hp List.mem_cons_self
          have h1 := hh x List.mem_cons_self
          have h2 := hh y (List.mem_cons_of_mem _ List.mem_cons_self)
          have : 0 ≤ (y - x) * (h x + h y) / 2 := by
            have : 0 ≤ y - x := by linarith
            positivity
          linarith
    refine add_nonneg (htrap _ _ hmono fun E hE => ?_) (List.sum_nonneg ?_)
    · exact mul_nonneg (hs E (hgp E hE)) ((response_density _ _).1 _)
    · intro x hx
      obtain ⟨l, hl, rfl⟩ := List.mem_map.1 hx
      refine mul_nonneg (mul_nonneg (hb l hl) ?_) ((response_density _ _).1 _)
      split_ifs <;> norm_num
  · unfold convolvedSpectrum addContinuum
    simp only [Option.getD_none, addLines]
    rw [if_pos ⟨hn, hlt⟩]

/-! ## Units -/

/-- **Converting `<sigma v>`**: full statement, for both unit names of the docstring, `"MeV^-2"` and
`"cm^3/s"`, `convert_sigmav` returns the converted number and the two conversions are inverse to each
other.  What holds: this is so for `"MeV^-2"` and the undocumented spelling `"cm^3 / s"`; the documented
`"cm^3/s"` (like every other string) silently gives `None` for every cross section. -/
theorem convert_sigmav_partial (sv : ℝ) :
    (∃ x, convertSigmav sv "cm^3 / s" = some x ∧ convertSigmav x "MeV^-2" = some sv) ∧
    (∃ x, convertSigmav sv "MeV^-2" = some x ∧ convertSigmav x "cm^3 / s" = some sv) ∧
    convertSigmav sv "cm^3/s" = none ∧
    (∀ t, convertSigmav sv t ≠ none ↔ t = "cm^3 / s" ∨ t = "MeV^-2") ∧
    (∀ x, 0 < sv → convertSigmav sv "cm^3 / s" = some x → |x / sv - 1.169e-11| < 1e-14) := by
  have hh : hbar2c3 ≠ 0 := by unfold hbar2c3; norm_num
  refine ⟨⟨sv * hbar2c3, ?_, ?_⟩, ⟨sv / hbar2c3, ?_, ?_⟩, ?_, fun t => ?_, fun x hs hx => ?_⟩
  · simp [convertSigmav]
  · simp only [convertSigmav, String.reduceEq, if_true, if_false]
    rw [mul_div_cancel_right₀ _ hh]
  · simp [convertSigmav]
  · simp only [convertSigmav, if_true]
    rw [div_mul_cancel₀ _ hh]
  · simp [convertSigmav]
  · unfold convertSigmav
    split_ifs with h1 h2
    · simp [h1]
    · simp [h2]
    · simp [h1, h2]
  · simp only [convertSigmav, if_true, Option.some.injEq] at hx
    subst hx
    rw [mul_comm, mul_div_assoc, div_self hs.ne', mul_one]
    unfold hbar2c3
    rw [abs_lt]
    constructor <;> norm_num

end Hazma.Detector
