import Verif.Model.Rambo
import Mathlib.Tactic

/-! # Helper lemmas for the RAMBO generator -/

namespace Hazma.Rambo

theorem boost_invariant (g bx yb bz a p0 px py pz : ℝ) (ha : a * (1 + g) = 1)
    (hb : bx ^ 2 + yb ^ 2 + bz ^ 2 = g ^ 2 - 1) :
    (g * p0 + (bx * px + yb * py + bz * pz)) ^ 2
      - ((a * (bx * px + yb * py + bz * pz) + p0) * bx + px) ^ 2
      - ((a * (bx * px + yb * py + bz * pz) + p0) * yb + py) ^ 2
      - ((a * (bx * px + yb * py + bz * pz) + p0) * bz + pz) ^ 2
      = p0 ^ 2 - px ^ 2 - py ^ 2 - pz ^ 2 := by
  set bp := bx * px + yb * py + bz * pz with hbp
  linear_combination (-(a * bp + p0) ^ 2) * hb
    - (a * (g - 1) * bp ^ 2 + bp ^ 2 + 2 * p0 * bp * (g - 1)) * ha
    + (2 * (a * bp + p0)) * hbp

/-- Invariant mass squared of a four-momentum. -/
def mass2 (p : P4) : ℝ := p.e ^ 2 - p.x ^ 2 - p.y ^ 2 - p.z ^ 2

theorem boostOne_mass2 (cme : ℝ) (t p : P4) (hM : 0 < mass2 t) (hE : 0 < t.e) :
    mass2 (boostOne cme t p) = (cme ^ 2 / mass2 t) * mass2 p := by
  have hs : 0 < Real.sqrt (mass2 t) := Real.sqrt_pos.mpr hM
  have hsq : Real.sqrt (mass2 t) ^ 2 = mass2 t := Real.sq_sqrt hM.le
  set M := Real.sqrt (mass2 t) with hMdef
  have hg : 0 < t.e * (1 / M) := by positivity
  have key := boost_invariant (t.e * (1 / M)) (-(1 / M) * t.x) (-(1 / M) * t.y) (-(1 / M) * t.z)
    (1 / (1 + t.e * (1 / M))) p.e p.x p.y p.z (by field_simp) (by
      have : t.x ^ 2 + t.y ^ 2 + t.z ^ 2 = t.e ^ 2 - M ^ 2 := by
        rw [hsq]; unfold mass2; ring
      have h2 : (-(1 / M) * t.x) ^ 2 + (-(1 / M) * t.y) ^ 2 + (-(1 / M) * t.z) ^ 2
          = (1 / M) ^ 2 * (t.x ^ 2 + t.y ^ 2 + t.z ^ 2) := by ring
      rw [h2, this]; field_simp)
  have : mass2 (boostOne cme t p) = (cme * (1 / M)) ^ 2 * (p.e ^ 2 - p.x ^ 2 - p.y ^ 2 - p.z ^ 2) := by
    rw [← key]
    simp only [mass2, boostOne]
    rw [show Real.sqrt (t.e ^ 2 - t.x ^ 2 - t.y ^ 2 - t.z ^ 2) = M from rfl]
    ring
  rw [this]
  show _ = cme ^ 2 / mass2 t * (p.e ^ 2 - p.x ^ 2 - p.y ^ 2 - p.z ^ 2)
  rw [← hsq]; ring

theorem total_boost (cme : ℝ) (t : P4) (ps : List P4) :
    total (ps.map (boostOne cme t)) = boostOne cme t (total ps) := by
  induction ps with
  | nil => simp [total, boostOne]
  | cons p ps ih =>
    have h1 : total (p :: ps) = ⟨p.e + (total ps).e, p.x + (total ps).x, p.y + (total ps).y,
        p.z + (total ps).z⟩ := by simp [total]
    have h2 : total ((p :: ps).map (boostOne cme t)) = ⟨(boostOne cme t p).e + (total (ps.map (boostOne cme t))).e,
        (boostOne cme t p).x + (total (ps.map (boostOne cme t))).x,
        (boostOne cme t p).y + (total (ps.map (boostOne cme t))).y,
        (boostOne cme t p).z + (total (ps.map (boostOne cme t))).z⟩ := by simp [total]
    rw [h2, ih, h1]
    simp only [boostOne]
    ext <;> simp only <;> ring

theorem boostOne_self (cme : ℝ) (t : P4) (hM : 0 < mass2 t) (hE : 0 < t.e) :
    boostOne cme t t = ⟨cme, 0, 0, 0⟩ := by
  have hs : 0 < Real.sqrt (mass2 t) := Real.sqrt_pos.mpr hM
  have hsq : Real.sqrt (mass2 t) ^ 2 = mass2 t := Real.sq_sqrt hM.le
  have hu : Real.sqrt (t.e ^ 2 - t.x ^ 2 - t.y ^ 2 - t.z ^ 2) = Real.sqrt (mass2 t) := rfl
  set M := Real.sqrt (mass2 t) with hMdef
  have h1 : t.x ^ 2 + t.y ^ 2 + t.z ^ 2 = t.e ^ 2 - M ^ 2 := by rw [hsq]; unfold mass2; ring
  have hbp : -(1 / M) * t.x * t.x + -(1 / M) * t.y * t.y + -(1 / M) * t.z * t.z
      = -(1 / M) * (t.e ^ 2 - M ^ 2) := by rw [← h1]; ring
  have hne : M + t.e ≠ 0 := by positivity
  have hF : 1 / (1 + t.e * (1 / M)) * (-(1 / M) * (t.e ^ 2 - M ^ 2)) + t.e = M := by
    have : 1 + t.e * (1 / M) = (M + t.e) / M := by field_simp
    rw [this]; field_simp; ring
  have hE' : cme * (1 / M) * (t.e * (1 / M) * t.e + -(1 / M) * (t.e ^ 2 - M ^ 2)) = cme := by
    field_simp; ring
  simp only [boostOne]
  rw [hu, hbp, hF, hE']
  ext <;> simp only <;> field_simp <;> ring

theorem initMomentum_mass2 (d : Draw) (h0 : 0 ≤ d.r1) (h1 : d.r1 ≤ 1) :
    mass2 (initMomentum d) = 0 := by
  have hc : 0 ≤ 1 - (2 * d.r1 - 1) ^ 2 := by nlinarith
  have hs := Real.sq_sqrt hc
  have ht := Real.sin_sq_add_cos_sq (2 * Real.pi * d.r2)
  simp only [initMomentum, mass2]
  set s := Real.sqrt (1 - (2 * d.r1 - 1) ^ 2)
  set e := -Real.log (d.r3 * d.r4)
  linear_combination (-(e ^ 2)) * hs - (e ^ 2 * s ^ 2) * ht

theorem initMomentum_energy_pos (d : Draw) (h3 : 0 < d.r3) (h3' : d.r3 < 1) (h4 : 0 < d.r4)
    (h4' : d.r4 < 1) : 0 < (initMomentum d).e := by
  have : d.r3 * d.r4 < 1 := by nlinarith
  have := Real.log_neg (mul_pos h3 h4) this
  simp only [initMomentum]; linarith

/-! ### The scale equation -/

theorem hypot_nonneg (a b : ℝ) : 0 ≤ hypot a b := Real.sqrt_nonneg _

theorem hypot_sq (a b : ℝ) : hypot a b ^ 2 = a ^ 2 + b ^ 2 := Real.sq_sqrt (by positivity)

theorem hypot_pos {a : ℝ} (b : ℝ) (ha : a ≠ 0) : 0 < hypot a b :=
  Real.sqrt_pos.mpr (by positivity)

theorem cauchy (a b c d : ℝ) : a * c + b * d ≤ hypot a b * hypot c d := by
  have h := mul_nonneg (hypot_nonneg a b) (hypot_nonneg c d)
  refine le_of_sq_le_sq' ?_ h
  rw [mul_pow, hypot_sq, hypot_sq]
  nlinarith [sq_nonneg (a * d - b * c)]
where
  le_of_sq_le_sq' {x y : ℝ} (h : x ^ 2 ≤ y ^ 2) (hy : 0 ≤ y) : x ≤ y :=
    (abs_le_of_sq_le_sq' h hy).2

theorem minkowski (a b c d : ℝ) : hypot (a + c) (b + d) ≤ hypot a b + hypot c d := by
  refine (abs_le_of_sq_le_sq' ?_ (add_nonneg (hypot_nonneg _ _) (hypot_nonneg _ _))).2
  rw [hypot_sq]
  nlinarith [cauchy a b c d, hypot_sq a b, hypot_sq c d]

/-- The tangent at `xi` lies below the scale function of one particle. -/
theorem tangent {e xi : ℝ} (m y : ℝ) (he : 0 < e) (hx : 0 < xi) :
    hypot (e * xi) m + xi * e ^ 2 / hypot (e * xi) m * (y - xi) ≤ hypot (e * y) m := by
  have hp : 0 < hypot (e * xi) m := hypot_pos m (by positivity)
  have hc := cauchy (e * xi) m (e * y) m
  have hs := hypot_sq (e * xi) m
  set h := hypot (e * xi) m
  have : h + xi * e ^ 2 / h * (y - xi) = (e * xi * (e * y) + m * m) / h := by
    field_simp
    linear_combination hs
  rw [this, div_le_iff₀ hp]
  linarith

theorem hypot_mono {e m x y : ℝ} (he : 0 ≤ e) (hx : 0 ≤ x) (hxy : x ≤ y) :
    hypot (e * x) m ≤ hypot (e * y) m := by
  apply Real.sqrt_le_sqrt
  have : e * x ≤ e * y := mul_le_mul_of_nonneg_left hxy he
  have : 0 ≤ e * x := by positivity
  nlinarith

theorem scaleF_tangent (cme : ℝ) {ms es : List ℝ} {xi : ℝ} (y : ℝ) (he : ∀ e ∈ es, 0 < e)
    (hx : 0 < xi) :
    scaleF cme ms es xi + scaleDf ms es xi * (y - xi) ≤ scaleF cme ms es y := by
  unfold scaleF scaleDf
  induction es generalizing ms with
  | nil => simp
  | cons e es ih =>
    cases ms with
    | nil => simp
    | cons m ms =>
      have h1 := tangent m y (he e (by simp)) hx
      have h2 := ih (ms := ms) (fun e h => he e (by simp [h]))
      simp only [List.zipWith_cons_cons, List.sum_cons]
      nlinarith

theorem scaleF_mono (cme : ℝ) {ms es : List ℝ} {x y : ℝ} (he : ∀ e ∈ es, 0 < e)
    (hx : 0 ≤ x) (hxy : x ≤ y) : scaleF cme ms es x ≤ scaleF cme ms es y := by
  unfold scaleF
  induction es generalizing ms with
  | nil => simp
  | cons e es ih =>
    cases ms with
    | nil => simp
    | cons m ms =>
      have h1 := hypot_mono (m := m) (he e (by simp)).le hx hxy
      have h2 := ih (ms := ms) (fun e h => he e (by simp [h]))
      simp only [List.zipWith_cons_cons, List.sum_cons]
      linarith

theorem scaleF_zero (cme : ℝ) {ms es : List ℝ} (hm : ∀ m ∈ ms, 0 ≤ m)
    (hl : es.length = ms.length) : scaleF cme ms es 0 = ms.sum - cme := by
  unfold scaleF
  induction es generalizing ms with
  | nil => cases ms <;> simp_all
  | cons e es ih =>
    cases ms with
    | nil => simp at hl
    | cons m ms =>
      have h2 := ih (ms := ms) (fun e h => hm e (by simp [h])) (by simpa using hl)
      have h3 : hypot (e * 0) m = m := by
        unfold hypot; simp [Real.sqrt_sq (hm m (by simp))]
      simp only [List.zipWith_cons_cons, List.sum_cons, h3]
      linarith

theorem scaleDf_pos {ms es : List ℝ} {xi : ℝ} (he : ∀ e ∈ es, 0 < e) (hx : 0 < xi)
    (hl : es.length = ms.length) (hne : es ≠ []) : 0 < scaleDf ms es xi := by
  have aux : ∀ {ms es : List ℝ}, (∀ e ∈ es, 0 < e) → 0 ≤ scaleDf ms es xi := by
    intro ms es he
    unfold scaleDf
    induction es generalizing ms with
    | nil => simp
    | cons e es ih =>
      cases ms with
      | nil => simp
      | cons m ms =>
        simp only [List.zipWith_cons_cons, List.sum_cons]
        have := ih (ms := ms) (fun e h => he e (by simp [h]))
        have h0 := hypot_nonneg (e * xi) m
        have := he e (by simp)
        positivity
  cases es with
  | nil => exact absurd rfl hne
  | cons e es =>
    cases ms with
    | nil => simp at hl
    | cons m ms =>
      have h2 := aux (ms := ms) (es := es) (fun e h => he e (by simp [h]))
      have h3 := he e (by simp)
      have h4 : 0 < hypot (e * xi) m := hypot_pos m (by positivity)
      have h5 : 0 < xi * e ^ 2 / hypot (e * xi) m := by positivity
      unfold scaleDf at h2 ⊢
      simp only [List.zipWith_cons_cons, List.sum_cons]
      linarith

theorem sum_hypot_ge (ms es : List ℝ) (x : ℝ) (hl : es.length = ms.length) :
    hypot (es.sum * x) ms.sum ≤ (List.zipWith (fun e m => hypot (e * x) m) es ms).sum := by
  induction es generalizing ms with
  | nil => cases ms <;> simp_all [hypot]
  | cons e es ih =>
    cases ms with
    | nil => simp at hl
    | cons m ms =>
      have h2 := ih ms (by simpa using hl)
      have h3 := minkowski (e * x) m (es.sum * x) ms.sum
      simp only [List.zipWith_cons_cons, List.sum_cons, add_mul]
      linarith

/-- The starting scale overshoots. -/
theorem scaleF_xi0 {cme : ℝ} {ms es : List ℝ} (hc : 0 < cme) (hm : ∀ m ∈ ms, 0 ≤ m)
    (hs : ms.sum < cme) (hl : es.length = ms.length) (hes : es.sum = cme) :
    0 ≤ scaleF cme ms es (Real.sqrt (1 - (ms.sum / cme) ^ 2)) := by
  have h0 : 0 ≤ ms.sum := List.sum_nonneg hm
  have hr : ms.sum / cme < 1 := (div_lt_one hc).mpr hs
  have hr0 : 0 ≤ ms.sum / cme := by positivity
  have h1 : 0 ≤ 1 - (ms.sum / cme) ^ 2 := by nlinarith
  have h := sum_hypot_ge ms es (Real.sqrt (1 - (ms.sum / cme) ^ 2)) hl
  have h2 : hypot (es.sum * Real.sqrt (1 - (ms.sum / cme) ^ 2)) ms.sum = cme := by
    unfold hypot
    rw [mul_pow, Real.sq_sqrt h1, hes]
    rw [show cme ^ 2 * (1 - (ms.sum / cme) ^ 2) + ms.sum ^ 2 = cme ^ 2 by field_simp; ring]
    exact Real.sqrt_sq hc.le
  rw [h2] at h
  unfold scaleF
  linarith

/-- What is maintained by the Newton iteration for one event. -/
structure Above (cme : ℝ) (ms es : List ℝ) (xi : ℝ) : Prop where
  pos : 0 < xi
  res : 0 ≤ scaleF cme ms es xi

theorem newton_above {cme : ℝ} {ms es : List ℝ} {xi : ℝ} (he : ∀ e ∈ es, 0 < e)
    (hm : ∀ m ∈ ms, 0 ≤ m) (hs : ms.sum < cme) (hl : es.length = ms.length) (hne : es ≠ [])
    (h : Above cme ms es xi) :
    Above cme ms es (newtonStep cme ms es xi) ∧ newtonStep cme ms es xi ≤ xi ∧
      scaleF cme ms es (newtonStep cme ms es xi) ≤ scaleF cme ms es xi ∧
      ∀ root, scaleF cme ms es root ≤ 0 → root ≤ newtonStep cme ms es xi := by
  have hd := scaleDf_pos he h.pos hl hne
  have hle : newtonStep cme ms es xi ≤ xi := by
    unfold newtonStep
    have : 0 ≤ scaleF cme ms es xi / scaleDf ms es xi := div_nonneg h.res hd.le
    linarith
  have hroot : ∀ root, scaleF cme ms es root ≤ 0 → root ≤ newtonStep cme ms es xi := by
    intro root hr
    have := scaleF_tangent cme root he h.pos (ms := ms)
    unfold newtonStep
    rw [le_sub_iff_add_le, ← le_sub_iff_add_le', div_le_iff₀ hd]
    nlinarith
  have hpos : 0 < newtonStep cme ms es xi := by
    have := scaleF_tangent cme 0 he h.pos (ms := ms)
    rw [scaleF_zero cme hm hl] at this
    unfold newtonStep
    rw [sub_pos, div_lt_iff₀ hd]
    nlinarith
  have hres : 0 ≤ scaleF cme ms es (newtonStep cme ms es xi) := by
    have := scaleF_tangent cme (newtonStep cme ms es xi) he h.pos (ms := ms)
    have h2 : scaleDf ms es xi * (newtonStep cme ms es xi - xi) = - scaleF cme ms es xi := by
      unfold newtonStep; field_simp; ring
    linarith
  exact ⟨⟨hpos, hres⟩, hle, scaleF_mono cme he hpos.le hle, hroot⟩

end Hazma.Rambo
