import Verif.Props.VectorXs

/-! # Units of the cross sections

A cross section in MeV⁻² must scale as `l⁻²` when every mass, width and decay constant is scaled by
`l`; the theorems hold for every `l > 0`, so a wrong power of any dimensionful quantity shows up. -/

namespace Hazma.Xs

open Hazma

/-- Scale every dimensionful constant. -/
noncomputable def scaleConsts (l : ℝ) (k : ScalarModel.Consts) : ScalarModel.Consts where
  alpha := k.alpha
  vh := l * k.vh
  b0 := l * k.b0
  muq := l * k.muq
  mdq := l * k.mdq
  mpi := l * k.mpi
  mpi0 := l * k.mpi0
  me := l * k.me
  mmu := l * k.mmu

/-- Scale every dimensionful attribute of a scalar model. -/
noncomputable def scaleBase (l : ℝ) (s : ScalarModel.Base) : ScalarModel.Base :=
  { s with mx := l * s.mx, ms := l * s.ms, lam := l * s.lam, vs := l * s.vs, width := l * s.width }

/-- Scale every dimensionful constant of the vector kernels. -/
noncomputable def scaleVectorConsts (l : ℝ) (k : VectorModel.Consts) : VectorModel.Consts :=
  { k with fpi := l * k.fpi, mpi := l * k.mpi, mpi0 := l * k.mpi0, me := l * k.me, mmu := l * k.mmu }

/-- Divide a result by `d`, keeping exceptions. -/
noncomputable def overE (d : ℝ) : Except Err ℝ → Except Err ℝ
  | .ok v => .ok (v / d)
  | .error e => .error e

theorem lt_scale {l a b : ℝ} (hl : 0 < l) : l * a < 2 * (l * b) ↔ a < 2 * b := by
  rw [show 2 * (l * b) = l * (2 * b) by ring]; exact mul_lt_mul_iff_right₀ hl

theorem prop_scale (l m e w : ℝ) : propagator (l * m) (l * e) (l * w) = l ^ 4 * propagator m e w := by
  unfold propagator; ring

theorem sqrt_scale {l : ℝ} (hl : 0 < l) (x : ℝ) : Real.sqrt (l ^ 2 * x) = l * Real.sqrt x := by
  rw [Real.sqrt_mul (by positivity), Real.sqrt_sq hl.le]

theorem sqrt_scale4 {l : ℝ} (hl : 0 < l) (x : ℝ) : Real.sqrt (l ^ 4 * x) = l ^ 2 * Real.sqrt x := by
  rw [show l ^ 4 * x = (l ^ 2) ^ 2 * x by ring, sqrt_scale (by positivity)]

theorem rpow_scale {l x : ℝ} (hl : 0 < l) (hx : 0 ≤ x) :
    (l ^ 2 * x) ^ (3 / 2 : ℝ) = l ^ 3 * x ^ (3 / 2 : ℝ) := by
  rw [Real.mul_rpow (by positivity) hx]
  congr 1
  rw [← Real.rpow_natCast l 2, ← Real.rpow_mul hl.le, ← Real.rpow_natCast l 3]
  norm_num

theorem quotient_scale {l : ℝ} (hl : 0 < l) (a c : ℝ) (p q : ℕ) (h : q = p + 2) :
    quotient (l ^ p * a) (l ^ q * c) = overE (l ^ 2) (quotient a c) := by
  unfold quotient
  have hq : l ^ q ≠ 0 := by positivity
  by_cases hc : c = 0
  · rw [if_pos (by rw [hc, mul_zero]), if_pos hc]; rfl
  · rw [if_neg (mul_ne_zero hq hc), if_neg hc]
    simp only [overE]
    congr 1
    rw [h, pow_add]
    field_simp

/-- Lepton channel. -/
theorem scalarFF_units (l vh e mx ms gsxx gsff w mf : ℝ) (hl : 0 < l) (hmf : 0 ≤ mf) :
    scalarFF (l * vh) (l * e) (l * mx) (l * ms) gsxx gsff (l * w) (l * mf)
      = overE (l ^ 2) (scalarFF vh e mx ms gsxx gsff w mf) := by
  unfold scalarFF
  simp only [lt_scale hl]
  split_ifs with h
  · simp [overE]
  · push Not at h
    rw [← quotient_scale hl _ _ 6 8 rfl, prop_scale,
      show -4 * (l * mf) ^ 2 + (l * e) ^ 2 = l ^ 2 * (-4 * mf ^ 2 + e ^ 2) by ring,
      show -4 * (l * mx) ^ 2 + (l * e) ^ 2 = l ^ 2 * (-4 * mx ^ 2 + e ^ 2) by ring,
      rpow_scale hl (sub_sq_nonneg hmf h.1), sqrt_scale hl]
    congr 1 <;> ring

theorem scalarGG_units (l : ℝ) (hl : 0 < l) (k : ScalarModel.Consts) (s : ScalarModel.Base) (e : ℝ) :
    scalarGG (scaleConsts l k) (scaleBase l s) (l * e) = scalarGG k s e / l ^ 2 := by
  unfold scalarGG scaleConsts scaleBase
  simp only [lt_scale hl]
  split_ifs with h
  · simp
  · rw [prop_scale, show -4 * (l * s.mx) ^ 2 + (l * e) ^ 2 = l ^ 2 * (-4 * s.mx ^ 2 + e ^ 2) by ring,
      sqrt_scale hl]
    generalize propagator s.ms e s.width = P
    field_simp

theorem scalarPi_units (l : ℝ) (hl : 0 < l) (k : ScalarModel.Consts) (m norm : ℝ)
    (s : ScalarModel.Base) (e : ℝ) :
    scalarPi (scaleConsts l k) (l * m) norm (scaleBase l s) (l * e) = scalarPi k m norm s e / l ^ 2 := by
  unfold scalarPi scaleConsts scaleBase
  simp only [lt_scale hl]
  split_ifs with h
  · simp
  · rw [prop_scale, show (-4 * (l * m) ^ 2 + (l * e) ^ 2) * (-4 * (l * s.mx) ^ 2 + (l * e) ^ 2)
        = l ^ 4 * ((-4 * m ^ 2 + e ^ 2) * (-4 * s.mx ^ 2 + e ^ 2)) by ring, sqrt_scale4 hl]
    rw [show 162 * s.gsGG * (l * s.lam) ^ 3 * (2 * (l * m) ^ 2 - (l * e) ^ 2) * (l * k.vh) ^ 2
        + l * k.b0 * (l * k.mdq + l * k.muq) * (9 * (l * s.lam) + 4 * s.gsGG * (l * s.vs))
          * (2 * s.gsGG * (l * k.vh) * (l * s.vs)
            + (-3 * (l * s.lam) * (l * k.vh) + 3 * s.gsff * (l * s.lam) * (l * s.vs)))
          * (2 * s.gsGG * (l * k.vh) * (9 * (l * s.lam) - 4 * s.gsGG * (l * s.vs))
            + 9 * s.gsff * (l * s.lam) * (3 * (l * s.lam) + 4 * s.gsGG * (l * s.vs)))
        = l ^ 7 * (162 * s.gsGG * s.lam ^ 3 * (2 * m ^ 2 - e ^ 2) * k.vh ^ 2
          + k.b0 * (k.mdq + k.muq) * (9 * s.lam + 4 * s.gsGG * s.vs)
            * (2 * s.gsGG * k.vh * s.vs + (-3 * s.lam * k.vh + 3 * s.gsff * s.lam * s.vs))
            * (2 * s.gsGG * k.vh * (9 * s.lam - 4 * s.gsGG * s.vs)
              + 9 * s.gsff * s.lam * (3 * s.lam + 4 * s.gsGG * s.vs))) by ring,
      show 9 * (l * s.lam) + 4 * s.gsGG * (l * s.vs) = l * (9 * s.lam + 4 * s.gsGG * s.vs) by ring]
    generalize 162 * s.gsGG * s.lam ^ 3 * (2 * m ^ 2 - e ^ 2) * k.vh ^ 2
          + k.b0 * (k.mdq + k.muq) * (9 * s.lam + 4 * s.gsGG * s.vs)
            * (2 * s.gsGG * k.vh * s.vs + (-3 * s.lam * k.vh + 3 * s.gsff * s.lam * s.vs))
            * (2 * s.gsGG * k.vh * (9 * s.lam - 4 * s.gsGG * s.vs)
              + 9 * s.gsff * s.lam * (3 * s.lam + 4 * s.gsGG * s.vs)) = X
    generalize 9 * s.lam + 4 * s.gsGG * s.vs = Y
    generalize propagator s.ms e s.width = P
    field_simp

theorem scalarSS_units (l e mx ms g : ℝ) (hl : 0 < l) :
    scalarSS (l * e) (l * mx) (l * ms) g = scalarSS e mx ms g / l ^ 2 := by
  unfold scalarSS
  simp only [lt_scale hl]
  split_ifs with h
  · simp
  · rw [show (-4 * (l * ms) ^ 2 + (l * e) ^ 2) * (-4 * (l * mx) ^ 2 + (l * e) ^ 2)
        = l ^ 4 * ((-4 * ms ^ 2 + e ^ 2) * (-4 * mx ^ 2 + e ^ 2)) by ring, sqrt_scale4 hl]
    generalize Real.sqrt ((-4 * ms ^ 2 + e ^ 2) * (-4 * mx ^ 2 + e ^ 2)) = R
    rw [show -2 * (l * ms) ^ 2 + (l * e) ^ 2 + l ^ 2 * R = l ^ 2 * (-2 * ms ^ 2 + e ^ 2 + R) by ring,
      show -2 * (l * ms) ^ 2 + (l * e) ^ 2 - l ^ 2 * R = l ^ 2 * (-2 * ms ^ 2 + e ^ 2 - R) by ring,
      mul_div_mul_left _ _ (by positivity : l ^ 2 ≠ 0),
      show -2 * (l * ms) ^ 2 + (l * e) ^ 2 = l ^ 2 * (-2 * ms ^ 2 + e ^ 2) by ring,
      show -4 * (l * mx) ^ 2 + (l * e) ^ 2 = l ^ 2 * (-4 * mx ^ 2 + e ^ 2) by ring,
      show (l * mx) ^ 2 * (l * e) ^ 2 + (-(4 * (l * ms) ^ 2) * (l * mx) ^ 2 + (l * ms) ^ 4)
        = l ^ 4 * (mx ^ 2 * e ^ 2 + (-(4 * ms ^ 2) * mx ^ 2 + ms ^ 4)) by ring,
      show -(4 * (l * ms) ^ 2) * (4 * (l * mx) ^ 2 + (l * e) ^ 2)
          + (16 * (l * mx) ^ 2 * (l * e) ^ 2 + (6 * (l * ms) ^ 4 - 32 * (l * mx) ^ 4) + (l * e) ^ 4)
        = l ^ 4 * (-(4 * ms ^ 2) * (4 * mx ^ 2 + e ^ 2)
          + (16 * mx ^ 2 * e ^ 2 + (6 * ms ^ 4 - 32 * mx ^ 4) + e ^ 4)) by ring,
      show 2 * (l * mx) ^ 2 * (8 * (l * mx) ^ 2 + (l * e) ^ 2)
          + (3 * (l * ms) ^ 4 - 16 * (l * ms) ^ 2 * (l * mx) ^ 2)
        = l ^ 4 * (2 * mx ^ 2 * (8 * mx ^ 2 + e ^ 2) + (3 * ms ^ 4 - 16 * ms ^ 2 * mx ^ 2)) by ring]
    generalize Real.log ((-2 * ms ^ 2 + e ^ 2 + R) / (-2 * ms ^ 2 + e ^ 2 - R)) = L
    generalize -2 * ms ^ 2 + e ^ 2 = A
    generalize -4 * mx ^ 2 + e ^ 2 = B
    generalize mx ^ 2 * e ^ 2 + (-(4 * ms ^ 2) * mx ^ 2 + ms ^ 4) = D
    generalize 2 * mx ^ 2 * (8 * mx ^ 2 + e ^ 2) + (3 * ms ^ 4 - 16 * ms ^ 2 * mx ^ 2) = P
    generalize -(4 * ms ^ 2) * (4 * mx ^ 2 + e ^ 2)
          + (16 * mx ^ 2 * e ^ 2 + (6 * ms ^ 4 - 32 * mx ^ 4) + e ^ 4) = K
    rw [show l ^ 2 * R * (l ^ 4 * P) / (l ^ 4 * D) = l ^ 2 * (R * P / D) by field_simp,
      show l ^ 4 * K * L / (l ^ 2 * A) = l ^ 2 * (K * L / A) by field_simp]
    field_simp

theorem scalarSSXX_units (l e mx ms g : ℝ) (hl : 0 < l) :
    scalarSSXX (l * e) (l * mx) (l * ms) g = scalarSSXX e mx ms g / l ^ 2 := by
  unfold scalarSSXX
  simp only [lt_scale hl, mul_div_mul_left _ _ hl.ne']
  split_ifs with h
  · simp
  · rw [mul_pow]
    field_simp

theorem vectorFF_units (l e mx mv gvxx gvll w mf : ℝ) (hl : 0 < l) :
    vectorFF (l * e) (l * mx) (l * mv) gvxx gvll (l * w) (l * mf)
      = vectorFF e mx mv gvxx gvll w mf / l ^ 2 := by
  unfold vectorFF
  simp only [lt_scale hl]
  split_ifs with h
  · simp
  · rw [prop_scale, show -4 * (l * mf) ^ 2 + (l * e) ^ 2 = l ^ 2 * (-4 * mf ^ 2 + e ^ 2) by ring,
      show -4 * (l * mx) ^ 2 + (l * e) ^ 2 = l ^ 2 * (-4 * mx ^ 2 + e ^ 2) by ring,
      mul_div_mul_left _ _ (by positivity : l ^ 2 ≠ 0),
      show 2 * (l * mf) ^ 2 + (l * e) ^ 2 = l ^ 2 * (2 * mf ^ 2 + e ^ 2) by ring,
      show 2 * (l * mx) ^ 2 + (l * e) ^ 2 = l ^ 2 * (2 * mx ^ 2 + e ^ 2) by ring]
    generalize propagator mv e w = P
    field_simp

theorem vectorPiPi_units (l : ℝ) (hl : 0 < l) (k : VectorModel.Consts) (e mx mv gvxx gvuu gvdd w : ℝ)
    (hm : 0 ≤ k.mpi) :
    vectorPiPi (scaleVectorConsts l k) (l * e) (l * mx) (l * mv) gvxx gvuu gvdd (l * w)
      = overE (l ^ 2) (vectorPiPi k e mx mv gvxx gvuu gvdd w) := by
  unfold vectorPiPi scaleVectorConsts
  simp only [lt_scale hl]
  split_ifs with h
  · simp [overE]
  · push Not at h
    rw [← quotient_scale hl _ _ 5 7 rfl, prop_scale,
      show -4 * (l * k.mpi) ^ 2 + (l * e) ^ 2 = l ^ 2 * (-4 * k.mpi ^ 2 + e ^ 2) by ring,
      show -4 * (l * mx) ^ 2 + (l * e) ^ 2 = l ^ 2 * (-4 * mx ^ 2 + e ^ 2) by ring,
      rpow_scale hl (sub_sq_nonneg hm h.2), sqrt_scale hl]
    congr 1 <;> ring

theorem lt_scale1 {l a b : ℝ} (hl : 0 < l) : l * a < l * b ↔ a < b := mul_lt_mul_iff_right₀ hl

theorem vectorPi0G_units (l : ℝ) (hl : 0 < l) (k : VectorModel.Consts) (e mx mv gvxx gvuu gvdd w : ℝ) :
    vectorPi0G (scaleVectorConsts l k) (l * e) (l * mx) (l * mv) gvxx gvuu gvdd (l * w)
      = vectorPi0G k e mx mv gvxx gvuu gvdd w / l ^ 2 := by
  unfold vectorPi0G scaleVectorConsts
  simp only [lt_scale hl, lt_scale1 hl]
  split_ifs with h
  · simp
  · rw [prop_scale,
      show -4 * (l * mx) ^ 2 + (l * e) ^ 2 = l ^ 2 * (-4 * mx ^ 2 + e ^ 2) by ring,
      show 2 * (l * mx) ^ 2 + (l * e) ^ 2 = l ^ 2 * (2 * mx ^ 2 + e ^ 2) by ring,
      show (l * e) ^ 2 - (l * k.mpi0) ^ 2 = l ^ 2 * (e ^ 2 - k.mpi0 ^ 2) by ring, sqrt_scale hl]
    generalize propagator mv e w = P
    field_simp

theorem vectorPi0V_units (l : ℝ) (hl : 0 < l) (k : VectorModel.Consts) (e mx mv gvxx gvuu gvdd w : ℝ)
    (hm : 0 < k.mpi0) (hmv : 0 < mv) :
    vectorPi0V (scaleVectorConsts l k) (l * e) (l * mx) (l * mv) gvxx gvuu gvdd (l * w)
      = overE (l ^ 2) (vectorPi0V k e mx mv gvxx gvuu gvdd w) := by
  unfold vectorPi0V scaleVectorConsts
  simp only [← mul_add l, lt_scale hl, lt_scale1 hl]
  split_ifs with h
  · simp [overE]
  · push Not at h
    have hk0 : 0 ≤ (k.mpi0 - mv - e) * (mv + k.mpi0 - e) * (e + (k.mpi0 - mv)) * (e + (mv + k.mpi0)) := by
      have a1 : 0 ≤ -(k.mpi0 - mv - e) := by linarith
      have a2 : 0 ≤ -(mv + k.mpi0 - e) := by linarith
      have a3 : 0 ≤ e + (k.mpi0 - mv) := by linarith
      have a4 : 0 ≤ e + (mv + k.mpi0) := by linarith
      have := mul_nonneg a1 a2
      rw [neg_mul_neg] at this
      positivity
    rw [← quotient_scale hl _ _ 8 10 rfl, prop_scale,
      show (l * k.mpi0 - l * mv - l * e) * (l * (mv + k.mpi0) - l * e) * (l * e + (l * k.mpi0 - l * mv))
          * (l * (e + (mv + k.mpi0)))
        = (l ^ 2) ^ 2 * ((k.mpi0 - mv - e) * (mv + k.mpi0 - e) * (e + (k.mpi0 - mv))
          * (e + (mv + k.mpi0))) by ring,
      show -4 * (l * mx) ^ 2 + (l * e) ^ 2 = l ^ 2 * (-4 * mx ^ 2 + e ^ 2) by ring,
      rpow_scale (by positivity) hk0, sqrt_scale hl]
    congr 1 <;> ring

theorem vectorVV_units (l e mx mv g : ℝ) (hl : 0 < l) :
    vectorVV (l * e) (l * mx) (l * mv) g = vectorVV e mx mv g / l ^ 2 := by
  unfold vectorVV
  simp only [lt_scale hl]
  split_ifs with h
  · simp
  · simp only [show -4 * (l * mv) ^ 2 + (l * e) ^ 2 = l ^ 2 * (-4 * mv ^ 2 + e ^ 2) by ring,
      show -4 * (l * mx) ^ 2 + (l * e) ^ 2 = l ^ 2 * (-4 * mx ^ 2 + e ^ 2) by ring, sqrt_scale hl]
    generalize Real.sqrt (-4 * mv ^ 2 + e ^ 2) = V
    generalize Real.sqrt (-4 * mx ^ 2 + e ^ 2) = X
    rw [show l * V * (l * X) + (-2 * (l * mv) ^ 2 + (l * e) ^ 2)
        = l ^ 2 * (V * X + (-2 * mv ^ 2 + e ^ 2)) by ring,
      show -(l * V) * (l * X) + (-2 * (l * mv) ^ 2 + (l * e) ^ 2)
        = l ^ 2 * (-V * X + (-2 * mv ^ 2 + e ^ 2)) by ring,
      mul_div_mul_left _ _ (by positivity : l ^ 2 ≠ 0),
      show -2 * (l * mv) ^ 2 + (l * e) ^ 2 = l ^ 2 * (-2 * mv ^ 2 + e ^ 2) by ring,
      show (l * mx) ^ 2 * (l * e) ^ 2 + (-4 * (l * mv) ^ 2 * (l * mx) ^ 2 + (l * mv) ^ 4)
        = l ^ 4 * (mx ^ 2 * e ^ 2 + (-4 * mv ^ 2 * mx ^ 2 + mv ^ 4)) by ring,
      show (l * mx) ^ 2 * (l * e) ^ 2 + (2 * (l * mv) ^ 4 + (l * mx) ^ 4 * 4)
        = l ^ 4 * (mx ^ 2 * e ^ 2 + (2 * mv ^ 4 + mx ^ 4 * 4)) by ring,
      show 4 * (l * mx) ^ 2 * (l * e) ^ 2 + (-8 * (l * mx) ^ 4
          + (4 * (l * mv) ^ 4 + (l * mv) ^ 2 * -8 * (l * mx) ^ 2)) + (l * e) ^ 4
        = l ^ 4 * (4 * mx ^ 2 * e ^ 2 + (-8 * mx ^ 4 + (4 * mv ^ 4 + mv ^ 2 * -8 * mx ^ 2)) + e ^ 4) by
          ring]
    generalize Real.log ((V * X + (-2 * mv ^ 2 + e ^ 2)) / (-V * X + (-2 * mv ^ 2 + e ^ 2))) = L
    generalize -2 * mv ^ 2 + e ^ 2 = A
    generalize -4 * mx ^ 2 + e ^ 2 = B
    generalize mx ^ 2 * e ^ 2 + (-4 * mv ^ 2 * mx ^ 2 + mv ^ 4) = D
    generalize mx ^ 2 * e ^ 2 + (2 * mv ^ 4 + mx ^ 4 * 4) = T
    generalize 4 * mx ^ 2 * e ^ 2 + (-8 * mx ^ 4 + (4 * mv ^ 4 + mv ^ 2 * -8 * mx ^ 2)) + e ^ 4 = K
    rw [show (l ^ 4 * K + l ^ 4 * K) * L / (l ^ 2 * A) = l ^ 2 * ((K + K) * L / A) by field_simp,
      show l ^ 4 * T * (l * X * (l * V + l * V)) / (l ^ 4 * D) = l ^ 2 * (T * (X * (V + V)) / D) by
        field_simp]
    field_simp

/-- C89: every annihilation cross section of both models, and the inverse reaction, has the units of
a cross section. -/
theorem annihilation_units (l : ℝ) (hl : 0 < l) (k : ScalarModel.Consts)
    (kv : VectorModel.Consts) (hkv : kv.Physical) (s : ScalarModel.Base) (v : VectorModel.Base)
    (hmv : 0 < v.mv) (e mf : ℝ) (hmf : 0 ≤ mf) :
    scalarFF (l * k.vh) (l * e) (l * s.mx) (l * s.ms) s.gsxx s.gsff (l * s.width) (l * mf)
      = overE (l ^ 2) (scalarFF k.vh e s.mx s.ms s.gsxx s.gsff s.width mf)
    ∧ scalarGG (scaleConsts l k) (scaleBase l s) (l * e) = scalarGG k s e / l ^ 2
    ∧ scalarPi0Pi0 (scaleConsts l k) (scaleBase l s) (l * e) = scalarPi0Pi0 k s e / l ^ 2
    ∧ scalarPiPi (scaleConsts l k) (scaleBase l s) (l * e) = scalarPiPi k s e / l ^ 2
    ∧ scalarSS (l * e) (l * s.mx) (l * s.ms) s.gsxx = scalarSS e s.mx s.ms s.gsxx / l ^ 2
    ∧ scalarSSXX (l * e) (l * s.mx) (l * s.ms) s.gsxx = scalarSSXX e s.mx s.ms s.gsxx / l ^ 2
    ∧ vectorFF (l * e) (l * v.mx) (l * v.mv) v.gvxx v.gvee (l * v.width) (l * mf)
      = vectorFF e v.mx v.mv v.gvxx v.gvee v.width mf / l ^ 2
    ∧ vectorPiPi (scaleVectorConsts l kv) (l * e) (l * v.mx) (l * v.mv) v.gvxx v.gvuu v.gvdd (l * v.width)
      = overE (l ^ 2) (vectorPiPi kv e v.mx v.mv v.gvxx v.gvuu v.gvdd v.width)
    ∧ vectorPi0G (scaleVectorConsts l kv) (l * e) (l * v.mx) (l * v.mv) v.gvxx v.gvuu v.gvdd (l * v.width)
      = vectorPi0G kv e v.mx v.mv v.gvxx v.gvuu v.gvdd v.width / l ^ 2
    ∧ vectorPi0V (scaleVectorConsts l kv) (l * e) (l * v.mx) (l * v.mv) v.gvxx v.gvuu v.gvdd (l * v.width)
      = overE (l ^ 2) (vectorPi0V kv e v.mx v.mv v.gvxx v.gvuu v.gvdd v.width)
    ∧ vectorVV (l * e) (l * v.mx) (l * v.mv) v.gvxx = vectorVV e v.mx v.mv v.gvxx / l ^ 2 :=
  ⟨scalarFF_units l k.vh e s.mx s.ms s.gsxx s.gsff s.width mf hl hmf, scalarGG_units l hl k s e,
   scalarPi_units l hl k k.mpi0 _ s e, scalarPi_units l hl k k.mpi _ s e,
   scalarSS_units l e s.mx s.ms s.gsxx hl, scalarSSXX_units l e s.mx s.ms s.gsxx hl,
   vectorFF_units l e v.mx v.mv v.gvxx v.gvee v.width mf hl,
   vectorPiPi_units l hl kv e v.mx v.mv v.gvxx v.gvuu v.gvdd v.width hkv.mpi.le,
   vectorPi0G_units l hl kv e v.mx v.mv v.gvxx v.gvuu v.gvdd v.width,
   vectorPi0V_units l hl kv e v.mx v.mv v.gvxx v.gvuu v.gvdd v.width hkv.mpi0 hmv,
   vectorVV_units l e v.mx v.mv v.gvxx hl⟩

example : scalarSS (3 * 10) (3 * 1) (3 * 2) 1 = scalarSS 10 1 2 1 / 9 := by
  rw [scalarSS_units 3 10 1 2 1 (by norm_num)]; norm_num

/-! ### The self-interaction cross sections -/

/-- C90 is false: both self-interaction cross sections scale as `1/l`, an inverse mass, because the
squared amplitude is divided by `32 π e` and not by `32 π e²`. -/
theorem self_interaction_units (l : ℝ) (hl : 0 < l) (rule : List (ℝ × ℝ)) (e mx m g w : ℝ) :
    scalarSelf rule (l * e) (l * mx) (l * m) g (l * w) = scalarSelf rule e mx m g w / l
    ∧ vectorSelf rule (l * e) (l * mx) (l * m) g (l * w) = vectorSelf rule e mx m g w / l := by
  have hlt : l * e > 2 * (l * mx) ↔ e > 2 * mx := by
    rw [gt_iff_lt, gt_iff_lt, show 2 * (l * mx) = l * (2 * mx) by ring, lt_scale1 hl]
  unfold scalarSelf vectorSelf
  simp only [hlt, mul_div_mul_left _ _ hl.ne']
  constructor
  · split_ifs
    · field_simp
    · simp
  · split_ifs
    · field_simp
    · simp

/-- Hence they do not have the units of a cross section: for any quadrature rule and any model with
a non-zero value, doubling every mass does not divide the value by four. -/
theorem self_interaction_not_cross_section (rule : List (ℝ × ℝ)) (e mx m g w : ℝ) :
    (scalarSelf rule e mx m g w ≠ 0 →
      scalarSelf rule (2 * e) (2 * mx) (2 * m) g (2 * w) ≠ scalarSelf rule e mx m g w / 2 ^ 2)
    ∧ (vectorSelf rule e mx m g w ≠ 0 →
      vectorSelf rule (2 * e) (2 * mx) (2 * m) g (2 * w) ≠ vectorSelf rule e mx m g w / 2 ^ 2) := by
  obtain ⟨h1, h2⟩ := self_interaction_units 2 two_pos rule e mx m g w
  rw [h1, h2]
  constructor <;> intro h h' <;> apply h <;> linarith

/-- What does hold: dividing once more by the energy gives a quantity with the right units. -/
theorem self_interaction_units_partial (l : ℝ) (hl : 0 < l) (rule : List (ℝ × ℝ)) (e mx m g w : ℝ) :
    scalarSelf rule (l * e) (l * mx) (l * m) g (l * w) / (l * e)
      = scalarSelf rule e mx m g w / e / l ^ 2
    ∧ vectorSelf rule (l * e) (l * mx) (l * m) g (l * w) / (l * e)
      = vectorSelf rule e mx m g w / e / l ^ 2 := by
  obtain ⟨h1, h2⟩ := self_interaction_units l hl rule e mx m g w
  rw [h1, h2]
  constructor <;> field_simp

/-- The values are not trivially zero: with the one-point rule, a unit coupling and a light mediator. -/
example : scalarSelf [(0, 2)] 4 1 1 1 1 ≠ 0 ∧ vectorSelf [(0, 2)] 4 1 1 1 1 ≠ 0 := by
  constructor
  · unfold scalarSelf scalarSelfMsq
    norm_num
  · unfold vectorSelf vectorSelfMsq
    norm_num

end Hazma.Xs
