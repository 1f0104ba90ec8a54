import Mathlib.Tactic
import Verif.Model.VectorPi0PiPi

/-!
# Three pions through a vector mediator: where the cross section is a number
-/

namespace Hazma.VectorPi0PiPi

/-- The couplings and masses for which the channel is open and the propagator finite. -/
structure Live (p : Params) (e : ℝ) : Prop where
  mx_nonneg : 0 ≤ p.mx
  above_mx : 2 * p.mx < e
  above_pions : 2 * mpi + mpi0 < e
  quarks : p.gvuu + p.gvdd ≠ 0
  dark : p.gvxx ≠ 0
  propagator : (e ^ 2 - p.mv ^ 2) ^ 2 + (p.mv * p.width) ^ 2 ≠ 0

theorem expand (w d : ℝ) : bracket (2 * mpi + mpi0 + w + d) ((2 * mpi + w) ^ 2) =
    (-962756462324630393243881565915271652254351111599430215043 / 312500000000000000000000000000000000000)
    + (359362847777383689979758416675842825445393704923 / 19531250000000000000000000000000) * d ^ 1
    + (85899436100305469769777826145523482847707422043283 / 625000000000000000000000000000000) * w ^ 1
    + (3854058867389342352932198689995434728675323 / 31250000000000000000000000000) * d ^ 2
    + (300206326698730093949834488234577205289913 / 39062500000000000000000000) * w ^ 1 * d ^ 1
    + (230892357077135164939202436945499927635894129 / 125000000000000000000000000000) * w ^ 2
    + (152605695791331123951908296586178117 / 625000000000000000000000) * d ^ 3
    + (2532521011453583128419126430248289361 / 62500000000000000000000) * w ^ 1 * d ^ 2
    + (164242439048248377304976771212677139 / 1562500000000000000000) * w ^ 2 * d ^ 1
    + (307329956184677646726411746959536003 / 39062500000000000000000) * w ^ 3
    + (7370162637931532583181245123 / 50000000000000000000) * d ^ 4
    + (937255111782068395692651019547 / 12500000000000000000) * w ^ 1 * d ^ 3
    + (1307481230132401117657362873587 / 2500000000000000000) * w ^ 2 * d ^ 2
    + (1402678046748900269879575079 / 2441406250000000) * w ^ 3 * d ^ 1
    + (77977420929408680066703190539 / 6250000000000000000) * w ^ 4
    + (5613652945765649837357 / 125000000000000) * w ^ 1 * d ^ 4
    + (51823271903433795780663 / 62500000000000) * w ^ 2 * d ^ 3
    + (41963335562942589167041 / 15625000000000) * w ^ 3 * d ^ 2
    + (1212040034091283243889 / 781250000000) * w ^ 4 * d ^ 1
    + (260148214880525393529 / 125000000000000) * w ^ 5
    + (1960600948740331 / 5000000000) * w ^ 2 * d ^ 4
    + (4272543034598579 / 1250000000) * w ^ 3 * d ^ 3
    + (8452210463648109 / 1250000000) * w ^ 4 * d ^ 2
    + (4030436942896 / 1953125) * w ^ 5 * d ^ 1
    + (-37834716795363 / 5000000000) * w ^ 6
    + (13957039 / 12500) * w ^ 3 * d ^ 4
    + (15306807 / 2500) * w ^ 4 * d ^ 3
    + (51994377 / 6250) * w ^ 5 * d ^ 2
    + (674884 / 625) * w ^ 6 * d ^ 1
    + (1 / 1) * w ^ 4 * d ^ 4
    + (4 / 1) * w ^ 5 * d ^ 3
    + (4 / 1) * w ^ 6 * d ^ 2 := by
  unfold bracket mpi mpi0
  ring

theorem consts : 139.57 < mpi ∧ mpi < 139.571 ∧ 134.976 < mpi0 ∧ mpi0 < 134.977 := by
  refine ⟨?_, ?_, ?_, ?_⟩ <;> norm_num [mpi, mpi0]

/-- Every energy and invariant mass of the open channel in the variables of `expand`. -/
theorem coords {e s : ℝ} (hs : 4 * mpi ^ 2 < s) (hs' : s < (e - mpi0) ^ 2)
    (he : 2 * mpi + mpi0 < e) :
    ∃ w d : ℝ, 0 < w ∧ 0 < d ∧ e = 2 * mpi + mpi0 + w + d ∧ s = (2 * mpi + w) ^ 2 := by
  obtain ⟨h1, -, h3, -⟩ := consts
  have hs0 : 0 ≤ s := by nlinarith
  have hr := Real.sq_sqrt hs0
  have hr0 := Real.sqrt_nonneg s
  refine ⟨√s - 2 * mpi, e - mpi0 - √s, ?_, ?_, by ring, ?_⟩
  · nlinarith
  · nlinarith
  · rw [show 2 * mpi + (√s - 2 * mpi) = √s by ring, hr]

theorem value_sign {p : Params} {e s : ℝ} (h : Live p e) (hs : 4 * mpi ^ 2 < s)
    (hs' : s < (e - mpi0) ^ 2) : 0 ≤ value p s e ↔ 0 ≤ bracket e s := by
  obtain ⟨h1, -, h3, -⟩ := consts
  obtain ⟨w, d, hw, hd, he, hsw⟩ := coords hs hs' h.above_pions
  have hs0 : 0 < s := by nlinarith
  have e0 : 0 < e := by linarith [h.above_pions]
  have a1 : 0 < s * (-4 * mpi ^ 2 + s) := by
    apply mul_pos hs0; linarith
  have a2 : 0 < e ^ 4 + (mpi0 ^ 2 - s) ^ 2 - 2 * e ^ 2 * (mpi0 ^ 2 + s) := by
    have : e ^ 4 + (mpi0 ^ 2 - s) ^ 2 - 2 * e ^ 2 * (mpi0 ^ 2 + s)
        = (2 * mpi0 + 2 * (2 * mpi + w) + d) * d * (d + 2 * mpi0) * (2 * (2 * mpi + w) + d) := by
      rw [he, hsw]; ring
    rw [this]
    have : 0 < mpi := by linarith
    have : 0 < mpi0 := by linarith
    positivity
  have a3 : 0 < e ^ 2 := by positivity
  have a4 : 0 < -4 * p.mx ^ 2 + e ^ 2 := by nlinarith [h.mx_nonneg, h.above_mx]
  have a5 : 0 < p.mv ^ 4 - 2 * p.mv ^ 2 * e ^ 2 + e ^ 4 + p.mv ^ 2 * p.width ^ 2 := by
    have := h.propagator
    have h0 : 0 ≤ (e ^ 2 - p.mv ^ 2) ^ 2 + (p.mv * p.width) ^ 2 := by positivity
    have h2 := lt_of_le_of_ne h0 (Ne.symm this)
    nlinarith
  have b1 := Real.sqrt_pos.2 a1
  have b2 := Real.sqrt_pos.2 a2
  have b3 := Real.sqrt_pos.2 a3
  have b4 := Real.sqrt_pos.2 a4
  have c1 : 0 < (p.gvdd + p.gvuu) ^ 2 := by
    have : p.gvdd + p.gvuu ≠ 0 := by rw [add_comm]; exact h.quarks
    positivity
  have c2 : 0 < p.gvxx ^ 2 := by have := h.dark; positivity
  have hf : 0 < fpi := by norm_num [fpi]
  have key : value p s e = (3 * ((p.gvdd + p.gvuu) ^ 2 * p.gvxx ^ 2 * √(s * (-4 * mpi ^ 2 + s))
      * √(e ^ 4 + (mpi0 ^ 2 - s) ^ 2 - 2 * e ^ 2 * (mpi0 ^ 2 + s)))
      / (294912 * fpi ^ 6 * Real.pi ^ 7 * √(e ^ 2) * √(-4 * p.mx ^ 2 + e ^ 2) * s ^ 2
      * (p.mv ^ 4 - 2 * p.mv ^ 2 * e ^ 2 + e ^ 4 + p.mv ^ 2 * p.width ^ 2))) * bracket e s := by
    unfold value; ring
  have hpos : 0 < (3 * ((p.gvdd + p.gvuu) ^ 2 * p.gvxx ^ 2 * √(s * (-4 * mpi ^ 2 + s))
      * √(e ^ 4 + (mpi0 ^ 2 - s) ^ 2 - 2 * e ^ 2 * (mpi0 ^ 2 + s)))
      / (294912 * fpi ^ 6 * Real.pi ^ 7 * √(e ^ 2) * √(-4 * p.mx ^ 2 + e ^ 2) * s ^ 2
      * (p.mv ^ 4 - 2 * p.mv ^ 2 * e ^ 2 + e ^ 4 + p.mv ^ 2 * p.width ^ 2))) := by
    have := Real.pi_pos
    apply div_pos
    · positivity
    · apply mul_pos _ a5
      positivity
  rw [key]
  constructor
  · intro hh
    by_contra hb
    push Not at hb
    nlinarith [mul_neg_of_pos_of_neg hpos hb]
  · intro hb
    exact mul_nonneg hpos.le hb

theorem dsigma_open {p : Params} {e s : ℝ} (h : Live p e) (hs : 4 * mpi ^ 2 < s)
    (hs' : s < (e - mpi0) ^ 2) :
    dsigma p s e = if 0 ≤ bracket e s then .ok (value p s e) else .error .assertion := by
  unfold dsigma
  rw [if_pos ⟨h.above_pions, h.above_mx, hs, hs'⟩]
  by_cases hb : 0 ≤ bracket e s
  · rw [if_pos hb, if_pos ((value_sign h hs hs').2 hb)]
  · rw [if_neg hb, if_neg fun hv => hb ((value_sign h hs hs').1 hv)]

/-- Close to the lower end of the invariant mass the polynomial is negative up to 500 MeV. -/
theorem bracket_neg_low {e s : ℝ} (he : 2 * mpi + mpi0 < e) (he' : e ≤ 500)
    (hs : 4 * mpi ^ 2 < s)
    (hs' : s ≤ 4 * mpi ^ 2 + 0.00218 * ((e - mpi0) ^ 2 - 4 * mpi ^ 2)) : bracket e s < 0 := by
  obtain ⟨h1, h2, h3, h4⟩ := consts
  have hin : s < (e - mpi0) ^ 2 := by nlinarith
  obtain ⟨w, d, hw, hd, hew, hsw⟩ := coords hs hin he
  have hdle : d ≤ 85.9 := by linarith
  have hwle : w ≤ 0.217 := by
    have : (e - mpi0) ^ 2 - 4 * mpi ^ 2 ≤ 55350 := by nlinarith
    nlinarith
  rw [hew, hsw, expand]
  have m : ∀ i j : ℕ, w ^ i * d ^ j ≤ 0.217 ^ i * 85.9 ^ j := fun i j => by gcongr
  have p60 : 0 ≤ w ^ 6 := by positivity
  linarith only [p60, m 0 1, m 1 0, m 0 2, m 1 1, m 2 0, m 0 3, m 1 2, m 2 1, m 3 0, m 0 4, m 1 3, m 2 2, m 3 1, m 4 0, m 1 4, m 2 3, m 3 2, m 4 1, m 5 0, m 2 4, m 3 3, m 4 2, m 5 1, m 3 4, m 4 3, m 5 2, m 6 1, m 4 4, m 5 3, m 6 2]

/-- Between 520 MeV and 1.8 GeV the polynomial is positive in the whole channel. -/
theorem bracket_pos_mid {e s : ℝ} (he : 520 ≤ e) (he' : e ≤ 1800)
    (hs : 4 * mpi ^ 2 < s) (hs' : s < (e - mpi0) ^ 2) : 0 < bracket e s := by
  obtain ⟨h1, h2, h3, h4⟩ := consts
  obtain ⟨w, d, hw, hd, hew, hsw⟩ := coords hs hs' (by linarith)
  have hsum : 105.88 ≤ w + d := by
    rw [hew] at he; unfold mpi mpi0 at he; linarith
  have hwle : w ≤ 1385.9 := by linarith
  rw [hew, hsw, expand]
  have n01 : 0 ≤ w ^ 0 * d ^ 1 := by positivity
  have n10 : 0 ≤ w ^ 1 * d ^ 0 := by positivity
  have n02 : 0 ≤ w ^ 0 * d ^ 2 := by positivity
  have n11 : 0 ≤ w ^ 1 * d ^ 1 := by positivity
  have n20 : 0 ≤ w ^ 2 * d ^ 0 := by positivity
  have n03 : 0 ≤ w ^ 0 * d ^ 3 := by positivity
  have n12 : 0 ≤ w ^ 1 * d ^ 2 := by positivity
  have n21 : 0 ≤ w ^ 2 * d ^ 1 := by positivity
  have n30 : 0 ≤ w ^ 3 * d ^ 0 := by positivity
  have n04 : 0 ≤ w ^ 0 * d ^ 4 := by positivity
  have n13 : 0 ≤ w ^ 1 * d ^ 3 := by positivity
  have n22 : 0 ≤ w ^ 2 * d ^ 2 := by positivity
  have n31 : 0 ≤ w ^ 3 * d ^ 1 := by positivity
  have n40 : 0 ≤ w ^ 4 * d ^ 0 := by positivity
  have n14 : 0 ≤ w ^ 1 * d ^ 4 := by positivity
  have n23 : 0 ≤ w ^ 2 * d ^ 3 := by positivity
  have n32 : 0 ≤ w ^ 3 * d ^ 2 := by positivity
  have n41 : 0 ≤ w ^ 4 * d ^ 1 := by positivity
  have n50 : 0 ≤ w ^ 5 * d ^ 0 := by positivity
  have n24 : 0 ≤ w ^ 2 * d ^ 4 := by positivity
  have n33 : 0 ≤ w ^ 3 * d ^ 3 := by positivity
  have n42 : 0 ≤ w ^ 4 * d ^ 2 := by positivity
  have n51 : 0 ≤ w ^ 5 * d ^ 1 := by positivity
  have n34 : 0 ≤ w ^ 3 * d ^ 4 := by positivity
  have n43 : 0 ≤ w ^ 4 * d ^ 3 := by positivity
  have n52 : 0 ≤ w ^ 5 * d ^ 2 := by positivity
  have n61 : 0 ≤ w ^ 6 * d ^ 1 := by positivity
  have n44 : 0 ≤ w ^ 4 * d ^ 4 := by positivity
  have n53 : 0 ≤ w ^ 5 * d ^ 3 := by positivity
  have n62 : 0 ≤ w ^ 6 * d ^ 2 := by positivity
  have p2 : 105.88 ^ 2 ≤ (w + d) ^ 2 := by gcongr
  have p3 : 105.88 ^ 3 ≤ (w + d) ^ 3 := by gcongr
  have p6 : w ^ 6 ≤ 1385.9 * w ^ 5 := by
    have : 0 ≤ w ^ 5 := by positivity
    calc w ^ 6 = w * w ^ 5 := by ring
      _ ≤ _ := by gcongr
  have p5 : w ^ 5 ≤ 1385.9 * w ^ 4 := by
    have : 0 ≤ w ^ 4 := by positivity
    calc w ^ 5 = w * w ^ 4 := by ring
      _ ≤ _ := by gcongr
  ring_nf at p2 p3
  linarith only [hsum, p2, p3, p5, p6, n01, n10, n02, n11, n20, n03, n12, n21, n30, n04, n13, n22, n31, n40, n14, n23, n32, n41, n50, n24, n33, n42, n51, n34, n43, n52, n61, n44, n53, n62]

/-- Close to the upper end it is negative from 2.4 GeV on. -/
theorem bracket_neg_high {e : ℝ} (he : 2400 ≤ e) : bracket e ((e - mpi0) ^ 2) < 0 := by
  obtain ⟨h1, h2, h3, h4⟩ := consts
  obtain ⟨w, hw⟩ : ∃ w, w = e - 2 * mpi - mpi0 := ⟨_, rfl⟩
  have hw0 : 1985.8 ≤ w := by linarith
  have e1 : e = 2 * mpi + mpi0 + w + 0 := by rw [hw]; ring
  have e2 : (e - mpi0) ^ 2 = (2 * mpi + w) ^ 2 := by rw [hw]; ring
  rw [e2, e1, expand]
  obtain ⟨v, hv⟩ : ∃ v, v = w - 1985.8 := ⟨_, rfl⟩
  have hv0 : 0 ≤ v := by linarith
  rw [show w = 1985.8 + v by linarith]
  have v1 : 0 ≤ v ^ 2 := by positivity
  have v2 : 0 ≤ v ^ 3 := by positivity
  have v3 : 0 ≤ v ^ 4 := by positivity
  have v4 : 0 ≤ v ^ 5 := by positivity
  have v5 : 0 ≤ v ^ 6 := by positivity
  ring_nf
  linarith only [hv0, v1, v2, v3, v4, v5]

/-! ### Statements about the API -/

theorem mapM_error {f : ℝ → Except Err ℝ} {l : List ℝ} {x : ℝ} (hx : x ∈ l)
    (hf : f x = .error .assertion) :
    (l.mapM fun x => (f x).map fun y => (x, y)) = .error .assertion := by
  induction l with
  | nil => simp at hx
  | cons a l ih =>
    rw [List.mapM_cons]
    cases ha : f a with
    | error err => cases err; rfl
    | ok v =>
      have hxl : x ∈ l := by
        rcases List.mem_cons.1 hx with rfl | h
        · rw [hf] at ha; cases ha
        · exact h
      rw [ih hxl]; rfl

theorem mapM_ok {f : ℝ → Except Err ℝ} {l : List ℝ} (h : ∀ x ∈ l, ∃ v, 0 ≤ v ∧ f x = .ok v) :
    ∃ ys : List (ℝ × ℝ), (∀ y ∈ ys, 0 ≤ y.2) ∧
      (l.mapM fun x => (f x).map fun y => (x, y)) = .ok ys := by
  induction l with
  | nil => exact ⟨[], by simp, rfl⟩
  | cons a l ih =>
    obtain ⟨v, hv, ha⟩ := h a (by simp)
    obtain ⟨ys, hy, hl⟩ := ih fun x hx => h x (by simp [hx])
    refine ⟨(a, v) :: ys, ?_, ?_⟩
    · intro y hyy
      rcases List.mem_cons.1 hyy with rfl | h'
      · exact hv
      · exact hy y h'
    · rw [List.mapM_cons, ha, hl]; rfl

/-- C243, false: from the threshold of the three pions to 500 MeV the cross section raises
`AssertionError`, whatever the quadrature does after its first pass. -/
theorem sigma_raises_near_threshold (more : ℝ → ℝ → List ℝ)
    (est : List (ℝ × ℝ) → ℝ → ℝ → ℝ) {p : Params} {e : ℝ} (h : Live p e) (he : e ≤ 500) :
    sigma more est p e = .error .assertion := by
  obtain ⟨h1, h2, h3, h4⟩ := consts
  have hlen : 4 * mpi ^ 2 < (e - mpi0) ^ 2 := by nlinarith [h.above_pions]
  obtain ⟨x, hx⟩ : ∃ x, x = (4 * mpi ^ 2 + (e - mpi0) ^ 2) / 2
      - ((e - mpi0) ^ 2 - 4 * mpi ^ 2) / 2 * 0.995657163025808080735527280689003 := ⟨_, rfl⟩
  have hmem : x ∈ firstPass (4 * mpi ^ 2) ((e - mpi0) ^ 2) := by
    rw [hx]
    unfold firstPass kronrod
    rw [List.flatMap_cons]
    simp only [List.mem_cons, List.mem_append, List.cons_append, true_or, or_true]
  have hlo : 4 * mpi ^ 2 < x := by rw [hx]; linarith
  have hhi : x < (e - mpi0) ^ 2 := by rw [hx]; linarith
  have hle : x ≤ 4 * mpi ^ 2 + 0.00218 * ((e - mpi0) ^ 2 - 4 * mpi ^ 2) := by rw [hx]; linarith
  have hd : dsigma p x e = .error .assertion := by
    rw [dsigma_open h hlo hhi, if_neg (not_le.2 (bracket_neg_low h.above_pions he hlo hle))]
  have hq : quad more est (fun s => dsigma p s e) (4 * mpi ^ 2) ((e - mpi0) ^ 2)
      = .error .assertion := by
    unfold quad
    rw [mapM_error (List.mem_append_left _ hmem) hd]; rfl
  unfold sigma
  rw [if_pos ⟨h.above_pions, h.above_mx⟩, hq]

/-- The same for the differential cross section, at every invariant mass close to the lower end. -/
theorem dsigma_raises_low {p : Params} {e s : ℝ} (h : Live p e) (he : e ≤ 500)
    (hs : 4 * mpi ^ 2 < s)
    (hs' : s ≤ 4 * mpi ^ 2 + 0.00218 * ((e - mpi0) ^ 2 - 4 * mpi ^ 2)) :
    dsigma p s e = .error .assertion := by
  have hlen : 4 * mpi ^ 2 < (e - mpi0) ^ 2 := by
    obtain ⟨h1, h2, h3, h4⟩ := consts
    nlinarith [h.above_pions]
  rw [dsigma_open h hs (by linarith), if_neg (not_le.2 (bracket_neg_low h.above_pions he hs hs'))]

/-- From 2.4 GeV on the differential cross section raises close to the upper end. -/
theorem dsigma_raises_high {p : Params} {e : ℝ} (h : Live p e) (he : 2400 ≤ e) :
    ∃ s₀ < (e - mpi0) ^ 2, ∀ s, s₀ < s → s < (e - mpi0) ^ 2 →
      dsigma p s e = .error .assertion := by
  obtain ⟨h1, h2, h3, h4⟩ := consts
  have hc : Continuous fun s => bracket e s := by unfold bracket; fun_prop
  have hn := bracket_neg_high he
  have hev : ∀ᶠ s in nhds ((e - mpi0) ^ 2), bracket e s < 0 :=
    hc.continuousAt.eventually_lt_const hn
  obtain ⟨l, u, ⟨hl, hu⟩, hsub⟩ := mem_nhds_iff_exists_Ioo_subset.1 hev
  refine ⟨max l (4 * mpi ^ 2), max_lt hl (by nlinarith), fun s hs hs' => ?_⟩
  have hs1 := (max_lt_iff.1 hs).1
  have hs2 := (max_lt_iff.1 hs).2
  rw [dsigma_open h hs2 hs', if_neg (not_le.2 (hsub ⟨hs1, hs'.trans hu⟩))]

/-- The true part: between 520 MeV and 1.8 GeV the differential cross section is a positive number
in the whole channel. -/
theorem dsigma_pos_partial {p : Params} {e s : ℝ} (h : Live p e) (he : 520 ≤ e) (he' : e ≤ 1800)
    (hs : 4 * mpi ^ 2 < s) (hs' : s < (e - mpi0) ^ 2) :
    ∃ v, 0 < v ∧ dsigma p s e = .ok v := by
  have hb := bracket_pos_mid he he' hs hs'
  refine ⟨value p s e, ?_, by rw [dsigma_open h hs hs', if_pos hb.le]⟩
  have h0 := (value_sign h hs hs').2 hb.le
  refine lt_of_le_of_ne h0 fun hz => ?_
  -- the value vanishes only where the polynomial does
  have hneg : 0 ≤ value p s e := h0
  obtain ⟨h1, -, h3, -⟩ := consts
  obtain ⟨w, d, hw, hd, hew, hsw⟩ := coords hs hs' h.above_pions
  have e0 : 0 < e := by linarith
  have s0 : 0 < s := by nlinarith
  have a1 : 0 < s * (-4 * mpi ^ 2 + s) := mul_pos s0 (by linarith)
  have a2 : 0 < e ^ 4 + (mpi0 ^ 2 - s) ^ 2 - 2 * e ^ 2 * (mpi0 ^ 2 + s) := by
    have : e ^ 4 + (mpi0 ^ 2 - s) ^ 2 - 2 * e ^ 2 * (mpi0 ^ 2 + s)
        = (2 * mpi0 + 2 * (2 * mpi + w) + d) * d * (d + 2 * mpi0) * (2 * (2 * mpi + w) + d) := by
      rw [hew, hsw]; ring
    rw [this]
    have : 0 < mpi := by linarith
    have : 0 < mpi0 := by linarith
    positivity
  have a4 : 0 < -4 * p.mx ^ 2 + e ^ 2 := by nlinarith [h.mx_nonneg, h.above_mx]
  have a5 : p.mv ^ 4 - 2 * p.mv ^ 2 * e ^ 2 + e ^ 4 + p.mv ^ 2 * p.width ^ 2 ≠ 0 := by
    have := h.propagator
    intro hz
    apply this
    linear_combination hz
  have hf : fpi ≠ 0 := by norm_num [fpi]
  have b1 := (Real.sqrt_pos.2 a1).ne'
  have b2 := (Real.sqrt_pos.2 a2).ne'
  have b3 := (Real.sqrt_pos.2 (show 0 < e ^ 2 by positivity)).ne'
  have b4 := (Real.sqrt_pos.2 a4).ne'
  have c1 : p.gvdd + p.gvuu ≠ 0 := by rw [add_comm]; exact h.quarks
  have c2 := h.dark
  have hpi := Real.pi_pos.ne'
  have : value p s e ≠ 0 := by
    unfold value
    apply div_ne_zero
    · exact mul_ne_zero (by norm_num) (mul_ne_zero (mul_ne_zero (mul_ne_zero (mul_ne_zero
        (pow_ne_zero _ c1) (pow_ne_zero _ c2)) b1) b2) hb.ne')
    · exact mul_ne_zero (mul_ne_zero (mul_ne_zero (mul_ne_zero (mul_ne_zero (mul_ne_zero
        (by norm_num) (pow_ne_zero _ hf)) (pow_ne_zero _ hpi)) b3) b4) (pow_ne_zero _ s0.ne')) a5
  exact this hz.symm

/-- There the cross section is what the quadrature returns, for every quadrature that estimates
non-negative functions by non-negative numbers. -/
theorem sigma_returns_partial {more : ℝ → ℝ → List ℝ} {est : List (ℝ × ℝ) → ℝ → ℝ → ℝ}
    (hest : ∀ ys a b, a ≤ b → (∀ y ∈ ys, 0 ≤ y.2) → 0 ≤ est ys a b)
    {p : Params} {e : ℝ} (h : Live p e) (he : 520 ≤ e) (he' : e ≤ 1800) :
    ∃ v, 0 ≤ v ∧ sigma more est p e = .ok v := by
  obtain ⟨h1, h2, h3, h4⟩ := consts
  have hall : ∀ s, ∃ v, 0 ≤ v ∧ dsigma p s e = .ok v := by
    intro s
    by_cases hs : 4 * mpi ^ 2 < s ∧ s < (e - mpi0) ^ 2
    · obtain ⟨v, hv, hd⟩ := dsigma_pos_partial h he he' hs.1 hs.2
      exact ⟨v, hv.le, hd⟩
    · refine ⟨0, le_rfl, ?_⟩
      unfold dsigma
      rw [if_neg fun hh => hs hh.2.2]
  obtain ⟨ys, hy, hm⟩ := mapM_ok (f := fun s => dsigma p s e)
    (l := firstPass (4 * mpi ^ 2) ((e - mpi0) ^ 2) ++ more (4 * mpi ^ 2) ((e - mpi0) ^ 2))
    fun s _ => hall s
  have hq : quad more est (fun s => dsigma p s e) (4 * mpi ^ 2) ((e - mpi0) ^ 2)
      = .ok (est ys (4 * mpi ^ 2) ((e - mpi0) ^ 2)) := by
    unfold quad
    rw [hm]; rfl
  have hv := hest ys (4 * mpi ^ 2) ((e - mpi0) ^ 2) (by nlinarith [h.above_pions]) hy
  refine ⟨_, hv, ?_⟩
  unfold sigma
  rw [if_pos ⟨h.above_pions, h.above_mx⟩, hq]
  simp only [if_pos hv]

/-- Closed channels: no cross section at or below the mass of the three pions or of the dark
matter pair. -/
theorem closed_zero (more : ℝ → ℝ → List ℝ) (est : List (ℝ × ℝ) → ℝ → ℝ → ℝ) (p : Params)
    {e : ℝ} (he : e ≤ 2 * mpi + mpi0 ∨ e ≤ 2 * p.mx) :
    sigma more est p e = .ok 0 ∧ ∀ s, dsigma p s e = .ok 0 := by
  constructor
  · unfold sigma
    rw [if_neg]
    rintro ⟨h1, h2⟩
    rcases he with h | h <;> linarith
  · intro s
    unfold dsigma
    rw [if_neg]
    rintro ⟨h1, h2, -⟩
    rcases he with h | h <;> linarith

/-- The mediator decays to three pions through its isoscalar coupling only: with opposite up and
down couplings the differential cross section is zero. -/
theorem isovector_zero {p : Params} (h : p.gvuu = -p.gvdd) (s e : ℝ) : dsigma p s e = .ok 0 := by
  have hv : value p s e = 0 := by
    unfold value
    rw [h, add_neg_cancel]
    simp
  unfold dsigma
  rw [hv]
  split_ifs
  · rfl
  · exact absurd le_rfl ‹_›
  · rfl

/-- Doubling the coupling of the dark matter multiplies the rate by four, and so on. -/
theorem value_couplings (p : Params) (a b s e : ℝ) :
    value { p with gvxx := a * p.gvxx, gvuu := b * p.gvuu, gvdd := b * p.gvdd } s e
      = (a * b) ^ 2 * value p s e := by
  unfold value
  ring

/-- A model with a 150 MeV dark matter particle and a 1 GeV mediator. -/
noncomputable def sample : Params := ⟨150, 1000, 1, 1, 1, 10⟩

/-- Live at 450 MeV, so the call raises. -/
example (more : ℝ → ℝ → List ℝ) (est : List (ℝ × ℝ) → ℝ → ℝ → ℝ) :
    sigma more est sample 450 = .error .assertion :=
  sigma_raises_near_threshold more est
    ⟨by norm_num [sample], by norm_num [sample], by norm_num [mpi, mpi0], by norm_num [sample],
      by norm_num [sample], by norm_num [sample]⟩ (by norm_num)

/-- Live at 600 MeV, where it is a number. -/
example : ∃ v, 0 < v ∧ dsigma sample 100000 600 = .ok v :=
  dsigma_pos_partial
    ⟨by norm_num [sample], by norm_num [sample], by norm_num [mpi, mpi0], by norm_num [sample],
      by norm_num [sample], by norm_num [sample]⟩ (by norm_num) (by norm_num)
    (by norm_num [mpi]) (by norm_num [mpi0])

end Hazma.VectorPi0PiPi
