import Verif.Props.Rambo
import Mathlib.Tactic

/-!
# How close RAMBO's Newton iteration comes (C310)
-/

namespace Hazma.Rambo

/-- The bound on the excess energy, in units of the energy above threshold, that one Newton step leaves. -/
noncomputable def rate (x : ℝ) : ℝ := x ^ 2 / (2 * (1 + x))

theorem rate_nonneg {x : ℝ} (hx : 0 ≤ x) : 0 ≤ rate x := by unfold rate; positivity

theorem rate_mono {x y : ℝ} (hx : 0 ≤ x) (hxy : x ≤ y) : rate x ≤ rate y := by
  unfold rate
  have hy : 0 ≤ y := hx.trans hxy
  rw [div_le_div_iff₀ (by positivity) (by positivity)]
  nlinarith [mul_nonneg hx hy, mul_nonneg (mul_nonneg hx hy) (sub_nonneg.mpr hxy), mul_nonneg hx (sub_nonneg.mpr hxy),
    mul_nonneg hy (sub_nonneg.mpr hxy)]

theorem rate_le_sq {x : ℝ} (hx : 0 ≤ x) : rate x ≤ x ^ 2 / 2 := by
  unfold rate
  rw [div_le_div_iff₀ (by positivity) (by norm_num)]
  nlinarith [mul_nonneg (sq_nonneg x) hx]

theorem scaleF_drop (cme : ℝ) {ms es : List ℝ} {x y : ℝ} (he : ∀ e ∈ es, 0 < e) (hx : 0 < x) (hy : 0 ≤ y) (hyx : y ≤ x) :
    scaleDf ms es x * (x ^ 2 - y ^ 2) ≤ 2 * x * (scaleF cme ms es x - scaleF cme ms es y) := by
  unfold scaleF scaleDf
  induction es generalizing ms with
  | nil => simp
  | cons e es ih =>
    cases ms with
    | nil => simp
    | cons m ms =>
      have h2 := ih (ms := ms) (fun e h => he e (by simp [h]))
      have he0 := he e (by simp)
      simp only [List.zipWith_cons_cons, List.sum_cons]
      have hp : 0 < hypot (e * x) m := hypot_pos m (by positivity)
      have hq : 0 ≤ hypot (e * y) m := hypot_nonneg _ _
      have hle := hypot_mono (m := m) he0.le hy hyx
      have s1 := hypot_sq (e * x) m
      have s2 := hypot_sq (e * y) m
      have key : x * e ^ 2 / hypot (e * x) m * (x ^ 2 - y ^ 2) ≤ 2 * x * (hypot (e * x) m - hypot (e * y) m) := by
        obtain ⟨p, hpp⟩ : ∃ p, p = hypot (e * x) m := ⟨_, rfl⟩
        obtain ⟨q, hqq⟩ : ∃ q, q = hypot (e * y) m := ⟨_, rfl⟩
        rw [← hpp] at hp hle s1
        rw [← hqq] at hq hle s2
        rw [← hpp, ← hqq]
        have e1 : x * e ^ 2 / p * (x ^ 2 - y ^ 2) = x * ((p - q) * (p + q)) / p := by
          rw [show (p - q) * (p + q) = e ^ 2 * (x ^ 2 - y ^ 2) by nlinarith]
          ring
        rw [e1, div_le_iff₀ hp]
        nlinarith [mul_nonneg hx.le (mul_nonneg (sub_nonneg.mpr hle) (sub_nonneg.mpr hle))]
      nlinarith

/-- One Newton step from above: the excess energy is at least halved, and squared once it is small. -/
theorem newton_excess {cme : ℝ} {ms es : List ℝ} {xi : ℝ} (he : ∀ e ∈ es, 0 < e) (hm : ∀ m ∈ ms, 0 ≤ m) (hs : ms.sum < cme)
    (hl : es.length = ms.length) (hne : es ≠ []) (h : Above cme ms es xi) :
    scaleF cme ms es (newtonStep cme ms es xi) / (cme - ms.sum) ≤ rate (scaleF cme ms es xi / (cme - ms.sum)) := by
  obtain ⟨h1, h2, -, -⟩ := newton_above he hm hs hl hne h
  have hd := scaleDf_pos he h.pos hl hne
  have hdrop := scaleF_drop cme (ms := ms) he h.pos h1.pos.le h2
  have h0 := scaleF_tangent cme 0 he h.pos (ms := ms)
  rw [scaleF_zero cme hm hl] at h0
  have hstep : scaleDf ms es xi * (xi - newtonStep cme ms es xi) = scaleF cme ms es xi := by
    unfold newtonStep; field_simp; ring
  have hx := h.pos
  have hf := h.res
  obtain ⟨F, hF⟩ : ∃ F, F = scaleF cme ms es xi := ⟨_, rfl⟩
  obtain ⟨G, hG⟩ : ∃ G, G = scaleF cme ms es (newtonStep cme ms es xi) := ⟨_, rfl⟩
  obtain ⟨D, hD⟩ : ∃ D, D = scaleDf ms es xi := ⟨_, rfl⟩
  obtain ⟨y, hy⟩ : ∃ y, y = newtonStep cme ms es xi := ⟨_, rfl⟩
  obtain ⟨K, hK⟩ : ∃ K, K = cme - ms.sum := ⟨_, rfl⟩
  rw [← hF, ← hD, ← hy] at hstep
  rw [← hy] at h2 hdrop hG
  rw [← hD, ← hF, ← hG] at hdrop
  rw [← hF] at hf h0
  rw [← hD] at hd h0
  rw [← hy, ← hG, ← hF, ← hK]
  have hK0 : 0 < K := by rw [hK]; linarith
  have hDx : F + K ≤ D * xi := by rw [hK]; linarith
  -- 2 xi G ≤ F (xi - y)
  have hG1 : 2 * xi * G ≤ F * (xi - y) := by
    have : D * (xi ^ 2 - y ^ 2) = F * (xi + y) := by rw [← hstep]; ring
    nlinarith
  have hG2 : 2 * (F + K) * G ≤ F ^ 2 := by
    rcases le_or_gt G 0 with hg | hg
    · nlinarith [sq_nonneg F]
    · have a1 : 2 * (F + K) * G ≤ 2 * (D * xi) * G := by nlinarith
      have a2 : 2 * (D * xi) * G ≤ D * (F * (xi - y)) := by nlinarith
      have a3 : D * (F * (xi - y)) = F ^ 2 := by rw [show D * (F * (xi - y)) = F * (D * (xi - y)) by ring, hstep]; ring
      linarith
  unfold rate
  have e1 : (F / K) ^ 2 / (2 * (1 + F / K)) = F ^ 2 / (2 * (F + K)) / K := by field_simp; ring
  rw [e1]
  refine div_le_div_of_nonneg_right ?_ hK0.le
  rw [le_div_iff₀ (by positivity)]
  linarith

theorem sum_hypot_le (ms es : List ℝ) {x : ℝ} (hx : 0 ≤ x) (he : ∀ e ∈ es, 0 < e) (hm : ∀ m ∈ ms, 0 ≤ m) (hl : es.length = ms.length) :
    (List.zipWith (fun e m => hypot (e * x) m) es ms).sum ≤ es.sum * x + ms.sum := by
  induction es generalizing ms with
  | nil => cases ms <;> simp_all
  | cons e es ih =>
    cases ms with
    | nil => simp at hl
    | cons m ms =>
      have h2 := ih ms (fun e h => he e (by simp [h])) (fun m h => hm m (by simp [h])) (by simpa using hl)
      have he0 := he e (by simp)
      have hm0 := hm m (by simp)
      have h3 : hypot (e * x) m ≤ e * x + m := by
        unfold hypot
        rw [Real.sqrt_le_left (by positivity)]
        nlinarith [mul_nonneg (mul_nonneg he0.le hx) hm0]
      simp only [List.zipWith_cons_cons, List.sum_cons, add_mul]
      linarith

/-- The excess energy at the starting scale. -/
noncomputable def excess0 (cme : ℝ) (ms : List ℝ) : ℝ := Real.sqrt ((1 + ms.sum / cme) / (1 - ms.sum / cme)) - 1

theorem start_excess {cme : ℝ} {ms es : List ℝ} (h : Open cme ms) (he : ∀ e ∈ es, 0 < e) (hl : es.length = ms.length) (hes : es.sum = cme) :
    scaleF cme ms es (Real.sqrt (1 - (ms.sum / cme) ^ 2)) / (cme - ms.sum) ≤ excess0 cme ms := by
  have hc := open_cme_pos h
  have h0 : 0 ≤ ms.sum := List.sum_nonneg h.nonneg
  have hK : 0 < cme - ms.sum := by linarith [h.below]
  obtain ⟨mu, hmu⟩ : ∃ mu, mu = ms.sum / cme := ⟨_, rfl⟩
  have hM : ms.sum = mu * cme := by rw [hmu]; field_simp
  have hmu0 : 0 ≤ mu := by rw [hmu]; positivity
  have hmu1 : mu < 1 := by rw [hmu]; exact (div_lt_one hc).mpr h.below
  have hs := sum_hypot_le ms es (Real.sqrt_nonneg (1 - (ms.sum / cme) ^ 2)) he h.nonneg hl
  unfold scaleF excess0
  rw [hes] at hs
  rw [← hmu] at hs ⊢
  have hsq : Real.sqrt (1 - mu ^ 2) = Real.sqrt ((1 + mu) / (1 - mu)) * (1 - mu) := by
    rw [show 1 - mu ^ 2 = (1 + mu) / (1 - mu) * (1 - mu) ^ 2 by
      have : 1 - mu ≠ 0 := by linarith
      field_simp; ring, Real.sqrt_mul' _ (sq_nonneg _), Real.sqrt_sq (by linarith)]
  rw [div_le_iff₀ hK]
  refine (sub_le_sub_right hs cme).trans (le_of_eq ?_)
  rw [hsq, hM]
  ring

theorem excess0_nonneg {cme : ℝ} {ms : List ℝ} (h : Open cme ms) : 0 ≤ excess0 cme ms := by
  have hc := open_cme_pos h
  have h0 : 0 ≤ ms.sum := List.sum_nonneg h.nonneg
  have hmu0 : 0 ≤ ms.sum / cme := by positivity
  have hmu1 : ms.sum / cme < 1 := (div_lt_one hc).mpr h.below
  unfold excess0
  have : 1 ≤ Real.sqrt ((1 + ms.sum / cme) / (1 - ms.sum / cme)) := by
    rw [Real.one_le_sqrt, le_div_iff₀ (by linarith)]
    linarith
  linarith

theorem iterate_excess {cme : ℝ} {ms es : List ℝ} (h : Open cme ms) (he : ∀ e ∈ es, 0 < e) (hl : es.length = ms.length)
    (hes : es.sum = cme) (k : ℕ) :
    scaleF cme ms es ((newtonStep cme ms es)^[k] (Real.sqrt (1 - (ms.sum / cme) ^ 2))) / (cme - ms.sum) ≤ rate^[k] (excess0 cme ms) := by
  have hne : es ≠ [] := by rintro rfl; have := h.two; simp at hl; omega
  have hK : 0 < cme - ms.sum := by linarith [h.below]
  induction k with
  | zero => exact start_excess h he hl hes
  | succ k ih =>
    rw [Function.iterate_succ_apply', Function.iterate_succ_apply']
    have ha := iterate_above he h.nonneg h.below hl hne ⟨xi0_pos h, scaleF_xi0 (open_cme_pos h) h.nonneg h.below hl hes⟩ k
    exact (newton_excess he h.nonneg h.below hl hne ha).trans (rate_mono (div_nonneg ha.res hK.le) ih)

/-- The scale factor is as close to the exact one as the energy is. -/
theorem scale_close {cme : ℝ} {ms es : List ℝ} {xi root : ℝ} (he : ∀ e ∈ es, 0 < e) (hm : ∀ m ∈ ms, 0 ≤ m) (hs : ms.sum < cme)
    (hl : es.length = ms.length) (hxi : root ≤ xi) (hr : 0 < root) (h0 : scaleF cme ms es root = 0) :
    (xi - root) / root ≤ scaleF cme ms es xi / (cme - ms.sum) := by
  have t1 := scaleF_tangent cme xi he hr (ms := ms)
  have t2 := scaleF_tangent cme 0 he hr (ms := ms)
  rw [scaleF_zero cme hm hl] at t2
  rw [h0] at t1 t2
  have hK : 0 < cme - ms.sum := by linarith
  rw [div_le_div_iff₀ hr hK]
  nlinarith [mul_le_mul_of_nonneg_right (by linarith : cme - ms.sum ≤ scaleDf ms es root * root) (sub_nonneg.mpr hxi)]

/-- The bound on the excess energy of an event, in units of the energy above threshold. -/
noncomputable def excessBound (cme eps : ℝ) (ms : List ℝ) : ℝ :=
  max (eps / (2 * (cme - ms.sum) ^ 2)) (rate^[5] (excess0 cme ms))

/-- Whatever the massless momenta are, one scale factor per event, each as close to the exact one as the bound says. -/
theorem generated_close {cme : ℝ} {ms : List ℝ} {s : State} {eps : ℝ} {draws : List (List Draw)} (heps : 0 ≤ eps) (h : Open cme ms)
    (hs : create cme ms = some s)
    (hok : ∀ ds ∈ draws, (boost cme (ds.map initMomentum)).length = ms.length ∧ (∀ p ∈ boost cme (ds.map initMomentum), 0 < p.e) ∧
      ((boost cme (ds.map initMomentum)).map P4.e).sum = cme) :
    ∃ xi : List Draw → ℝ, (generate s eps draws).1 = draws.map (fun ds => correctEvent ms (boost cme (ds.map initMomentum)) (xi ds)) ∧
      ∀ ds ∈ draws, 0 ≤ scaleF cme ms ((boost cme (ds.map initMomentum)).map P4.e) (xi ds) ∧
        scaleF cme ms ((boost cme (ds.map initMomentum)).map P4.e) (xi ds) ≤ (cme - ms.sum) * excessBound cme eps ms ∧
        ∀ root, 0 < root → scaleF cme ms ((boost cme (ds.map initMomentum)).map P4.e) root = 0 →
          root ≤ xi ds ∧ xi ds / root - 1 ≤ excessBound cme eps ms := by
  obtain ⟨-, h1, h2, h3, h4, -⟩ := create_some hs
  have hK : 0 < cme - ms.sum := by linarith [h.below]
  obtain ⟨k, hk, heq, hor⟩ := newtonLoop_eq cme (Real.sqrt eps) ms ((draws.map fun ds => boost cme (ds.map initMomentum)).map fun ps => ps.map P4.e) 5
    ((draws.map fun ds => boost cme (ds.map initMomentum)).map fun _ => s.xi0) (by norm_num) (by simp)
  refine ⟨fun ds => (newtonStep cme ms ((boost cme (ds.map initMomentum)).map P4.e))^[k + 1] s.xi0, ?_, ?_⟩
  · simp only [generate, h1, h2, scaleFactors]
    rw [heq]
    apply List.ext_getElem
    · simp
    · intro i _ _; simp
  intro ds hds
  obtain ⟨hlen, hpos, hsum⟩ := hok ds hds
  obtain ⟨es, hes⟩ : ∃ es, es = (boost cme (ds.map initMomentum)).map P4.e := ⟨_, rfl⟩
  have he : ∀ e ∈ es, 0 < e := by
    intro e hm
    rw [hes] at hm
    obtain ⟨p, hp, rfl⟩ := List.mem_map.mp hm
    exact hpos p hp
  have hl : es.length = ms.length := by rw [hes]; simpa using hlen
  have hsum' : es.sum = cme := by rw [hes]; exact hsum
  have hne : es ≠ [] := by intro h0; rw [h0] at hl; have := h.two; simp at hl; omega
  simp only [← hes]
  have ha : ∀ j, Above cme ms es ((newtonStep cme ms es)^[j] s.xi0) := fun j => by
    rw [h4]
    exact iterate_above he h.nonneg h.below hl hne ⟨xi0_pos h, scaleF_xi0 (open_cme_pos h) h.nonneg h.below hl hsum'⟩ j
  obtain ⟨xi, hxi⟩ : ∃ xi, xi = (newtonStep cme ms es)^[k + 1] s.xi0 := ⟨_, rfl⟩
  have hstep : xi = newtonStep cme ms es ((newtonStep cme ms es)^[k] s.xi0) := by rw [hxi, Function.iterate_succ_apply']
  have hbound : scaleF cme ms es xi / (cme - ms.sum) ≤ excessBound cme eps ms := by
    unfold excessBound
    rcases hor with h5 | h5
    · refine le_max_of_le_right ?_
      rw [hxi, h5, h4]
      exact iterate_excess h he hl hsum' 5
    · refine le_max_of_le_left ?_
      obtain ⟨i, hi, hidx⟩ := List.mem_iff_getElem.mp hds
      have hi' : i < (((draws.map fun ds => boost cme (ds.map initMomentum)).map fun ps => ps.map P4.e).zip
          ((draws.map fun ds => boost cme (ds.map initMomentum)).map fun _ => s.xi0)).length := by simpa using hi
      have hlt := h5 _ (List.getElem_mem hi')
      simp only [List.getElem_zip, List.getElem_map] at hlt
      rw [hidx, ← hes] at hlt
      have hex := newton_excess he h.nonneg h.below hl hne (ha k)
      rw [← hstep] at hex
      obtain ⟨F, hF⟩ : ∃ F, F = scaleF cme ms es ((newtonStep cme ms es)^[k] s.xi0) := ⟨_, rfl⟩
      have hF0 : 0 ≤ F := by rw [hF]; exact (ha k).res
      rw [← hF] at hlt hex
      refine hex.trans ((rate_le_sq (div_nonneg hF0 hK.le)).trans ?_)
      have hsq : F ^ 2 ≤ eps := by
        have := Real.sq_sqrt heps
        nlinarith [Real.sqrt_nonneg eps]
      rw [div_pow, div_div, show (cme - ms.sum) ^ 2 * 2 = 2 * (cme - ms.sum) ^ 2 by ring]
      exact div_le_div_of_nonneg_right hsq (by positivity)
  rw [← hxi]
  refine ⟨by rw [hxi]; exact (ha (k + 1)).res, ?_, fun root hr0 hroot => ?_⟩
  · rw [div_le_iff₀ hK] at hbound
    linarith
  · have hle : root ≤ xi := by
      rw [hstep]
      exact (newton_above he h.nonneg h.below hl hne (ha k)).2.2.2 root hroot.le
    refine ⟨hle, ?_⟩
    have := scale_close he h.nonneg h.below hl hle hr0 hroot
    rw [show xi / root - 1 = (xi - root) / root by field_simp]
    exact this.trans hbound

/-- **C310.** Every event of a newly constructed generator is the exact RAMBO event, whose total energy is `cme`, with all momenta
stretched by a common factor; factor and total energy exceed the exact ones by at most the bound. -/
theorem events_close {cme : ℝ} {ms : List ℝ} {s : State} {eps : ℝ} {draws : List (List Draw)} (heps : 0 ≤ eps) (h : Open cme ms)
    (hs : create cme ms = some s) (hd : ∀ ds ∈ draws, Good ms.length ds) :
    ∀ ev ∈ (generate s eps draws).1, ∃ ds ∈ draws, ∃ xi root, 0 < root ∧
      (total (correctEvent ms (boost cme (ds.map initMomentum)) root)).e = cme ∧
      ev = correctEvent ms (boost cme (ds.map initMomentum)) xi ∧
      0 ≤ xi / root - 1 ∧ xi / root - 1 ≤ excessBound cme eps ms ∧
      0 ≤ (total ev).e - cme ∧ (total ev).e - cme ≤ (cme - ms.sum) * excessBound cme eps ms := by
  have hok : ∀ ds ∈ draws, (boost cme (ds.map initMomentum)).length = ms.length ∧ (∀ p ∈ boost cme (ds.map initMomentum), 0 < p.e) ∧
      ((boost cme (ds.map initMomentum)).map P4.e).sum = cme := fun ds hds => boosted_ok h hd _ (List.mem_map.mpr ⟨ds, hds, rfl⟩)
  obtain ⟨xi, hgen, hx⟩ := generated_close heps h hs hok
  intro ev hev
  rw [hgen] at hev
  obtain ⟨ds, hds, rfl⟩ := List.mem_map.mp hev
  obtain ⟨hlen, hpos, hsum⟩ := hok ds hds
  obtain ⟨a1, a2, a3⟩ := hx ds hds
  obtain ⟨root, hr0, -, hr, -⟩ := scale_factor_exists_unique h (es := (boost cme (ds.map initMomentum)).map P4.e)
    (by simpa using hpos) (by simpa using hlen) hsum
  obtain ⟨b1, b2⟩ := a3 root hr0 (by rw [scaleF_eq]; linarith)
  have htot : ∀ x, (total (correctEvent ms (boost cme (ds.map initMomentum)) x)).e
      = rescaledEnergy ms ((boost cme (ds.map initMomentum)).map P4.e) x := by
    intro x
    rw [correct_total (by simp [boost, (hd ds hds).len])]
  rw [scaleF_eq] at a1 a2
  refine ⟨ds, hds, xi ds, root, hr0, by rw [htot]; exact hr, rfl, ?_, b2, by rw [htot]; exact a1, by rw [htot]; exact a2⟩
  rw [sub_nonneg, le_div_iff₀ hr0]; linarith

/-- The iteration converges to the exact scale factor from any event: the bound would vanish with more steps. -/
theorem rate_tendsto {x : ℝ} (hx : 0 ≤ x) : Filter.Tendsto (fun k => rate^[k] x) Filter.atTop (nhds 0) := by
  have h0 : ∀ k, 0 ≤ rate^[k] x ∧ rate^[k] x ≤ x * (1 / 2) ^ k := by
    intro k
    induction k with
    | zero => simpa using hx
    | succ k ih =>
      rw [Function.iterate_succ_apply']
      refine ⟨rate_nonneg ih.1, ?_⟩
      have : rate (rate^[k] x) ≤ rate^[k] x / 2 := by
        have := ih.1
        generalize rate^[k] x = y at this
        unfold rate
        rw [div_le_div_iff₀ (by positivity) (by norm_num)]
        nlinarith
      rw [pow_succ]
      linarith [ih.2]
  refine squeeze_zero (fun k => (h0 k).1) (fun k => (h0 k).2) ?_
  have := (tendsto_pow_atTop_nhds_zero_of_lt_one (r := (1 / 2 : ℝ)) (by norm_num) (by norm_num)).const_mul x
  simpa using this

/-- **C310, numbers.** If the masses make up at most half of the energy the bound is below `1.1e-18` plus `2 eps` over the energy squared. -/
theorem excess_small {cme eps : ℝ} {ms : List ℝ} (heps : 0 ≤ eps) (h : Open cme ms) (hhalf : 2 * ms.sum ≤ cme) :
    excessBound cme eps ms ≤ 2 * eps / cme ^ 2 + 1.1e-18 := by
  have hc := open_cme_pos h
  have h0 : 0 ≤ ms.sum := List.sum_nonneg h.nonneg
  have hmu0 : 0 ≤ ms.sum / cme := by positivity
  have hmu1 : ms.sum / cme ≤ 1 / 2 := by rw [div_le_iff₀ hc]; linarith
  have he0 := excess0_nonneg h
  have hex : excess0 cme ms ≤ 0.7321 := by
    unfold excess0
    have : (1 + ms.sum / cme) / (1 - ms.sum / cme) ≤ 3 := by
      rw [div_le_iff₀ (by linarith)]
      linarith
    have h2 : Real.sqrt ((1 + ms.sum / cme) / (1 - ms.sum / cme)) ≤ 1.7321 := by
      refine (Real.sqrt_le_sqrt this).trans ?_
      rw [Real.sqrt_le_left (by norm_num)]
      norm_num
    linarith
  have step : ∀ {x a b : ℝ}, 0 ≤ x → x ≤ a → rate a ≤ b → rate x ≤ b := fun hx hxa hab => (rate_mono hx hxa).trans hab
  have r1 : rate (excess0 cme ms) ≤ 0.15473 := step he0 hex (by unfold rate; norm_num)
  have r2 := step (rate_nonneg he0) r1 (b := 0.010367) (by unfold rate; norm_num)
  have r3 := step (rate_nonneg (rate_nonneg he0)) r2 (b := 5.319e-5) (by unfold rate; norm_num)
  have r4 := step (rate_nonneg (rate_nonneg (rate_nonneg he0))) r3 (b := 1.415e-9) (by unfold rate; norm_num)
  have r5 := step (rate_nonneg (rate_nonneg (rate_nonneg (rate_nonneg he0)))) r4 (b := 1.1e-18) (by unfold rate; norm_num)
  unfold excessBound
  have ha : 0 ≤ 2 * eps / cme ^ 2 := by positivity
  refine max_le ?_ ?_
  · have hK : cme / 2 ≤ cme - ms.sum := by linarith
    have : eps / (2 * (cme - ms.sum) ^ 2) ≤ 2 * eps / cme ^ 2 := by
      rw [div_le_div_iff₀ (by have : 0 < cme - ms.sum := by linarith [h.below]
                              positivity) (by positivity)]
      nlinarith [mul_nonneg heps (mul_nonneg (by linarith : 0 ≤ cme - ms.sum - cme / 2) (by linarith [h.below] : 0 ≤ cme - ms.sum + cme / 2))]
    have h11 : (0 : ℝ) ≤ 1.1e-18 := by norm_num
    linarith
  · simp only [Function.iterate_succ, Function.iterate_zero, Function.comp_apply, id_eq]
    linarith

/-! ### Non-triviality -/

/-- Two back-to-back particles of mass 3 at energy 18, in double precision. -/
example : ∃ s ev, create 18 [3, 3] = some s ∧ ev ∈ (generate s 2.3e-16 [backToBack]).1 ∧
    0 ≤ (total ev).e - 18 ∧ (total ev).e - 18 ≤ 12 * (2 * 2.3e-16 / 18 ^ 2 + 1.1e-18) := by
  have ho : Open 18 [3, 3] := ⟨by simp, by simp, by norm_num⟩
  obtain ⟨s, hs⟩ : ∃ s, create 18 [3, 3] = some s := by simp [create, baseWeight]
  have hgood : ∀ ds ∈ [backToBack], Good ([3, 3] : List ℝ).length ds := by simpa using backToBack_good
  obtain ⟨ev, hev⟩ : ∃ ev, ev ∈ (generate s 2.3e-16 [backToBack]).1 := by
    obtain ⟨xi, hx, -⟩ := generated_close (eps := 2.3e-16) (by norm_num) ho hs (draws := [backToBack])
      (fun ds hds => boosted_ok ho hgood _ (List.mem_map.mpr ⟨ds, hds, rfl⟩))
    exact ⟨_, by rw [hx]; exact List.mem_map.mpr ⟨backToBack, by simp, rfl⟩⟩
  obtain ⟨-, -, -, -, -, -, -, -, -, h1, h2⟩ := events_close (by norm_num) ho hs hgood ev hev
  have h3 := excess_small (eps := 2.3e-16) (by norm_num) ho (by norm_num)
  refine ⟨s, ev, hs, hev, h1, ?_⟩
  norm_num at h2 h3 ⊢
  linarith

end Hazma.Rambo
