import Verif.Model.Rambo
import Verif.Lemmas.Rambo
import Mathlib.Topology.Order.IntermediateValue
import Mathlib.Topology.Algebra.Order.Field
import Mathlib.Tactic

/-!
# RAMBO events (C21 - C24, C65, C66)
-/

namespace Hazma.Rambo

/-! ### Specification -/

/-- Energies and masses for which the process is open: at least two particles, non-negative masses
summing to less than the centre-of-mass energy. -/
structure Open (cme : ℝ) (ms : List ℝ) : Prop where
  two : 2 ≤ ms.length
  nonneg : ∀ m ∈ ms, 0 ≤ m
  below : ms.sum < cme

/-- Random draws in their ranges, one per particle, whose momenta are not all parallel (which
happens with probability zero): their total has positive invariant mass. -/
structure Good (n : ℕ) (ds : List Draw) : Prop where
  len : ds.length = n
  range : ∀ d ∈ ds, 0 ≤ d.r1 ∧ d.r1 ≤ 1 ∧ 0 < d.r3 ∧ d.r3 < 1 ∧ 0 < d.r4 ∧ d.r4 < 1
  massive : 0 < mass2 (total (ds.map initMomentum))

/-- A particle of mass `m` on its mass shell. -/
def OnShell (p : P4) (m : ℝ) : Prop := p.e ^ 2 - (p.x ^ 2 + p.y ^ 2 + p.z ^ 2) = m ^ 2 ∧ m ≤ p.e

/-! ### Helper lemmas -/

theorem open_cme_pos {cme : ℝ} {ms : List ℝ} (h : Open cme ms) : 0 < cme :=
  lt_of_le_of_lt (List.sum_nonneg h.nonneg) h.below

theorem total_e_pos {ps : List P4} (h : ∀ p ∈ ps, 0 < p.e) (hne : ps ≠ []) : 0 < (total ps).e := by
  unfold total
  apply List.sum_pos
  · intro x hx
    obtain ⟨p, hp, rfl⟩ := List.mem_map.mp hx
    exact h p hp
  · simpa using hne

theorem boostOne_e_pos {cme : ℝ} {t p : P4} (hc : 0 < cme) (hM : 0 < mass2 t) (hE : 0 < t.e)
    (hp : mass2 p = 0) (hpe : 0 < p.e) : 0 < (boostOne cme t p).e := by
  have hs : 0 < Real.sqrt (mass2 t) := Real.sqrt_pos.mpr hM
  have hu : Real.sqrt (t.e ^ 2 - t.x ^ 2 - t.y ^ 2 - t.z ^ 2) = Real.sqrt (mass2 t) := rfl
  unfold mass2 at hp
  have hM' : 0 < t.e ^ 2 - t.x ^ 2 - t.y ^ 2 - t.z ^ 2 := hM
  have key : t.x * p.x + t.y * p.y + t.z * p.z < t.e * p.e := by
    have h0 : 0 < t.e * p.e := by positivity
    refine (abs_lt_of_sq_lt_sq' ?_ h0.le).2
    have hcs : (t.x * p.x + t.y * p.y + t.z * p.z) ^ 2
        ≤ (t.x ^ 2 + t.y ^ 2 + t.z ^ 2) * (p.x ^ 2 + p.y ^ 2 + p.z ^ 2) := by
      nlinarith [sq_nonneg (t.x * p.y - t.y * p.x), sq_nonneg (t.x * p.z - t.z * p.x),
        sq_nonneg (t.y * p.z - t.z * p.y)]
    have hpp : p.x ^ 2 + p.y ^ 2 + p.z ^ 2 = p.e ^ 2 := by linarith
    rw [hpp] at hcs
    have : 0 < p.e ^ 2 := by positivity
    nlinarith
  simp only [boostOne]
  rw [hu]
  set M := Real.sqrt (mass2 t)
  have : cme * (1 / M) * (t.e * (1 / M) * p.e
      + (-(1 / M) * t.x * p.x + -(1 / M) * t.y * p.y + -(1 / M) * t.z * p.z))
      = cme * (1 / M) ^ 2 * (t.e * p.e - (t.x * p.x + t.y * p.y + t.z * p.z)) := by ring
  rw [this]
  have : 0 < t.e * p.e - (t.x * p.x + t.y * p.y + t.z * p.z) := by linarith
  positivity

theorem good_total {n : ℕ} {ds : List Draw} (hn : 2 ≤ n) (h : Good n ds) :
    0 < (total (ds.map initMomentum)).e := by
  apply total_e_pos
  · intro p hp
    obtain ⟨d, hd, rfl⟩ := List.mem_map.mp hp
    obtain ⟨-, -, h3, h3', h4, h4'⟩ := h.range d hd
    exact initMomentum_energy_pos d h3 h3' h4 h4'
  · have := h.len
    intro h0
    simp only [List.map_eq_nil_iff] at h0
    rw [h0] at this
    simp at this; omega

/-! ### C22 -/

/-- **C22.** For every admissible set of random draws the boosted momenta are light-like, have
positive energy, and add up to `(cme, 0, 0, 0)`. -/
theorem massless_boost {cme : ℝ} {n : ℕ} {ds : List Draw} (hc : 0 < cme) (hn : 2 ≤ n)
    (h : Good n ds) :
    (∀ p ∈ boost cme (ds.map initMomentum),
        p.e ^ 2 = p.x ^ 2 + p.y ^ 2 + p.z ^ 2 ∧ 0 < p.e) ∧
      total (boost cme (ds.map initMomentum)) = ⟨cme, 0, 0, 0⟩ := by
  have hE := good_total hn h
  refine ⟨?_, ?_⟩
  · intro p hp
    obtain ⟨q, hq, rfl⟩ := List.mem_map.mp hp
    obtain ⟨d, hd, rfl⟩ := List.mem_map.mp hq
    obtain ⟨h1, h1', h3, h3', h4, h4'⟩ := h.range d hd
    have h0 := initMomentum_mass2 d h1 h1'
    have h2 := boostOne_mass2 cme _ (initMomentum d) h.massive hE
    rw [h0, mul_zero] at h2
    refine ⟨?_, boostOne_e_pos hc h.massive hE h0 (initMomentum_energy_pos d h3 h3' h4 h4')⟩
    unfold mass2 at h2
    linarith
  · unfold boost
    rw [total_boost, boostOne_self _ _ h.massive hE]

/-! ### C23 -/

theorem newtonLoop_eq (cme tol : ℝ) (ms : List ℝ) (ess : List (List ℝ)) (fuel : ℕ) (xis : List ℝ)
    (hf : 0 < fuel) (hl : xis.length = ess.length) :
    ∃ k, k < fuel ∧
      newtonLoop cme tol ms ess fuel xis
        = List.zipWith (fun es xi => (newtonStep cme ms es)^[k + 1] xi) ess xis ∧
      (k + 1 = fuel ∨ ∀ q ∈ ess.zip xis, scaleF cme ms q.1 ((newtonStep cme ms q.1)^[k] q.2) < tol) := by
  induction fuel generalizing xis with
  | zero => omega
  | succ k ih =>
    simp only [newtonLoop]
    split_ifs with hstop
    · refine ⟨0, by omega, ?_, ?_⟩
      · simp
      · rcases hstop with h | h
        · right
          intro q hq
          simp only [Function.iterate_zero, id_eq]
          apply h
          rw [← List.map_uncurry_zip_eq_zipWith]
          exact List.mem_map.mpr ⟨q, hq, rfl⟩
        · left; omega
    · push Not at hstop
      have hk : 0 < k := Nat.pos_of_ne_zero hstop.2
      obtain ⟨j, hj, he, hor⟩ := ih (List.zipWith (fun es xi => newtonStep cme ms es xi) ess xis) hk
        (by simp [hl])
      refine ⟨j + 1, by omega, ?_, ?_⟩
      · rw [he]
        apply List.ext_getElem
        · simp
        · intro i h1 h2
          simp [Function.iterate_succ_apply]
      · rcases hor with h | h
        · left; omega
        · right
          intro q hq
          obtain ⟨i, hi, rfl⟩ := List.mem_iff_getElem.mp hq
          have hi' : i < (ess.zip (List.zipWith (fun es xi => newtonStep cme ms es xi) ess xis)).length := by
            simp at hi ⊢; omega
          have := h _ (List.getElem_mem hi')
          simpa [Function.iterate_succ_apply] using this

theorem iterate_above {cme : ℝ} {ms es : List ℝ} {xi : ℝ} (he : ∀ e ∈ es, 0 < e)
    (hm : ∀ m ∈ ms, 0 ≤ m) (hs : ms.sum < cme) (hl : es.length = ms.length) (hne : es ≠ [])
    (h : Above cme ms es xi) (k : ℕ) : Above cme ms es ((newtonStep cme ms es)^[k] xi) := by
  induction k with
  | zero => simpa using h
  | succ k ih =>
    rw [Function.iterate_succ_apply']
    exact (newton_above he hm hs hl hne ih).1

theorem xi0_pos {cme : ℝ} {ms : List ℝ} (h : Open cme ms) :
    0 < Real.sqrt (1 - (ms.sum / cme) ^ 2) := by
  have hc := open_cme_pos h
  have h0 : 0 ≤ ms.sum := List.sum_nonneg h.nonneg
  have hr : ms.sum / cme < 1 := (div_lt_one hc).mpr h.below
  have hr0 : 0 ≤ ms.sum / cme := by positivity
  exact Real.sqrt_pos.mpr (by nlinarith)

/-- The total energy of an event with massless energies `es` rescaled by `xi`. -/
noncomputable def rescaledEnergy (ms es : List ℝ) (xi : ℝ) : ℝ :=
  (List.zipWith (fun e m => Real.sqrt ((xi * e) ^ 2 + m ^ 2)) es ms).sum

theorem scaleF_eq (cme : ℝ) (ms es : List ℝ) (xi : ℝ) :
    scaleF cme ms es xi = rescaledEnergy ms es xi - cme := by
  unfold scaleF rescaledEnergy hypot
  simp only [mul_comm]

theorem scaleF_strictMono (cme : ℝ) {ms es : List ℝ} {x y : ℝ} (he : ∀ e ∈ es, 0 < e)
    (hl : es.length = ms.length) (hne : es ≠ []) (hx : 0 < x) (hxy : x < y) :
    scaleF cme ms es x < scaleF cme ms es y := by
  have h := scaleF_tangent cme y he hx (ms := ms)
  have hd := scaleDf_pos he hx hl hne
  have : 0 < scaleDf ms es x * (y - x) := mul_pos hd (by linarith)
  linarith

theorem scaleF_continuous (cme : ℝ) (ms es : List ℝ) : Continuous (scaleF cme ms es) := by
  unfold scaleF
  induction es generalizing ms with
  | nil => simpa using continuous_const
  | cons e es ih =>
    cases ms with
    | nil => simpa using continuous_const
    | cons m ms =>
      simp only [List.zipWith_cons_cons, List.sum_cons]
      have h1 : Continuous fun x => hypot (e * x) m := by unfold hypot; fun_prop
      have h2 := h1.add (ih ms)
      refine h2.congr fun x => ?_
      simp only [Pi.add_apply]
      ring

/-- **C23, well-posedness.** For an open process the scale factor the iteration looks for exists, is
unique among positive numbers, and is at most the starting value. -/
theorem scale_factor_exists_unique {cme : ℝ} {ms es : List ℝ} (h : Open cme ms)
    (he : ∀ e ∈ es, 0 < e) (hl : es.length = ms.length) (hes : es.sum = cme) :
    ∃ root, 0 < root ∧ root ≤ Real.sqrt (1 - (ms.sum / cme) ^ 2) ∧ rescaledEnergy ms es root = cme ∧
      ∀ y, 0 < y → rescaledEnergy ms es y = cme → y = root := by
  have hc := open_cme_pos h
  have hne : es ≠ [] := by rintro rfl; have := h.two; simp at hl; omega
  have hx0 := xi0_pos h
  have h0 : scaleF cme ms es 0 ≤ 0 := by
    rw [scaleF_zero cme h.nonneg hl]; linarith [h.below]
  have h1 := scaleF_xi0 hc h.nonneg h.below hl hes
  obtain ⟨r, hr, hr0⟩ := intermediate_value_Icc hx0.le (scaleF_continuous cme ms es).continuousOn
    ⟨h0, h1⟩
  have hrpos : 0 < r := by
    rcases hr.1.eq_or_lt with h | h
    · rw [← h, scaleF_zero cme ‹Open cme ms›.nonneg hl] at hr0
      have := ‹Open cme ms›.below; linarith
    · exact h
  refine ⟨r, hrpos, hr.2, by rw [scaleF_eq] at hr0; linarith, ?_⟩
  intro y hy hye
  have hy0 : scaleF cme ms es y = 0 := by rw [scaleF_eq]; linarith
  rcases lt_trichotomy y r with hlt | heq | hgt
  · have := scaleF_strictMono cme he hl hne hy hlt; linarith
  · exact heq
  · have := scaleF_strictMono cme he hl hne hrpos hgt; linarith

/-- **C23.** Starting from the value a fresh generator uses, there is a number `k` of Newton steps,
between one and five and common to the whole batch, such that the returned scale factors are the
`k`-th iterates, and: every iterate of every event is at or above the exact scale factor, has
total energy at or above `cme`, and never increases the total energy; and unless the iteration limit
was reached, every event of the batch ends within `sqrt(eps)` of `cme`. -/
theorem newton_safe_side {cme eps : ℝ} {ms : List ℝ} {evs : List (List P4)} (h : Open cme ms)
    (hev : ∀ ps ∈ evs, ps.length = ms.length ∧ (∀ p ∈ ps, 0 < p.e) ∧ (ps.map P4.e).sum = cme) :
    let xi0 := Real.sqrt (1 - (ms.sum / cme) ^ 2)
    let iter := fun (ps : List P4) (j : ℕ) => (newtonStep cme ms (ps.map P4.e))^[j] xi0
    ∃ k, 1 ≤ k ∧ k ≤ 5 ∧ scaleFactors cme xi0 eps ms evs = evs.map (fun ps => iter ps k) ∧
      ∀ ps ∈ evs,
        (∀ j root, 0 < root → rescaledEnergy ms (ps.map P4.e) root = cme → root ≤ iter ps j) ∧
        (∀ j, cme ≤ rescaledEnergy ms (ps.map P4.e) (iter ps j)) ∧
        (∀ j, iter ps (j + 1) ≤ iter ps j ∧
          rescaledEnergy ms (ps.map P4.e) (iter ps (j + 1))
            ≤ rescaledEnergy ms (ps.map P4.e) (iter ps j)) ∧
        (k < 5 → rescaledEnergy ms (ps.map P4.e) (iter ps k) < cme + Real.sqrt eps) := by
  intro xi0 iter
  have hc := open_cme_pos h
  obtain ⟨k, hk, heq, hor⟩ := newtonLoop_eq cme (Real.sqrt eps) ms (evs.map fun ps => ps.map P4.e) 5
    (evs.map fun _ => xi0) (by norm_num) (by simp)
  refine ⟨k + 1, by omega, by omega, ?_, ?_⟩
  · unfold scaleFactors
    rw [heq]
    apply List.ext_getElem
    · simp
    · intro i h1 h2; simp [iter]
  · intro ps hps
    obtain ⟨hlen, hpos, hsum⟩ := hev ps hps
    have he : ∀ e ∈ ps.map P4.e, 0 < e := by
      intro e hm
      obtain ⟨p, hp, rfl⟩ := List.mem_map.mp hm
      exact hpos p hp
    have hl : (ps.map P4.e).length = ms.length := by simpa using hlen
    have hne : ps.map P4.e ≠ [] := by
      intro h0; rw [h0] at hl; have := h.two; simp at hl; omega
    have habove : ∀ j, Above cme ms (ps.map P4.e) (iter ps j) := fun j =>
      iterate_above he h.nonneg h.below hl hne
        ⟨xi0_pos h, scaleF_xi0 hc h.nonneg h.below hl hsum⟩ j
    have hstep : ∀ j, iter ps (j + 1) = newtonStep cme ms (ps.map P4.e) (iter ps j) := fun j =>
      Function.iterate_succ_apply' _ _ _
    have hmono : ∀ j, iter ps (j + 1) ≤ iter ps j ∧
          rescaledEnergy ms (ps.map P4.e) (iter ps (j + 1))
            ≤ rescaledEnergy ms (ps.map P4.e) (iter ps j) := by
      intro j
      obtain ⟨-, h2, h3, -⟩ := newton_above he h.nonneg h.below hl hne (habove j)
      rw [← hstep] at h2 h3
      rw [scaleF_eq, scaleF_eq] at h3
      exact ⟨h2, by linarith⟩
    refine ⟨?_, ?_, hmono, ?_⟩
    · intro j root hr hroot
      by_contra hlt
      push Not at hlt
      have := scaleF_strictMono cme he hl hne (habove j).pos hlt
      have h2 := (habove j).res
      rw [scaleF_eq cme ms _ root] at this
      linarith
    · intro j
      have := (habove j).res
      rw [scaleF_eq] at this
      linarith
    · intro hk5
      rcases hor with h5 | h5
      · omega
      · obtain ⟨i, hi, rfl⟩ := List.mem_iff_getElem.mp hps
        have hi' : i < ((evs.map fun ps => ps.map P4.e).zip (evs.map fun _ => xi0)).length := by
          simpa using hi
        have := h5 _ (List.getElem_mem hi')
        simp only [List.getElem_zip, List.getElem_map] at this
        have h2 := (hmono k).2
        have h3 : scaleF cme ms (evs[i].map P4.e) (iter evs[i] k) < Real.sqrt eps := this
        rw [scaleF_eq] at h3
        linarith

/-! ### C21 -/

theorem correct_forall₂ {ms : List ℝ} {ps : List P4} {xi : ℝ} (hm : ∀ m ∈ ms, 0 ≤ m)
    (hl : ps.length = ms.length)
    (hp : ∀ p ∈ ps, p.e ^ 2 = p.x ^ 2 + p.y ^ 2 + p.z ^ 2) :
    List.Forall₂ OnShell (correctEvent ms ps xi) ms := by
  unfold correctEvent
  induction ps generalizing ms with
  | nil => cases ms <;> simp_all
  | cons p ps ih =>
    cases ms with
    | nil => simp at hl
    | cons m ms =>
      rw [List.zipWith_cons_cons]
      refine List.Forall₂.cons ?_ (ih (fun m h => hm m (by simp [h])) (by simpa using hl)
        (fun q h => hp q (by simp [h])))
      have h0 := hp p (by simp)
      have hm0 := hm m (by simp)
      refine ⟨?_, ?_⟩
      · simp only [correctOne]
        rw [hypot_sq]
        linear_combination xi ^ 2 * h0
      · simp only [correctOne, hypot]
        exact Real.le_sqrt_of_sq_le (by nlinarith [sq_nonneg (xi * p.e)])

theorem correct_total {ms : List ℝ} {ps : List P4} {xi : ℝ} (hl : ps.length = ms.length) :
    total (correctEvent ms ps xi)
      = ⟨rescaledEnergy ms (ps.map P4.e) xi, xi * (total ps).x, xi * (total ps).y,
          xi * (total ps).z⟩ := by
  unfold correctEvent
  induction ps generalizing ms with
  | nil => simp [total, rescaledEnergy]
  | cons p ps ih =>
    cases ms with
    | nil => simp at hl
    | cons m ms =>
      have h := ih (ms := ms) (by simpa using hl)
      have h' := P4.ext_iff.mp h
      simp only [total] at h'
      obtain ⟨h1, h2, h3, h4⟩ := h'
      simp only [total, rescaledEnergy, List.zipWith_cons_cons, List.map_cons, List.sum_cons] at *
      ext
      · simp only [h1]; simp [correctOne, hypot]
      · simp only [h2, correctOne]; ring
      · simp only [h3, correctOne]; ring
      · simp only [h4, correctOne]; ring

/-- **C21.** Whatever starting scale and however the iteration ended: every event produced from
admissible draws has every particle exactly on its own mass shell and exactly vanishing total
three-momentum. -/
theorem events_on_shell {s : State} {eps : ℝ} {draws : List (List Draw)} (hc : 0 < s.cme)
    (hn : 2 ≤ s.masses.length) (hm : ∀ m ∈ s.masses, 0 ≤ m)
    (hd : ∀ ds ∈ draws, Good s.masses.length ds) :
    ∀ ev ∈ (generate s eps draws).1,
      List.Forall₂ OnShell ev s.masses ∧
        (total ev).x = 0 ∧ (total ev).y = 0 ∧ (total ev).z = 0 := by
  intro ev hev
  simp only [generate] at hev
  obtain ⟨i, hi, rfl⟩ := List.mem_iff_getElem.mp hev
  simp only [List.getElem_zipWith, List.getElem_map]
  have hi' : i < draws.length := by simp at hi; omega
  have hg := hd draws[i] (List.getElem_mem hi')
  obtain ⟨h1, h2⟩ := massless_boost hc hn hg
  have hl : (boost s.cme (draws[i].map initMomentum)).length = s.masses.length := by
    simp [boost, hg.len]
  refine ⟨correct_forall₂ hm hl (fun p hp => (h1 p hp).1), ?_⟩
  rw [correct_total hl, h2]
  simp

theorem create_some {cme : ℝ} {ms : List ℝ} {s : State} (h : create cme ms = some s) :
    2 ≤ ms.length ∧ s.cme = cme ∧ s.masses = ms ∧ s.n = ms.length ∧
      s.xi0 = Real.sqrt (1 - (ms.sum / cme) ^ 2) ∧ baseWeight cme ms.length = some s.baseWgt := by
  unfold create at h
  obtain ⟨b, hb, rfl⟩ := Option.map_eq_some_iff.mp h
  refine ⟨?_, rfl, rfl, rfl, rfl, hb⟩
  unfold baseWeight at hb
  split_ifs at hb with hn
  omega

theorem boosted_ok {cme : ℝ} {ms : List ℝ} {draws : List (List Draw)} (h : Open cme ms)
    (hd : ∀ ds ∈ draws, Good ms.length ds) :
    ∀ ps ∈ draws.map (fun ds => boost cme (ds.map initMomentum)),
      ps.length = ms.length ∧ (∀ p ∈ ps, 0 < p.e) ∧ (ps.map P4.e).sum = cme := by
  intro ps hps
  obtain ⟨ds, hds, rfl⟩ := List.mem_map.mp hps
  have hg := hd ds hds
  obtain ⟨h1, h2⟩ := massless_boost (open_cme_pos h) h.two hg
  refine ⟨by simp [boost, hg.len], fun p hp => (h1 p hp).2, ?_⟩
  have := congrArg P4.e h2
  simpa [total] using this

/-- **C21, energy.** Every event of a newly constructed generator has total energy at least `cme`;
either all events of the batch are within `sqrt(eps)` of `cme`, or the five allowed Newton steps
were used up. -/
theorem events_total_energy {cme : ℝ} {ms : List ℝ} {s : State} {eps : ℝ}
    {draws : List (List Draw)} (h : Open cme ms) (hs : create cme ms = some s)
    (hd : ∀ ds ∈ draws, Good ms.length ds) :
    (∀ ev ∈ (generate s eps draws).1, cme ≤ (total ev).e) ∧
      ((∀ ev ∈ (generate s eps draws).1, (total ev).e < cme + Real.sqrt eps) ∨
        (generate s eps draws).1 = draws.map fun ds =>
          correctEvent ms (boost cme (ds.map initMomentum))
            ((newtonStep cme ms ((boost cme (ds.map initMomentum)).map P4.e))^[5] s.xi0)) := by
  obtain ⟨-, h1, h2, h3, h4, -⟩ := create_some hs
  have hok := boosted_ok h hd
  obtain ⟨k, hk1, hk5, heq, hall⟩ := newton_safe_side (eps := eps) h hok
  have hgen : (generate s eps draws).1 = draws.map fun ds =>
      correctEvent ms (boost cme (ds.map initMomentum))
        ((newtonStep cme ms ((boost cme (ds.map initMomentum)).map P4.e))^[k] s.xi0) := by
    simp only [generate, h1, h2, h4]
    rw [heq]
    apply List.ext_getElem
    · simp
    · intro i _ _; simp
  have hev : ∀ ev ∈ (generate s eps draws).1, ∃ ds ∈ draws, (total ev).e =
      rescaledEnergy ms ((boost cme (ds.map initMomentum)).map P4.e)
        ((newtonStep cme ms ((boost cme (ds.map initMomentum)).map P4.e))^[k] s.xi0) := by
    intro ev hev
    rw [hgen] at hev
    obtain ⟨ds, hds, rfl⟩ := List.mem_map.mp hev
    refine ⟨ds, hds, ?_⟩
    rw [correct_total (by simp [boost, (hd ds hds).len])]
  refine ⟨?_, ?_⟩
  · intro ev he
    obtain ⟨ds, hds, heq2⟩ := hev ev he
    rw [heq2, h4]
    exact (hall _ (List.mem_map.mpr ⟨ds, hds, rfl⟩)).2.1 k
  · rcases Nat.lt_or_ge k 5 with hlt | hge
    · left
      intro ev he
      obtain ⟨ds, hds, heq2⟩ := hev ev he
      rw [heq2, h4]
      exact (hall _ (List.mem_map.mpr ⟨ds, hds, rfl⟩)).2.2.2 hlt
    · right
      rw [hgen, show k = 5 by omega]

/-! ### C24 -/

/-- The masses an assignment history leaves behind. -/
def lastMasses (ms : List ℝ) : List Assign → List ℝ
  | [] => ms
  | .cme _ :: h => lastMasses ms h
  | .masses ms' :: h => lastMasses ms' h

/-- The energy an assignment history leaves behind. -/
def lastCme (c : ℝ) : List Assign → ℝ
  | [] => c
  | .cme c' :: h => lastCme c' h
  | .masses _ :: h => lastCme c h

/-- **C24, what holds.** After any history of assignments the generator agrees with a freshly built
one in everything except the starting scale of the Newton iteration, which is still the one of the
original construction. -/
theorem setters_fresh_partial {cme : ℝ} {ms : List ℝ} {s : State} (hist : List Assign)
    (hs : create cme ms = some s) (hm : ∀ ms', Assign.masses ms' ∈ hist → 2 ≤ ms'.length) :
    ∃ fresh, create (lastCme cme hist) (lastMasses ms hist) = some fresh ∧
      hist.foldl assign s = { fresh with xi0 := s.xi0 } := by
  have aux : ∀ (hist : List Assign) (c : ℝ) (ms : List ℝ) (x : ℝ) (fr : State),
      (∀ ms', Assign.masses ms' ∈ hist → 2 ≤ ms'.length) → create c ms = some fr →
      ∃ fresh, create (lastCme c hist) (lastMasses ms hist) = some fresh ∧
        hist.foldl assign { fr with xi0 := x } = { fresh with xi0 := x } := by
    intro hist
    induction hist with
    | nil => intro c ms x fr _ h; exact ⟨fr, h, rfl⟩
    | cons a hist ih =>
      intro c ms x fr hm h
      obtain ⟨h2, hc, hms, hn, hx, hb⟩ := create_some h
      have hm' : ∀ ms', Assign.masses ms' ∈ hist → 2 ≤ ms'.length := fun ms' h' =>
        hm ms' (by simp [h'])
      cases a with
      | cme v =>
        have hcr : create v ms = some ⟨v, ms, ms.length,
            Real.sqrt (1 - (ms.sum / v) ^ 2), (baseWeight v ms.length).getD 0⟩ := by
          unfold create baseWeight
          simp [Nat.not_lt.mpr h2]
        obtain ⟨fresh, hf, hfold⟩ := ih v ms x _ hm' hcr
        refine ⟨fresh, hf, ?_⟩
        rw [List.foldl_cons, ← hfold]
        congr 1
        simp only [assign, setCme, hn, hms]
        simp [baseWeight, Nat.not_lt.mpr h2]
      | masses ms' =>
        have h2' := hm ms' (by simp)
        have hcr : create c ms' = some ⟨c, ms', ms'.length,
            Real.sqrt (1 - (ms'.sum / c) ^ 2), (baseWeight c ms'.length).getD 0⟩ := by
          unfold create baseWeight
          simp [Nat.not_lt.mpr h2']
        obtain ⟨fresh, hf, hfold⟩ := ih c ms' x _ hm' hcr
        refine ⟨fresh, hf, ?_⟩
        rw [List.foldl_cons, ← hfold]
        congr 1
        simp only [assign, setMasses, hc]
        simp [baseWeight, Nat.not_lt.mpr h2']
  exact aux hist cme ms s.xi0 s hm hs

/-- Draws for two back-to-back particles of equal energy. -/
noncomputable def backToBack : List Draw := [⟨1, 0, 1 / 2, 1 / 2⟩, ⟨0, 0, 1 / 2, 1 / 2⟩]

theorem backToBack_init : backToBack.map initMomentum
    = [⟨Real.log 4, 0, 0, Real.log 4⟩, ⟨Real.log 4, 0, 0, -Real.log 4⟩] := by
  have h : -Real.log ((1 / 2 : ℝ) * (1 / 2)) = Real.log 4 := by
    rw [← Real.log_inv]; norm_num
  simp only [backToBack, List.map_cons, List.map_nil, initMomentum, h]
  norm_num

theorem log4_pos : 0 < Real.log 4 := Real.log_pos (by norm_num)

theorem backToBack_good : Good 2 backToBack := by
  refine ⟨rfl, ?_, ?_⟩
  · intro d hd
    simp only [backToBack, List.mem_cons, List.not_mem_nil, or_false] at hd
    rcases hd with rfl | rfl <;> norm_num
  · rw [backToBack_init]
    have := log4_pos
    simp [total, mass2]
    positivity

theorem backToBack_boost (cme : ℝ) : boost cme (backToBack.map initMomentum)
    = [⟨cme / 2, 0, 0, cme / 2⟩, ⟨cme / 2, 0, 0, -(cme / 2)⟩] := by
  have hL := log4_pos
  rw [backToBack_init]
  simp only [boost, total, List.map_cons, List.map_nil, List.sum_cons, List.sum_nil, boostOne]
  have hs : Real.sqrt ((Real.log 4 + (Real.log 4 + 0)) ^ 2 - (0 + (0 + 0)) ^ 2 - (0 + (0 + 0)) ^ 2
      - (Real.log 4 + (-Real.log 4 + 0)) ^ 2) = 2 * Real.log 4 := by
    rw [show (Real.log 4 + (Real.log 4 + 0)) ^ 2 - (0 + (0 + 0)) ^ 2 - (0 + (0 + 0)) ^ 2
      - (Real.log 4 + (-Real.log 4 + 0)) ^ 2 = (2 * Real.log 4) ^ 2 by ring]
    exact Real.sqrt_sq (by positivity)
  simp only [hs]
  congr 1
  · ext <;> simp only <;> field_simp <;> ring
  · congr 1
    ext <;> simp only <;> field_simp <;> ring

/-- **C24 fails.** A generator built at 10 MeV for two particles of 3 MeV and then moved to 18 MeV
produces, for the same random numbers, an event of total energy `sqrt 325 > 18` MeV, while the fresh
generator produces one of exactly 18 MeV. -/
theorem stale_scale_wrong_energy (eps : ℝ) :
    ∃ s fresh, create 10 [3, 3] = some s ∧ create 18 [3, 3] = some fresh ∧ Good 2 backToBack ∧
      ((generate (assign s (.cme 18)) eps [backToBack]).1.map fun ev => (total ev).e)
        = [Real.sqrt 325] ∧
      ((generate fresh eps [backToBack]).1.map fun ev => (total ev).e) = [18] := by
  have h1 : create 10 [3, 3] = some ⟨10, [3, 3], 2,
      Real.sqrt (1 - (([3, 3] : List ℝ).sum / 10) ^ 2), (baseWeight 10 2).getD 0⟩ := by
    unfold create baseWeight; simp
  have h2 : create 18 [3, 3] = some ⟨18, [3, 3], 2,
      Real.sqrt (1 - (([3, 3] : List ℝ).sum / 18) ^ 2), (baseWeight 18 2).getD 0⟩ := by
    unfold create baseWeight; simp
  refine ⟨_, _, h1, h2, backToBack_good, ?_, ?_⟩
  · have hx : Real.sqrt (1 - (([3, 3] : List ℝ).sum / 10) ^ 2) = 4 / 5 := by
      rw [show (1 - (([3, 3] : List ℝ).sum / 10) ^ 2) = (4 / 5) ^ 2 by simp; norm_num]
      exact Real.sqrt_sq (by norm_num)
    have hh : hypot (18 / 2 * (4 / 5)) 3 = 39 / 5 := by
      unfold hypot
      rw [show ((18 : ℝ) / 2 * (4 / 5)) ^ 2 + 3 ^ 2 = (39 / 5) ^ 2 by norm_num]
      exact Real.sqrt_sq (by norm_num)
    have hf : scaleF 18 [3, 3] [18 / 2, 18 / 2] (4 / 5) = -(12 / 5) := by
      simp only [scaleF, List.zipWith_cons_cons, List.zipWith_nil_left, List.sum_cons,
        List.sum_nil, hh]
      norm_num
    have hdf : scaleDf [3, 3] [18 / 2, 18 / 2] (4 / 5) = 216 / 13 := by
      simp only [scaleDf, List.zipWith_cons_cons, List.zipWith_nil_left, List.sum_cons,
        List.sum_nil, hh]
      norm_num
    have hlt : -(12 / 5) < Real.sqrt eps := lt_of_lt_of_le (by norm_num) (Real.sqrt_nonneg _)
    have hsc : scaleFactors 18 (4 / 5) eps [3, 3]
        [[⟨18 / 2, 0, 0, 18 / 2⟩, ⟨18 / 2, 0, 0, -(18 / 2)⟩]] = [17 / 18] := by
      simp only [scaleFactors, List.map_cons, List.map_nil, newtonLoop, List.zipWith_cons_cons,
        List.zipWith_nil_left, newtonStep, hf, hdf]
      rw [if_pos (by left; intro f hfm; simp only [List.mem_singleton] at hfm; rw [hfm]; exact hlt)]
      norm_num
    simp only [generate, assign, setCme, List.map_cons, List.map_nil, backToBack_boost, hx, hsc]
    simp only [List.map_cons, List.map_nil,
      List.zipWith_cons_cons, List.zipWith_nil_left, correctEvent, correctOne, total, List.sum_cons,
      List.sum_nil]
    congr 1
    have h3 : hypot (17 / 18 * (18 / 2)) 3 = Real.sqrt 325 / 2 := by
      unfold hypot
      rw [show ((17 : ℝ) / 18 * (18 / 2)) ^ 2 + 3 ^ 2 = 325 / 2 ^ 2 by norm_num,
        Real.sqrt_div (by norm_num), Real.sqrt_sq (by norm_num)]
    rw [h3]; ring
  · set x := Real.sqrt (1 - (([3, 3] : List ℝ).sum / 18) ^ 2) with hx
    have hxsq : x ^ 2 = 8 / 9 := by
      rw [hx, Real.sq_sqrt] <;> · simp; norm_num
    have hh : hypot (18 / 2 * x) 3 = 9 := by
      unfold hypot
      rw [show ((18 : ℝ) / 2 * x) ^ 2 + 3 ^ 2 = 9 ^ 2 by rw [mul_pow, hxsq]; norm_num]
      exact Real.sqrt_sq (by norm_num)
    have hh' : hypot (x * (18 / 2)) 3 = 9 := by rw [mul_comm]; exact hh
    have hf : scaleF 18 [3, 3] [18 / 2, 18 / 2] x = 0 := by
      simp only [scaleF, List.zipWith_cons_cons, List.zipWith_nil_left, List.sum_cons,
        List.sum_nil, hh]
      norm_num
    have hst : newtonStep 18 [3, 3] [18 / 2, 18 / 2] x = x := by
      unfold newtonStep; rw [hf]; simp
    have hloop : ∀ k, newtonLoop 18 (Real.sqrt eps) [3, 3] [[18 / 2, 18 / 2]] k [x] = [x] := by
      intro k
      induction k with
      | zero => rfl
      | succ k ih =>
        simp only [newtonLoop, List.zipWith_cons_cons, List.zipWith_nil_left, hst, ih, ite_self]
    have hsc : scaleFactors 18 x eps [3, 3]
        [[⟨18 / 2, 0, 0, 18 / 2⟩, ⟨18 / 2, 0, 0, -(18 / 2)⟩]] = [x] := by
      simp only [scaleFactors, List.map_cons, List.map_nil]
      exact hloop 5
    simp only [generate, List.map_cons, List.map_nil, backToBack_boost, hsc,
      List.zipWith_cons_cons, List.zipWith_nil_left, correctEvent, correctOne, total, List.sum_cons,
      List.sum_nil, hh']
    norm_num

/-! ### C65 -/

/-- The volume of massless `n`-body phase space (specification; Kleiss, Stirling, Ellis 1986):
`(2π)^(4-3n) (π/2)^(n-1) Q^(2n-4) / ((n-1)! (n-2)!)`. -/
noncomputable def masslessVolume (cme : ℝ) (n : ℕ) : ℝ :=
  (1 / (2 * Real.pi)) ^ (3 * n - 4) * (Real.pi / 2) ^ (n - 1) * cme ^ (2 * n - 4)
    / ((n - 1).factorial * (n - 2).factorial)

theorem baseWeight_eq {cme : ℝ} {n : ℕ} (hn : 2 ≤ n) :
    baseWeight cme n = some (masslessVolume cme n) := by
  unfold baseWeight masslessVolume
  rw [if_neg (by omega)]
  have h : ((n - 1).factorial : ℝ) = ((n : ℝ) - 1) * ((n - 2).factorial : ℝ) := by
    have h2 : n - 1 = (n - 2) + 1 := by omega
    rw [h2, Nat.factorial_succ]
    push_cast
    rw [Nat.cast_sub hn]
    push_cast; ring
  have hn1 : (n : ℝ) - 1 ≠ 0 := by
    have : (2 : ℝ) ≤ n := by exact_mod_cast hn
    linarith
  have hf : ((n - 2).factorial : ℝ) ≠ 0 := by positivity
  simp only [h]
  congr 1
  field_simp

/-- **C65, massless.** When all masses are zero every event carries the same weight, the exact
massless phase-space volume. -/
theorem massless_weight {cme : ℝ} {n : ℕ} {s : State} {eps : ℝ} {draws : List (List Draw)}
    (hc : 0 < cme) (hs : create cme (List.replicate n 0) = some s)
    (hd : ∀ ds ∈ draws, Good n ds) :
    ∀ w ∈ (generate s eps draws).2, w = masslessVolume cme n := by
  obtain ⟨hn, h1, h2, h3, h4, h5⟩ := create_some hs
  simp only [List.length_replicate, List.sum_replicate, smul_zero, zero_div] at hn h3 h4 h5
  have hx : s.xi0 = 1 := by rw [h4]; simp
  have hbw : s.baseWgt = masslessVolume cme n := by
    rw [baseWeight_eq hn] at h5; exact (Option.some.inj h5).symm
  have hopen : Open cme (List.replicate n 0) := ⟨by simpa using hn, by
    intro m hm; exact (List.eq_of_mem_replicate hm).ge, by simpa using hc⟩
  have hok := boosted_ok hopen (draws := draws) (by simpa using hd)
  -- every Newton step from one stays at one
  have hf : ∀ es : List ℝ, es.length = n → (∀ e ∈ es, 0 < e) → es.sum = cme →
      scaleF cme (List.replicate n 0) es 1 = 0 := by
    intro es hl he hsum
    unfold scaleF
    have : List.zipWith (fun e m => hypot (e * 1) m) es (List.replicate n 0) = es := by
      apply List.ext_getElem
      · simp [hl]
      · intro i hi1 hi2
        simp only [List.getElem_zipWith, List.getElem_replicate, hypot]
        simp [Real.sqrt_sq (he _ (List.getElem_mem hi2)).le]
    rw [this, hsum]; ring
  have hmap1 : ∀ (evs : List (List P4)), (evs.map fun _ => (1 : ℝ)) = List.replicate evs.length 1 := by
    intro evs; simp
  have hsc : scaleFactors cme 1 eps (List.replicate n 0)
      (draws.map fun ds => boost cme (ds.map initMomentum)) = draws.map fun _ => 1 := by
    obtain ⟨k, -, -, heq, -⟩ := newton_safe_side (eps := eps) hopen hok
    have h1' : Real.sqrt (1 - ((List.replicate n (0 : ℝ)).sum / cme) ^ 2) = 1 := by simp
    rw [h1'] at heq
    rw [heq, List.map_map]
    apply List.map_congr_left
    intro ds hds
    simp only [Function.comp]
    obtain ⟨hl, hpos, hsum⟩ := hok _ (List.mem_map.mpr ⟨ds, hds, rfl⟩)
    apply Function.iterate_fixed
    unfold newtonStep
    rw [hf _ (by simpa using hl) (by
      intro e he; obtain ⟨p, hp, rfl⟩ := List.mem_map.mp he; exact hpos p hp) hsum]
    simp
  have hcorr : ∀ ps : List P4, ps.length = n → (∀ p ∈ ps, 0 < p.e) →
      correctEvent (List.replicate n 0) ps 1 = ps := by
    intro ps hl hpos
    apply List.ext_getElem
    · simp [correctEvent, hl]
    · intro i hi1 hi2
      have : 0 < ps[i].e := hpos _ (List.getElem_mem hi2)
      simp only [correctEvent, List.getElem_zipWith, List.getElem_replicate, correctOne, hypot]
      ext <;> simp [Real.sqrt_sq this.le]
  intro w hw
  simp only [generate, h1, h2, hx, hsc] at hw
  obtain ⟨ev, hev, rfl⟩ := List.mem_map.mp hw
  obtain ⟨i, hi, rfl⟩ := List.mem_iff_getElem.mp hev
  have hi' : i < draws.length := by simp at hi; omega
  simp only [List.getElem_zipWith, List.getElem_map]
  have hg := hd _ (List.getElem_mem hi')
  obtain ⟨hl, hpos, hsum⟩ := hok _ (List.mem_map.mpr ⟨draws[i], List.getElem_mem hi', rfl⟩)
  obtain ⟨hlight, -⟩ := massless_boost hc hn hg
  set ps := boost cme (draws[i].map initMomentum)
  rw [hcorr ps (by simpa using hl) hpos]
  have hmod : ∀ p ∈ ps, modsqr p = p.e ^ 2 := fun p hp => by
    unfold modsqr; rw [(hlight p hp).1]
  have hsq : ∀ p ∈ ps, Real.sqrt (modsqr p) = p.e := fun p hp => by
    rw [hmod p hp, Real.sqrt_sq (hpos p hp).le]
  have e1 : (ps.map fun p => Real.sqrt (modsqr p) / cme).sum = 1 := by
    rw [List.map_congr_left (g := fun p => p.e * cme⁻¹) (by
      intro p hp; rw [hsq p hp, div_eq_mul_inv])]
    rw [List.sum_map_mul_right, hsum]; field_simp
  have e2 : (ps.map fun p => modsqr p / p.e).sum = cme := by
    rw [List.map_congr_left (g := P4.e) (by
      intro p hp; rw [hmod p hp]; have := (hpos p hp).ne'; field_simp)]
    exact hsum
  have e3 : (ps.map fun p => Real.sqrt (modsqr p) / p.e).prod = 1 := by
    rw [List.map_congr_left (g := fun _ => (1 : ℝ)) (by
      intro p hp; rw [hsq p hp]; exact div_self (hpos p hp).ne')]
    simp
  simp only [weight, e1, e2, e3, hbw, one_pow]
  field_simp

/-- **C65, two bodies.** An event of two particles with momenta `±p` (`p` of positive length `k`)
and energies `E1, E2 > 0` has weight `k / (4π (E1 + E2))`, two-body phase space for its total
energy, whatever the masses are. -/
theorem two_body_weight {cme k e1 e2 x y z : ℝ} {b : ℝ} (hc : 0 < cme) (hk : 0 < k)
    (hk2 : k ^ 2 = x ^ 2 + y ^ 2 + z ^ 2) (h1 : 0 < e1) (h2 : 0 < e2)
    (hb : baseWeight cme 2 = some b) :
    weight cme b 2 [⟨e1, x, y, z⟩, ⟨e2, -x, -y, -z⟩] = k / (4 * Real.pi * (e1 + e2)) := by
  rw [baseWeight_eq le_rfl] at hb
  have hb' : b = 1 / (8 * Real.pi) := by
    rw [← Option.some.inj hb]
    unfold masslessVolume
    have := Real.pi_pos
    simp
    field_simp
    norm_num
  have hm : modsqr ⟨e1, x, y, z⟩ = k ^ 2 := by unfold modsqr; rw [hk2]
  have hm' : modsqr ⟨e2, -x, -y, -z⟩ = k ^ 2 := by unfold modsqr; rw [hk2]; ring
  have := Real.pi_pos
  simp only [weight, List.map_cons, List.map_nil, List.sum_cons, List.sum_nil, List.prod_cons,
    List.prod_nil, hm, hm', Real.sqrt_sq hk.le, hb']
  norm_num
  field_simp
  ring

/-- **C65, positivity.** Every event of a newly constructed generator for an open process has
strictly positive weight. -/
theorem weights_pos {cme : ℝ} {ms : List ℝ} {s : State} {eps : ℝ}
    {draws : List (List Draw)} (h : Open cme ms) (hs : create cme ms = some s)
    (hd : ∀ ds ∈ draws, Good ms.length ds) :
    ∀ w ∈ (generate s eps draws).2, 0 < w := by
  obtain ⟨hn, h1, h2, h3, h4, h5⟩ := create_some hs
  have hc := open_cme_pos h
  have hok := boosted_ok h hd
  obtain ⟨k, hk1, hk5, heq, hall⟩ := newton_safe_side (eps := eps) h hok
  have hb : 0 < s.baseWgt := by
    rw [baseWeight_eq hn] at h5
    rw [← Option.some.inj h5]
    have := Real.pi_pos
    unfold masslessVolume
    positivity
  intro w hw
  simp only [generate, h1, h2, h4] at hw
  rw [heq] at hw
  obtain ⟨ev, hev, rfl⟩ := List.mem_map.mp hw
  obtain ⟨i, hi, rfl⟩ := List.mem_iff_getElem.mp hev
  have hi' : i < draws.length := by simp at hi; omega
  simp only [List.getElem_zipWith, List.getElem_map]
  have hg := hd _ (List.getElem_mem hi')
  have hmem : boost cme (draws[i].map initMomentum)
      ∈ draws.map (fun ds => boost cme (ds.map initMomentum)) :=
    List.mem_map.mpr ⟨draws[i], List.getElem_mem hi', rfl⟩
  obtain ⟨hl, hpos, hsum⟩ := hok _ hmem
  obtain ⟨hlight, -⟩ := massless_boost hc hn hg
  obtain ⟨hroot, -⟩ := hall _ hmem
  set ps := boost cme (draws[i].map initMomentum)
  set xi := (newtonStep cme ms (ps.map P4.e))^[k] (Real.sqrt (1 - (ms.sum / cme) ^ 2))
  have hxi : 0 < xi := by
    obtain ⟨r, hr0, -, hr, -⟩ := scale_factor_exists_unique h (es := ps.map P4.e) (by
      intro e he; obtain ⟨p, hp, rfl⟩ := List.mem_map.mp he; exact hpos p hp) (by simpa using hl) hsum
    exact lt_of_lt_of_le hr0 (hroot k r hr0 hr)
  have hp : ∀ q ∈ correctEvent ms ps xi, 0 < modsqr q ∧ 0 < q.e := by
    intro q hq
    obtain ⟨j, hj, rfl⟩ := List.mem_iff_getElem.mp hq
    simp only [correctEvent, List.getElem_zipWith]
    have hj' : j < ps.length := by simp [correctEvent] at hj; omega
    have hq := hpos _ (List.getElem_mem hj')
    have hq2 := (hlight _ (List.getElem_mem hj')).1
    have hm2 : modsqr (correctOne xi ps[j] (ms[j]'(by omega))) = (xi * ps[j].e) ^ 2 := by
      simp only [modsqr, correctOne]
      linear_combination (-(xi ^ 2)) * hq2
    refine ⟨?_, ?_⟩
    · rw [hm2]; positivity
    · simp only [correctOne]
      exact hypot_pos _ (by positivity)
  have hne : correctEvent ms ps xi ≠ [] := by
    intro h0
    have := congrArg List.length h0
    simp only [correctEvent, List.length_zipWith, List.length_nil, hl] at this
    omega
  set ev := correctEvent ms ps xi
  have t1 : 0 < (ev.map fun p => Real.sqrt (modsqr p) / cme).sum := by
    apply List.sum_pos
    · intro x hx; obtain ⟨q, hq, rfl⟩ := List.mem_map.mp hx
      exact div_pos (Real.sqrt_pos.mpr (hp q hq).1) hc
    · simpa using hne
  have t2 : 0 < (ev.map fun p => modsqr p / p.e).sum := by
    apply List.sum_pos
    · intro x hx; obtain ⟨q, hq, rfl⟩ := List.mem_map.mp hx
      exact div_pos (hp q hq).1 (hp q hq).2
    · simpa using hne
  have t3 : 0 < (ev.map fun p => Real.sqrt (modsqr p) / p.e).prod := by
    apply List.prod_pos
    intro x hx; obtain ⟨q, hq, rfl⟩ := List.mem_map.mp hx
    exact div_pos (Real.sqrt_pos.mpr (hp q hq).1) (hp q hq).2
  simp only [weight]
  positivity

/-! ### C66 -/

/-- **C66, what holds.** Batched generation yields the requested number of points when the batch
size divides it. -/
theorem generator_points_partial {n batch : ℕ} (hb : 0 < batch) (hd : batch ∣ n) :
    (batchSizes n batch).sum = n := by
  obtain ⟨k, rfl⟩ := hd
  simp [batchSizes, numBatches, Nat.mul_div_cancel_left k hb, mul_comm]

/-- **C66 fails otherwise.** If the batch size does not divide the requested number, more points are
generated: the number is rounded up to a whole number of batches. -/
theorem generator_overshoots {n batch : ℕ} (hb : 0 < batch) (hd : ¬ batch ∣ n) :
    n < (batchSizes n batch).sum ∧ (batchSizes n batch).sum < n + batch ∧
      (batchSizes n batch).sum = batch * (n / batch + 1) := by
  have hne : batch * (n / batch) ≠ n := fun h => hd ⟨_, h.symm⟩
  have hmod := Nat.div_add_mod n batch
  have hlt := Nat.mod_lt n hb
  have hsum : (batchSizes n batch).sum = batch * (n / batch + 1) := by
    simp [batchSizes, numBatches, hne, mul_comm]
  rw [hsum]
  have hpos : 0 < n % batch := Nat.pos_of_ne_zero fun h => hd (Nat.dvd_of_mod_eq_zero h)
  rw [mul_add, mul_one]
  exact ⟨by omega, by omega, rfl⟩

/-! ### Non-vacuity -/

example : Open 18 [3, 3] := ⟨by simp, by simp, by norm_num⟩
example : Open 10 [1, 2, 3] := ⟨by simp, by simp, by norm_num⟩
example : Good 2 backToBack := backToBack_good
example : (batchSizes 100 30).sum = 120 := by decide
example : (batchSizes 100 10).sum = 100 := by decide

end Hazma.Rambo
