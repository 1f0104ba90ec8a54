import Verif.Model.FsrGenerator
import Verif.Props.ThreeBody
import Mathlib.Tactic

/-!
# Photon spectra from a radiative squared matrix element (C206–C210)
-/

namespace Hazma.FsrGen

open Hazma.Rambo Hazma.Kinematics Hazma.PhaseSpace

/-! ### Arguments -/

/-- **C206.** Which arguments are refused: fewer than two masses and a closed channel, in this
order; then `"quad"` for more than two bodies, unknown methods, and a Monte-Carlo run (also one
that `"auto"` chooses) whose number of points is not an integer of at least two.  Everything else
is computed: the result has one entry per energy, or the non-radiative integral is not positive. -/
theorem fsr_arguments (env : Env) (energies : List ℝ) (cme : ℝ) (masses : List ℝ) (msq msq0 : Msq)
    (method : String) (npts : Npts) :
    (masses.length < 2 →
      dndePhotonFsr env energies cme masses msq msq0 method npts = .error .value) ∧
    (2 ≤ masses.length → cme ≤ masses.sum →
      dndePhotonFsr env energies cme masses msq msq0 method npts = .error .cmeTooSmall) ∧
    (2 ≤ masses.length → masses.sum < cme →
      ((method = "quad" ∧ 2 < masses.length) ∨ method ∉ ["auto", "quad", "rambo"] ∨
        ((method = "rambo" ∨ (method = "auto" ∧ 2 < masses.length)) ∧
          ∀ n : ℤ, npts = .int n → n < 2) →
        dndePhotonFsr env energies cme masses msq msq0 method npts = .error .value) ∧
      (¬ ((method = "quad" ∧ 2 < masses.length) ∨ method ∉ ["auto", "quad", "rambo"] ∨
        ((method = "rambo" ∨ (method = "auto" ∧ 2 < masses.length)) ∧
          ∀ n : ℤ, npts = .int n → n < 2)) →
        (nonradIntegral env cme masses msq0 npts.toNat energies.length).1 ≤ 0 ∧
          dndePhotonFsr env energies cme masses msq msq0 method npts = .error .value ∨
        0 < (nonradIntegral env cme masses msq0 npts.toNat energies.length).1 ∧
          ∃ r, dndePhotonFsr env energies cme masses msq msq0 method npts = .ok r ∧
            r.length = energies.length)) := by
  have hok : npts.ok = false ↔ ∀ n : ℤ, npts = .int n → n < 2 := by
    cases npts with
    | int n => simp [Npts.ok]
    | other => simp [Npts.ok]
  refine ⟨fun h => if_pos h, fun h h' => ?_, fun h h' => ?_⟩
  · unfold dndePhotonFsr
    rw [if_neg (not_lt.mpr h), if_pos h']
  rw [← hok]
  have hres : resolve method masses.length npts = .error .value ∧
      ((method = "quad" ∧ 2 < masses.length) ∨ method ∉ ["auto", "quad", "rambo"] ∨
        ((method = "rambo" ∨ (method = "auto" ∧ 2 < masses.length)) ∧ npts.ok = false)) ∨
      (∃ m, resolve method masses.length npts = .ok m) ∧
      ¬ ((method = "quad" ∧ 2 < masses.length) ∨ method ∉ ["auto", "quad", "rambo"] ∨
        ((method = "rambo" ∨ (method = "auto" ∧ 2 < masses.length)) ∧ npts.ok = false)) := by
    unfold resolve
    rcases h.eq_or_lt with h2 | h2
    · by_cases ha : method = "auto"
      · subst ha; simp [← h2]
      · by_cases hq : method = "quad"
        · subst hq; simp [← h2]
        · by_cases hr : method = "rambo"
          · subst hr
            cases npts.ok <;> simp
          · simp [ha, hq, hr]
    · have h3 : masses.length ≠ 2 := by omega
      by_cases ha : method = "auto"
      · subst ha
        cases npts.ok <;> simp [h2, h3]
      · by_cases hq : method = "quad"
        · subst hq; simp [h2, h3]
        · by_cases hr : method = "rambo"
          · subst hr
            cases npts.ok <;> simp
          · simp [ha, hq, hr]
  have hE : ∀ e, resolve method masses.length npts = .error e →
      dndePhotonFsr env energies cme masses msq msq0 method npts = .error e := by
    intro e he
    unfold dndePhotonFsr
    rw [if_neg (not_lt.mpr h), if_neg (not_le.mpr h'), he]
  have hO : ∀ m, resolve method masses.length npts = .ok m →
      dndePhotonFsr env energies cme masses msq msq0 method npts
        = loop env m energies cme masses msq msq0 npts.toNat := by
    intro e he
    unfold dndePhotonFsr
    rw [if_neg (not_lt.mpr h), if_neg (not_le.mpr h'), he]
  rcases hres with ⟨hr, hc⟩ | ⟨⟨m, hr⟩, hc⟩
  · rw [hE _ hr]
    exact ⟨fun _ => rfl, fun hn => absurd hc hn⟩
  · rw [hO _ hr]
    refine ⟨fun hp => absurd hp hc, fun _ => ?_⟩
    unfold loop
    by_cases hn : (nonradIntegral env cme masses msq0 npts.toNat energies.length).1 > 0
    · right
      simp only
      rw [if_neg (not_not.mpr hn)]
      exact ⟨hn, _, rfl, by simp⟩
    · left
      simp only
      rw [if_pos hn]
      exact ⟨not_lt.mp hn, rfl⟩

/-! ### Support -/

/-- What an accepted call returns, energy by energy. -/
theorem fsr_ok {env : Env} {energies : List ℝ} {cme : ℝ} {masses : List ℝ} {msq msq0 : Msq}
    {method : String} {npts : Npts} {r : List (ℝ × ℝ)}
    (h : dndePhotonFsr env energies cme masses msq msq0 method npts = .ok r) :
    2 ≤ masses.length ∧ masses.sum < cme ∧ ∃ m, resolve method masses.length npts = .ok m ∧
      0 < (nonradIntegral env cme masses msq0 npts.toNat energies.length).1 ∧
      r = energies.mapIdx fun i e => ratio (numerator env m cme masses msq npts.toNat i e)
        (nonradIntegral env cme masses msq0 npts.toNat energies.length) := by
  unfold dndePhotonFsr at h
  split_ifs at h with h1 h2
  refine ⟨not_lt.mp h1, not_le.mp h2, ?_⟩
  cases hr : resolve method masses.length npts with
  | error e => rw [hr] at h; cases h
  | ok m =>
    rw [hr] at h
    simp only at h
    unfold loop at h
    simp only at h
    split_ifs at h with h3
    injection h with h
    exact ⟨m, rfl, by simpa using h3, h.symm⟩

theorem resolve_ok {method : String} {n : ℕ} {npts : Npts} {m : String}
    (h : resolve method n npts = .ok m) : (m = "quad" ∧ n = 2) ∨ m = "rambo" := by
  unfold resolve at h
  simp only at h
  obtain ⟨t, ht⟩ : ∃ t, t = if method = "auto" then (if n = 2 then "quad" else "rambo") else method :=
    ⟨_, rfl⟩
  rw [← ht] at h
  split_ifs at h with h1 h2 h3
  injection h with h
  subst h
  by_cases hq : t = "quad"
  · left
    exact ⟨hq, by by_contra hn; exact h1 ⟨hq, hn⟩⟩
  · right
    simpa [hq] using h2

/-- **C207.** The spectrum and its error vanish at every energy outside the open interval from zero
to `(cme² - (Σ m)²) / (2 cme)`, with either backend. -/
theorem fsr_support {env : Env} {energies : List ℝ} {cme : ℝ} {masses : List ℝ} {msq msq0 : Msq}
    {method : String} {npts : Npts} {r : List (ℝ × ℝ)} (hm : ∀ m ∈ masses, 0 ≤ m)
    (h : dndePhotonFsr env energies cme masses msq msq0 method npts = .ok r) (i : ℕ)
    (hi : i < energies.length)
    (he : energies[i] ≤ 0 ∨ (cme ^ 2 - masses.sum ^ 2) / (2 * cme) ≤ energies[i]) :
    r[i]? = some (0, 0) := by
  obtain ⟨h2, hopen, m, hr, hpos, rfl⟩ := fsr_ok h
  have hc : 0 < cme := lt_of_le_of_lt (List.sum_nonneg hm) hopen
  have hno : ¬ (energies[i] > 0 ∧ cme * (cme - 2 * energies[i]) > masses.sum ^ 2) := by
    rintro ⟨h3, h4⟩
    rcases he with he | he
    · linarith
    · rw [div_le_iff₀ (by positivity)] at he
      nlinarith
  have hnum : numerator env m cme masses msq npts.toNat i energies[i] = (0, 0) := by
    unfold numerator
    rcases resolve_ok hr with ⟨rfl, hl⟩ | rfl
    · rw [if_pos rfl]
      match masses, hl with
      | [m1, m2], _ =>
        unfold pointQuad
        refine if_pos ?_
        simpa using hno
    · rw [if_neg (by decide)]
      exact if_pos hno
  rw [List.getElem?_mapIdx, List.getElem?_eq_getElem hi]
  simp only [Option.map_some, hnum]
  simp [ratio, hypot]

/-! ### Constants cancel -/

/-- Libraries whose results scale with the function they integrate, as relative tolerances make
them. -/
structure Homogeneous (env : Env) : Prop where
  quad : ∀ (c : ℝ) (f : ℝ → ℝ) (a b : ℝ), 0 < c →
    env.quad (fun x => c * f x) a b = (c * (env.quad f a b).1, c * (env.quad f a b).2)
  three : ∀ (c : ℝ) (q : ℝ) (ms : List ℝ) (f : Msq), 0 < c →
    env.three q ms (fun ps => c * f ps) = (c * (env.three q ms f).1, c * (env.three q ms f).2)
  ramboInt : ∀ (c : ℝ) (q : ℝ) (ms : List ℝ) (f : Msq) (n i : ℕ), 0 < c →
    env.ramboInt q ms (fun ps => c * f ps) n i
      = (c * (env.ramboInt q ms f n i).1, c * (env.ramboInt q ms f n i).2)

theorem splitQuad_smul {env : Env} (h : Homogeneous env) {c : ℝ} (hc : 0 < c) (f : ℝ → ℝ) :
    splitQuad env (fun x => c * f x) = (c * (splitQuad env f).1, c * (splitQuad env f).2) := by
  unfold splitQuad
  simp only [h.quad c f _ _ hc]
  rw [mul_add, mul_add]

theorem nonrad_smul {env : Env} (h : Homogeneous env) {c : ℝ} (hc : 0 < c) (cme : ℝ)
    (masses : List ℝ) (f : Msq) (n i : ℕ) :
    nonradIntegral env cme masses (fun ps => c * f ps) n i
      = (c * (nonradIntegral env cme masses f n i).1, c * (nonradIntegral env cme masses f n i).2) := by
  match masses with
  | [] => exact h.ramboInt c cme [] f n i hc
  | [m] => exact h.ramboInt c cme [m] f n i hc
  | [m1, m2] =>
    simp only [nonradIntegral]
    rw [splitQuad_smul h hc fun ct => f (twoBodyMomenta cme m1 m2 ct)]
    simp only [Prod.mk.injEq]
    constructor <;> ring
  | [m1, m2, m3] => exact h.three c cme [m1, m2, m3] f hc
  | m1 :: m2 :: m3 :: m4 :: ms => exact h.ramboInt c cme _ f n i hc

theorem mean_smul (c : ℝ) (xs : List ℝ) : mean (xs.map (c * ·)) = c * mean xs := by
  unfold mean
  rw [List.sum_map_mul_left, List.length_map]
  simp only [List.map_id']
  ring

theorem std1_smul {c : ℝ} (hc : 0 < c) (xs : List ℝ) : std1 (xs.map (c * ·)) = c * std1 xs := by
  unfold std1
  rw [mean_smul, List.map_map, List.length_map]
  have : (xs.map ((fun x => (x - c * mean xs) ^ 2) ∘ (c * ·)))
      = xs.map fun x => c ^ 2 * (x - mean xs) ^ 2 :=
    List.map_congr_left fun x _ => by simp only [Function.comp]; ring
  rw [this, List.sum_map_mul_left, mul_div_assoc, Real.sqrt_mul (sq_nonneg c), Real.sqrt_sq hc.le]

theorem numerator_smul {env : Env} (h : Homogeneous env) {c : ℝ} (hc : 0 < c) (m : String) (cme : ℝ)
    (masses : List ℝ) (f : Msq) (n i : ℕ) (e : ℝ) :
    numerator env m cme masses (fun ps => c * f ps) n i e
      = (c * (numerator env m cme masses f n i e).1, c * (numerator env m cme masses f n i e).2) := by
  unfold numerator
  split_ifs with hq
  · unfold pointQuad
    simp only
    split_ifs with h1
    · rw [splitQuad_smul h hc fun ct => f (quadEvent _ _ _ _ ct)]
      simp only [Prod.mk.injEq]
      constructor <;> ring
    · simp
  · unfold pointRambo
    simp only
    split_ifs with h1
    · have hmap : ∀ (evs : List (List P4 × ℝ)) (k : P4),
          (evs.map fun ev => ev.2 * (c * f (ev.1 ++ [k])))
          = (evs.map fun ev => ev.2 * f (ev.1 ++ [k])).map (c * ·) := by
        intro evs k
        rw [List.map_map]
        exact List.map_congr_left fun ev _ => by simp only [Function.comp]; ring
      rw [hmap, mean_smul, std1_smul hc]
      simp only [Prod.mk.injEq]
      constructor <;> ring
    · simp

theorem hypot_smul {c : ℝ} (hc : 0 < c) (a b : ℝ) : hypot (c * a) (c * b) = c * hypot a b := by
  unfold hypot
  rw [show (c * a) ^ 2 + (c * b) ^ 2 = c ^ 2 * (a ^ 2 + b ^ 2) by ring,
    Real.sqrt_mul (sq_nonneg c), Real.sqrt_sq hc.le]

/-- **C208.** A positive constant common to both squared matrix elements cancels: spectrum, error
and exceptions are the same.  A constant `a` in the radiative and `b` in the non-radiative one
multiplies the spectrum and its error by `a / b`. -/
theorem fsr_constants_cancel (env : Env) (henv : Homogeneous env) (energies : List ℝ) (cme : ℝ)
    (masses : List ℝ) (msq msq0 : Msq) (method : String) (npts : Npts) (a b : ℝ) (ha : 0 < a)
    (hb : 0 < b) :
    dndePhotonFsr env energies cme masses (fun ps => a * msq ps) (fun ps => b * msq0 ps) method npts
      = (dndePhotonFsr env energies cme masses msq msq0 method npts).map fun r =>
        r.map fun v => (a / b * v.1, a / b * v.2) := by
  unfold dndePhotonFsr
  split_ifs with h1 h2
  · rfl
  · rfl
  · cases resolve method masses.length npts with
    | error e => rfl
    | ok m =>
      simp only
      unfold loop
      simp only
      rw [nonrad_smul henv hb]
      obtain ⟨v, hv⟩ : ∃ v, v = nonradIntegral env cme masses msq0 npts.toNat energies.length :=
        ⟨_, rfl⟩
      rw [← hv]
      by_cases hpos : v.1 > 0
      · rw [if_neg (not_not.mpr (mul_pos hb hpos)), if_neg (not_not.mpr hpos)]
        simp only [Except.map, Except.ok.injEq]
        refine List.ext_getElem (by simp) fun i hi _ => ?_
        simp only [List.getElem_mapIdx, List.getElem_map]
        rw [numerator_smul henv ha]
        obtain ⟨w, hw⟩ : ∃ w, w = numerator env m cme masses msq npts.toNat i
          (energies[i]'(by simpa using hi)) := ⟨_, rfl⟩
        rw [← hw]
        unfold ratio
        simp only [Prod.mk.injEq]
        have hv0 : v.1 ≠ 0 := hpos.ne'
        constructor
        · field_simp
        · rw [← hypot_smul (div_pos ha hb)]
          congr 1 <;> field_simp
      · rw [if_pos hpos, if_pos (by
          intro h
          exact hpos ((mul_pos_iff_of_pos_left hb).mp h))]
        rfl

/-! ### Only physical events -/

/-- A radiative event (specification): the particles `qs` on the mass shells `ms`, the photon `k`
massless, total invariant mass `cme`, and photon energy `e` in the centre-of-mass frame. -/
structure RadEvent (cme e : ℝ) (ms : List ℝ) (qs : List P4) (k : P4) : Prop where
  onShell : List.Forall₂ OnShell qs ms
  photon : OnShell k 0
  mass : mass2 (total (qs ++ [k])) = cme ^ 2
  forward : 0 < (total (qs ++ [k])).e
  energy : k.e * (total (qs ++ [k])).e - k.x * (total (qs ++ [k])).x
    - k.y * (total (qs ++ [k])).y - k.z * (total (qs ++ [k])).z = e * cme

theorem total_append (qs : List P4) (k : P4) : total (qs ++ [k])
    = ⟨(total qs).e + k.e, (total qs).x + k.x, (total qs).y + k.y, (total qs).z + k.z⟩ := by
  simp [total]

/-- A final state at rest with invariant mass `√s'` and a photon along the z-axis form a radiative
event. -/
theorem rad_event {cme e : ℝ} {ms : List ℝ} {qs : List P4} (hc : 0 < cme) (he : 0 < e)
    (hsp : 0 < cme * (cme - 2 * e))
    (h : Physical (Real.sqrt (cme * (cme - 2 * e))) ms qs) :
    RadEvent cme e ms qs ⟨e * cme / Real.sqrt (cme * (cme - 2 * e)), 0, 0,
      e * cme / Real.sqrt (cme * (cme - 2 * e))⟩ := by
  obtain ⟨w, hw⟩ : ∃ w, w = Real.sqrt (cme * (cme - 2 * e)) := ⟨_, rfl⟩
  have hw0 : 0 < w := hw ▸ Real.sqrt_pos.mpr hsp
  have hw2 : w ^ 2 = cme * (cme - 2 * e) := by rw [hw, Real.sq_sqrt hsp.le]
  rw [← hw] at h ⊢
  have hk : 0 < e * cme / w := by positivity
  refine ⟨h.onShell, ⟨by simp, hk.le⟩, ?_, ?_, ?_⟩ <;> rw [total_append, h.conserved]
  · unfold mass2
    have hwk : w * (e * cme / w) = e * cme := by field_simp
    simp only
    linear_combination hw2 + 2 * hwk
  · show 0 < w + e * cme / w
    positivity
  · simp only
    field_simp
    ring

theorem pair_energy {w m1 m2 : ℝ} (hw : 0 < w) (h2 : 0 ≤ m2) (hopen : m1 + m2 < w) :
    m1 ≤ (w ^ 2 + m1 ^ 2 - m2 ^ 2) / (2 * w) := by
  rw [le_div_iff₀ (by positivity)]
  nlinarith [mul_pos (sub_pos.mpr hopen) (show 0 < w - m1 + m2 by linarith)]

theorem two_body_physical {w m1 m2 ct : ℝ} (h1 : 0 ≤ m1) (h2 : 0 ≤ m2) (hopen : m1 + m2 < w)
    (hct : ct ∈ Set.Icc (-1 : ℝ) 1) : Physical w [m1, m2] (twoBodyMomenta w m1 m2 ct) := by
  have hw : 0 < w := by linarith
  have he1 := pair_energy hw h2 hopen
  have he2 := pair_energy (m1 := m2) (m2 := m1) hw h1 (by linarith)
  have hsum : w - (w ^ 2 + m1 ^ 2 - m2 ^ 2) / (2 * w) = (w ^ 2 + m2 ^ 2 - m1 ^ 2) / (2 * w) := by
    field_simp; ring
  unfold twoBodyMomenta
  simp only
  obtain ⟨E, hE⟩ : ∃ E, E = (w ^ 2 + m1 ^ 2 - m2 ^ 2) / (2 * w) := ⟨_, rfl⟩
  rw [← hE] at he1 hsum ⊢
  have hp2 : Real.sqrt (max (E ^ 2 - m1 ^ 2) 0) ^ 2 = E ^ 2 - m1 ^ 2 := by
    rw [max_eq_left (by nlinarith), Real.sq_sqrt (by nlinarith)]
  have hst2 : Real.sqrt (max (1 - ct ^ 2) 0) ^ 2 = 1 - ct ^ 2 := by
    have : 0 ≤ 1 - ct ^ 2 := by nlinarith [hct.1, hct.2]
    rw [max_eq_left this, Real.sq_sqrt this]
  obtain ⟨p, hp⟩ : ∃ p, p = Real.sqrt (max (E ^ 2 - m1 ^ 2) 0) := ⟨_, rfl⟩
  obtain ⟨st, hst⟩ : ∃ st, st = Real.sqrt (max (1 - ct ^ 2) 0) := ⟨_, rfl⟩
  rw [← hp] at hp2 ⊢
  rw [← hst] at hst2 ⊢
  have hE2 : (w - E) ^ 2 - (E ^ 2 - m1 ^ 2) = m2 ^ 2 := by
    rw [hE]; field_simp; ring
  refine ⟨by simp [h1, h2], ?_, ?_⟩
  · refine .cons ⟨?_, he1⟩ (.cons ⟨?_, by show m2 ≤ w - E; rw [hsum]; exact he2⟩ .nil)
    · show E ^ 2 - ((p * st) ^ 2 + 0 ^ 2 + (p * ct) ^ 2) = m1 ^ 2
      linear_combination (-p ^ 2) * hst2 - hp2
    · show (w - E) ^ 2 - ((-p * st) ^ 2 + 0 ^ 2 + (-p * ct) ^ 2) = m2 ^ 2
      linear_combination hE2 - p ^ 2 * hst2 - hp2
  · simp [total]

/-- Libraries that look at a function only where they should, and a generator of physical events. -/
structure Faithful (env : Env) : Prop where
  quad : ∀ (f g : ℝ → ℝ) (a b : ℝ), (∀ x ∈ Set.Icc a b, f x = g x) → env.quad f a b = env.quad g a b
  three : ∀ (q : ℝ) (ms : List ℝ) (f g : Msq), (∀ ps, Physical q ms ps → f ps = g ps) →
    env.three q ms f = env.three q ms g
  ramboInt : ∀ (q : ℝ) (ms : List ℝ) (f g : Msq) (n i : ℕ),
    (∀ ps, Physical q ms ps → f ps = g ps) → env.ramboInt q ms f n i = env.ramboInt q ms g n i
  gen : ∀ (q : ℝ) (ms : List ℝ) (n i : ℕ), ∀ ev ∈ env.gen q ms n i, Physical q ms ev.1

/-- **C209.** The spectrum depends only on the values of the two squared matrix elements on
physical events: radiative ones with the requested photon energy and total invariant mass `cme`,
and non-radiative ones with total momentum `(cme, 0, 0, 0)`. -/
theorem fsr_only_physical (env : Env) (henv : Faithful env) (energies : List ℝ) (cme : ℝ)
    (masses : List ℝ) (hm : ∀ m ∈ masses, 0 ≤ m) (msq msq' msq0 msq0' : Msq) (method : String)
    (npts : Npts)
    (h : ∀ e ∈ energies, ∀ qs k, RadEvent cme e masses qs k → msq (qs ++ [k]) = msq' (qs ++ [k]))
    (h0 : ∀ ps, Physical cme masses ps → msq0 ps = msq0' ps) :
    dndePhotonFsr env energies cme masses msq msq0 method npts
      = dndePhotonFsr env energies cme masses msq' msq0' method npts := by
  unfold dndePhotonFsr
  split_ifs with h1 h2
  · rfl
  · rfl
  have hopen := not_le.mp h2
  have hc : 0 < cme := lt_of_le_of_lt (List.sum_nonneg hm) hopen
  cases hr : resolve method masses.length npts with
  | error e => rfl
  | ok m =>
    simp only
    have hnon : nonradIntegral env cme masses msq0 npts.toNat energies.length
        = nonradIntegral env cme masses msq0' npts.toNat energies.length := by
      match masses, hm, h0, hopen with
      | [], _, h0, _ => exact henv.ramboInt _ _ _ _ _ _ h0
      | [a], _, h0, _ => exact henv.ramboInt _ _ _ _ _ _ h0
      | [m1, m2], hm, h0, hopen =>
        simp only [nonradIntegral]
        have hq : ∀ a b : ℝ, -1 ≤ a → b ≤ 1 →
            env.quad (fun ct => msq0 (twoBodyMomenta cme m1 m2 ct)) a b
              = env.quad (fun ct => msq0' (twoBodyMomenta cme m1 m2 ct)) a b := fun a b ha hb =>
          henv.quad _ _ a b fun x hx => h0 _ (two_body_physical (hm m1 (by simp)) (hm m2 (by simp))
            (by simpa using hopen) ⟨ha.trans hx.1, hx.2.trans hb⟩)
        unfold splitQuad
        rw [hq _ _ le_rfl (by norm_num), hq _ _ (by norm_num) le_rfl]
      | [m1, m2, m3], _, h0, _ => exact henv.three _ _ _ _ h0
      | m1 :: m2 :: m3 :: m4 :: ms, _, h0, _ => exact henv.ramboInt _ _ _ _ _ _ h0
    unfold loop
    rw [hnon]
    simp only
    by_cases hn : (nonradIntegral env cme masses msq0' npts.toNat energies.length).1 > 0
    swap
    · rw [if_pos hn, if_pos hn]
    rw [if_neg (not_not.mpr hn), if_neg (not_not.mpr hn)]
    refine congrArg _ (List.ext_getElem (by simp) fun i hi _ => ?_)
    have hi' : i < energies.length := by simpa using hi
    simp only [List.getElem_mapIdx]
    refine congrArg (fun v => ratio v _) ?_
    have hmem := List.getElem_mem hi'
    obtain ⟨e, he⟩ : ∃ e, e = energies[i] := ⟨_, rfl⟩
    rw [← he] at hmem ⊢
    have hsp : ∀ t : ℝ, cme * (cme - 2 * e) > t ^ 2 → 0 < cme * (cme - 2 * e) :=
      fun t ht => lt_of_le_of_lt (sq_nonneg t) ht
    unfold numerator
    rcases resolve_ok hr with ⟨rfl, hl⟩ | rfl
    · rw [if_pos rfl, if_pos rfl]
      match masses, hl, hm, h with
      | [m1, m2], _, hm, h =>
        unfold pointQuad
        simp only [List.getD_cons_zero, List.getD_cons_succ]
        split_ifs with hcond
        · have hm1 := hm m1 (by simp)
          have hm2 := hm m2 (by simp)
          have hlt : m1 + m2 < Real.sqrt (cme * (cme - 2 * e)) :=
            Real.lt_sqrt_of_sq_lt hcond.2
          have hq : ∀ a b : ℝ, -1 ≤ a → b ≤ 1 →
              env.quad (fun ct => msq (quadEvent (Real.sqrt (cme * (cme - 2 * e)))
                (e * cme / Real.sqrt (cme * (cme - 2 * e))) m1 m2 ct)) a b
              = env.quad (fun ct => msq' (quadEvent (Real.sqrt (cme * (cme - 2 * e)))
                (e * cme / Real.sqrt (cme * (cme - 2 * e))) m1 m2 ct)) a b := fun a b ha hb =>
            henv.quad _ _ a b fun x hx => h e hmem _ _ (rad_event hc hcond.1 (hsp _ hcond.2)
              (two_body_physical hm1 hm2 hlt ⟨ha.trans hx.1, hx.2.trans hb⟩))
          unfold splitQuad
          rw [hq _ _ le_rfl (by norm_num), hq _ _ (by norm_num) le_rfl]
        · rfl
    · rw [if_neg (by decide), if_neg (by decide)]
      unfold pointRambo
      simp only
      split_ifs with hcond
      · have : (env.gen (Real.sqrt (cme * (cme - 2 * e))) masses npts.toNat i).map (fun ev =>
            ev.2 * msq (ev.1 ++ [⟨e * cme / Real.sqrt (cme * (cme - 2 * e)), 0, 0,
              e * cme / Real.sqrt (cme * (cme - 2 * e))⟩]))
          = (env.gen (Real.sqrt (cme * (cme - 2 * e))) masses npts.toNat i).map (fun ev =>
            ev.2 * msq' (ev.1 ++ [⟨e * cme / Real.sqrt (cme * (cme - 2 * e)), 0, 0,
              e * cme / Real.sqrt (cme * (cme - 2 * e))⟩])) :=
          List.map_congr_left fun ev hev => by
            rw [h e hmem _ _ (rad_event hc hcond.1 (hsp _ hcond.2) (henv.gen _ _ _ _ ev hev))]
        rw [this]
      · rfl

/-! ### The three-body distribution -/

theorem splitQuad_exact {env : Env} (hex : ∀ f a b, (env.quad f a b).1 = ∫ x in a..b, f x)
    (f g : ℝ → ℝ) (hg : Continuous g) (hfg : ∀ x ∈ Set.Icc (-1 : ℝ) 1, f x = g x) :
    (splitQuad env f).1 = ∫ x in (-1 : ℝ)..1, g x := by
  unfold splitQuad
  simp only [hex]
  rw [← intervalIntegral.integral_add_adjacent_intervals (b := 0) (hg.intervalIntegrable _ _)
    (hg.intervalIntegrable _ _)]
  congr 1 <;> refine intervalIntegral.integral_congr fun x hx => hfg x ?_
  · rw [Set.uIcc_of_le (by norm_num)] at hx
    exact ⟨hx.1, hx.2.trans (by norm_num)⟩
  · rw [Set.uIcc_of_le (by norm_num)] at hx
    exact ⟨le_trans (by norm_num) hx.1, hx.2⟩

theorem pointQuad_eq {env : Env} (hex : ∀ f a b, (env.quad f a b).1 = ∫ x in a..b, f x)
    {e cme m1 m2 : ℝ} (h1 : 0 ≤ m1) (h2 : 0 ≤ m2) (hopen : m1 + m2 < cme) (he : 0 < e)
    (hemax : e < (cme ^ 2 - (m1 + m2) ^ 2) / (2 * cme)) {msq : Msq} {g : ℝ → ℝ → ℝ}
    (hg : Continuous fun z : ℝ × ℝ => g z.1 z.2)
    (hmsq : ∀ p1 p2 k : P4, msq [p1, p2, k] = g (mass2 (total [p2, k])) (mass2 (total [p1, k])))
    (orig : Option (List P4 → ℝ)) :
    (pointQuad env e cme m1 m2 msq).1
      = ThreeBody.partialIntegration ⟨cme, (m1, m2, 0), orig, g⟩ e 2 := by
  have hc : 0 < cme := by linarith
  have hsp : (m1 + m2) ^ 2 < cme * (cme - 2 * e) := by
    rw [lt_div_iff₀ (by positivity)] at hemax
    nlinarith
  have hsp0 : 0 < cme * (cme - 2 * e) := lt_of_le_of_lt (sq_nonneg _) hsp
  obtain ⟨w, hw⟩ : ∃ w, w = Real.sqrt (cme * (cme - 2 * e)) := ⟨_, rfl⟩
  have hw0 : 0 < w := hw ▸ Real.sqrt_pos.mpr hsp0
  have hw2 : w ^ 2 = cme * (cme - 2 * e) := by rw [hw, Real.sq_sqrt hsp0.le]
  have hlt : m1 + m2 < w := hw ▸ Real.lt_sqrt_of_sq_lt hsp
  obtain ⟨lam, hlam⟩ : ∃ lam, lam = kallenLambda (w ^ 2) (m1 ^ 2) (m2 ^ 2) := ⟨_, rfl⟩
  have hlam0 : 0 < lam := by
    rw [hlam, kallen_factor]
    apply mul_pos <;> apply mul_pos <;> linarith
  obtain ⟨L, hL⟩ : ∃ L, L = Real.sqrt lam := ⟨_, rfl⟩
  have hL0 : 0 < L := hL ▸ Real.sqrt_pos.mpr hlam0
  have hL2 : L ^ 2 = lam := by rw [hL, Real.sq_sqrt hlam0.le]
  obtain ⟨e1, he1⟩ : ∃ e1, e1 = (w ^ 2 + m1 ^ 2 - m2 ^ 2) / (2 * w) := ⟨_, rfl⟩
  have hp : Real.sqrt (max (e1 ^ 2 - m1 ^ 2) 0) = L / (2 * w) := by
    have : e1 ^ 2 - m1 ^ 2 = (L / (2 * w)) ^ 2 := by
      rw [div_pow, hL2, hlam, he1]
      unfold kallenLambda
      field_simp
      ring
    rw [this, max_eq_left (sq_nonneg _), Real.sqrt_sq (by positivity)]
  -- the invariants along the angle
  obtain ⟨eg, heg⟩ : ∃ eg, eg = e * cme / w := ⟨_, rfl⟩
  obtain ⟨G, hG⟩ : ∃ G : ℝ → ℝ, G = fun ct => g (m2 ^ 2 + 2 * eg * (w - e1 + L / (2 * w) * ct))
      (m1 ^ 2 + 2 * eg * (e1 - L / (2 * w) * ct)) := ⟨_, rfl⟩
  have hGc : Continuous G := by
    rw [hG]
    exact hg.comp (f := fun ct : ℝ => (m2 ^ 2 + 2 * eg * (w - e1 + L / (2 * w) * ct),
      m1 ^ 2 + 2 * eg * (e1 - L / (2 * w) * ct))) (by fun_prop)
  have hp2 : e1 ^ 2 - m1 ^ 2 = (L / (2 * w)) ^ 2 := by
    rw [div_pow, hL2, hlam, he1]
    unfold kallenLambda
    field_simp
    ring
  have hp2' : (w - e1) ^ 2 - m2 ^ 2 = (L / (2 * w)) ^ 2 := by
    rw [← hp2, he1]
    field_simp
    ring
  have hang : ∀ ct ∈ Set.Icc (-1 : ℝ) 1, msq (quadEvent w eg m1 m2 ct) = G ct := by
    intro ct hct
    have hst2 : Real.sqrt (max (1 - ct ^ 2) 0) ^ 2 = 1 - ct ^ 2 := by
      have : 0 ≤ 1 - ct ^ 2 := by nlinarith [hct.1, hct.2]
      rw [max_eq_left this, Real.sq_sqrt this]
    unfold quadEvent twoBodyMomenta
    simp only [List.cons_append, List.nil_append]
    rw [hmsq, hG, ← he1, hp]
    obtain ⟨st, hst⟩ : ∃ st, st = Real.sqrt (max (1 - ct ^ 2) 0) := ⟨_, rfl⟩
    rw [← hst] at hst2 ⊢
    obtain ⟨p, hp'⟩ : ∃ p, p = L / (2 * w) := ⟨_, rfl⟩
    rw [← hp'] at hp2 hp2' ⊢
    congr 1
    · simp only [mass2, total, List.map_cons, List.map_nil, List.sum_cons, List.sum_nil]
      linear_combination hp2' - p ^ 2 * hst2
    · simp only [mass2, total, List.map_cons, List.map_nil, List.sum_cons, List.sum_nil]
      linear_combination hp2 - p ^ 2 * hst2
  have hdphi : dphi2 (cme * (cme - 2 * e)) m1 m2 = L / (8 * Real.pi * w ^ 2) := by
    unfold dphi2
    simp only
    rw [← hw2, ← hlam, if_neg (not_le.mpr hlam0), hL]
  have hleft : (pointQuad env e cme m1 m2 msq).1
      = e / (4 * Real.pi ^ 2) * (L / (8 * Real.pi * w ^ 2)) * 0.5 * ∫ ct in (-1 : ℝ)..1, G ct := by
    unfold pointQuad
    simp only
    rw [if_neg (not_not.mpr ⟨he, hsp⟩), ← hw, ← heg, hdphi]
    simp only
    rw [splitQuad_exact hex _ G hGc hang]
  rw [hleft]
  -- the Dalitz slice
  have hx2 : 1 - 2 * e / cme = w ^ 2 / cme ^ 2 := by rw [hw2]; field_simp
  have hsfac : Real.sqrt (kallenLambda 1 ((0 / cme) ^ 2) (1 - 2 * e / cme + (0 / cme) ^ 2)
      * kallenLambda (1 - 2 * e / cme + (0 / cme) ^ 2) ((m2 / cme) ^ 2) ((m1 / cme) ^ 2))
      = 2 * e / cme * L / cme ^ 2 := by
    have : kallenLambda 1 ((0 / cme) ^ 2) (1 - 2 * e / cme + (0 / cme) ^ 2)
        * kallenLambda (1 - 2 * e / cme + (0 / cme) ^ 2) ((m2 / cme) ^ 2) ((m1 / cme) ^ 2)
        = (2 * e / cme * L / cme ^ 2) ^ 2 := by
      have hk1 : kallenLambda 1 ((0 / cme) ^ 2) (1 - 2 * e / cme + (0 / cme) ^ 2)
          = (2 * e / cme) ^ 2 := by
        unfold kallenLambda; ring
      have hk2 : kallenLambda (1 - 2 * e / cme + (0 / cme) ^ 2) ((m2 / cme) ^ 2) ((m1 / cme) ^ 2)
          = lam / cme ^ 4 := by
        rw [hx2, hlam]
        unfold kallenLambda
        field_simp
        ring
      rw [hk1, hk2, ← hL2]
      field_simp
    rw [this, Real.sqrt_sq (by positivity)]
  obtain ⟨A, hA⟩ : ∃ A, A = 0.5 * ((2 - 2 * e / cme)
      * (1 - 2 * e / cme + (0 / cme) ^ 2 + (m2 / cme) ^ 2 - (m1 / cme) ^ 2))
      / (1 - 2 * e / cme + (0 / cme) ^ 2) := ⟨_, rfl⟩
  obtain ⟨B, hB⟩ : ∃ B, B = 0.5 * (2 * e / cme * L / cme ^ 2)
      / (1 - 2 * e / cme + (0 / cme) ^ 2) := ⟨_, rfl⟩
  have hY : ThreeBody.boundsY cme 0 m2 m1 (2 * e / cme) = (A + B * (-1), A + B * 1) := by
    unfold ThreeBody.boundsY
    simp only
    rw [hsfac, hA, hB]
    simp only [Prod.mk.injEq]
    constructor <;> ring
  have hA' : A = (cme - e) / cme * (w ^ 2 + m2 ^ 2 - m1 ^ 2) / w ^ 2 := by
    rw [hA, show 1 - 2 * e / cme + (0 / cme) ^ 2 = w ^ 2 / cme ^ 2 by rw [← hx2]; ring]
    field_simp
    norm_num
  have hB' : B = e * L / (cme * w ^ 2) := by
    rw [hB, show 1 - 2 * e / cme + (0 / cme) ^ 2 = w ^ 2 / cme ^ 2 by rw [← hx2]; ring]
    field_simp
    norm_num
  have hX : ¬ (2 * e / cme < (ThreeBody.boundsX cme 0 m2 m1).1 ∨
      (ThreeBody.boundsX cme 0 m2 m1).2 < 2 * e / cme) := by
    unfold ThreeBody.boundsX
    simp only
    push Not
    constructor
    · rw [show 2 * (0 / cme) = 0 by ring]
      positivity
    · rw [div_le_iff₀ hc]
      have : ((0 / cme) ^ 2 + (1 - (m2 / cme + m1 / cme) ^ 2)) * cme
          = (cme ^ 2 - (m1 + m2) ^ 2) / cme := by
        field_simp
        ring
      rw [this, le_div_iff₀ hc]
      nlinarith
  unfold ThreeBody.partialIntegration
  simp only
  rw [if_neg hX, hY]
  simp only
  rw [← intervalIntegral.smul_integral_comp_add_mul, smul_eq_mul]
  have hB2 : cme ^ 2 * B = 2 * eg * (L / (2 * w)) := by
    rw [hB', heg]
    field_simp
  have hA2 : cme ^ 2 * (1 - A) + m2 ^ 2 = m1 ^ 2 + 2 * eg * e1 := by
    have h3 : cme ^ 2 * (1 - A) + m2 ^ 2 - (m1 ^ 2 + 2 * eg * e1)
        = (m2 ^ 2 - m1 ^ 2) * (w ^ 2 - cme * (cme - 2 * e)) / w ^ 2 := by
      rw [hA', heg, he1]
      field_simp
      ring
    rw [hw2, sub_self, mul_zero, zero_div] at h3
    linarith
  have hint : ∀ ct : ℝ, g (cme ^ 2 * (1 - (2 - (2 * e / cme + (A + B * ct))) + (m1 / cme) ^ 2))
      (cme ^ 2 * (1 - (A + B * ct) + (m2 / cme) ^ 2)) = G ct := by
    intro ct
    have e2 : cme ^ 2 * (1 - (A + B * ct) + (m2 / cme) ^ 2)
        = m1 ^ 2 + 2 * eg * (e1 - L / (2 * w) * ct) := by
      have : cme ^ 2 * (m2 / cme) ^ 2 = m2 ^ 2 := by field_simp
      linear_combination hA2 - ct * hB2 + this
    have e3 : cme ^ 2 * (1 - (2 - (2 * e / cme + (A + B * ct))) + (m1 / cme) ^ 2)
        = m2 ^ 2 + 2 * eg * (w - e1 + L / (2 * w) * ct) := by
      have h3 : cme ^ 2 * (m1 / cme) ^ 2 = m1 ^ 2 := by field_simp
      have h4 : cme ^ 2 * (2 * e / cme) = 2 * eg * w := by rw [heg]; field_simp
      linear_combination h3 + h4 - hA2 + ct * hB2
    rw [hG, e2, e3]
  simp only [hint]
  rw [hB']
  field_simp
  norm_num
  ring

/-- The spectrum at one energy, for a two-body final state, exact quadrature and a non-radiative
matrix element that has the same value `M0` for every event. -/
theorem two_body_ok {env : Env} (hex : ∀ f a b, (env.quad f a b).1 = ∫ x in a..b, f x)
    {cme m1 m2 M0 : ℝ} (h1 : 0 ≤ m1) (h2 : 0 ≤ m2) (hopen : m1 + m2 < cme) (hM0 : 0 < M0)
    (energies : List ℝ) {msq msq0 : Msq} (h0 : ∀ ps, Physical cme [m1, m2] ps → msq0 ps = M0)
    (npts : Npts) :
    ∃ err : ℝ → ℝ, dndePhotonFsr env energies cme [m1, m2] msq msq0 "auto" npts
      = .ok (energies.map fun e =>
        ((pointQuad env e cme m1 m2 msq).1 / (M0 * ThreeBody.twoBodyPrefactor cme m1 m2), err e)) := by
  have hc : 0 < cme := by linarith
  have hlam : 0 < kallenLambda (cme ^ 2) (m1 ^ 2) (m2 ^ 2) := by
    rw [kallen_factor]
    apply mul_pos <;> apply mul_pos <;> linarith
  have hphi : dphi2 (cme ^ 2) m1 m2 = ThreeBody.twoBodyPrefactor cme m1 m2 := by
    unfold dphi2 ThreeBody.twoBodyPrefactor
    simp only
    rw [if_neg (not_le.mpr hlam), max_eq_left hlam.le]
  have hphi0 : 0 < ThreeBody.twoBodyPrefactor cme m1 m2 := by
    rw [← hphi]
    unfold dphi2
    simp only
    rw [if_neg (not_le.mpr hlam)]
    have := Real.sqrt_pos.mpr hlam
    have := Real.pi_pos
    positivity
  have hnon : (nonradIntegral env cme [m1, m2] msq0 npts.toNat energies.length).1
      = M0 * ThreeBody.twoBodyPrefactor cme m1 m2 := by
    simp only [nonradIntegral]
    rw [splitQuad_exact hex _ (fun _ => M0) continuous_const
      (fun x hx => h0 _ (two_body_physical h1 h2 hopen hx)), hphi]
    simp only [intervalIntegral.integral_const, smul_eq_mul]
    ring
  obtain ⟨v, hv⟩ : ∃ v, v = nonradIntegral env cme [m1, m2] msq0 npts.toNat energies.length :=
    ⟨_, rfl⟩
  rw [← hv] at hnon
  refine ⟨fun e => (ratio (pointQuad env e cme m1 m2 msq) v).2, ?_⟩
  have hres : resolve "auto" [m1, m2].length npts = .ok "quad" := by
    simp [resolve]
  unfold dndePhotonFsr
  rw [if_neg (by simp), if_neg (by simpa using hopen), hres]
  simp only
  unfold loop
  simp only
  rw [← hv, if_neg (by rw [hnon]; exact not_not.mpr (mul_pos hM0 hphi0))]
  refine congrArg _ (List.ext_getElem (by simp) fun i hi _ => ?_)
  simp only [List.getElem_mapIdx, List.getElem_map]
  unfold numerator ratio
  simp only [if_true, List.getD_cons_zero, List.getD_cons_succ]
  exact Prod.ext (by simp only [hnon]) rfl

/-- **C210.** For a two-body final state, a Lorentz-invariant radiative matrix element and any
photon energy between zero and the end point, the spectrum is the photon's energy distribution of
the three-body phase space `(m1, m2, 0)`, over the non-radiative width. -/
theorem fsr_is_three_body_distribution (env : Env)
    (hex : ∀ f a b, (env.quad f a b).1 = ∫ x in a..b, f x) (cme m1 m2 M0 : ℝ) (h1 : 0 ≤ m1)
    (h2 : 0 ≤ m2) (hopen : m1 + m2 < cme) (hM0 : 0 < M0) (energies : List ℝ) (msq msq0 : Msq)
    (h0 : ∀ ps, Physical cme [m1, m2] ps → msq0 ps = M0) (g : ℝ → ℝ → ℝ)
    (hg : Continuous fun z : ℝ × ℝ => g z.1 z.2)
    (hmsq : ∀ p1 p2 k : P4, msq [p1, p2, k] = g (mass2 (total [p2, k])) (mass2 (total [p1, k])))
    (npts : Npts) :
    ∃ r, dndePhotonFsr env energies cme [m1, m2] msq msq0 "auto" npts = .ok r ∧
      r.length = energies.length ∧
      ∀ (i : ℕ) (e : ℝ) (v : ℝ × ℝ), energies[i]? = some e → r[i]? = some v → 0 < e →
        e < (cme ^ 2 - (m1 + m2) ^ 2) / (2 * cme) →
        v.1 = ThreeBody.partialIntegration (ThreeBody.create cme (m1, m2, 0) (.st g)) e 2
          / (M0 * ThreeBody.twoBodyPrefactor cme m1 m2) := by
  obtain ⟨err, h⟩ := two_body_ok hex h1 h2 hopen hM0 energies (msq := msq) h0 npts
  refine ⟨_, h, by simp, ?_⟩
  intro i e v hi hv he hemax
  rw [List.getElem?_map, hi] at hv
  simp only [Option.map_some, Option.some.injEq] at hv
  rw [← hv]
  simp only
  rw [pointQuad_eq hex h1 h2 hopen he hemax hg hmsq none]
  rfl

/-- **C210.** The number of photons: the spectrum integrated over all photon energies is the
three-body integral of the radiative matrix element divided by the non-radiative one. -/
theorem fsr_total (env : Env) (hex : ∀ f a b, (env.quad f a b).1 = ∫ x in a..b, f x)
    (cme m1 m2 M0 : ℝ) (h1 : 0 ≤ m1) (h2 : 0 ≤ m2) (hopen : m1 + m2 < cme) (hM0 : 0 < M0)
    (msq msq0 : Msq) (h0 : ∀ ps, Physical cme [m1, m2] ps → msq0 ps = M0) (g : ℝ → ℝ → ℝ)
    (hg : Continuous fun z : ℝ × ℝ => g z.1 z.2)
    (hmsq : ∀ p1 p2 k : P4, msq [p1, p2, k] = g (mass2 (total [p2, k])) (mass2 (total [p1, k])))
    (npts : Npts) (dnde err : ℝ → ℝ)
    (hd : ∀ e, dndePhotonFsr env [e] cme [m1, m2] msq msq0 "auto" npts = .ok [(dnde e, err e)]) :
    ∫ e in (0 : ℝ)..(cme ^ 2 - (m1 + m2) ^ 2) / (2 * cme), dnde e
      = ThreeBody.integrateQuad (ThreeBody.create cme (m1, m2, 0) (.st g))
        / (M0 * ThreeBody.twoBodyPrefactor cme m1 m2) := by
  have hc : 0 < cme := by linarith
  have hle : 0 ≤ (cme ^ 2 - (m1 + m2) ^ 2) / (2 * cme) := by
    apply div_nonneg _ (by positivity)
    nlinarith
  have hdist := ThreeBody.energy_distribution_total
    (st := ThreeBody.create cme (m1, m2, 0) (.st g)) hc h1 h2 le_rfl
    (by show m1 + m2 + 0 ≤ cme; linarith) hg 2 (lo := 0)
    (hi := (cme ^ 2 - (m1 + m2) ^ 2) / (2 * cme)) (by
      simp [ThreeBody.create, energyLimits])
  rw [← hdist, ← intervalIntegral.integral_div]
  rw [intervalIntegral.integral_of_le hle, intervalIntegral.integral_of_le hle,
    MeasureTheory.integral_Ioc_eq_integral_Ioo, MeasureTheory.integral_Ioc_eq_integral_Ioo]
  refine MeasureTheory.setIntegral_congr_fun measurableSet_Ioo fun e he => ?_
  obtain ⟨r, hr, -, hval⟩ := fsr_is_three_body_distribution env hex cme m1 m2 M0 h1 h2 hopen hM0 [e]
    msq msq0 h0 g hg hmsq npts
  rw [hd e] at hr
  injection hr with hr
  exact hval 0 e (dnde e, err e) rfl (by rw [← hr]; rfl) he.1 he.2

/-- Pure phase space, the example of the docstring: muons at 300 MeV. -/
example (env : Env) (hex : ∀ f a b, (env.quad f a b).1 = ∫ x in a..b, f x) :
    ∃ r, dndePhotonFsr env [10, 50] 300 [105.658, 105.658] (fun _ => 1) (fun _ => 1) = .ok r ∧
      r.length = 2 := by
  obtain ⟨r, hr, hl, -⟩ := fsr_is_three_body_distribution env hex 300 105.658 105.658 1 (by norm_num)
    (by norm_num) (by norm_num) one_pos [10, 50] (fun _ => 1) (fun _ => 1) (fun _ _ => rfl)
    (fun _ _ => 1) continuous_const (fun _ _ _ => rfl) (.int 16384)
  exact ⟨r, hr, hl⟩

/-- **C210.** The two backends agree for a constant radiative matrix element: with exact two-body
events (whose weight is the two-body phase space) the Monte-Carlo backend gives the numerator of the
quadrature backend, with zero error. -/
theorem fsr_backends_agree_flat (env : Env)
    (hex : ∀ f a b, (env.quad f a b).1 = ∫ x in a..b, f x) (e cme m1 m2 M : ℝ) (npts stream : ℕ)
    (hne : env.gen (Real.sqrt (cme * (cme - 2 * e))) [m1, m2] npts stream ≠ [])
    (hw : ∀ ev ∈ env.gen (Real.sqrt (cme * (cme - 2 * e))) [m1, m2] npts stream,
      ev.2 = ThreeBody.twoBodyPrefactor (Real.sqrt (cme * (cme - 2 * e))) m1 m2)
    (h1 : 0 ≤ m1) (h2 : 0 ≤ m2) :
    pointRambo env e cme [m1, m2] (fun _ => M) npts stream
      = ((pointQuad env e cme m1 m2 fun _ => M).1, 0) := by
  unfold pointRambo pointQuad
  simp only [List.sum_cons, List.sum_nil, add_zero]
  by_cases hcond : e > 0 ∧ cme * (cme - 2 * e) > (m1 + m2) ^ 2
  swap
  · rw [if_pos hcond, if_pos hcond]
  rw [if_neg (not_not.mpr hcond), if_neg (not_not.mpr hcond)]
  have hsp0 : 0 < cme * (cme - 2 * e) := lt_of_le_of_lt (sq_nonneg _) hcond.2
  obtain ⟨w, hw'⟩ : ∃ w, w = Real.sqrt (cme * (cme - 2 * e)) := ⟨_, rfl⟩
  rw [← hw'] at hne hw
  have hw2 : cme * (cme - 2 * e) = w ^ 2 := by rw [hw', Real.sq_sqrt hsp0.le]
  have hw0 : 0 < w := hw' ▸ Real.sqrt_pos.mpr hsp0
  have hlt : m1 + m2 < w := hw' ▸ Real.lt_sqrt_of_sq_lt hcond.2
  have hlam : 0 < kallenLambda (w ^ 2) (m1 ^ 2) (m2 ^ 2) := by
    rw [kallen_factor]
    apply mul_pos <;> apply mul_pos <;> linarith
  have hphi : dphi2 (w ^ 2) m1 m2 = ThreeBody.twoBodyPrefactor w m1 m2 := by
    unfold dphi2 ThreeBody.twoBodyPrefactor
    simp only
    rw [if_neg (not_le.mpr hlam), max_eq_left hlam.le]
  rw [splitQuad_exact hex _ (fun _ => M) continuous_const (fun _ _ => rfl), ← hw', hw2, hphi]
  obtain ⟨evs, hevs⟩ : ∃ evs, evs = env.gen w [m1, m2] npts stream := ⟨_, rfl⟩
  have hlist : evs.map (fun ev => ev.2 * M)
      = List.replicate evs.length (ThreeBody.twoBodyPrefactor w m1 m2 * M) := by
    rw [List.eq_replicate_iff]
    refine ⟨by simp, fun b hb => ?_⟩
    obtain ⟨ev, hev, rfl⟩ := List.mem_map.mp hb
    rw [hw ev (hevs ▸ hev)]
  rw [← hevs, hlist]
  have hlen : (evs.length : ℝ) ≠ 0 := by
    have : evs ≠ [] := hevs ▸ hne
    simpa using this
  have hmean : ∀ a : ℝ, mean (List.replicate evs.length a) = a := by
    intro a
    unfold mean
    rw [List.sum_replicate, List.length_replicate, nsmul_eq_mul]
    field_simp
  have hstd : ∀ a : ℝ, std1 (List.replicate evs.length a) = 0 := by
    intro a
    unfold std1
    rw [hmean, List.map_replicate]
    simp
  rw [hmean, hstd]
  simp only [intervalIntegral.integral_const, smul_eq_mul, zero_div, mul_zero, Prod.mk.injEq,
    and_true]
  ring

/-! ### Concrete cases -/

/-- Exact quadrature, and a generator of back-to-back pairs. -/
noncomputable def exactEnv : Env where
  quad f a b := (∫ x in a..b, f x, 0)
  three _ _ _ := (0, 0)
  ramboInt _ _ _ _ _ := (0, 0)
  gen q ms n _ := match ms with
    | [m1, m2] => if 0 ≤ m1 ∧ 0 ≤ m2 ∧ m1 + m2 < q then
        List.replicate n (twoBodyMomenta q m1 m2 0, ThreeBody.twoBodyPrefactor q m1 m2) else []
    | _ => []

/-- The hypotheses on the libraries can be met. -/
theorem exactEnv_homogeneous : Homogeneous exactEnv where
  quad c f a b _ := by
    show ((∫ x in a..b, c * f x), (0 : ℝ)) = (c * ∫ x in a..b, f x, c * 0)
    rw [intervalIntegral.integral_const_mul, mul_zero]
  three c _ _ _ _ := by show ((0 : ℝ), (0 : ℝ)) = (c * 0, c * 0); simp
  ramboInt c _ _ _ _ _ _ := by show ((0 : ℝ), (0 : ℝ)) = (c * 0, c * 0); simp

/-- The spectrum of two muons at 300 MeV with twice the radiative matrix element is twice as
large. -/
example : dndePhotonFsr exactEnv [10, 50] 300 [105, 105] (fun _ => 2 * 3) (fun _ => 1 * 5)
    = (dndePhotonFsr exactEnv [10, 50] 300 [105, 105] (fun _ => 3) (fun _ => 5)).map fun r =>
        r.map fun v => (2 / 1 * v.1, 2 / 1 * v.2) :=
  fsr_constants_cancel exactEnv exactEnv_homogeneous [10, 50] 300 [105, 105] (fun _ => 3)
    (fun _ => 5) "auto" (.int 16384) 2 1 (by norm_num) (by norm_num)

/-- The end point for these muons is 76.5 MeV. -/
example (r : List (ℝ × ℝ))
    (h : dndePhotonFsr exactEnv [10, 76.5] 300 [105, 105] (fun _ => 3) (fun _ => 5) = .ok r) :
    r[1]? = some (0, 0) :=
  fsr_support (by intro m hm; simp at hm; rw [hm]; norm_num) h 1 (by simp)
    (Or.inr (by norm_num))

/-- Four bodies with `"quad"`, a closed channel, and one point for the Monte Carlo. -/
example : dndePhotonFsr exactEnv [10] 300 [1, 1, 1] (fun _ => 1) (fun _ => 1) "quad"
      = .error .value ∧
    dndePhotonFsr exactEnv [10] 200 [105, 105] (fun _ => 1) (fun _ => 1) = .error .cmeTooSmall ∧
    dndePhotonFsr exactEnv [10] 300 [105, 105] (fun _ => 1) (fun _ => 1) "rambo" (.int 1)
      = .error .value := by
  refine ⟨?_, ?_, ?_⟩
  · refine ((fsr_arguments exactEnv [10] 300 [1, 1, 1] _ _ "quad" (.int 16384)).2.2 (by simp)
      (by norm_num)).1 (Or.inl ⟨rfl, by simp⟩)
  · refine (fsr_arguments exactEnv [10] 200 [105, 105] _ _ "auto" (.int 16384)).2.1 (by simp)
      (by norm_num)
  · refine ((fsr_arguments exactEnv [10] 300 [105, 105] _ _ "rambo" (.int 1)).2.2 (by simp)
      (by norm_num)).1 (Or.inr (Or.inr ⟨Or.inl rfl, fun n hn => ?_⟩))
    injection hn with hn
    omega

/-- Both backends for a constant matrix element. -/
example : pointRambo exactEnv 10 300 [105, 105] (fun _ => 7) 100 0
    = ((pointQuad exactEnv 10 300 105 105 fun _ => 7).1, 0) := by
  have hg : exactEnv.gen (Real.sqrt (300 * (300 - 2 * 10))) [105, 105] 100 0
      = List.replicate 100 (twoBodyMomenta (Real.sqrt (300 * (300 - 2 * 10))) 105 105 0,
        ThreeBody.twoBodyPrefactor (Real.sqrt (300 * (300 - 2 * 10))) 105 105) :=
    if_pos ⟨by norm_num, by norm_num, Real.lt_sqrt_of_sq_lt (by norm_num)⟩
  refine fsr_backends_agree_flat exactEnv (fun _ _ _ => rfl) 10 300 105 105 7 100 0 ?_ ?_
    (by norm_num) (by norm_num)
  · rw [hg]; simp
  · rw [hg]; intro ev hev; rw [(List.mem_replicate.mp hev).2]

end Hazma.FsrGen
