import Verif.Model.ScalarConstraints
import Verif.Props.ScalarModel
import Mathlib.Tactic

/-!
# Laboratory constraints on the scalar mediator: sign, size and where they break

C61 and C113-C115.
-/

namespace Hazma.ScalarConstraints

open Hazma Hazma.ScalarModel

/-- Non-negative constant factors. -/
structure Flavour.Physical (f : Flavour) : Prop where
  kB : 0 ≤ f.kB
  kK : 0 ≤ f.kK
  kKl : 0 ≤ f.kKl
  kXs : 0 ≤ f.kXs

theorem prod_nonneg (f : Flavour) (hf : f.Physical) (s : Base) (ch : Chan) : 0 ≤ ch.prod f s := by
  have h1 := hf.kB
  have h2 := hf.kK
  have h3 := hf.kKl
  cases ch <;> simp only [Chan.prod, widthBK, widthKPi, widthKlPi0] <;> split <;> positivity

theorem prod_decoupled (f : Flavour) (s : Base) (h : s.gsff = 0) (ch : Chan) : ch.prod f s = 0 := by
  cases ch <;> simp [Chan.prod, widthBK, widthKPi, widthKlPi0, h]

theorem prod_closed (f : Flavour) (s : Base) (ch : Chan) (h : ch.masses.1 - ch.masses.2 < s.ms) :
    ch.prod f s = 0 := by
  cases ch <;> simp only [Chan.masses] at h <;> simp only [Chan.prod, widthBK, widthKPi, widthKlPi0] <;>
    rw [if_neg (by linarith)]

theorem masses_pos (ch : Chan) : 0 < ch.masses.2 ∧ ch.masses.2 < ch.masses.1 := by
  cases ch <;> simp only [Chan.masses, mB, mk, mpi, mkl, mpi0] <;> norm_num

/-- Inside the kinematic limit the momentum is a number, and positive strictly inside. -/
theorem momentum_ok (ch : Chan) {ms : ℝ} (h0 : 0 ≤ ms) (h : ms ≤ ch.masses.1 - ch.masses.2) :
    ∃ p, momentumOf ch.masses.1 ch.masses.2 ms = some p ∧ 0 ≤ p
      ∧ (p = 0 ↔ ms = ch.masses.1 - ch.masses.2) := by
  obtain ⟨hd, hM⟩ := masses_pos ch
  generalize ch.masses.1 = M at *
  generalize ch.masses.2 = d at *
  have h1 : 0 ≤ M - d - ms := by linarith
  have h2 : 0 < M + d - ms := by linarith
  have h3 : 0 < M - d + ms := by linarith
  have h4 : 0 < M + d + ms := by linarith
  have hr : 0 ≤ (M - d - ms) * (M + d - ms) * (M - d + ms) * (M + d + ms) := by positivity
  refine ⟨Real.sqrt ((M - d - ms) * (M + d - ms) * (M - d + ms) * (M + d + ms)) / (2 * M), ?_, ?_, ?_⟩
  · simp only [momentumOf]
    rw [if_neg (by linarith)]
  · have : 0 < M := by linarith
    positivity
  · have hM0 : 2 * M ≠ 0 := by linarith
    rw [div_eq_zero_iff, Real.sqrt_eq_zero hr]
    constructor
    · rintro (h | h)
      · simp only [mul_eq_zero] at h
        rcases h with ((h | h) | h) | h <;> linarith
      · exact absurd h hM0
    · intro h
      left
      have : M - d - ms = 0 := by linarith
      rw [this]; ring

theorem survive_ok {r w ms ps : ℝ} (hr : 0 < r) (hw : 0 < w) (hms : 0 < ms) (hps : 0 ≤ ps) :
    ∃ p, survive r w ms ps = some p ∧ 0 ≤ p ∧ p ≤ 1 := by
  unfold survive
  by_cases h : ps = 0
  · rw [if_pos h, if_pos (by positivity)]
    exact ⟨0, rfl, le_rfl, zero_le_one⟩
  · rw [if_neg h]
    have : 0 < ps := lt_of_le_of_ne hps (Ne.symm h)
    refine ⟨_, rfl, (Real.exp_pos _).le, Real.exp_le_one_iff.mpr ?_⟩
    have : 0 ≤ r * w * ms / ps := by positivity
    have e : -r * w * ms / ps = -(r * w * ms / ps) := by ring
    rw [e]; linarith

/-- The contribution is a number between zero and the production width. -/
theorem contribution_bounds (c : Consts) (hc : c.Physical) (ch : Chan) (f : Flavour) (hf : f.Physical)
    {r : ℝ} (hr : 0 < r) (s : Base) (hvs : s.vs = 0) (hl : s.lam ≠ 0) (hms : 0 < s.ms) (hmx : 0 ≤ s.mx)
    (hkin : s.ms ≤ ch.masses.1 - ch.masses.2) (htot : ∀ w, totalWidth c s = .ok w → w ≠ 0) :
    ∃ d x, partialWidths c s = .ok d ∧ contribution ch f r s d = some x ∧ 0 ≤ x ∧ x ≤ ch.prod f s := by
  obtain ⟨gg, pi0, pi, xx, ee, mumu, hd, n1, n2, n3, n4, n5, n6, -⟩ :=
    scalar_widths c hc s hvs hl hms.le hmx
  obtain ⟨T, hT⟩ : ∃ T, T = gg + pi0 + pi + xx + ee + mumu := ⟨_, rfl⟩
  rw [← hT] at hd
  have hT0 : T ≠ 0 := htot T (by
    simp [totalWidth, hd, bind, Except.bind, pure, Except.pure, Dict.get?])
  have hTpos : 0 < T := lt_of_le_of_ne (by rw [hT]; positivity) (Ne.symm hT0)
  obtain ⟨p, hp, hp0, -⟩ := momentum_ok ch hms.le hkin
  obtain ⟨q, hq, hq0, hq1⟩ := survive_ok hr hTpos hms hp0
  have hP := prod_nonneg f hf s ch
  have hxx : xx ≤ T := by rw [hT]; linarith
  have hee : ee ≤ T := by rw [hT]; linarith
  have hmm : mumu ≤ T := by rw [hT]; linarith
  have key : ∀ y, 0 ≤ y → y ≤ T → 0 ≤ ch.prod f s * y / T ∧ ch.prod f s * y / T ≤ ch.prod f s := by
    intro y h0 h1
    refine ⟨by positivity, ?_⟩
    rw [div_le_iff₀ hTpos]
    exact mul_le_mul_of_nonneg_left h1 hP
  have vis : ∀ y, 0 ≤ y → y ≤ T → 0 ≤ ch.prod f s * y / T * (1 - q)
      ∧ ch.prod f s * y / T * (1 - q) ≤ ch.prod f s := by
    intro y h0 h1
    obtain ⟨k0, k1⟩ := key y h0 h1
    have : 0 ≤ 1 - q := by linarith
    refine ⟨by positivity, ?_⟩
    nlinarith
  have inv : 0 ≤ xx + q * (T - xx) ∧ xx + q * (T - xx) ≤ T := by
    have : 0 ≤ T - xx := by linarith
    constructor
    · positivity
    · nlinarith
  refine ⟨_, ?x, hd, ?_⟩
  case x => exact match ch.final with
    | none => ch.prod f s * (xx + q * (T - xx)) / T
    | some fs => ch.prod f s * (if fs = "e e" then ee else mumu) / T * (1 - q)
  have hget : ∀ k, Dict.get? ([("g g", gg), ("pi0 pi0", pi0), ("pi pi", pi), ("x x", xx), ("e e", ee),
      ("mu mu", mumu), ("total", T)] : Dict ℝ) k
      = if k = "g g" then some gg else if k = "pi0 pi0" then some pi0 else if k = "pi pi" then some pi
        else if k = "x x" then some xx else if k = "e e" then some ee else if k = "mu mu" then some mumu
        else if k = "total" then some T else none := by
    intro k
    simp only [Dict.get?]
    grind
  cases ch <;>
    simp [contribution, hget, hp, hq, Chan.final, hT0] <;>
    first
    | exact key _ inv.1 inv.2
    | exact vis _ n5 hee
    | exact vis _ n6 hmm

/-- The window of the pion momentum in `K⁺ -> π⁺ invisible` is a window of the missing mass: with the kaon at
rest, `sOfP p` is the square of the four-momentum it leaves to the scalar, cut at zero; larger momenta leave
less. -/
theorem missing_mass (p : ℝ) :
    sOfP p = max ((mk - Real.sqrt (mpi ^ 2 + p ^ 2)) ^ 2 - p ^ 2) 0
    ∧ ∀ q, |p| ≤ |q| → sOfP q ≤ sOfP p := by
  have h := Real.sq_sqrt (show (0 : ℝ) ≤ mpi ^ 2 + p ^ 2 by positivity)
  constructor
  · unfold sOfP
    congr 1
    linear_combination -h
  · intro q hpq
    have hk : 0 < mk := by unfold mk; norm_num
    have : Real.sqrt (mpi ^ 2 + p ^ 2) ≤ Real.sqrt (mpi ^ 2 + q ^ 2) :=
      Real.sqrt_le_sqrt (by linarith [sq_le_sq.mpr hpq])
    unfold sOfP
    refine max_le_max ?_ le_rfl
    nlinarith

/-- Every window except the one of `K_L -> pi0 e e` lies inside the kinematic limit of its decay. -/
theorem window_kinematic (ch : Chan) (hch : ch ≠ .klEE) {ms : ℝ} (h0 : 0 ≤ ms) (hw : inWindow ch ms) :
    ms ≤ ch.masses.1 - ch.masses.2 := by
  have hpos : 0 ≤ ch.masses.1 - ch.masses.2 := by linarith [(masses_pos ch).2]
  have hsq : ms ^ 2 ≤ (ch.masses.1 - ch.masses.2) ^ 2 := by
    obtain ⟨b, hb, -, h2⟩ := hw
    refine h2.trans ?_
    have hp : ∀ p, sOfP p ≤ (mk - mpi) ^ 2 := by
      intro p
      have : mpi ≤ Real.sqrt (mpi ^ 2 + p ^ 2) := Real.le_sqrt_of_sq_le (by nlinarith [sq_nonneg p])
      have hk : 0 < mk := by unfold mk; norm_num
      exact max_le (by nlinarith) (sq_nonneg _)
    cases ch <;> simp only [Chan.bounds, List.mem_cons, List.not_mem_nil, or_false] at hb
    · subst hb; simp only [Chan.masses, mB, mk]; norm_num
    · rcases hb with rfl | rfl | rfl <;> simp only [Chan.masses, mB, mk] <;> norm_num
    · rcases hb with rfl | rfl <;> simp only [Chan.masses, mB, mk] <;> norm_num
    · rcases hb with rfl | rfl <;> exact hp _
    · subst hb; simp only [Chan.masses, mkl, mpi0]; norm_num
    · exact absurd rfl hch
  exact (sq_le_sq₀ h0 hpos).mp hsq

/-- C61 (partial: the constraint from `K_L -> pi0 e e` needs the scalar to be lighter than the kinematic limit,
see `kl_ee_not_a_number`, and the scalar has to decay at all, see `stable_not_a_number`): each rare-decay
constraint is a number, never above the measured bound and never further below it than the production width; it
equals the bound outside the window and when the scalar decouples from fermions. -/
theorem rare_decay_bounded_partial (c : Consts) (hc : c.Physical) (ch : Chan) (f : Flavour) (hf : f.Physical)
    (r bound : ℝ) (hr : 0 < r) (s : Base) (hvs : s.vs = 0) (hl : s.lam ≠ 0) (hms : 0 < s.ms)
    (hmx : 0 ≤ s.mx) (hkl : ch = .klEE → s.ms ≤ mkl - mpi0)
    (htot : ∀ w, totalWidth c s = .ok w → w ≠ 0) :
    ∃ v, rareDecay c ch f r bound s = .ok (some v) ∧ v ≤ bound ∧ bound - ch.prod f s ≤ v
      ∧ (¬ inWindow ch s.ms → v = bound) ∧ (s.gsff = 0 → v = bound) := by
  by_cases hw : inWindow ch s.ms
  · have hkin : s.ms ≤ ch.masses.1 - ch.masses.2 := by
      by_cases h : ch = .klEE
      · subst h; exact hkl rfl
      · exact window_kinematic ch h hms.le hw
    obtain ⟨d, x, hd, hx, h0, h1⟩ := contribution_bounds c hc ch f hf hr s hvs hl hms hmx hkin htot
    refine ⟨bound - x, ?_, by linarith, by linarith, fun h => absurd hw h, fun h => ?_⟩
    · simp only [rareDecay, if_pos hw, hd, hx, Option.map]
    · rw [prod_decoupled f s h ch] at h1
      linarith
  · refine ⟨bound, ?_, le_rfl, ?_, fun _ => rfl, fun _ => rfl⟩
    · simp only [rareDecay, if_neg hw]
    · linarith [prod_nonneg f hf s ch]

theorem survive_mono {r1 r2 w ms ps : ℝ} (hr1 : 0 < r1) (hr : r1 ≤ r2) (hw : 0 < w) (hms : 0 < ms)
    (hps : 0 ≤ ps) {p1 p2 : ℝ} (h1 : survive r1 w ms ps = some p1) (h2 : survive r2 w ms ps = some p2) :
    p2 ≤ p1 := by
  have hr2 : 0 < r2 := by linarith
  unfold survive at h1 h2
  by_cases h : ps = 0
  · rw [if_pos h, if_pos (by positivity)] at h1 h2
    simp only [Option.some.injEq] at h1 h2
    rw [← h1, ← h2]
  · rw [if_neg h] at h1 h2
    simp only [Option.some.injEq] at h1 h2
    rw [← h1, ← h2]
    apply Real.exp_le_exp.mpr
    have hp : 0 < ps := lt_of_le_of_ne hps (Ne.symm h)
    apply div_le_div_of_nonneg_right _ hp.le
    have : r1 * (w * ms) ≤ r2 * (w * ms) := mul_le_mul_of_nonneg_right hr (by positivity)
    linarith

/-- C116: which decays count.  For the visible channels the contribution is at most production times the
branching fraction into that channel, and grows with the radius within which decays are seen; for the invisible
ones it is at least production times the branching fraction into dark matter, shrinks with the radius beyond
which decays are invisible, and is the whole production width when the scalar only decays to dark matter. -/
theorem rare_decay_fraction (c : Consts) (hc : c.Physical) (ch : Chan) (f : Flavour) (hf : f.Physical)
    (r r' bound : ℝ) (hr : 0 < r) (hr' : r ≤ r') (s : Base) (hvs : s.vs = 0) (hl : s.lam ≠ 0)
    (hms : 0 < s.ms) (hmx : 0 ≤ s.mx) (hkin : s.ms ≤ ch.masses.1 - ch.masses.2)
    (hw : inWindow ch s.ms) (d : Dict ℝ) (hd : partialWidths c s = .ok d)
    (T : ℝ) (hT : d.get? "total" = some T) (hT0 : T ≠ 0) :
    ∃ v v', rareDecay c ch f r bound s = .ok (some v) ∧ rareDecay c ch f r' bound s = .ok (some v')
      ∧ (ch.final = none → v ≤ v' ∧ ∀ xx, d.get? "x x" = some xx →
          v' ≤ bound - ch.prod f s * (xx / T) ∧ (xx = T → v = bound - ch.prod f s))
      ∧ (∀ fs, ch.final = some fs → v' ≤ v ∧ ∀ w, d.get? fs = some w →
          bound - ch.prod f s * (w / T) ≤ v' ∧ (w = 0 → v = bound)) := by
  obtain ⟨gg, pi0, pi, xx, ee, mumu, hd', n1, n2, n3, n4, n5, n6, -⟩ :=
    scalar_widths c hc s hvs hl hms.le hmx
  obtain ⟨T', hT'⟩ : ∃ T', T' = gg + pi0 + pi + xx + ee + mumu := ⟨_, rfl⟩
  rw [← hT'] at hd'
  rw [hd] at hd'
  obtain rfl : d = _ := by simpa using hd'
  have hget : ∀ k, Dict.get? ([("g g", gg), ("pi0 pi0", pi0), ("pi pi", pi), ("x x", xx), ("e e", ee),
      ("mu mu", mumu), ("total", T')] : Dict ℝ) k
      = if k = "g g" then some gg else if k = "pi0 pi0" then some pi0 else if k = "pi pi" then some pi
        else if k = "x x" then some xx else if k = "e e" then some ee else if k = "mu mu" then some mumu
        else if k = "total" then some T' else none := by
    intro k
    simp only [Dict.get?]
    grind
  obtain rfl : T' = T := by simpa [hget] using hT
  have hTpos : 0 < T' := lt_of_le_of_ne (by rw [hT']; positivity) (Ne.symm hT0)
  obtain ⟨p, hp, hp0, -⟩ := momentum_ok ch hms.le hkin
  obtain ⟨q, hq, hq0, hq1⟩ := survive_ok hr hTpos hms hp0
  obtain ⟨q', hqq, hqq0, hqq1⟩ := survive_ok (lt_of_lt_of_le hr hr') hTpos hms hp0
  have hmono : q' ≤ q := survive_mono hr hr' hTpos hms hp0 hq hqq
  have hP := prod_nonneg f hf s ch
  have hxT : 0 ≤ T' - xx := by rw [hT']; linarith
  have inv : ∀ g h : ℝ, g ≤ h → ch.prod f s * (xx + g * (T' - xx)) / T'
      ≤ ch.prod f s * (xx + h * (T' - xx)) / T' := by
    intro g h hgh
    apply div_le_div_of_nonneg_right _ hTpos.le
    apply mul_le_mul_of_nonneg_left _ hP
    have := mul_le_mul_of_nonneg_right hgh hxT
    linarith
  have vis : ∀ w g h : ℝ, 0 ≤ w → g ≤ h → ch.prod f s * w / T' * (1 - h)
      ≤ ch.prod f s * w / T' * (1 - g) := by
    intro w g h hw hgh
    apply mul_le_mul_of_nonneg_left (by linarith)
    positivity
  by_cases hinv : ch.final = none
  · refine ⟨bound - ch.prod f s * (xx + q * (T' - xx)) / T', bound - ch.prod f s * (xx + q' * (T' - xx)) / T',
      ?_, ?_, fun _ => ⟨?_, fun y hy => ?_⟩, fun fs h => absurd h (by rw [hinv]; simp)⟩
    · simp [rareDecay, hw, hd, contribution, hget, hp, hq, hinv, hT0]
    · simp [rareDecay, hw, hd, contribution, hget, hp, hqq, hinv, hT0]
    · linarith [inv q' q hmono]
    · obtain rfl : xx = y := by simpa [hget] using hy
      constructor
      · have := inv 0 q' hqq0
        have e : ch.prod f s * (xx + 0 * (T' - xx)) / T' = ch.prod f s * (xx / T') := by ring
        linarith
      · intro hxx
        have : ch.prod f s * (xx + q * (T' - xx)) / T' = ch.prod f s := by
          rw [hxx]; field_simp; ring
        linarith
  · obtain ⟨fs, hfs⟩ := Option.ne_none_iff_exists'.mp hinv
    obtain ⟨w, hwget, hw0⟩ : ∃ w, Dict.get? ([("g g", gg), ("pi0 pi0", pi0), ("pi pi", pi), ("x x", xx),
        ("e e", ee), ("mu mu", mumu), ("total", T')] : Dict ℝ) fs = some w ∧ 0 ≤ w := by
      cases ch <;> simp only [Chan.final, Option.some.injEq, reduceCtorEq] at hfs <;> subst hfs
      · exact ⟨mumu, by simp [hget], n6⟩
      · exact ⟨ee, by simp [hget], n5⟩
      · exact ⟨mumu, by simp [hget], n6⟩
      · exact ⟨ee, by simp [hget], n5⟩
    have htotal : Dict.get? ([("g g", gg), ("pi0 pi0", pi0), ("pi pi", pi), ("x x", xx),
        ("e e", ee), ("mu mu", mumu), ("total", T')] : Dict ℝ) "total" = some T' := by simp [hget]
    refine ⟨bound - ch.prod f s * w / T' * (1 - q), bound - ch.prod f s * w / T' * (1 - q'), ?_, ?_,
      fun h => absurd h hinv, fun fs' h => ⟨?_, fun y hy => ?_⟩⟩
    · simp [rareDecay, hw, hd, contribution, htotal, hp, hq, hfs, hT0, hwget]
    · simp [rareDecay, hw, hd, contribution, htotal, hp, hqq, hfs, hT0, hwget]
    · linarith [vis w q' q hw0 hmono]
    · obtain rfl : fs = fs' := by simpa [hfs] using h
      obtain rfl : w = y := by simpa [hwget] using hy
      constructor
      · have := vis w 0 q' hw0 hqq0
        have e : ch.prod f s * w / T' * (1 - 0) = ch.prod f s * (w / T') := by ring
        linarith
      · intro h0; rw [h0]; ring

/-- C113 (violated): the window of `K_L -> pi0 e e` reaches past the kinematic limit, and there the constraint is
NaN for every choice of couplings, although the decay cannot happen. -/
theorem kl_ee_not_a_number (c : Consts) (hc : c.Physical) (f : Flavour) (r bound : ℝ) (s : Base)
    (hvs : s.vs = 0) (hl : s.lam ≠ 0) (hmx : 0 ≤ s.mx) (h1 : mkl - mpi0 < s.ms) (h2 : s.ms ≤ 362.7) :
    rareDecay c .klEE f r bound s = .ok none ∧ widthKlPi0 f s = 0 := by
  have hms : 362.6342 < s.ms := by
    unfold mkl mpi0 at h1; norm_num at h1 ⊢; linarith
  have hw : inWindow .klEE s.ms := by
    refine ⟨(140 ^ 2, 362.7 ^ 2), by simp [Chan.bounds], ?_, ?_⟩
    · simp only; nlinarith
    · simp only; nlinarith
  obtain ⟨gg, pi0, pi, xx, ee, mumu, hd, -⟩ := scalar_widths c hc s hvs hl (by linarith) hmx
  have hmom : momentumOf mkl mpi0 s.ms = none := by
    simp only [momentumOf]
    rw [if_pos]
    have a1 : mkl - mpi0 - s.ms < 0 := by linarith
    have a2 : 0 < mkl + mpi0 - s.ms := by unfold mkl mpi0; norm_num; linarith
    have a3 : 0 < mkl - mpi0 + s.ms := by unfold mkl mpi0; norm_num; linarith
    have a4 : 0 < mkl + mpi0 + s.ms := by unfold mkl mpi0; norm_num; linarith
    have := mul_pos (mul_pos a2 a3) a4
    nlinarith
  constructor
  · simp only [rareDecay, if_pos hw, hd]
    simp [contribution, Chan.masses, hmom, Dict.get?, bind]
  · exact prod_closed f s .klEE h1

/-- C113 (violated): a scalar with no open decay leaves every constraint whose window it falls into undefined,
even though it then escapes every detector. -/
theorem stable_not_a_number (c : Consts) (ch : Chan) (f : Flavour) (r bound : ℝ) (s : Base)
    (hw : inWindow ch s.ms) (ht : totalWidth c s = .ok 0) :
    rareDecay c ch f r bound s = .ok none := by
  unfold totalWidth at ht
  rcases hp : partialWidths c s with e | d
  · rw [hp] at ht; simp [bind, Except.bind] at ht
  · rw [hp] at ht
    simp only [bind, Except.bind] at ht
    rcases hg : d.get? "total" with _ | w
    · rw [hg] at ht; simp at ht
    · rw [hg] at ht
      have hw0 : w = 0 := by simpa [pure, Except.pure] using ht
      simp only [rareDecay, if_pos hw, hp]
      unfold contribution
      rw [hg, hw0]
      cases momentumOf ch.masses.1 ch.masses.2 s.ms with
      | none => simp [bind]
      | some p =>
        cases hsv : survive r 0 s.ms p <;> simp [bind, hsv]

/-- Such a scalar exists: no couplings to photons, fermions or gluons, and too light for dark matter. -/
theorem stable_exists (c : Consts) (hc : c.Physical) (s : Base) (hvs : s.vs = 0) (hl : s.lam ≠ 0)
    (hms : 0 ≤ s.ms) (hmx : 0 ≤ s.mx) (h1 : s.ms ≤ 2 * s.mx) (hF : s.gsFF = 0)
    (he : s.ms ≤ 2 * c.me) (hmu : c.me ≤ c.mmu) (hpi : c.me ≤ c.mpi) (hpi0 : c.me ≤ c.mpi0) :
    totalWidth c s = .ok 0 := by
  obtain ⟨gg, pi0, pi, xx, ee, mumu, hd, -, -, -, -, -, -, z1, z2, z3, z4, z5, -⟩ :=
    scalar_widths c hc s hvs hl hms hmx
  have hg : gg = 0 := by
    have e1 : widthGG c s = .ok 0 := by
      have hp := Real.pi_pos
      have h64 : 64 * s.lam ^ 2 * Real.pi ^ 3 ≠ 0 := by positivity
      unfold widthGG pydiv
      rw [if_neg h64, hF]; simp
    unfold partialWidths at hd
    rw [e1] at hd
    cases h2 : widthPi c c.mpi0 209952 s <;> cases h3 : widthPi c c.mpi 104976 s <;>
      cases h4 : widthXX s <;> cases h5 : widthFF c s "e" <;> cases h6 : widthFF c s "mu" <;>
      simp [h2, h3, h4, h5, h6, bind, Except.bind, pure, Except.pure] at hd
    exact hd.1.symm
  have a1 := z1 (by linarith)
  have a2 := z2 (by linarith)
  have a3 := z3 h1
  have a4 := z4 he
  have a5 := z5 (by linarith)
  rw [hg, a1, a2, a3, a4, a5] at hd
  simp [totalWidth, hd, bind, Except.bind, pure, Except.pure, Dict.get?]

/-! ## Beam dump -/

theorem brPNS_nonneg (b : BeamDump) (f : Flavour) (hf : f.Physical) {wK wKl wB : ℝ} (hK : 0 < wK)
    (hKl : 0 < wKl) (hB : 0 < wB) (h1 : 0 ≤ b.brK) (h2 : 0 ≤ b.brB) (s : Base) :
    0 ≤ widthKPi f s / wK ∧ 0 ≤ widthKlPi0 f s / wKl ∧ 0 ≤ widthBXs f s / wB
      ∧ 0 ≤ brPNS b f wK wKl wB s := by
  have a1 : 0 ≤ widthKPi f s := prod_nonneg f hf s .kPiInvis
  have a2 : 0 ≤ widthKlPi0 f s := prod_nonneg f hf s .klEE
  have a3 : 0 ≤ widthBXs f s := by
    have := hf.kXs
    unfold widthBXs; split <;> positivity
  refine ⟨by positivity, by positivity, by positivity, ?_⟩
  unfold brPNS
  positivity

/-- C114: for an unstable scalar not heavier than the beam energy the beam-dump constraint is a number between
`n_dec - n_pot * Br(pN -> S)` and `n_dec`, and equals `n_dec` when the scalar decouples from fermions. -/
theorem beam_dump_bounded (c : Consts) (hc : c.Physical) (b : BeamDump) (hb : b.visible = charmVisible)
    (h1 : 0 ≤ b.brK) (h2 : 0 ≤ b.brB) (hd : 0 ≤ b.dist) (hL : 0 ≤ b.length) (hN : 0 ≤ b.nPot)
    (f : Flavour) (hf : f.Physical) (wK wKl wB : ℝ) (hK : 0 < wK) (hKl : 0 < wKl) (hB : 0 < wB) (s : Base)
    (hvs : s.vs = 0) (hl : s.lam ≠ 0) (hms : 0 < s.ms) (hmx : 0 ≤ s.mx) (hE : s.ms ≤ b.energy)
    (hfresh : totalWidth c s = .ok s.width) (hw : s.width ≠ 0) :
    ∃ v, beamDump c b f wK wKl wB s = .ok v ∧ v ≤ b.nDec ∧ b.nDec - b.nPot * brPNS b f wK wKl wB s ≤ v
      ∧ (s.gsff = 0 → v = b.nDec) := by
  obtain ⟨gg, pi0, pi, xx, ee, mumu, hp, n1, n2, n3, n4, n5, n6, -⟩ :=
    scalar_widths c hc s hvs hl hms.le hmx
  have hT : s.width = gg + pi0 + pi + xx + ee + mumu := by
    have := hfresh
    simp [totalWidth, hp, bind, Except.bind, pure, Except.pure, Dict.get?] at this
    exact this.symm
  have hTpos : 0 < s.width := lt_of_le_of_ne (by rw [hT]; positivity) (Ne.symm hw)
  obtain ⟨p1, p2, p3, p4⟩ := brPNS_nonneg b f hf hK hKl hB h1 h2 s
  have hE1 : 1 ≤ b.energy / s.ms := (one_le_div hms).mpr hE
  have hE2 : 0 ≤ (b.energy / s.ms) ^ 2 - 1 := by nlinarith
  obtain ⟨gb, hgb⟩ : ∃ gb, gb = Real.sqrt ((b.energy / s.ms) ^ 2 - 1) := ⟨_, rfl⟩
  have hgb0 : 0 ≤ gb := by rw [hgb]; exact Real.sqrt_nonneg _
  obtain ⟨pr, hpr⟩ : ∃ pr, pr = (if gb = 0 then 0
      else Real.exp (-b.dist * s.width / gb) * (1 - Real.exp (-b.length * s.width / gb))) := ⟨_, rfl⟩
  have hpr01 : 0 ≤ pr ∧ pr ≤ 1 := by
    rw [hpr]
    split
    · exact ⟨le_rfl, zero_le_one⟩
    · rename_i hne
      have hg : 0 < gb := lt_of_le_of_ne hgb0 (Ne.symm hne)
      have e1 : Real.exp (-b.dist * s.width / gb) ≤ 1 := by
        apply Real.exp_le_one_iff.mpr
        have : 0 ≤ b.dist * s.width / gb := by positivity
        have e : -b.dist * s.width / gb = -(b.dist * s.width / gb) := by ring
        linarith
      have e2 : Real.exp (-b.length * s.width / gb) ≤ 1 := by
        apply Real.exp_le_one_iff.mpr
        have : 0 ≤ b.length * s.width / gb := by positivity
        have e : -b.length * s.width / gb = -(b.length * s.width / gb) := by ring
        linarith
      have e3 := Real.exp_pos (-b.dist * s.width / gb)
      have e4 := Real.exp_pos (-b.length * s.width / gb)
      constructor
      · have : 0 ≤ 1 - Real.exp (-b.length * s.width / gb) := by linarith
        positivity
      · nlinarith
  obtain ⟨vis, hvis⟩ : ∃ vis, vis = (gg + (ee + mumu)) / s.width := ⟨_, rfl⟩
  have hv01 : 0 ≤ vis ∧ vis ≤ 1 := by
    rw [hvis]
    refine ⟨by positivity, ?_⟩
    rw [div_le_one hTpos, hT]; linarith
  have hn0 : 0 ≤ b.nPot * brPNS b f wK wKl wB s * pr * vis := by
    have := hpr01.1
    have := hv01.1
    positivity
  refine ⟨b.nDec - b.nPot * brPNS b f wK wKl wB s * pr * vis, ?_, by linarith, ?_, ?_⟩
  · unfold beamDump
    rw [if_neg hms.ne', if_neg (by push Not; exact ⟨p1, p2, p3⟩)]
    simp only [hp]
    rw [if_neg (by push Not; exact ⟨hE2, hw⟩)]
    simp only [← hgb, ← hpr, hb]
    have hsum : (List.map Prod.snd (List.filter (fun p => decide (p.1 ∈ charmVisible))
        ([("g g", gg), ("pi0 pi0", pi0), ("pi pi", pi), ("x x", xx), ("e e", ee), ("mu mu", mumu),
          ("total", gg + pi0 + pi + xx + ee + mumu)] : Dict ℝ))).sum = gg + (ee + mumu) := by
      simp [charmVisible, List.filter]
    rw [hsum, ← hvis, if_pos hn0]
  · have hA : 0 ≤ b.nPot * brPNS b f wK wKl wB s := by positivity
    have : b.nPot * brPNS b f wK wKl wB s * pr * vis ≤ b.nPot * brPNS b f wK wKl wB s := by
      have k1 : pr * vis ≤ 1 := by nlinarith [hpr01.1, hpr01.2, hv01.1, hv01.2]
      calc b.nPot * brPNS b f wK wKl wB s * pr * vis
          = b.nPot * brPNS b f wK wKl wB s * (pr * vis) := by ring
        _ ≤ b.nPot * brPNS b f wK wKl wB s * 1 := mul_le_mul_of_nonneg_left k1 hA
        _ = _ := by ring
    linarith
  · intro h
    have : brPNS b f wK wKl wB s = 0 := by simp [brPNS, widthKPi, widthKlPi0, widthBXs, h]
    rw [this]; ring

/-- C114: a scalar heavier than the beam energy, which the beam cannot produce, makes the constraint raise
instead of returning `n_dec`. -/
theorem beam_dump_heavy_raises (c : Consts) (b : BeamDump) (f : Flavour) (wK wKl wB : ℝ) (s : Base)
    (hE0 : 0 ≤ b.energy) (hE : b.energy < s.ms) : ∃ e, beamDump c b f wK wKl wB s = .error e := by
  have hms : 0 < s.ms := by linarith
  have h1 : 0 ≤ b.energy / s.ms := by positivity
  have h2 : b.energy / s.ms < 1 := (div_lt_one hms).mpr hE
  unfold beamDump
  rw [if_neg hms.ne']
  split
  · exact ⟨_, rfl⟩
  · split
    · exact ⟨_, rfl⟩
    · rw [if_pos (Or.inl (by nlinarith))]
      exact ⟨_, rfl⟩

/-! ## The Higgs -/

/-- C115: on a `HiggsPortal` with `|stheta| < 1` the Higgs constraint is a number, at most the budget, and equal
to it when the decay is closed, the dark matter decouples or the mixing vanishes. -/
theorem higgs_portal_invis (mh budget t : ℝ) (s : Base) (ht : t ^ 2 < 1) :
    ∃ v, higgsInvis mh budget (some t) s = .ok (some v) ∧ v ≤ budget
      ∧ (mh ≤ 2 * s.mx → v = budget) ∧ (s.gsxx = 0 → v = budget) ∧ (t = 0 → v = budget)
      ∧ (2 * s.mx < mh → 0 ≤ s.mx → s.gsxx ≠ 0 → t ≠ 0 → v < budget) := by
  by_cases h : mh > 2 * s.mx
  · obtain ⟨val, hval⟩ : ∃ val, val = (s.gsxx * t / Real.sqrt (1 - t ^ 2)) ^ 2
        * (mh ^ 2 - 4 * s.mx ^ 2) ^ (3 / 2 : ℝ) / (8 * mh ^ 2 * Real.pi) := ⟨_, rfl⟩
    have hp := Real.pi_pos
    have hn := rpow32_nonneg (mh ^ 2 - 4 * s.mx ^ 2)
    have h0 : 0 ≤ val := by rw [hval]; positivity
    refine ⟨budget - val, ?_, by linarith, fun h' => absurd h' (by linarith), ?_, ?_, ?_⟩
    · simp only [higgsInvis, widthHiggsInvis, if_pos h]
      rw [if_neg (by linarith), if_neg (by linarith), ← hval, if_pos h0]
    · intro hg; rw [hval, hg]; simp
    · intro hg; rw [hval, hg]; simp
    · intro _ hmx hg ht0
      have hmh : 0 < mh := by linarith
      have hb : 0 < mh ^ 2 - 4 * s.mx ^ 2 := by nlinarith
      have hs : 0 < Real.sqrt (1 - t ^ 2) := Real.sqrt_pos.mpr (by linarith)
      have hq : 0 < (mh ^ 2 - 4 * s.mx ^ 2) ^ (3 / 2 : ℝ) := Real.rpow_pos_of_pos hb _
      have : 0 < val := by rw [hval]; positivity
      linarith
  · refine ⟨budget, ?_, le_rfl, fun _ => rfl, fun _ => rfl, fun _ => rfl, fun h' => absurd h' h⟩
    simp only [higgsInvis, widthHiggsInvis, if_neg h]
    show Except.ok (some (budget - 0)) = _
    rw [sub_zero]

/-- C115 (violated): the base class and `HeavyQuark` list the Higgs constraint too, but have no mixing angle:
evaluating it raises `AttributeError` whenever the Higgs can decay to dark matter, whatever the couplings. -/
theorem higgs_needs_mixing (c : Consts) (f : Flavour) (r bound : Chan → ℝ) (mh budget : ℝ) (b : BeamDump)
    (wK wKl wB : ℝ) (s : Base) (h : 2 * s.mx < mh) :
    (constraints c f r bound mh budget b wK wKl wB none s).lookup "higgs -> invis"
      = some (.error .attribute) := by
  simp [constraints, List.lookup, higgsInvis, widthHiggsInvis, h]

/-! ## Examples -/

/-- The window of `K_L -> pi0 e e` contains 362.65 MeV, beyond the kinematic limit. -/
example : inWindow .klEE 362.65 ∧ mkl - mpi0 < 362.65 := by
  constructor
  · exact ⟨(140 ^ 2, 362.7 ^ 2), by simp [Chan.bounds], by norm_num, by norm_num⟩
  · unfold mkl mpi0; norm_num

/-- A 200 MeV scalar is in the window of `K_L -> pi0 e e` and of `B -> K invis`, but not of `B -> K e e`. -/
example : inWindow .klEE 200 ∧ inWindow .bkInvis 200 ∧ ¬ inWindow .bkEE 200 := by
  refine ⟨⟨(140 ^ 2, 362.7 ^ 2), by simp [Chan.bounds], by norm_num, by norm_num⟩,
    ⟨(0, 0.3 * mB ^ 2), by simp [Chan.bounds], by norm_num, by unfold mB; norm_num⟩, ?_⟩
  rintro ⟨b, hb, h1, -⟩
  simp only [Chan.bounds, List.mem_cons, List.not_mem_nil, or_false] at hb
  rcases hb with rfl | rfl <;> norm_num at h1

/-- A Higgs portal with light dark matter is constrained; with heavy dark matter it is not. -/
example : (∃ v, higgsInvis 125100 0.6 (some (1 / 2)) ⟨100, 50, 1, 1, 1, 1, 1, 0, 0⟩ = .ok (some v)
      ∧ v < 0.6)
    ∧ higgsInvis 125100 0.6 (some (1 / 2)) ⟨1e5, 50, 1, 1, 1, 1, 1, 0, 0⟩ = .ok (some 0.6) := by
  constructor
  · obtain ⟨v, hv, -, -, -, -, h⟩ := higgs_portal_invis 125100 0.6 (1 / 2)
      ⟨100, 50, 1, 1, 1, 1, 1, 0, 0⟩ (by norm_num)
    exact ⟨v, hv, h (by norm_num) (by norm_num) (by norm_num) (by norm_num)⟩
  · obtain ⟨v, hv, -, h, -⟩ := higgs_portal_invis 125100 0.6 (1 / 2)
      ⟨1e5, 50, 1, 1, 1, 1, 1, 0, 0⟩ (by norm_num)
    rw [hv, h (by norm_num)]

end Hazma.ScalarConstraints
