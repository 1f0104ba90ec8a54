import Verif.Model.ThermalTotal
import Verif.Props.VectorXs

/-!
# Does the relic density average the reported total?

The compiled sums and the reported dictionary contain the same six channels.  They differ only in the
lepton masses handed to the lepton kernels.
-/

namespace Hazma.ThermalTotal

open Hazma
open Hazma.Xs
open Hazma.Relic (scalarTcs vectorTcs tcsIntegrand)

/-! ### Same channels -/

theorem scalarFF_ok {vh e mx ms gsxx gsff w mf : ℝ} (hvh : vh ≠ 0) (hmx : 0 < mx) (hms : 0 < ms)
    (hw : 0 < w) : ∃ v, scalarFF vh e mx ms gsxx gsff w mf = .ok v := by
  unfold scalarFF
  split_ifs with h
  · exact ⟨0, rfl⟩
  · push Not at h
    have he : 0 < e := by linarith [h.2]
    have hp : 0 < propagator ms e w := propagator_pos hms (Or.inl hw)
    have := Real.pi_pos
    exact ⟨_, quotient_ok (by positivity)⟩

/-- C262 (scalar): for every model and energy the reported dictionary has exactly the channels of the
relic-density sum, in both cases evaluated by the same kernels; the two totals differ by the lepton
terms alone. -/
theorem scalar_same_channels (l l' : Leptons) (k : ScalarModel.Consts) (s : ScalarModel.Base) (e : ℝ)
    (hvh : k.vh ≠ 0) (hmx : 0 < s.mx) (hms : 0 < s.ms) (hw : 0 < s.width) :
    ∃ e1 e2 m1 m2 a b,
      scalarFF k.vh e s.mx s.ms s.gsxx s.gsff s.width l.me = .ok e1
      ∧ scalarFF k.vh e s.mx s.ms s.gsxx s.gsff s.width l'.me = .ok e2
      ∧ scalarFF k.vh e s.mx s.ms s.gsxx s.gsff s.width l.mmu = .ok m1
      ∧ scalarFF k.vh e s.mx s.ms s.gsxx s.gsff s.width l'.mmu = .ok m2
      ∧ crossSections (scalarFuncs l k s) e
          = .ok [("mu mu", m1), ("e e", e1), ("g g", scalarGG k s e), ("pi0 pi0", scalarPi0Pi0 k s e),
            ("pi pi", scalarPiPi k s e), ("s s", scalarSS e s.mx s.ms s.gsxx), ("total", b)]
      ∧ reported (scalarFuncs l k s) e = .ok b
      ∧ scalarAll l' k s e = .ok a
      ∧ b = m1 + e1 + scalarGG k s e + scalarPi0Pi0 k s e + scalarPiPi k s e
          + scalarSS e s.mx s.ms s.gsxx
      ∧ a - b = (e2 - e1) + (m2 - m1) := by
  obtain ⟨e1, he1⟩ := scalarFF_ok (e := e) (gsxx := s.gsxx) (gsff := s.gsff) (mf := l.me) hvh hmx hms hw
  obtain ⟨e2, he2⟩ := scalarFF_ok (e := e) (gsxx := s.gsxx) (gsff := s.gsff) (mf := l'.me) hvh hmx hms hw
  obtain ⟨m1, hm1⟩ := scalarFF_ok (e := e) (gsxx := s.gsxx) (gsff := s.gsff) (mf := l.mmu) hvh hmx hms hw
  obtain ⟨m2, hm2⟩ := scalarFF_ok (e := e) (gsxx := s.gsxx) (gsff := s.gsff) (mf := l'.mmu) hvh hmx hms hw
  have hc : crossSections (scalarFuncs l k s) e
      = .ok [("mu mu", m1), ("e e", e1), ("g g", scalarGG k s e), ("pi0 pi0", scalarPi0Pi0 k s e),
            ("pi pi", scalarPiPi k s e), ("s s", scalarSS e s.mx s.ms s.gsxx),
            ("total", m1 + (e1 + (scalarGG k s e + (scalarPi0Pi0 k s e + (scalarPiPi k s e
              + scalarSS e s.mx s.ms s.gsxx)))))] := by
    simp [crossSections, scalarFuncs, evalFuncs, he1, hm1, bind, Except.bind, pure, Except.pure,
      Dict.set, Dict.values]
  have ha : scalarAll l' k s e = .ok (e2 + m2 + scalarGG k s e + scalarPi0Pi0 k s e + scalarPiPi k s e
      + scalarSS e s.mx s.ms s.gsxx) := by
    simp only [scalarAll, he2, hm2, bind, Except.bind, pure, Except.pure]
  refine ⟨e1, e2, m1, m2, _, _, he1, he2, hm1, hm2, hc, ?_, ha, ?_, ?_⟩
  · simp [reported, hc, bind, Except.bind, pure, Except.pure, Dict.get?]
  · ring
  · ring

/-- C262 (vector). -/
theorem vector_same_channels (l l' : Leptons) (k : VectorModel.Consts) (hk : k.Physical)
    (s : VectorModel.Base) (e : ℝ) (hmx : 0 < s.mx) (hmv : 0 < s.mv) (hw : 0 < s.width)
    (he : e ≠ 2 * s.mx) :
    ∃ pp pv a b,
      vectorPiPi k e s.mx s.mv s.gvxx s.gvuu s.gvdd s.width = .ok pp
      ∧ vectorPi0V k e s.mx s.mv s.gvxx s.gvuu s.gvdd s.width = .ok pv
      ∧ crossSections (vectorFuncs l k s) e
          = .ok [("mu mu", vectorFF e s.mx s.mv s.gvxx s.gvmumu s.width l.mmu),
            ("e e", vectorFF e s.mx s.mv s.gvxx s.gvee s.width l.me), ("pi pi", pp),
            ("pi0 g", vectorPi0G k e s.mx s.mv s.gvxx s.gvuu s.gvdd s.width), ("pi0 v", pv),
            ("v v", vectorVV e s.mx s.mv s.gvxx), ("total", b)]
      ∧ reported (vectorFuncs l k s) e = .ok b
      ∧ vectorAll l' k s e = .ok a
      ∧ b = vectorFF e s.mx s.mv s.gvxx s.gvmumu s.width l.mmu
          + vectorFF e s.mx s.mv s.gvxx s.gvee s.width l.me + pp
          + vectorPi0G k e s.mx s.mv s.gvxx s.gvuu s.gvdd s.width + pv + vectorVV e s.mx s.mv s.gvxx
      ∧ a - b = (vectorFF e s.mx s.mv s.gvxx s.gvee s.width l'.me
            - vectorFF e s.mx s.mv s.gvxx s.gvee s.width l.me)
          + (vectorFF e s.mx s.mv s.gvxx s.gvmumu s.width l'.mmu
            - vectorFF e s.mx s.mv s.gvxx s.gvmumu s.width l.mmu) := by
  obtain ⟨-, -, ⟨pp, hpp, -⟩, -, ⟨pv, hpv, -⟩, -⟩ := (vector_annihilation_signs k hk e s.mx s.mv s.gvxx 1
    s.gvuu s.gvdd s.width 1 hmx hmv hw one_pos).1 he
  have hc : crossSections (vectorFuncs l k s) e
      = .ok [("mu mu", vectorFF e s.mx s.mv s.gvxx s.gvmumu s.width l.mmu),
            ("e e", vectorFF e s.mx s.mv s.gvxx s.gvee s.width l.me), ("pi pi", pp),
            ("pi0 g", vectorPi0G k e s.mx s.mv s.gvxx s.gvuu s.gvdd s.width), ("pi0 v", pv),
            ("v v", vectorVV e s.mx s.mv s.gvxx),
            ("total", vectorFF e s.mx s.mv s.gvxx s.gvmumu s.width l.mmu
              + (vectorFF e s.mx s.mv s.gvxx s.gvee s.width l.me + (pp
              + (vectorPi0G k e s.mx s.mv s.gvxx s.gvuu s.gvdd s.width
              + (pv + vectorVV e s.mx s.mv s.gvxx)))))] := by
    simp [crossSections, vectorFuncs, evalFuncs, hpp, hpv, bind, Except.bind, pure, Except.pure,
      Dict.set, Dict.values]
  have ha : vectorAll l' k s e = .ok (vectorFF e s.mx s.mv s.gvxx s.gvee s.width l'.me
      + vectorFF e s.mx s.mv s.gvxx s.gvmumu s.width l'.mmu + pp
      + vectorPi0G k e s.mx s.mv s.gvxx s.gvuu s.gvdd s.width + pv + vectorVV e s.mx s.mv s.gvxx) := by
    simp only [vectorAll, hpp, hpv, bind, Except.bind, pure, Except.pure]
  refine ⟨pp, pv, _, _, hpp, hpv, hc, ?_, ha, ?_, ?_⟩
  · simp [reported, hc, bind, Except.bind, pure, Except.pure, Dict.get?]
  · ring
  · ring

theorem scalarFF_zero {vh e mx ms gsxx w mf v : ℝ}
    (h : scalarFF vh e mx ms gsxx 0 w mf = .ok v) : v = 0 := by
  unfold scalarFF quotient at h
  split_ifs at h <;> simp at h <;> exact h.symm

theorem vectorFF_zero (e mx mv gvxx w mf : ℝ) : vectorFF e mx mv gvxx 0 w mf = 0 := by
  unfold vectorFF; split_ifs <;> simp

/-- C263: without a coupling to leptons (`HeavyQuark`, `QuarksOnly`) the relic density averages exactly
the total reported to the user. -/
theorem no_leptons_same_average :
    (∀ (k : ScalarModel.Consts) (s : ScalarModel.Base) (x : ℝ), k.vh ≠ 0 → 0 < s.mx → 0 < s.ms →
      0 < s.width → s.gsff = 0 →
      (∀ e, scalarAll kernelLeptons k s e = reported (scalarFuncs pyLeptons k s) e)
      ∧ scalarThermal k s x = scalarTcs (fun e => value (reported (scalarFuncs pyLeptons k s) e)) s.mx x)
    ∧ (∀ (k : VectorModel.Consts) (s : VectorModel.Base) (x : ℝ), k.Physical → 0 < s.mx → 0 < s.mv →
      0 < s.width → s.gvee = 0 → s.gvmumu = 0 →
      (∀ e, e ≠ 2 * s.mx → vectorAll kernelLeptons k s e = reported (vectorFuncs pyLeptons k s) e)
      ∧ vectorThermal k s x = vectorTcs (fun e => value (reported (vectorFuncs pyLeptons k s) e)) s.mx x) := by
  constructor
  · intro k s x hvh hmx hms hw hg
    have key : ∀ e, scalarAll kernelLeptons k s e = reported (scalarFuncs pyLeptons k s) e := by
      intro e
      obtain ⟨e1, e2, m1, m2, a, b, h1, h2, h3, h4, -, h5, h6, -, h7⟩ :=
        scalar_same_channels pyLeptons kernelLeptons k s e hvh hmx hms hw
      rw [hg] at h1 h2 h3 h4
      have := scalarFF_zero h1
      have := scalarFF_zero h2
      have := scalarFF_zero h3
      have := scalarFF_zero h4
      rw [h5, h6, show a = b by linarith]
    refine ⟨key, ?_⟩
    unfold scalarThermal
    congr 1
    funext e
    rw [key]
  · intro k s x hk hmx hmv hw hg1 hg2
    have key : ∀ e, e ≠ 2 * s.mx →
        vectorAll kernelLeptons k s e = reported (vectorFuncs pyLeptons k s) e := by
      intro e he
      obtain ⟨pp, pv, a, b, -, -, -, h5, h6, -, h7⟩ :=
        vector_same_channels pyLeptons kernelLeptons k hk s e hmx hmv hw he
      rw [hg1, hg2] at h7
      simp only [vectorFF_zero] at h7
      rw [h5, h6, show a = b by linarith]
    refine ⟨key, ?_⟩
    unfold vectorThermal vectorTcs
    simp only
    congr 1
    apply intervalIntegral.integral_congr
    intro z _
    unfold tcsIntegrand
    by_cases hz : s.mx * z = 2 * s.mx
    · have : z = 2 := by
        have := mul_left_cancel₀ hmx.ne' (hz.trans (mul_comm 2 s.mx))
        exact this
      simp only [this]
      norm_num
    · simp only [key _ hz]

/-! ### With leptons the two differ -/

/-- The lepton-mass dependence of the vector-mediator lepton cross section: strictly falling. -/
theorem vectorFF_anti {e mx mv gvxx gvll w a b : ℝ} (ha : 0 < a) (hab : a < b) (hae : 2 * a < e)
    (hmx : 0 < mx) (hx : 2 * mx < e) (hmv : 0 < mv) (hw : 0 < w) (hg : gvll ≠ 0) (hgx : gvxx ≠ 0) :
    vectorFF e mx mv gvxx gvll w b < vectorFF e mx mv gvxx gvll w a := by
  have hpi := Real.pi_pos
  have hp : 0 < propagator mv e w := propagator_pos hmv (Or.inl hw)
  have p1 := sub_sq_pos hmx.le hx
  have p2 := sub_sq_pos ha.le hae
  have he : 0 < e := by linarith
  have hA : vectorFF e mx mv gvxx gvll w a = gvll ^ 2 * gvxx ^ 2 * (2 * a ^ 2 + e ^ 2)
      * Real.sqrt ((-4 * a ^ 2 + e ^ 2) / (-4 * mx ^ 2 + e ^ 2)) * (2 * mx ^ 2 + e ^ 2)
    / (12 * Real.pi * e ^ 2 * propagator mv e w) := by
    unfold vectorFF; rw [if_neg (by push Not; exact ⟨hae.le, hx.le⟩)]
  have hs : 0 < Real.sqrt ((-4 * a ^ 2 + e ^ 2) / (-4 * mx ^ 2 + e ^ 2)) :=
    Real.sqrt_pos.mpr (div_pos p2 p1)
  rw [hA]
  unfold vectorFF
  split_ifs with h
  · positivity
  · push Not at h
    have p3 : 0 ≤ -4 * b ^ 2 + e ^ 2 := sub_sq_nonneg (by linarith) h.1
    have key : (2 * b ^ 2 + e ^ 2) * Real.sqrt ((-4 * b ^ 2 + e ^ 2) / (-4 * mx ^ 2 + e ^ 2))
        < (2 * a ^ 2 + e ^ 2) * Real.sqrt ((-4 * a ^ 2 + e ^ 2) / (-4 * mx ^ 2 + e ^ 2)) := by
      refine lt_of_pow_lt_pow_left₀ 2 (by positivity) ?_
      rw [mul_pow, mul_pow, Real.sq_sqrt (div_nonneg p3 p1.le), Real.sq_sqrt (div_nonneg p2.le p1.le),
        ← mul_div_assoc, ← mul_div_assoc]
      apply div_lt_div_of_pos_right _ p1
      have hq : a ^ 2 < b ^ 2 := by nlinarith
      have ha2 : 0 < a ^ 2 := by positivity
      have he2 : 0 < e ^ 2 := by positivity
      generalize a ^ 2 = A at hq ha2
      generalize b ^ 2 = B at hq
      generalize e ^ 2 = E at he2
      have h1 : A ^ 2 < B ^ 2 := by nlinarith
      have h2 : A ^ 3 < B ^ 3 := by gcongr
      nlinarith [mul_lt_mul_of_pos_left h1 he2]
    apply div_lt_div_of_pos_right _ (by positivity)
    apply mul_lt_mul_of_pos_right _ (by positivity)
    have := mul_lt_mul_of_pos_left key (show 0 < gvll ^ 2 * gvxx ^ 2 by positivity)
    calc _ = gvll ^ 2 * gvxx ^ 2 * ((2 * b ^ 2 + e ^ 2)
          * Real.sqrt ((-4 * b ^ 2 + e ^ 2) / (-4 * mx ^ 2 + e ^ 2))) := by ring
      _ < _ := this
      _ = _ := by ring

theorem vectorFF_anti' {e mx mv gvxx gvll w a b : ℝ} (ha : 0 < a) (hab : a < b)
    (hmx : 0 < mx) (hx : 2 * mx < e) (hmv : 0 < mv) (hw : 0 < w) :
    vectorFF e mx mv gvxx gvll w b ≤ vectorFF e mx mv gvxx gvll w a := by
  by_cases hae : 2 * a < e
  · by_cases hg : gvll = 0
    · rw [hg, vectorFF_zero, vectorFF_zero]
    · by_cases hgx : gvxx = 0
      · have : ∀ m, vectorFF e mx mv gvxx gvll w m = 0 := by
          intro m; unfold vectorFF; rw [hgx]; split_ifs <;> simp
        rw [this, this]
      · exact (vectorFF_anti ha hab hae hmx hx hmv hw hg hgx).le
  · have hb : vectorFF e mx mv gvxx gvll w b = 0 := by
      unfold vectorFF; rw [if_pos (Or.inl (by linarith [not_lt.mp hae]))]
    rw [hb]
    have hpi := Real.pi_pos
    have hp : 0 < propagator mv e w := propagator_pos hmv (Or.inl hw)
    unfold vectorFF
    split_ifs with h
    · exact le_rfl
    · have : 0 < e := by linarith
      positivity

theorem leptons_lighter : kernelLeptons.me < pyLeptons.me ∧ kernelLeptons.mmu < pyLeptons.mmu
    ∧ 0 < kernelLeptons.me ∧ 0 < kernelLeptons.mmu := by
  norm_num [kernelLeptons, pyLeptons]

/-- C264: for a vector mediator coupled to electrons (or muons above their threshold) the cross section
averaged in the relic density is strictly larger than the total reported to the user, at every energy
above the dark-matter threshold. -/
theorem vector_average_exceeds_total (k : VectorModel.Consts) (hk : k.Physical) (s : VectorModel.Base)
    (e : ℝ) (hmx : 0 < s.mx) (hmv : 0 < s.mv) (hw : 0 < s.width) (hx : 2 * s.mx < e)
    (hgx : s.gvxx ≠ 0)
    (hl : s.gvee ≠ 0 ∧ 2 * kernelLeptons.me < e ∨ s.gvmumu ≠ 0 ∧ 2 * kernelLeptons.mmu < e) :
    ∃ a b, vectorAll kernelLeptons k s e = .ok a ∧ reported (vectorFuncs pyLeptons k s) e = .ok b
      ∧ b < a := by
  obtain ⟨pp, pv, a, b, -, -, -, h5, h6, -, h7⟩ :=
    vector_same_channels pyLeptons kernelLeptons k hk s e hmx hmv hw hx.ne'
  obtain ⟨l1, l2, l3, l4⟩ := leptons_lighter
  refine ⟨a, b, h6, h5, ?_⟩
  have w1 := vectorFF_anti' (gvxx := s.gvxx) (gvll := s.gvee) l3 l1 hmx hx hmv hw
  have w2 := vectorFF_anti' (gvxx := s.gvxx) (gvll := s.gvmumu) l4 l2 hmx hx hmv hw
  rcases hl with ⟨hg, ht⟩ | ⟨hg, ht⟩
  · have := vectorFF_anti l3 l1 ht hmx hx hmv hw hg hgx
    linarith
  · have := vectorFF_anti l4 l2 ht hmx hx hmv hw hg hgx
    linarith

/-- A model of muon-philic dark matter. -/
noncomputable def muonModel : VectorModel.Base :=
  { mx := 100, mv := 300, gvxx := 1, gvuu := 0, gvdd := 0, gvss := 0, gvee := 0, gvmumu := 1, width := 1 }

/-- C264: between the two muon thresholds the reported total is zero while the relic density still
averages a positive cross section, so the documented reading ("the thermally averaged annihilation cross
section" of the reported channels) is false. -/
theorem average_is_not_of_total :
    ∃ e a, 2 * muonModel.mx < e ∧ reported (vectorFuncs pyLeptons vectorKernelConsts muonModel) e = .ok 0
      ∧ vectorAll kernelLeptons vectorKernelConsts muonModel e = .ok a ∧ 0 < a := by
  obtain ⟨a, b, h6, h5, hab⟩ := vector_average_exceeds_total vectorKernelConsts
    vectorKernelConsts_physical muonModel 211.316745 (by norm_num [muonModel]) (by norm_num [muonModel])
    (by norm_num [muonModel]) (by norm_num [muonModel]) (by norm_num [muonModel])
    (Or.inr (by norm_num [muonModel, kernelLeptons]))
  refine ⟨211.316745, a, by norm_num [muonModel], ?_, h6, ?_⟩
  all_goals
    obtain ⟨pp, pv, a', b', hpp, hpv, -, h5', h6', hb, -⟩ :=
      vector_same_channels pyLeptons kernelLeptons vectorKernelConsts vectorKernelConsts_physical muonModel
        211.316745 (by norm_num [muonModel]) (by norm_num [muonModel]) (by norm_num [muonModel])
        (by norm_num [muonModel])
    have z1 : vectorFF 211.316745 muonModel.mx muonModel.mv muonModel.gvxx muonModel.gvmumu muonModel.width
        pyLeptons.mmu = 0 := by
      unfold vectorFF; rw [if_pos (by norm_num [muonModel, pyLeptons])]
    have z2 : vectorFF 211.316745 muonModel.mx muonModel.mv muonModel.gvxx muonModel.gvee muonModel.width
        pyLeptons.me = 0 := by
      rw [show muonModel.gvee = 0 from rfl, vectorFF_zero]
    have z3 : pp = 0 := by
      unfold vectorPiPi at hpp
      rw [if_pos (by norm_num [muonModel, vectorKernelConsts])] at hpp
      exact (Except.ok.inj hpp).symm
    have z4 : vectorPi0G vectorKernelConsts 211.316745 muonModel.mx muonModel.mv muonModel.gvxx
        muonModel.gvuu muonModel.gvdd muonModel.width = 0 := by
      unfold vectorPi0G
      rw [if_neg (by norm_num [muonModel, vectorKernelConsts])]
      simp [muonModel]
    have z5 : pv = 0 := by
      unfold vectorPi0V at hpv
      rw [if_pos (by norm_num [muonModel, vectorKernelConsts])] at hpv
      exact (Except.ok.inj hpv).symm
    have z6 : vectorVV 211.316745 muonModel.mx muonModel.mv muonModel.gvxx = 0 := by
      unfold vectorVV; rw [if_pos (by norm_num [muonModel])]
    have hb0 : b' = 0 := by rw [hb, z1, z2, z3, z4, z5, z6]; norm_num
  · rw [h5', hb0]
  · have : b = b' := by rw [h5] at h5'; exact Except.ok.inj h5'
    linarith

/-! ### How far apart they are -/

theorem vectorFF_close {e mx mv gvxx gvll w a b : ℝ} (ha : 0 < a) (hab : a ≤ b)
    (hr : b ^ 2 ≤ (1 + 10⁻¹ ^ 7) * a ^ 2) (hbe : 4 * b ≤ e)
    (hmx : 0 < mx) (hmv : 0 < mv) (hw : 0 < w) :
    vectorFF e mx mv gvxx gvll w a ≤ (1 + 10⁻¹ ^ 7) * vectorFF e mx mv gvxx gvll w b := by
  have hpi := Real.pi_pos
  have hp : 0 < propagator mv e w := propagator_pos hmv (Or.inl hw)
  have he : 0 < e := by linarith
  unfold vectorFF
  by_cases hx : e < 2 * mx
  · rw [if_pos (Or.inr hx), if_pos (Or.inr hx)]; simp
  rw [if_neg (by push Not; exact ⟨by linarith, not_lt.mp hx⟩),
    if_neg (by push Not; exact ⟨by linarith, not_lt.mp hx⟩)]
  have p1 := sub_sq_nonneg hmx.le (not_lt.mp hx)
  have key : (2 * a ^ 2 + e ^ 2) * Real.sqrt ((-4 * a ^ 2 + e ^ 2) / (-4 * mx ^ 2 + e ^ 2))
      ≤ (1 + 10⁻¹ ^ 7) * ((2 * b ^ 2 + e ^ 2) * Real.sqrt ((-4 * b ^ 2 + e ^ 2) / (-4 * mx ^ 2 + e ^ 2))) := by
    refine le_of_sq_le_sq ?_ (by positivity)
    have p2 : 0 ≤ -4 * a ^ 2 + e ^ 2 := by nlinarith
    have p3 : 0 ≤ -4 * b ^ 2 + e ^ 2 := by nlinarith
    rw [mul_pow, mul_pow, mul_pow, Real.sq_sqrt (div_nonneg p2 p1), Real.sq_sqrt (div_nonneg p3 p1),
      ← mul_div_assoc, ← mul_div_assoc, ← mul_div_assoc]
    apply div_le_div_of_nonneg_right _ p1
    have hB : 16 * b ^ 2 ≤ e ^ 2 := by nlinarith
    have hA : a ^ 2 ≤ b ^ 2 := by nlinarith
    have ha2 : 0 < a ^ 2 := by positivity
    generalize a ^ 2 = A at *
    generalize b ^ 2 = B at *
    generalize e ^ 2 = E at *
    have hE : 0 < E := by linarith
    norm_num at hr ⊢
    have hB0 : 0 < B := by linarith
    have d : B - A ≤ B / 10000000 := by nlinarith
    have s1 : B ^ 2 - A ^ 2 ≤ 2 * B * (B / 10000000) := by nlinarith
    have s2 : B ^ 3 - A ^ 3 ≤ 3 * B ^ 2 * (B / 10000000) := by
      have : B ^ 3 - A ^ 3 = (B - A) * (B ^ 2 + A * B + A ^ 2) := by ring
      rw [this]
      have t1 : B ^ 2 + A * B + A ^ 2 ≤ 3 * B ^ 2 := by nlinarith
      have t2 : 0 ≤ B ^ 2 + A * B + A ^ 2 := by positivity
      calc _ ≤ B / 10000000 * (3 * B ^ 2) := mul_le_mul d t1 t2 (by positivity)
        _ = _ := by ring
    have b2 : B ^ 2 ≤ E ^ 2 / 256 := by nlinarith
    have b3 : B ^ 3 ≤ E ^ 3 / 4096 := by
      have : (16 * B) ^ 3 ≤ E ^ 3 := by gcongr
      nlinarith
    have eb : E * B ^ 2 ≤ E ^ 3 / 256 := by
      have := mul_le_mul_of_nonneg_left b2 hE.le
      nlinarith
    have es := mul_le_mul_of_nonneg_left s1 hE.le
    have hE3 : 0 < E ^ 3 := by positivity
    nlinarith
  rw [← mul_div_assoc]
  apply div_le_div_of_nonneg_right _ (by positivity)
  have := mul_le_mul_of_nonneg_left key (show 0 ≤ gvll ^ 2 * gvxx ^ 2 * (2 * mx ^ 2 + e ^ 2) by positivity)
  calc _ = gvll ^ 2 * gvxx ^ 2 * (2 * mx ^ 2 + e ^ 2) * ((2 * a ^ 2 + e ^ 2)
        * Real.sqrt ((-4 * a ^ 2 + e ^ 2) / (-4 * mx ^ 2 + e ^ 2))) := by ring
    _ ≤ _ := this
    _ = _ := by ring

theorem scalarFF_close {vh e mx ms gsxx gsff w a b u v : ℝ} (ha : 0 < a) (hab : a ≤ b)
    (hr : b ^ 2 ≤ (1 + 8 * 10⁻¹ ^ 8) * a ^ 2) (hbe : 4 * b ≤ e) (hvh : vh ≠ 0)
    (hms : 0 < ms) (hw : 0 < w)
    (hu : scalarFF vh e mx ms gsxx gsff w a = .ok u) (hv : scalarFF vh e mx ms gsxx gsff w b = .ok v) :
    0 ≤ v ∧ |u - v| ≤ 10⁻¹ ^ 7 * v := by
  have hpi := Real.pi_pos
  have hp : 0 < propagator ms e w := propagator_pos hms (Or.inl hw)
  have he : 0 < e := by linarith
  unfold scalarFF at hu hv
  by_cases hx : e < 2 * mx
  · rw [if_pos (Or.inr hx)] at hu hv
    have := Except.ok.inj hu
    have := Except.ok.inj hv
    subst u v
    simp
  rw [if_neg (by push Not; exact ⟨by linarith, not_lt.mp hx⟩), quotient_ok (by positivity)] at hu hv
  have hu := Except.ok.inj hu
  have hv := Except.ok.inj hv
  have hB : 16 * b ^ 2 ≤ e ^ 2 := by nlinarith
  have hA : a ^ 2 ≤ b ^ 2 := by nlinarith
  have ha2 : 0 < a ^ 2 := by positivity
  obtain ⟨c, hc⟩ : ∃ c, c = gsff ^ 2 * gsxx ^ 2 * Real.sqrt (-4 * mx ^ 2 + e ^ 2)
      / (16 * Real.pi * e ^ 2 * vh ^ 2 * propagator ms e w) := ⟨_, rfl⟩
  have hc0 : 0 ≤ c := by rw [hc]; positivity
  have eu : u = c * (a ^ 2 * (-4 * a ^ 2 + e ^ 2) ^ (3 / 2 : ℝ)) := by rw [hc, ← hu]; ring
  have ev : v = c * (b ^ 2 * (-4 * b ^ 2 + e ^ 2) ^ (3 / 2 : ℝ)) := by rw [hc, ← hv]; ring
  generalize a ^ 2 = A at *
  generalize b ^ 2 = B at *
  generalize e ^ 2 = E at *
  norm_num at hr
  have hB0 : 0 < B := by linarith
  have pB : 0 < -4 * B + E := by linarith
  have pA : 0 < -4 * A + E := by linarith
  have rB := Real.rpow_nonneg pB.le (3 / 2 : ℝ)
  have low : (-4 * B + E) ^ (3 / 2 : ℝ) ≤ (-4 * A + E) ^ (3 / 2 : ℝ) :=
    Real.rpow_le_rpow pB.le (by linarith) (by norm_num)
  have d : B - A ≤ B * (8 / 100000000) := by nlinarith
  have up : (-4 * A + E) ^ (3 / 2 : ℝ) ≤ (1 + 10⁻¹ ^ 7) * (-4 * B + E) ^ (3 / 2 : ℝ) := by
    have h1 : -4 * A + E ≤ (1 + 3 * 10⁻¹ ^ 8) * (-4 * B + E) := by norm_num; nlinarith
    calc _ ≤ ((1 + 3 * 10⁻¹ ^ 8) * (-4 * B + E)) ^ (3 / 2 : ℝ) :=
          Real.rpow_le_rpow pA.le h1 (by norm_num)
      _ = (1 + 3 * 10⁻¹ ^ 8) ^ (3 / 2 : ℝ) * (-4 * B + E) ^ (3 / 2 : ℝ) :=
          Real.mul_rpow (by norm_num) pB.le
      _ ≤ _ := by
          apply mul_le_mul_of_nonneg_right _ rB
          calc ((1 + 3 * 10⁻¹ ^ 8 : ℝ)) ^ (3 / 2 : ℝ) ≤ (1 + 3 * 10⁻¹ ^ 8 : ℝ) ^ (2 : ℝ) :=
                Real.rpow_le_rpow_of_exponent_le (by norm_num) (by norm_num)
            _ ≤ _ := by rw [Real.rpow_two]; norm_num
  generalize (-4 * B + E) ^ (3 / 2 : ℝ) = Y at *
  generalize (-4 * A + E) ^ (3 / 2 : ℝ) = X at *
  have hv0 : 0 ≤ v := by rw [ev]; positivity
  refine ⟨hv0, ?_⟩
  have g1 : A * X ≤ (1 + 10⁻¹ ^ 7) * (B * Y) := by
    calc A * X ≤ B * ((1 + 10⁻¹ ^ 7) * Y) := mul_le_mul hA up (rB.trans low) hB0.le
      _ = _ := by ring
  have g2 : (1 - 10⁻¹ ^ 7) * (B * Y) ≤ A * X := by
    calc (1 - 10⁻¹ ^ 7) * (B * Y) = ((1 - 10⁻¹ ^ 7) * B) * Y := by ring
      _ ≤ A * X := mul_le_mul (by norm_num; linarith) low rB ha2.le
  have f1 := mul_le_mul_of_nonneg_left g1 hc0
  have f2 := mul_le_mul_of_nonneg_left g2 hc0
  rw [abs_le]
  constructor <;> nlinarith

theorem leptons_close : pyLeptons.me ^ 2 ≤ (1 + 8 * 10⁻¹ ^ 8) * kernelLeptons.me ^ 2
    ∧ pyLeptons.mmu ^ 2 ≤ (1 + 8 * 10⁻¹ ^ 8) * kernelLeptons.mmu ^ 2 := by
  norm_num [kernelLeptons, pyLeptons]

/-- C265: from twice the muon-pair threshold on, the cross section averaged in the relic density differs
from the reported total by at most one part in ten million of the reported lepton cross sections. -/
theorem average_close_to_total (e : ℝ) (he : 4 * pyLeptons.mmu ≤ e) :
    (∀ (k : ScalarModel.Consts) (s : ScalarModel.Base), k.vh ≠ 0 → 0 < s.mx → 0 < s.ms → 0 < s.width →
      ∃ e1 m1 a b, scalarFF k.vh e s.mx s.ms s.gsxx s.gsff s.width pyLeptons.me = .ok e1
        ∧ scalarFF k.vh e s.mx s.ms s.gsxx s.gsff s.width pyLeptons.mmu = .ok m1
        ∧ scalarAll kernelLeptons k s e = .ok a ∧ reported (scalarFuncs pyLeptons k s) e = .ok b
        ∧ |a - b| ≤ 10⁻¹ ^ 7 * (e1 + m1))
    ∧ (∀ (k : VectorModel.Consts) (s : VectorModel.Base), k.Physical → 0 < s.mx → 0 < s.mv →
      0 < s.width → 2 * s.mx < e →
      ∃ a b, vectorAll kernelLeptons k s e = .ok a ∧ reported (vectorFuncs pyLeptons k s) e = .ok b
        ∧ |a - b| ≤ 10⁻¹ ^ 7 * (vectorFF e s.mx s.mv s.gvxx s.gvee s.width pyLeptons.me
          + vectorFF e s.mx s.mv s.gvxx s.gvmumu s.width pyLeptons.mmu)) := by
  obtain ⟨l1, l2, l3, l4⟩ := leptons_lighter
  obtain ⟨r1, r2⟩ := leptons_close
  have hm : pyLeptons.me ≤ pyLeptons.mmu := by norm_num [pyLeptons]
  constructor
  · intro k s hvh hmx hms hw
    obtain ⟨e1, e2, m1, m2, a, b, h1, h2, h3, h4, -, h5, h6, -, h7⟩ :=
      scalar_same_channels pyLeptons kernelLeptons k s e hvh hmx hms hw
    refine ⟨e1, m1, a, b, h1, h3, h6, h5, ?_⟩
    obtain ⟨-, c1⟩ := scalarFF_close l3 l1.le r1 (by linarith) hvh hms hw h2 h1
    obtain ⟨-, c2⟩ := scalarFF_close l4 l2.le r2 (by linarith) hvh hms hw h4 h3
    rw [h7]
    calc _ ≤ |e2 - e1| + |m2 - m1| := abs_add_le _ _
      _ ≤ _ := by rw [mul_add]; exact add_le_add c1 c2
  · intro k s hk hmx hmv hw hx
    obtain ⟨pp, pv, a, b, -, -, -, h5, h6, -, h7⟩ :=
      vector_same_channels pyLeptons kernelLeptons k hk s e hmx hmv hw hx.ne'
    refine ⟨a, b, h6, h5, ?_⟩
    have w1 := vectorFF_anti' (gvxx := s.gvxx) (gvll := s.gvee) l3 l1 hmx hx hmv hw
    have w2 := vectorFF_anti' (gvxx := s.gvxx) (gvll := s.gvmumu) l4 l2 hmx hx hmv hw
    have q1 : pyLeptons.me ^ 2 ≤ (1 + 10⁻¹ ^ 7) * kernelLeptons.me ^ 2 := by
      norm_num [kernelLeptons, pyLeptons]
    have q2 : pyLeptons.mmu ^ 2 ≤ (1 + 10⁻¹ ^ 7) * kernelLeptons.mmu ^ 2 := by
      norm_num [kernelLeptons, pyLeptons]
    have c1 := vectorFF_close (e := e) (gvxx := s.gvxx) (gvll := s.gvee) l3 l1.le q1 (by linarith) hmx hmv hw
    have c2 := vectorFF_close (e := e) (gvxx := s.gvxx) (gvll := s.gvmumu) l4 l2.le q2 (by linarith) hmx hmv hw
    rw [h7, abs_of_nonneg (by linarith)]
    linarith

/-- The bound is not vacuous: at 500 MeV both lepton channels of a coupled model are open. -/
example : 4 * pyLeptons.mmu ≤ 500 ∧ 0 < vectorFF 500 100 300 1 1 1 pyLeptons.mmu := by
  refine ⟨by norm_num [pyLeptons], ?_⟩
  have hpi := Real.pi_pos
  unfold vectorFF propagator
  rw [if_neg (by norm_num [pyLeptons])]
  have : 0 < Real.sqrt ((-4 * pyLeptons.mmu ^ 2 + 500 ^ 2) / (-4 * 100 ^ 2 + 500 ^ 2)) :=
    Real.sqrt_pos.mpr (by norm_num [pyLeptons])
  positivity

end Hazma.ThermalTotal
