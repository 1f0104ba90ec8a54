import Verif.Model.LimitsApi
import Verif.Props.Constrain
import Mathlib.Analysis.Real.Pi.Bounds

/-! # Limit classes: one value per model, and units of binned scans -/

namespace Hazma.LimitsApi

open Hazma
open Hazma.Limits
open Hazma.Constrain

/-! ### `AbstractLimit.constrain` -/

theorem fill_ok {M E : Type} (c : M → Except E (WithTop ℝ)) (g : M → WithTop ℝ) :
    ∀ (ms : List M) (done : List (WithTop ℝ)), (∀ m ∈ ms, c m = .ok (g m)) →
      ∀ rest : List (WithTop ℝ), rest.length = ms.length →
      fill c done.length ms (done ++ rest) = .ok (done ++ ms.map g)
  | [], done, _, rest, h => by
    have : rest = [] := List.length_eq_zero_iff.mp (by simpa using h)
    simp [fill, this]
  | m :: ms, done, hg, [], h => by simp at h
  | m :: ms, done, hg, r :: rest, h => by
    have := fill_ok c g ms (done ++ [g m]) (fun x hx => hg x (by simp [hx])) rest (by simpa using h)
    simp only [fill, hg m (by simp), bind, Except.bind]
    rw [show (done ++ r :: rest).set done.length (g m) = (done ++ [g m]) ++ rest by simp,
      show done.length + 1 = (done ++ [g m]).length by simp, this]
    simp

theorem fill_error {M E : Type} (c : M → Except E (WithTop ℝ)) (e : E) (m : M) (hm : c m = .error e)
    (post : List M) : ∀ (pre : List M), (∀ x ∈ pre, ∃ v, c x = .ok v) → ∀ i out,
      fill c i (pre ++ m :: post) out = .error e
  | [], _, i, out => by simp [fill, hm, bind, Except.bind]
  | x :: pre, h, i, out => by
    obtain ⟨v, hv⟩ := h x (by simp)
    simp only [List.cons_append, fill, hv, bind, Except.bind]
    exact fill_error c e m hm post pre (fun y hy => h y (by simp [hy])) _ _

/-- C266: for a sequence of models `constrain` returns one value per model, in the order of the models,
each the limit on that model; if some model's limit raises, the first such exception is raised and
nothing is returned. -/
theorem constrain_sequence {M E : Type} (te : E) (c : M → Except E (WithTop ℝ)) (ms : List M) :
    (∀ g : M → WithTop ℝ, (∀ m ∈ ms, c m = .ok (g m)) →
      constrainAll te c (.sequence ms) = .ok (ms.map g))
    ∧ (∀ pre m post e, ms = pre ++ m :: post → (∀ x ∈ pre, ∃ v, c x = .ok v) → c m = .error e →
      constrainAll te c (.sequence ms) = .error e)
    ∧ (∀ out, constrainAll te c (.sequence ms) = .ok out →
      out.length = ms.length ∧ ∀ i (h : i < ms.length), ∃ v, out[i]? = some v ∧ c ms[i] = .ok v) := by
  have h1 : ∀ g : M → WithTop ℝ, (∀ m ∈ ms, c m = .ok (g m)) →
      constrainAll te c (.sequence ms) = .ok (ms.map g) := by
    intro g hg
    have := fill_ok c g ms [] hg (List.replicate ms.length 0) (by simp)
    simpa [constrainAll] using this
  have h2 : ∀ pre m post e, ms = pre ++ m :: post → (∀ x ∈ pre, ∃ v, c x = .ok v) → c m = .error e →
      constrainAll te c (.sequence ms) = .error e := by
    intro pre m post e hms hpre hm
    subst hms
    exact fill_error c e m hm post pre hpre _ _
  refine ⟨h1, h2, fun out hout => ?_⟩
  by_cases hall : ∀ m ∈ ms, ∃ v, c m = .ok v
  · classical
    obtain ⟨g, hg⟩ : ∃ g : M → WithTop ℝ, ∀ m ∈ ms, c m = .ok (g m) := by
      refine ⟨fun m => if h : ∃ v, c m = .ok v then h.choose else 0, fun m hm => ?_⟩
      have h := hall m hm
      simp only [dif_pos h]
      exact h.choose_spec
    rw [h1 g hg] at hout
    have := Except.ok.inj hout
    subst this
    refine ⟨by simp, fun i hi => ⟨g ms[i], by simp [hi], hg _ (List.getElem_mem hi)⟩⟩
  · exfalso
    -- take the first failing model
    have : ∀ l : List M, (¬ ∀ m ∈ l, ∃ v, c m = .ok v) →
        ∃ pre m post e, l = pre ++ m :: post ∧ (∀ x ∈ pre, ∃ v, c x = .ok v) ∧ c m = .error e := by
      intro l
      induction l with
      | nil => intro h; exact absurd (by simp) h
      | cons a t ih =>
        intro h
        cases hc : c a with
        | error e => exact ⟨[], a, t, e, rfl, by simp, hc⟩
        | ok v =>
          have ht : ¬ ∀ m ∈ t, ∃ v, c m = .ok v := by
            intro ht
            apply h
            intro m hm
            rcases List.mem_cons.mp hm with rfl | hm
            · exact ⟨v, hc⟩
            · exact ht m hm
          obtain ⟨pre, m, post, e, rfl, hp, he⟩ := ih ht
          refine ⟨a :: pre, m, post, e, rfl, ?_, he⟩
          intro x hx
          rcases List.mem_cons.mp hx with rfl | hx
          · exact ⟨v, hc⟩
          · exact hp x hx
    obtain ⟨pre, m, post, e, hms, hp, he⟩ := this ms hall
    rw [h2 pre m post e hms hp he] at hout
    simp at hout

/-- C267: the argument is documented as an iterator over models, but every iterator is refused, whatever
it yields and whatever the limit is. -/
theorem constrain_iterator_refused {M E : Type} (te : E) (c : M → Except E (WithTop ℝ)) (ms : List M) :
    constrainAll te c (.iterator ms) = .error te := rfl

example : constrainAll LimErr.typeError (fun x : ℝ => .ok (x : WithTop ℝ)) (.sequence [1, 2, 3])
    = .ok [(1 : ℝ), (2 : ℝ), (3 : ℝ)] := by
  simpa using (constrain_sequence LimErr.typeError (fun x : ℝ => .ok (x : WithTop ℝ)) [1, 2, 3]).1
    (fun x => x) (by simp)

/-! ### Telescopes -/

/-- C268: a telescope limit evaluates every model's `binned_limit` on the telescope's measurement with
the limit's own significance and method, one value per model in order; an object without `binned_limit`
is refused. -/
theorem telescope_values {Meas : Type} (t : Telescope Meas)
    (ms : List (Meas → ℝ → Method → Except LimErr (WithTop ℝ))) (g : _ → WithTop ℝ)
    (hg : ∀ b ∈ ms, b t.measurement t.sigma t.method = .ok (g b)) :
    constrainAll LimErr.typeError (telescopeConstrain t) (.sequence (ms.map some)) = .ok (ms.map g)
    ∧ (∀ post : List (Theory Meas),
      constrainAll LimErr.typeError (telescopeConstrain t) (.sequence (ms.map some ++ none :: post))
        = .error .assertion) := by
  constructor
  · obtain ⟨g', hg'⟩ : ∃ g' : Theory Meas → WithTop ℝ, g' = fun o => match o with
      | some b => g b
      | none => 0 := ⟨_, rfl⟩
    have := (constrain_sequence LimErr.typeError (telescopeConstrain t) (ms.map some)).1 g' (by
      intro o ho
      obtain ⟨b, hb, rfl⟩ := List.mem_map.mp ho
      rw [hg']
      exact hg b hb)
    rw [this, List.map_map]
    congr 1
    apply List.map_congr_left
    intro b _
    rw [hg']; rfl
  · intro post
    refine (constrain_sequence LimErr.typeError (telescopeConstrain t) _).2.1 (ms.map some) none post
      .assertion rfl ?_ rfl
    intro o ho
    obtain ⟨b, hb, rfl⟩ := List.mem_map.mp ho
    exact ⟨g b, hg b hb⟩

/-- C269: with default arguments the telescope limit and the model's own `binned_limit` are not the same
number: whatever the critical value of SciPy's chi-squared, there is a one-bin measurement on which they
differ. -/
theorem telescope_default_differs (ppf : ℝ → ℕ → ℝ) :
    ∃ (mx J D dw : ℝ) (integral : ℝ → ℝ → ℝ) (bins : List Bin) (v w : WithTop ℝ),
      (∀ b ∈ bins, 0 < toleratedFlux dw 2 b)
      ∧ telescopeConstrain (defaultTelescope bins)
          (some fun m n meth => binnedLimit .ann mx ⟨some J, some D, some dw⟩ integral ppf m n meth) = .ok v
      ∧ theoryDefault (fun m n meth => binnedLimit .ann mx ⟨some J, some D, some dw⟩ integral ppf m n meth)
          bins = .ok w
      ∧ v = ⊤ ∧ w ≠ ⊤ := by
  refine ⟨1, 16 * Real.pi, 1, 1, fun _ _ => 1, [⟨0, 1, 1, 1⟩], ⊤, ((3 : ℝ) : WithTop ℝ), ?_, ?_, ?_, rfl,
    by simp⟩
  · intro b hb
    simp at hb
    subst hb
    norm_num [toleratedFlux]
  · have hpi := Real.pi_ne_zero
    simp only [telescopeConstrain, defaultTelescope, binnedLimit, computeFluxes, dmFluxFactor, bind,
      Except.bind, pure, Except.pure, constrainChiSquared, chi2Term, List.map, List.zipWith, List.sum_cons,
      List.sum_nil]
    rw [if_pos]
    have : (1 : ℝ) / (4 * Real.pi * 1) * (16 * Real.pi / (2 * 2 * 1)) = 1 := by field_simp; norm_num
    rw [this]
    norm_num
  · have hpi := Real.pi_ne_zero
    have : (1 : ℝ) / (4 * Real.pi * 1) * (16 * Real.pi / (2 * 2 * 1)) * 1 = 1 := by field_simp; norm_num
    simp only [theoryDefault, binnedLimit, computeFluxes, dmFluxFactor, bind,
      Except.bind, pure, Except.pure, constrainOneBin, oneBinLimit, List.map, List.zipWith, npMin,
      List.foldl, this]
    norm_num

/-! ### Composite -/

theorem get_set {β : Type} (d : Dict β) (k : String) (v : β) (k' : String) :
    (d.set k v).get? k' = if k = k' then some v else d.get? k' := by
  induction d with
  | nil => simp [Dict.set, Dict.get?]
  | cons a t ih =>
    obtain ⟨a1, a2⟩ := a
    by_cases h : a1 = k
    · subst h
      by_cases h' : a1 = k' <;> simp [Dict.set, Dict.get?, h']
    · by_cases h' : a1 = k'
      · subst h'
        simp [Dict.set, Dict.get?, h, Ne.symm h]
      · simp [Dict.set, Dict.get?, h, h', ih]

theorem length_set {β : Type} (d : Dict β) (k : String) (v : β) :
    (d.set k v).length = if (d.get? k).isSome then d.length else d.length + 1 := by
  induction d with
  | nil => simp [Dict.set, Dict.get?]
  | cons a t ih =>
    obtain ⟨a1, a2⟩ := a
    by_cases h : a1 = k
    · simp [Dict.set, Dict.get?, h]
    · simp only [Dict.set, Dict.get?, if_neg h, List.length_cons, ih]
      split_ifs <;> rfl

theorem composite_get {M E : Type} (te : E) (ms : Models M) (cs : List (String × (M → Except E (WithTop ℝ))))
    (g : (M → Except E (WithTop ℝ)) → List (WithTop ℝ))
    (hg : ∀ c ∈ cs, constrainAll te c.2 ms = .ok (g c.2)) (out : Dict (List (WithTop ℝ))) :
    ∃ d, composite te ms cs out = .ok d
      ∧ (∀ pre n c post, cs = pre ++ (n, c) :: post → (∀ x ∈ post, x.1 ≠ n) → d.get? n = some (g c))
      ∧ (∀ n, (∀ x ∈ cs, x.1 ≠ n) → d.get? n = out.get? n)
      ∧ ((cs.map Prod.fst).Nodup → (∀ x ∈ cs, out.get? x.1 = none) → d.length = out.length + cs.length) := by
  induction cs generalizing out with
  | nil =>
    refine ⟨out, rfl, ?_, fun _ _ => rfl, fun _ _ => rfl⟩
    intro pre n c post h
    simp at h
  | cons a t ih =>
    obtain ⟨n0, c0⟩ := a
    obtain ⟨d, h1, h2, h3, h4⟩ := ih (fun c hc => hg c (by simp [hc])) (out.set n0 (g c0))
    refine ⟨d, ?_, ?_, ?_, ?_⟩
    · simp only [composite, hg (n0, c0) (by simp), bind, Except.bind]
      exact h1
    · intro pre n c post hcs hpost
      cases pre with
      | nil =>
        simp only [List.nil_append, List.cons.injEq, Prod.mk.injEq] at hcs
        obtain ⟨⟨rfl, rfl⟩, rfl⟩ := hcs
        rw [h3 _ hpost, get_set, if_pos rfl]
      | cons b pre =>
        simp only [List.cons_append, List.cons.injEq] at hcs
        exact h2 pre n c post hcs.2 hpost
    · intro n hn
      rw [h3 n (fun x hx => hn x (by simp [hx])), get_set, if_neg (hn (n0, c0) (by simp))]
    · intro hnd hnone
      simp only [List.map_cons, List.nodup_cons] at hnd
      rw [h4 hnd.2 ?_, length_set, hnone (n0, c0) (by simp)]
      · simp only [Option.isSome_none, Bool.false_eq_true, if_false, List.length_cons]
        omega
      · intro x hx
        rw [get_set, if_neg, hnone x (by simp [hx])]
        intro h
        exact hnd.1 (h ▸ List.mem_map_of_mem hx)

/-- C270 (the part that holds): limits with different names each get their own entry, holding that
limit's values for all models. -/
theorem composite_distinct_partial {M E : Type} (te : E) (ms : Models M)
    (cs : List (String × (M → Except E (WithTop ℝ))))
    (g : (M → Except E (WithTop ℝ)) → List (WithTop ℝ))
    (hg : ∀ c ∈ cs, constrainAll te c.2 ms = .ok (g c.2)) (hnd : (cs.map Prod.fst).Nodup) :
    ∃ d, composite te ms cs [] = .ok d ∧ d.length = cs.length
      ∧ ∀ n c, (n, c) ∈ cs → d.get? n = some (g c) := by
  obtain ⟨d, h1, h2, -, h4⟩ := composite_get te ms cs g hg []
  refine ⟨d, h1, by simpa using h4 hnd (by simp [Dict.get?]), fun n c hc => ?_⟩
  obtain ⟨pre, post, rfl⟩ := List.append_of_mem hc
  refine h2 pre n c post rfl ?_
  intro x hx hxn
  rw [List.map_append, List.map_cons] at hnd
  have := (List.nodup_append.mp hnd).2.1
  rw [List.nodup_cons] at this
  exact this.1 (List.mem_map.mpr ⟨x, hx, hxn⟩)

/-- C270 (false in general): of two limits with the same name, such as two `ComptelLimit`s with different
methods, only the second one's values are kept. -/
theorem composite_same_name {M E : Type} (te : E) (ms : Models M) (n : String)
    (c c' : M → Except E (WithTop ℝ)) (v v' : List (WithTop ℝ)) (h : constrainAll te c ms = .ok v)
    (h' : constrainAll te c' ms = .ok v') :
    composite te ms [(n, c), (n, c')] [] = .ok [(n, v')] := by
  simp [composite, h, h', bind, Except.bind, Dict.set]

/-! ### Units -/

theorem conversion_bounds : 1.16e-11 < svInvMevToCm3PerS ∧ svInvMevToCm3PerS < 1.18e-11 := by
  have p1 := Real.pi_gt_d4
  have p2 := Real.pi_lt_d4
  have hp := Real.pi_pos
  have e : svInvMevToCm3PerS
      = (6.62607015e-34 * (1 / 1.602176634e-19 * 1e-6) * 299792458 / 1e-2) ^ 2 * 299792458 * 1e2
        / (2 * Real.pi) ^ 2 := by
    unfold svInvMevToCm3PerS cmToInvMev mToInvMev sToInvMev hbarJouleSec jouleToMev speedOfLight
    field_simp
    try norm_num
  rw [e]
  constructor
  · rw [lt_div_iff₀ (by positivity)]
    have : (2 * Real.pi) ^ 2 < (2 * 3.1416) ^ 2 := by gcongr
    calc (1.16e-11 : ℝ) * (2 * Real.pi) ^ 2 < 1.16e-11 * (2 * 3.1416) ^ 2 := by
          apply mul_lt_mul_of_pos_left this; norm_num
      _ < _ := by norm_num
  · rw [div_lt_iff₀ (by positivity)]
    have : (2 * (3.1415 : ℝ)) ^ 2 < (2 * Real.pi) ^ 2 := by gcongr
    calc _ < (1.18e-11 : ℝ) * (2 * 3.1415) ^ 2 := by norm_num
      _ < _ := by apply mul_lt_mul_of_pos_left this; norm_num

/-- C112/C271: a scanned point counts as allowed exactly when its rate in cm³/s is at most the one-bin
limit times the MeV⁻² → cm³/s conversion factor: the rate is not converted before it is compared. -/
theorem scan_point_threshold (mx sigma vx J D dw n : ℝ) (hs : 0 ≤ sigma) (hv : 0 ≤ vx)
    (integral : ℝ → ℝ → ℝ) (ppf : ℝ → ℕ → ℝ) (bins : List Bin) (hne : bins ≠ [])
    (htol : ∀ b ∈ bins, 0 < toleratedFlux dw n b) :
    ∃ v L, scanPoint mx sigma vx J dw n integral bins = .ok v
      ∧ binnedLimit .ann mx ⟨some J, some D, some dw⟩ integral ppf bins n .oneBin = .ok L
      ∧ (L = ⊤ → 0 ≤ v)
      ∧ ∀ x : ℝ, L = x → (0 ≤ v ↔ sigma * vx * svInvMevToCm3PerS ≤ svInvMevToCm3PerS * x) := by
  obtain ⟨v, L, h1, h2, h3⟩ := binned_image_agrees_with_limit mx (sigma * vx) J D dw n (mul_nonneg hs hv)
    integral ppf bins hne htol
  refine ⟨v, L, h1, h2, fun h => h3.mpr (h ▸ le_top), fun x hx => ?_⟩
  rw [h3, hx, WithTop.coe_le_coe, mul_comm svInvMevToCm3PerS]
  have := conversion_bounds.1
  have hc : 0 < svInvMevToCm3PerS := lt_trans (by norm_num) this
  exact (mul_le_mul_iff_left₀ hc).symm

/-- C271: whenever the one-bin limit is finite and positive, some theory whose rate in cm³/s is more than
ten billion times below that limit is reported as excluded by the scan. -/
theorem scan_excludes_allowed (mx vx J D dw n : ℝ) (hv : 0 < vx) (integral : ℝ → ℝ → ℝ)
    (ppf : ℝ → ℕ → ℝ) (bins : List Bin) (hne : bins ≠ []) (htol : ∀ b ∈ bins, 0 < toleratedFlux dw n b)
    (x : ℝ) (hx : 0 < x)
    (hL : binnedLimit .ann mx ⟨some J, some D, some dw⟩ integral ppf bins n .oneBin = .ok (x : WithTop ℝ)) :
    ∃ sigma v, 0 < sigma ∧ sigma * vx * svInvMevToCm3PerS < x / 10 ^ 10
      ∧ scanPoint mx sigma vx J dw n integral bins = .ok v ∧ v < 0 := by
  have hc := conversion_bounds
  have hc0 : 0 < svInvMevToCm3PerS := lt_trans (by norm_num) hc.1
  have hs : 0 < 2 * x / vx := by positivity
  obtain ⟨v, L, h1, h2, -, h4⟩ := scan_point_threshold mx (2 * x / vx) vx J D dw n hs.le hv.le integral ppf
    bins hne htol
  have hLx : L = x := by rw [hL] at h2; exact (Except.ok.inj h2).symm
  have h5 := h4 x hLx
  have e : 2 * x / vx * vx = 2 * x := by field_simp
  rw [e] at h5
  refine ⟨2 * x / vx, v, hs, ?_, h1, ?_⟩
  · rw [e]
    have := mul_lt_mul_of_pos_left hc.2 (show 0 < 2 * x by linarith)
    have : 2 * x * 1.18e-11 < x / 10 ^ 10 := by
      rw [lt_div_iff₀ (by norm_num)]
      norm_num
      linarith
    linarith
  · rw [← not_le, h5]
    push Not
    nlinarith

/-- A measurement with a finite positive limit. -/
example : binnedLimit .ann 1 ⟨some (16 * Real.pi), some 1, some 1⟩ (fun _ _ => 1) (fun _ _ => 0)
    [⟨0, 1, 1, 1⟩] 2 .oneBin = .ok ((3 : ℝ) : WithTop ℝ) := by
  have hpi := Real.pi_ne_zero
  have : (1 : ℝ) / (4 * Real.pi * 1) * (16 * Real.pi / (2 * 2 * 1)) * 1 = 1 := by field_simp; norm_num
  simp only [binnedLimit, computeFluxes, dmFluxFactor, bind,
    Except.bind, pure, Except.pure, constrainOneBin, oneBinLimit, List.map, List.zipWith, npMin,
    List.foldl, this]
  norm_num

end Hazma.LimitsApi
