import Verif.Model.RelicLimit
import Verif.Props.GevCache

/-!
# Relic-density limits and shallow copies of the GeV vector mediator

The documented reading: `RelicDensityLimit` varies one attribute until the model
has the observed relic density, returns the annihilation cross section there,
and leaves the caller's model alone.  This holds for models without hidden
state.  A `VectorMediatorGeV` shares its width cache with its copies, and its
cached widths do not follow the fermion couplings: both halves fail for it.
-/

namespace Hazma.RelicLimit

open Hazma.GevCache

/-! ### Models without hidden state -/

/-- Assigning overwrites, and evaluating does not change the model. -/
structure Lawful {σ : Type} (o : Ops σ) : Prop where
  set_set : ∀ v w s, o.set v (o.set w s) = o.set v s
  omega_state : ∀ s, (o.omega s).2 = s
  sigma_state : ∀ e s, (o.sigma e s).2 = s

/-- Values of the finder on a function without side effects. -/
def pureSearch (f : ℝ → Except Exc ℝ) : Finder → Except Exc ℝ
  | .root x => .ok x
  | .fail => .error .value
  | .ask x k =>
    match f x with
    | .error e => .error e
    | .ok y => pureSearch f (k y)

/-- A root finder that only returns roots inside the bracket. -/
def Sound (fd : ℝ → ℝ → Finder) : Prop :=
  ∀ (f : ℝ → Except Exc ℝ) (lo hi x : ℝ), lo ≤ hi → pureSearch f (fd lo hi) = .ok x →
    f x = .ok 0 ∧ lo ≤ x ∧ x ≤ hi

lemma search_pure {σ : Type} {o : Ops σ} (hl : Lawful o) (c : Cfg) (s0 : σ) (fd : Finder) :
    ∀ s, (∀ v, o.set v s = o.set v s0) →
      (search (residual o c) fd s).1 =
        pureSearch (fun x => ((o.omega (o.set (c.value x) s0)).1.map fun w => w - omegaCdm)) fd ∧
      ∀ v, o.set v (search (residual o c) fd s).2 = o.set v s0 := by
  induction fd with
  | root x => intro s hs; exact ⟨rfl, hs⟩
  | fail => intro s hs; exact ⟨rfl, hs⟩
  | ask x k ih =>
    intro s hs
    have hres : residual o c x s =
        (((o.omega (o.set (c.value x) s0)).1.map fun w => w - omegaCdm), o.set (c.value x) s0) := by
      simp only [residual, hs, hl.omega_state]
    simp only [search, pureSearch, hres]
    cases h : (o.omega (o.set (c.value x) s0)).1.map fun w => w - omegaCdm with
    | error e => exact ⟨rfl, fun v => hl.set_set v _ _⟩
    | ok y => exact ih y _ (fun v => hl.set_set v _ _)

lemma bracket_le (c : Cfg) (h : c.propMin ≤ c.propMax) (hp : c.log = true → 0 < c.propMin) :
    c.bracket.1 ≤ c.bracket.2 := by
  unfold Cfg.bracket
  split_ifs with hl
  · exact (Real.logb_le_logb (by norm_num) (hp hl) (lt_of_lt_of_le (hp hl) h)).2 h
  · exact h

lemma value_mem (c : Cfg) (h : c.propMin ≤ c.propMax) (hp : c.log = true → 0 < c.propMin) (x : ℝ)
    (hx : c.bracket.1 ≤ x ∧ x ≤ c.bracket.2) : c.propMin ≤ c.value x ∧ c.value x ≤ c.propMax := by
  unfold Cfg.bracket at hx
  unfold Cfg.value
  split_ifs at hx ⊢ with hl
  · have h1 := hp hl
    simp only at hx
    exact ⟨(Real.logb_le_iff_le_rpow (by norm_num) h1).1 hx.1,
      (Real.le_logb_iff_rpow_le (by norm_num) (lt_of_lt_of_le h1 h)).1 hx.2⟩
  · exact hx

/-- **The relic-density limit.**  If a number is returned, it is the cross
section (times velocity, converted) at twice the dark matter mass plus the
kinetic energy, of the model whose attribute has a value between the two limits
for which the relic density is the observed one.  Otherwise `nan` is returned
only if the root finder gave up or a `ValueError` occurred on the way. -/
theorem limit_on_relic_curve {σ : Type} (o : Ops σ) (hl : Lawful o) (c : Cfg) (conv : ℝ)
    (fd : ℝ → ℝ → Finder) (hs : Sound fd) (hb : c.propMin ≤ c.propMax)
    (hp : c.log = true → 0 < c.propMin) (s : σ) (y : ℝ)
    (h : (constrain o c conv fd s).1 = .num y) :
    ∃ v, c.propMin ≤ v ∧ v ≤ c.propMax ∧
      (o.omega (o.set v s)).1 = .ok omegaCdm ∧
      (∃ sig, (o.sigma (2 * o.mx (o.set v s) * (1 + c.vx ^ 2 / 2)) (o.set v s)).1 = .ok sig ∧
        y = sig * c.vx * conv) ∧
      (constrain o c conv fd s).2 = o.set v s := by
  obtain ⟨h1, h2⟩ := search_pure hl c s (fd c.bracket.1 c.bracket.2) s (fun _ => rfl)
  unfold constrain at h ⊢
  obtain ⟨r, hr⟩ : ∃ r, r = search (residual o c) (fd c.bracket.1 c.bracket.2) s := ⟨_, rfl⟩
  rw [← hr] at h h1 h2 ⊢
  obtain ⟨r1, s'⟩ := r
  simp only at h1 h2
  cases r1 with
  | error e => cases e <;> simp [catchValue] at h
  | ok x =>
    obtain ⟨hz, hx⟩ := hs _ _ _ x (bracket_le c hb hp) h1.symm
    obtain ⟨m1, m2⟩ := value_mem c hb hp x hx
    simp only [h2, sigmav] at h ⊢
    refine ⟨c.value x, m1, m2, ?_, ?_, hl.sigma_state _ _⟩
    · cases hw : (o.omega (o.set (c.value x) s)).1 with
      | error e => rw [hw] at hz; simp [Except.map] at hz
      | ok w =>
        rw [hw] at hz
        simp only [Except.map, Except.ok.injEq] at hz
        rw [sub_eq_zero.1 hz]
    · have he : (1 + 0.5 * c.vx ^ 2 : ℝ) = 1 + c.vx ^ 2 / 2 := by norm_num; ring
      rw [he] at h
      cases hq : (o.sigma (2 * o.mx (o.set (c.value x) s) * (1 + c.vx ^ 2 / 2))
        (o.set (c.value x) s)).1 with
      | error e => rw [hq] at h; cases e <;> simp [Except.map, catchValue] at h
      | ok sig =>
        rw [hq] at h
        simp only [Except.map, catchValue, Outcome.num.injEq] at h
        exact ⟨sig, rfl, h.symm⟩

/-- The value the attribute had before does not matter. -/
theorem limit_ignores_current_value {σ : Type} (o : Ops σ) (hl : Lawful o) (c : Cfg) (conv : ℝ)
    (fd : ℝ → ℝ → Finder) (s : σ) (w : ℝ) :
    (constrain o c conv fd (o.set w s)).1 = (constrain o c conv fd s).1 := by
  obtain ⟨h1, h2⟩ := search_pure hl c s (fd c.bracket.1 c.bracket.2) s (fun _ => rfl)
  obtain ⟨k1, k2⟩ := search_pure hl c s (fd c.bracket.1 c.bracket.2) (o.set w s)
    (fun v => hl.set_set v w s)
  unfold constrain
  obtain ⟨r, hr⟩ : ∃ r, r = search (residual o c) (fd c.bracket.1 c.bracket.2) s := ⟨_, rfl⟩
  obtain ⟨q, hq⟩ : ∃ q, q = search (residual o c) (fd c.bracket.1 c.bracket.2) (o.set w s) :=
    ⟨_, rfl⟩
  rw [← hr] at h1 h2 ⊢
  rw [← hq] at k1 k2 ⊢
  obtain ⟨r1, s'⟩ := r
  obtain ⟨q1, s''⟩ := q
  simp only at h1 h2 k1 k2
  have e : q1 = r1 := k1.trans h1.symm
  subst e
  cases q1 with
  | error e => rfl
  | ok x => simp only [h2, k2]

/-- `nan` is returned exactly when the root finder gives up, or `ValueError`
comes from a relic density or from the final cross section. -/
theorem limit_nan_iff {σ : Type} (o : Ops σ) (hl : Lawful o) (c : Cfg) (conv : ℝ)
    (fd : ℝ → ℝ → Finder) (s : σ) :
    let f := fun x => ((o.omega (o.set (c.value x) s)).1.map fun w => w - omegaCdm)
    (constrain o c conv fd s).1 = .nan ↔
      pureSearch f (fd c.bracket.1 c.bracket.2) = .error .value ∨
      ∃ x, pureSearch f (fd c.bracket.1 c.bracket.2) = .ok x ∧
        (o.sigma (2 * o.mx (o.set (c.value x) s) * (1 + 0.5 * c.vx ^ 2))
          (o.set (c.value x) s)).1 = .error .value := by
  intro f
  obtain ⟨h1, h2⟩ := search_pure hl c s (fd c.bracket.1 c.bracket.2) s (fun _ => rfl)
  unfold constrain
  obtain ⟨r, hr⟩ : ∃ r, r = search (residual o c) (fd c.bracket.1 c.bracket.2) s := ⟨_, rfl⟩
  rw [← hr] at h1 h2 ⊢
  obtain ⟨r1, s'⟩ := r
  simp only at h1 h2
  rw [← h1]
  cases r1 with
  | error e => cases e <;> simp [catchValue]
  | ok x =>
    simp only [h2, sigmav]
    cases hq : (o.sigma (2 * o.mx (o.set (c.value x) s) * (1 + 0.5 * c.vx ^ 2))
      (o.set (c.value x) s)).1 with
    | error e => cases e <;> simp [Except.map, catchValue, hq]
    | ok sig => simp [Except.map, catchValue, hq]

/-- The finder that looks at the two ends of the bracket only. -/
noncomputable def ends (lo hi : ℝ) : Finder :=
  .ask lo fun a => if a = 0 then .root lo else .ask hi fun b => if b = 0 then .root hi else .fail

lemma ends_sound : Sound ends := by
  intro f lo hi x hle h
  unfold ends at h
  simp only [pureSearch] at h
  cases ha : f lo with
  | error e => simp [ha] at h
  | ok a =>
    simp only [ha] at h
    by_cases h0 : a = 0
    · simp only [h0, if_true, pureSearch, Except.ok.injEq] at h
      subst h
      exact ⟨by rw [ha, h0], le_refl _, hle⟩
    · simp only [h0, if_false, pureSearch] at h
      cases hb : f hi with
      | error e => simp [hb] at h
      | ok b =>
        simp only [hb] at h
        by_cases h1 : b = 0
        · simp only [h1, if_true, pureSearch, Except.ok.injEq] at h
          subst h
          exact ⟨by rw [hb, h1], hle, le_refl _⟩
        · simp [h1, pureSearch] at h

/-- A model whose relic density is 0.1198 / g and whose cross section is g E:
with limits 1/2 and 1 the limit is the cross section at g = 1. -/
noncomputable def toy : Ops (ℝ × ℝ) where
  set v s := (s.1, v)
  omega s := (.ok (omegaCdm / s.2), s)
  sigma e s := (.ok (s.2 * e), s)
  mx s := s.1

example (m conv : ℝ) : Lawful toy ∧
    (constrain toy ⟨1 / 2, 1, 1, false⟩ conv ends (m, 7)).1 = .num (3 * m * conv) := by
  refine ⟨⟨fun _ _ _ => rfl, fun _ => rfl, fun _ _ => rfl⟩, ?_⟩
  have h0 : ¬ (omegaCdm / (1 / 2) - omegaCdm = 0) := by norm_num [omegaCdm]
  simp only [constrain, Cfg.bracket, ends, search, residual, toy, Cfg.value, Except.map,
    Bool.false_eq_true, if_false, h0, div_one, sub_self, if_true, sigmav, catchValue]
  congr 1
  ring

/-! ### Shallow copies of the GeV vector mediator -/

lemma dup_run (ff : FF) (h : List Act) : ∀ w : Pair,
    (h.foldl (onDup ff) w).orig = w.orig ∧
      (h.foldl (onDup ff) w).duplicate = run ff w.duplicate h := by
  induction h with
  | nil => intro w; exact ⟨rfl, rfl⟩
  | cons a r ih =>
    intro w
    obtain ⟨h1, h2⟩ := ih (onDup ff w a)
    exact ⟨h1, h2⟩

/-- Whatever is done with a copy, the attributes of the original stay, and the
copy itself behaves like the original would have. -/
theorem copy_attributes (ff : FF) (s : St) (h : List Act) :
    (h.foldl (onDup ff) (copy s)).original.p = s.p ∧
    (h.foldl (onDup ff) (copy s)).original.coup = s.coup ∧
    (h.foldl (onDup ff) (copy s)).duplicate = run ff s h := by
  obtain ⟨h1, h2⟩ := dup_run ff h (copy s)
  refine ⟨?_, ?_, h2⟩
  · show (List.foldl (onDup ff) (copy s) h).orig.p = _
    rw [h1]; rfl
  · show (List.foldl (onDup ff) (copy s) h).orig.coup = _
    rw [h1]; rfl

lemma width_entry {ff : FF} {n : String} {kw : Option ℕ} {s : St} {v : ℝ}
    (h : (width ff n kw s).1 = .ok v) : (width ff n kw s).2.cache n = some ⟨v, true, kw⟩ := by
  unfold width at h ⊢
  cases hc : s.cache n with
  | none => simp [hc] at h
  | some e =>
    simp only [hc] at h ⊢
    by_cases hv : e.valid = true ∧ e.kw = kw
    · simp only [hv, and_self, if_true, Except.ok.injEq] at h ⊢
      rw [hc]
      cases e
      simp_all
    · simp only [hv, if_false] at h ⊢
      cases hb : body ff s n kw with
      | error x => simp [hb] at h
      | ok w =>
        simp only [hb, Except.ok.injEq] at h ⊢
        subst h
        simp [put]

/-- **Violation.** After any history of the copy, a width asked of the copy is
what the original answers to the same question. -/
theorem original_answers_for_copy (ff : FF) (s : St) (h : List Act) (n : String) (kw : Option ℕ)
    (v : ℝ) (hv : (width ff n kw (run ff s h)).1 = .ok v) :
    (width ff n kw ((h ++ [Act.width n kw]).foldl (onDup ff) (copy s)).original).1 = .ok v := by
  obtain ⟨-, -, h3⟩ := copy_attributes ff s (h ++ [.width n kw])
  have hc : ((h ++ [Act.width n kw]).foldl (onDup ff) (copy s)).original.cache =
      (run ff s (h ++ [.width n kw])).cache := by
    rw [← h3]; rfl
  have he : (run ff s (h ++ [.width n kw])).cache n = some ⟨v, true, kw⟩ := by
    have : run ff s (h ++ [.width n kw]) = (width ff n kw (run ff s h)).2 := by
      simp [run, act]
    rw [this]
    exact width_entry hv
  unfold width
  rw [hc, he]
  simp

/-- **Violation**, as seen by the caller: copy a new model, assign `gvuu` on the
copy, ask the copy for a hadronic width.  The original reports its own coupling
and the width of the copy's. -/
theorem copy_changes_hadronic_widths (ff : FF) (p : Params) (g : ℝ) (n : String)
    (hk : n ∈ finalStates) (hn : ∀ f : Ferm, f.name ≠ n)
    (hne : ff n p.mv ⟨g, p.gvdd, p.gvss⟩ ((defaultNpts n).getD 0) ≠
      ff n p.mv ⟨p.gvuu, p.gvdd, p.gvss⟩ ((defaultNpts n).getD 0)) :
    let o := ([Act.gvuu g, .width n none].foldl (onDup ff) (copy (init p))).original
    o.p = p ∧
    (width ff n none o).1 = .ok (ff n p.mv ⟨g, p.gvdd, p.gvss⟩ ((defaultNpts n).getD 0)) ∧
    (width ff n none o).1 ≠ (width ff n none (init o.p)).1 := by
  intro o
  have hpub : Public [.gvuu g] := by
    intro a ha gq gl; simp at ha; subst ha; intro h; cases h
  have h1 := (hadronic_width_value ff p [.gvuu g] hpub n hk hn).1
  have h2 := original_answers_for_copy ff (init p) [.gvuu g] n none _ h1
  have hp : o.p = p := (copy_attributes ff (init p) [.gvuu g, .width n none]).1
  have h3 := (hadronic_width_value ff p [] (by intro a ha; simp at ha) n hk hn).1
  simp only [attrs, List.foldl, pAfter] at h1 h2 h3
  refine ⟨hp, h2, ?_⟩
  rw [show (width ff n none o).1 = _ from h2, hp]
  rw [show run ff (init p) [] = init p from rfl] at h3
  rw [h3]
  intro h
  exact hne (Except.ok.inj h)

/-- What remains true: once the original's own `mv` is assigned, every width of
the original is that of a new model with its attributes, whatever the copy did
before. -/
theorem original_recovers_partial (ff : FF) (p : Params) (h0 h : List Act) (hp : Public h0) (v : ℝ)
    (n : String) (kw : Option ℕ) :
    (width ff n kw
        (onOrig ff (h.foldl (onDup ff) (copy (run ff (init p) h0))) (.mv v)).original).1 =
      (width ff n kw (init { attrs p h0 with mv := v })).1 := by
  obtain ⟨k1, k2, k3⟩ := copy_attributes ff (run ff (init p) h0) h
  obtain ⟨i1, i2, i3⟩ := init_run ff p h0
  obtain ⟨-, -, j3⟩ := run_inv ff h (run ff (init p) h0) _ i3
  obtain ⟨o, ho⟩ : ∃ o, o = (h.foldl (onDup ff) (copy (run ff (init p) h0))).original := ⟨_, rfl⟩
  have hoc : o.cache = (run ff (run ff (init p) h0) h).cache := by rw [ho, ← k3]; rfl
  have he : (onOrig ff (h.foldl (onDup ff) (copy (run ff (init p) h0))) (.mv v)).original =
      act ff o (.mv v) := by rw [ho]; rfl
  rw [← ho] at k1 k2
  rw [he]
  have I : Inv ff (act ff o (.mv v)) (fun _ => none) := by
    refine invalidate_inv (s := { o with p := { o.p with mv := v } }) ?_
    intro m
    show (o.cache m).isSome = true ↔ Key m
    rw [hoc]
    exact j3.keys m
  have J := init_inv ff { attrs p h0 with mv := v }
  have e1 : (act ff o (.mv v)).p = { attrs p h0 with mv := v } := by
    show { o.p with mv := v } = _
    rw [k1, i1]
  have e2 : (act ff o (.mv v)).coup = (init { attrs p h0 with mv := v }).coup := by
    show o.coup = _
    rw [k2, i2]
    exact coup_public h0 hp p
  obtain ⟨a1, a2, a3, a4⟩ := (width_inv I n kw).1
  obtain ⟨b1, b2, b3, b4⟩ := (width_inv J n kw).1
  by_cases hk : Key n
  · rcases key_cases hk with ⟨f, hf⟩ | hh
    · rw [a2 f hf, b2 f hf, e1]; rfl
    · by_cases ha : Accepts n kw
      · rw [a3 hh ha, b3 hh ha, e1, e2]; rfl
      · rw [a4 hh ha, b4 hh ha]
  · rw [a1 hk, b1 hk]

/-! ### The relic-density limit of a GeV vector mediator -/

/-- The attributes of the caller's model are not changed. -/
theorem gev_limit_keeps_attributes (ff : FF) (prop : ℝ → Act)
    (om : Params → Coup → ℝ → Except Exc ℝ) (sg : Params → Coup → ℝ → ℝ → ℝ) (c : Cfg) (conv : ℝ)
    (fd : ℝ → ℝ → Finder) (s : St) :
    (gevConstrain ff prop om sg c conv fd s).2.original.p = s.p ∧
    (gevConstrain ff prop om sg c conv fd s).2.original.coup = s.coup := ⟨rfl, rfl⟩

lemma omega_state (ff : FF) (prop : ℝ → Act) (om : Params → Coup → ℝ → Except Exc ℝ)
    (sg : Params → Coup → ℝ → ℝ → ℝ) (s : St) :
    ((gevOps ff prop om sg).omega s).2 = act ff s .widthV := by
  show (match widthV ff s with
    | (.error _, s') => ((.error .other : Except Exc ℝ), s')
    | (.ok w, s') => (om s.p s.coup w, s')).2 = (widthV ff s).2
  rcases widthV ff s with ⟨r, s'⟩
  cases r <;> rfl

lemma sigma_state (ff : FF) (prop : ℝ → Act) (om : Params → Coup → ℝ → Except Exc ℝ)
    (sg : Params → Coup → ℝ → ℝ → ℝ) (e : ℝ) (s : St) :
    ((gevOps ff prop om sg).sigma e s).2 = act ff s .widthV := by
  show (match widthV ff s with
    | (.error _, s') => ((.error .other : Except Exc ℝ), s')
    | (.ok w, s') => (.ok (sg s.p s.coup w e), s')).2 = (widthV ff s).2
  rcases widthV ff s with ⟨r, s'⟩
  cases r <;> rfl

lemma search_hist (ff : FF) (prop : ℝ → Act) (om : Params → Coup → ℝ → Except Exc ℝ)
    (sg : Params → Coup → ℝ → ℝ → ℝ) (c : Cfg) (fd : Finder) : ∀ s, ∃ l : List Act,
      (search (residual (gevOps ff prop om sg) c) fd s).2 = run ff s l ∧
      ∀ a ∈ l, a = .widthV ∨ ∃ v, a = prop v := by
  induction fd with
  | root x => intro s; exact ⟨[], rfl, by simp⟩
  | fail => intro s; exact ⟨[], rfl, by simp⟩
  | ask x k ih =>
    intro s
    have hst : (residual (gevOps ff prop om sg) c x s).2 = run ff s [prop (c.value x), .widthV] :=
      omega_state ff prop om sg _
    obtain ⟨r, hr⟩ : ∃ r, r = residual (gevOps ff prop om sg) c x s := ⟨_, rfl⟩
    simp only [search]
    rw [← hr] at hst ⊢
    obtain ⟨r1, s'⟩ := r
    simp only at hst
    subst hst
    cases r1 with
    | error e =>
      refine ⟨[prop (c.value x), .widthV], rfl, ?_⟩
      intro a ha
      simp at ha
      rcases ha with rfl | rfl
      · exact .inr ⟨_, rfl⟩
      · exact .inl rfl
    | ok y =>
      obtain ⟨l, h1, h2⟩ := ih y (run ff s [prop (c.value x), .widthV])
      refine ⟨prop (c.value x) :: .widthV :: l, ?_, ?_⟩
      · exact h1
      · intro a ha
        simp only [List.mem_cons] at ha
        rcases ha with rfl | rfl | ha
        · exact .inr ⟨_, rfl⟩
        · exact .inl rfl
        · exact h2 a ha

lemma width_other (ff : FF) (n m : String) (kw : Option ℕ) (s : St) (h : m ≠ n) :
    (width ff n kw s).2.cache m = s.cache m := by
  unfold width
  cases s.cache n with
  | none => rfl
  | some e =>
    by_cases hv : e.valid = true ∧ e.kw = kw
    · simp [hv]
    · simp only [hv, if_false]
      cases body ff s n kw with
      | error x => rfl
      | ok w => simp [put, h]

lemma callAll_other (ff : FF) (m : String) (calls : List (String × Option ℕ)) :
    (∀ c ∈ calls, m ≠ c.1) → ∀ s : St, (callAll ff calls s).2.cache m = s.cache m := by
  induction calls with
  | nil => intro _ s; rfl
  | cons c r ih =>
    intro h s
    obtain ⟨n, kw⟩ := c
    have h1 := width_other ff n m kw s (h (n, kw) (by simp))
    obtain ⟨w, hw⟩ : ∃ w, w = width ff n kw s := ⟨_, rfl⟩
    have h2 := ih (fun c hc => h c (by simp [hc])) w.2
    simp only [callAll, ← hw]
    rw [← hw] at h1
    obtain ⟨w1, s'⟩ := w
    cases w1 with
    | error x => exact h1
    | ok v =>
      simp only at h2 ⊢
      obtain ⟨q, hq⟩ : ∃ q, q = callAll ff r s' := ⟨_, rfl⟩
      rw [← hq] at h2 ⊢
      obtain ⟨q1, s''⟩ := q
      cases q1 <;> exact h2.trans h1

lemma callAll_fills (ff : FF) (calls : List (String × Option ℕ)) :
    (calls.map Prod.fst).Nodup → (∀ c ∈ calls, Fine c) → ∀ (s : St) (seen : Seen), Inv ff s seen →
      ∀ c ∈ calls, ∃ e, (callAll ff calls s).2.cache c.1 = some e ∧ e.valid = true ∧ e.kw = c.2 := by
  induction calls with
  | nil => intro _ _ s seen _ c hc; simp at hc
  | cons c0 r ih =>
    intro hnd hf s seen I c hc
    obtain ⟨n, kw⟩ := c0
    simp only [List.map_cons, List.nodup_cons] at hnd
    obtain ⟨a1, a2⟩ := width_inv I n kw
    have hv := answer_val a1 (hf (n, kw) (by simp))
    have he := width_entry hv
    obtain ⟨w, hw⟩ : ∃ w, w = width ff n kw s := ⟨_, rfl⟩
    rw [← hw] at hv he a2
    obtain ⟨w1, s'⟩ := w
    simp only at hv he a2
    subst hv
    have hfr : ∀ c ∈ r, Fine c := fun c hc => hf c (by simp [hc])
    have hoth : (callAll ff r s').2.cache n = s'.cache n := by
      refine callAll_other ff n r ?_ s'
      intro c hc e
      exact hnd.1 (e ▸ List.mem_map_of_mem hc)
    have hrest := ih hnd.2 hfr s' _ a2
    have hst : (callAll ff ((n, kw) :: r) s).2 = (callAll ff r s').2 := by
      simp only [callAll, ← hw]
      rcases callAll ff r s' with ⟨q1, s''⟩
      cases q1 <;> rfl
    rw [hst]
    rcases List.mem_cons.1 hc with rfl | hc
    · exact ⟨_, hoth.trans he, rfl, rfl⟩
    · exact hrest c hc

lemma widthV_state (ff : FF) (s : St) : (widthV ff s).2 = (callAll ff (partialCalls 50000) s).2 := by
  unfold widthV
  rcases callAll ff (partialCalls 50000) s with ⟨r, s'⟩
  cases r <;> rfl

lemma widthV_fills (ff : FF) (p : Params) (l : List Act) :
    ∃ e, (run ff (init p) (l ++ [.widthV])).cache "pi pi" = some e ∧ e.valid = true ∧ e.kw = none := by
  obtain ⟨-, -, I⟩ := init_run ff p l
  have h := callAll_fills ff (partialCalls 50000) (by decide) (partial_fine 50000) _ _ I
    ("pi pi", none) (by simp [partialCalls])
  rw [← widthV_state] at h
  simpa [run, act] using h

lemma attrs_gvuu (l : List Act) (hl : ∀ a ∈ l, a = .widthV ∨ ∃ v, a = .gvuu v) : ∀ p : Params,
    ∃ v, attrs p l = { p with gvuu := v } := by
  induction l with
  | nil => intro p; exact ⟨p.gvuu, rfl⟩
  | cons a r ih =>
    intro p
    obtain ⟨v, hv⟩ := ih (fun b hb => hl b (by simp [hb])) (pAfter p a)
    refine ⟨v, ?_⟩
    rw [show attrs p (a :: r) = attrs (pAfter p a) r from rfl, hv]
    rcases hl a (by simp) with rfl | ⟨w, rfl⟩ <;> rfl

/-- **Violation.** After a relic-density limit found by varying `gvuu`, the
caller's model reports its own `gvuu`, and answers with the two-pion width of the
value that was found. -/
theorem gev_limit_overwrites_widths (ff : FF) (om : Params → Coup → ℝ → Except Exc ℝ)
    (sg : Params → Coup → ℝ → ℝ → ℝ) (c : Cfg) (conv : ℝ) (fd : ℝ → ℝ → Finder) (p : Params)
    (y : ℝ) (h : (gevConstrain ff .gvuu om sg c conv fd (init p)).1 = .num y) :
    let w := (gevConstrain ff .gvuu om sg c conv fd (init p)).2
    ∃ v, w.dup.p = { p with gvuu := v } ∧ w.original.p = p ∧
      (width ff "pi pi" none w.original).1 = .ok (ff "pi pi" p.mv ⟨v, p.gvdd, p.gvss⟩ 0) := by
  intro w
  obtain ⟨l, hl, ha⟩ := search_hist ff .gvuu om sg c (fd c.bracket.1 c.bracket.2) (init p)
  have hfin : ∃ x, (constrain (gevOps ff .gvuu om sg) c conv fd (init p)).2 =
      run ff (init p) (l ++ [.gvuu (c.value x), .widthV]) := by
    have h' : (constrain (gevOps ff .gvuu om sg) c conv fd (init p)).1 = .num y := h
    unfold constrain at h' ⊢
    obtain ⟨r, hr⟩ : ∃ r, r = search (residual (gevOps ff .gvuu om sg) c)
        (fd c.bracket.1 c.bracket.2) (init p) := ⟨_, rfl⟩
    rw [← hr] at h' hl ⊢
    obtain ⟨r1, s'⟩ := r
    simp only at hl
    subst hl
    cases r1 with
    | error e => cases e <;> simp [catchValue] at h'
    | ok x =>
      refine ⟨x, ?_⟩
      simp only [sigmav]
      rw [sigma_state]
      simp [run, gevOps]
  obtain ⟨x, hx⟩ := hfin
  obtain ⟨v0, hv0⟩ := attrs_gvuu l ha p
  have hpub : Public (l ++ [.gvuu (c.value x)]) := by
    intro a hm gq gl
    rcases List.mem_append.1 hm with hm | hm
    · rcases ha a hm with rfl | ⟨v, rfl⟩ <;> intro h <;> cases h
    · simp at hm; subst hm; intro h; cases h
  have hat : attrs p (l ++ [.gvuu (c.value x)]) = { p with gvuu := c.value x } := by
    rw [show attrs p (l ++ [.gvuu (c.value x)]) = pAfter (attrs p l) (.gvuu (c.value x)) by
      simp [attrs], hv0]
    rfl
  have hat2 : attrs p (l ++ [.gvuu (c.value x), .widthV]) = { p with gvuu := c.value x } := by
    rw [show l ++ [Act.gvuu (c.value x), .widthV] = (l ++ [.gvuu (c.value x)]) ++ [.widthV] by simp]
    rw [show attrs p ((l ++ [.gvuu (c.value x)]) ++ [.widthV]) =
      pAfter (attrs p (l ++ [.gvuu (c.value x)])) .widthV by simp [attrs], hat]
    rfl
  have hpub2 : Public (l ++ [.gvuu (c.value x), .widthV]) := by
    intro a hm gq gl
    rw [show l ++ [Act.gvuu (c.value x), .widthV] = (l ++ [.gvuu (c.value x)]) ++ [.widthV] by simp]
      at hm
    rcases List.mem_append.1 hm with hm | hm
    · exact hpub a hm gq gl
    · simp at hm; subst hm; intro h; cases h
  refine ⟨c.value x, ?_, rfl, ?_⟩
  · show (constrain (gevOps ff .gvuu om sg) c conv fd (init p)).2.p = _
    rw [hx, attributes_are_last_assigned, hat2]
  · -- the entry for two pions was written by the last `widthV`
    have hval := (hadronic_width_value ff p _ hpub2 "pi pi" (by decide)
      (by intro f; cases f <;> decide)).1
    rw [hat2] at hval
    have hcache : w.original.cache = (run ff (init p) (l ++ [.gvuu (c.value x), .widthV])).cache := by
      show (constrain (gevOps ff .gvuu om sg) c conv fd (init p)).2.cache = _
      rw [hx]
    have hvalid := widthV_fills ff p (l ++ [.gvuu (c.value x)])
    rw [show (l ++ [Act.gvuu (c.value x)]) ++ [.widthV] = l ++ [.gvuu (c.value x), .widthV] by simp]
      at hvalid
    obtain ⟨e, he, hv1, hv2⟩ := hvalid
    unfold width at hval ⊢
    rw [he] at hval
    rw [hcache, he]
    simp only [hv1, hv2, and_self, if_true] at hval ⊢
    rw [hval]
    simp [defaultNpts]

/-! ### Varying the dark matter coupling -/

lemma widthV_val {ff : FF} {s : St} {seen : Seen} (I : Inv ff s seen) :
    (widthV ff s).1 = .ok (((partialCalls 50000).map (val ff s.p s.coup seen)).sum) := by
  have i1 := (callAll_inv (partialCalls 50000) (partial_fine 50000) I).1
  unfold widthV
  rcases hcc : callAll ff (partialCalls 50000) s with ⟨r, s'⟩
  rw [hcc] at i1
  simp only at i1
  subst i1
  rfl

/-- What the search keeps: everything but `gvxx`, and the mass and coupling
every fermion width is evaluated with. -/
structure Kept (ff : FF) (q : Params) (c : Coup) (u : Ferm → ℝ × ℝ) (s : St) : Prop where
  params : { s.p with gvxx := 0 } = { q with gvxx := 0 }
  coup : s.coup = c
  seen : ∃ seen, Inv ff s seen ∧ (seen .x).isSome = true ∧ ∀ f, used s.p seen f = u f

lemma kept_width {ff : FF} {q : Params} {c : Coup} {u : Ferm → ℝ × ℝ} {s s' : St}
    (h : Kept ff q c u s) (h' : Kept ff q c u s') : (widthV ff s).1 = (widthV ff s').1 := by
  obtain ⟨seen, I, -, hu⟩ := h.seen
  obtain ⟨seen', I', -, hu'⟩ := h'.seen
  have hm : s.p.mv = s'.p.mv := by
    have := h.params.trans h'.params.symm
    simp only [Params.mk.injEq] at this
    exact this.2.1
  rw [widthV_val I, widthV_val I']
  congr 3
  funext call
  simp only [val, hu, hu', hm, h.coup, h'.coup]

lemma frozenStep_gvxx (f : Ferm) (p : Params) (o : Option (ℝ × ℝ)) (v : ℝ) :
    (frozenStep f (p, o) (.gvxx v)).2 =
      if f = .x then some (o.getD (p.mx, v)) else o := by
  by_cases h : f = .x
  · subst h; simp [frozenStep, Act.flushes, Act.asks, pAfter, Ferm.mass, Ferm.g]
  · simp [frozenStep, Act.flushes, Act.asks, h]

lemma kept_gvxx {ff : FF} {q : Params} {c : Coup} {u : Ferm → ℝ × ℝ} {s : St}
    (h : Kept ff q c u s) (v : ℝ) :
    Kept ff q c u (act ff s (.gvxx v)) ∧ (act ff s (.gvxx v)).p = { q with gvxx := v } := by
  obtain ⟨seen, I, hx, hu⟩ := h.seen
  obtain ⟨h1, h2, h3⟩ := act_inv I (.gvxx v)
  have hp : (act ff s (.gvxx v)).p = { q with gvxx := v } := by
    rw [h1]
    have h0 := h.params
    rcases hs : s.p with ⟨a1, a2, a3, a4, a5, a6, a7, a8, a9, a10, a11⟩
    rcases q with ⟨b1, b2, b3, b4, b5, b6, b7, b8, b9, b10, b11⟩
    rw [hs] at h0
    simp only [Params.mk.injEq] at h0
    simp [pAfter, h0]
  refine ⟨⟨by rw [hp], h2.trans h.coup, _, h3, ?_, ?_⟩, hp⟩
  · simp [frozenStep_gvxx]
  · intro f
    rw [← hu f]
    obtain ⟨mg, hmg⟩ := Option.isSome_iff_exists.1 hx
    unfold used
    by_cases hf : f = .x
    · subst hf; simp [frozenStep_gvxx, hmg]
    · simp only [frozenStep_gvxx, if_neg hf, h1]
      cases f <;> first | rfl | exact absurd rfl hf

lemma kept_widthV {ff : FF} {q : Params} {c : Coup} {u : Ferm → ℝ × ℝ} {s : St}
    (h : Kept ff q c u s) : Kept ff q c u (act ff s .widthV) := by
  obtain ⟨seen, I, hx, hu⟩ := h.seen
  obtain ⟨h1, h2, h3⟩ := act_inv I .widthV
  have hp : (act ff s .widthV).p = s.p := h1
  refine ⟨by rw [hp]; exact h.params, h2.trans h.coup, _, h3, ?_, ?_⟩
  · simp [frozenStep, Act.flushes, Act.asks]
  · intro f
    rw [← hu f]
    simp [used, frozenStep, Act.flushes, Act.asks, hp, pAfter]

/-- The model as the search sees it if the total width is the constant `W`: the
state is the value of `gvxx`. -/
def frozenOps (q : Params) (c : Coup) (W : ℝ) (om : Params → Coup → ℝ → Except Exc ℝ)
    (sg : Params → Coup → ℝ → ℝ → ℝ) : Ops ℝ where
  set v _ := v
  omega g := (om { q with gvxx := g } c W, g)
  sigma e g := (.ok (sg { q with gvxx := g } c W e), g)
  mx _ := q.mx

lemma gev_omega {ff : FF} {prop : ℝ → Act} {om : Params → Coup → ℝ → Except Exc ℝ}
    {sg : Params → Coup → ℝ → ℝ → ℝ} {s : St} {W : ℝ} (h : (widthV ff s).1 = .ok W) :
    ((gevOps ff prop om sg).omega s).1 = om s.p s.coup W := by
  show (match widthV ff s with
    | (.error _, s') => ((.error .other : Except Exc ℝ), s')
    | (.ok w, s') => (om s.p s.coup w, s')).1 = _
  rcases hw : widthV ff s with ⟨r, s'⟩
  rw [hw] at h
  simp only at h
  subst h
  rfl

lemma gev_sigma {ff : FF} {prop : ℝ → Act} {om : Params → Coup → ℝ → Except Exc ℝ}
    {sg : Params → Coup → ℝ → ℝ → ℝ} {s : St} {W e : ℝ} (h : (widthV ff s).1 = .ok W) :
    ((gevOps ff prop om sg).sigma e s).1 = .ok (sg s.p s.coup W e) := by
  show (match widthV ff s with
    | (.error _, s') => ((.error .other : Except Exc ℝ), s')
    | (.ok w, s') => (.ok (sg s.p s.coup w e), s')).1 = _
  rcases hw : widthV ff s with ⟨r, s'⟩
  rw [hw] at h
  simp only at h
  subst h
  rfl

lemma search_kept {ff : FF} {q : Params} {c : Coup} {u : Ferm → ℝ × ℝ} {W : ℝ}
    (om : Params → Coup → ℝ → Except Exc ℝ) (sg : Params → Coup → ℝ → ℝ → ℝ) (cfg : Cfg)
    (hW : ∀ s, Kept ff q c u s → (widthV ff s).1 = .ok W) (fd : Finder) :
    ∀ s g, Kept ff q c u s →
      (search (residual (gevOps ff .gvxx om sg) cfg) fd s).1 =
        (search (residual (frozenOps q c W om sg) cfg) fd g).1 ∧
      Kept ff q c u (search (residual (gevOps ff .gvxx om sg) cfg) fd s).2 := by
  induction fd with
  | root x => intro s g h; exact ⟨rfl, h⟩
  | fail => intro s g h; exact ⟨rfl, h⟩
  | ask x k ih =>
    intro s g h
    obtain ⟨k1, k2⟩ := kept_gvxx h (cfg.value x)
    have e1 : (residual (gevOps ff .gvxx om sg) cfg x s).1 =
        (residual (frozenOps q c W om sg) cfg x g).1 := by
      show ((gevOps ff .gvxx om sg).omega (act ff s (.gvxx (cfg.value x)))).1.map _ = _
      rw [gev_omega (hW _ k1), k2, k1.coup]
      rfl
    have e2 : Kept ff q c u (residual (gevOps ff .gvxx om sg) cfg x s).2 := by
      show Kept ff q c u ((gevOps ff .gvxx om sg).omega (act ff s (.gvxx (cfg.value x)))).2
      rw [omega_state]
      exact kept_widthV k1
    simp only [search]
    obtain ⟨a, ha⟩ : ∃ a, a = residual (gevOps ff .gvxx om sg) cfg x s := ⟨_, rfl⟩
    obtain ⟨b, hb⟩ : ∃ b, b = residual (frozenOps q c W om sg) cfg x g := ⟨_, rfl⟩
    rw [← ha, ← hb] at e1
    rw [← ha] at e2
    rw [← ha, ← hb]
    obtain ⟨a1, a2⟩ := a
    obtain ⟨b1, b2⟩ := b
    simp only at e1 e2
    subst e1
    cases a1 with
    | error e => exact ⟨rfl, e2⟩
    | ok y => exact ih y a2 b2 e2

lemma kept_init (ff : FF) (p : Params) (v : ℝ) :
    Kept ff p ⟨p.gvuu, p.gvdd, p.gvss⟩ (fun f => (f.mass p, f.g { p with gvxx := v }))
      (act ff (init p) (.gvxx v)) := by
  obtain ⟨h1, h2, h3⟩ := act_inv (init_inv ff p) (.gvxx v)
  refine ⟨by rw [h1]; rfl, h2, _, h3, ?_, ?_⟩
  · simp [frozenStep_gvxx]
  · intro f
    unfold used
    simp only [frozenStep_gvxx, h1]
    cases f <;> rfl

/-- Varying `gvxx` of a new model: the whole search, and the cross section that
is returned, use **one** total width, that of the first value the finder tries. -/
theorem gev_limit_uses_first_width (ff : FF) (om : Params → Coup → ℝ → Except Exc ℝ)
    (sg : Params → Coup → ℝ → ℝ → ℝ) (c : Cfg) (conv : ℝ) (fd : ℝ → ℝ → Finder) (p : Params)
    (x0 : ℝ) (k : ℝ → Finder) (hfd : fd c.bracket.1 c.bracket.2 = .ask x0 k) :
    ∃ W, (widthV ff (init { p with gvxx := c.value x0 })).1 = .ok W ∧
      (gevConstrain ff .gvxx om sg c conv fd (init p)).1 =
        (constrain (frozenOps p ⟨p.gvuu, p.gvdd, p.gvss⟩ W om sg) c conv fd p.gvxx).1 := by
  obtain ⟨v, hv⟩ : ∃ v, v = c.value x0 := ⟨_, rfl⟩
  obtain ⟨u, hu⟩ : ∃ u : Ferm → ℝ × ℝ, u = fun f => (f.mass p, f.g { p with gvxx := v }) :=
    ⟨_, rfl⟩
  have K0 := kept_init ff p v
  rw [← hu] at K0
  have I0 := init_inv ff { p with gvxx := v }
  have hw0 := widthV_val I0
  refine ⟨_, by rw [← hv]; exact hw0, ?_⟩
  obtain ⟨W, hWdef⟩ : ∃ W, W = ((partialCalls 50000).map (val ff (init { p with gvxx := v }).p
    (init { p with gvxx := v }).coup fun _ => none)).sum := ⟨_, rfl⟩
  rw [← hWdef]
  obtain ⟨seen, I, hx, hus⟩ := K0.seen
  have hW0 : (widthV ff (act ff (init p) (.gvxx v))).1 = .ok W := by
    rw [widthV_val I, hWdef]
    congr 3
    funext call
    have hm : (act ff (init p) (.gvxx v)).p.mv = p.mv := by
      have := K0.params
      simp only [Params.mk.injEq] at this
      exact this.2.1
    simp only [val, hus, hm, K0.coup]
    rw [hu]
    rfl
  have hW : ∀ s, Kept ff p ⟨p.gvuu, p.gvdd, p.gvss⟩ u s → (widthV ff s).1 = .ok W := fun s hs =>
    (kept_width hs K0).trans hW0
  have hp0 : (act ff (init p) (.gvxx v)).p = { p with gvxx := v } := (act_inv (init_inv ff p) (.gvxx v)).1
  -- the first question
  have hsearch : ∀ g, (search (residual (gevOps ff .gvxx om sg) c) (.ask x0 k) (init p)).1 =
        (search (residual (frozenOps p ⟨p.gvuu, p.gvdd, p.gvss⟩ W om sg) c) (.ask x0 k) g).1 ∧
      Kept ff p ⟨p.gvuu, p.gvdd, p.gvss⟩ u
        (search (residual (gevOps ff .gvxx om sg) c) (.ask x0 k) (init p)).2 := by
    intro g
    have e1 : (residual (gevOps ff .gvxx om sg) c x0 (init p)).1 =
        (residual (frozenOps p ⟨p.gvuu, p.gvdd, p.gvss⟩ W om sg) c x0 g).1 := by
      show ((gevOps ff .gvxx om sg).omega (act ff (init p) (.gvxx (c.value x0)))).1.map _ = _
      rw [← hv, gev_omega hW0, hp0, K0.coup, hv]
      rfl
    have e2 : Kept ff p ⟨p.gvuu, p.gvdd, p.gvss⟩ u
        (residual (gevOps ff .gvxx om sg) c x0 (init p)).2 := by
      show Kept ff p _ u ((gevOps ff .gvxx om sg).omega (act ff (init p) (.gvxx (c.value x0)))).2
      rw [omega_state, ← hv]
      exact kept_widthV K0
    simp only [search]
    obtain ⟨a, ha⟩ : ∃ a, a = residual (gevOps ff .gvxx om sg) c x0 (init p) := ⟨_, rfl⟩
    obtain ⟨b, hb⟩ : ∃ b, b = residual (frozenOps p ⟨p.gvuu, p.gvdd, p.gvss⟩ W om sg) c x0 g :=
      ⟨_, rfl⟩
    rw [← ha, ← hb] at e1
    rw [← ha] at e2
    rw [← ha, ← hb]
    obtain ⟨a1, a2⟩ := a
    obtain ⟨b1, b2⟩ := b
    simp only at e1 e2
    subst e1
    cases a1 with
    | error e => exact ⟨rfl, e2⟩
    | ok y => exact search_kept om sg c hW (k y) a2 b2 e2
  obtain ⟨s1, s2⟩ := hsearch p.gvxx
  show (constrain (gevOps ff .gvxx om sg) c conv fd (init p)).1 = _
  unfold constrain
  rw [hfd]
  obtain ⟨a, ha⟩ : ∃ a, a = search (residual (gevOps ff .gvxx om sg) c) (.ask x0 k) (init p) :=
    ⟨_, rfl⟩
  obtain ⟨b, hb⟩ : ∃ b, b = search (residual (frozenOps p ⟨p.gvuu, p.gvdd, p.gvss⟩ W om sg) c)
    (.ask x0 k) p.gvxx := ⟨_, rfl⟩
  rw [← ha, ← hb] at s1
  rw [← ha] at s2
  rw [← ha, ← hb]
  obtain ⟨a1, a2⟩ := a
  obtain ⟨b1, b2⟩ := b
  simp only at s1 s2
  subst s1
  cases a1 with
  | error e => rfl
  | ok x =>
    obtain ⟨k1, k2⟩ := kept_gvxx s2 (c.value x)
    simp only [sigmav]
    show catchValue (((gevOps ff .gvxx om sg).sigma
      (2 * (act ff a2 (.gvxx (c.value x))).p.mx * (1 + 0.5 * c.vx ^ 2))
      (act ff a2 (.gvxx (c.value x)))).1.map _) = _
    rw [gev_sigma (hW _ k1), k2, k1.coup]
    rfl

/-- The total width of a new model, as a function of `gvxx` alone. -/
lemma widthV_gvxx_ne (ff : FF) (p : Params) (hm : 2 * |p.mx| < p.mv) (g g' : ℝ) (hg : g ^ 2 ≠ g' ^ 2)
    (W W' : ℝ) (h : (widthV ff (init { p with gvxx := g })).1 = .ok W)
    (h' : (widthV ff (init { p with gvxx := g' })).1 = .ok W') : W ≠ W' := by
  have t := total_width_value ff { p with gvxx := g } [] (by intro a ha; simp at ha)
  have t' := total_width_value ff { p with gvxx := g' } [] (by intro a ha; simp at ha)
  rw [show run ff (init { p with gvxx := g }) [] = init { p with gvxx := g } from rfl, h] at t
  rw [show run ff (init { p with gvxx := g' }) [] = init { p with gvxx := g' } from rfl, h'] at t'
  simp only [attrs, List.foldl, frozen, Option.getD_none, Ferm.mass, Ferm.g, Ferm.scale, one_mul,
    Except.ok.injEq] at t t'
  intro e
  refine widthFF_ne hm hg ?_
  linarith

/-- **Violation.** For a new model in which the mediator can decay to dark
matter and whose relic density depends on the width: the limit found by varying
`gvxx` is not on the relic-density curve.  The value that was found gives the
observed relic density only together with the width of the first value the
finder tried; a new model with that value has another relic density. -/
theorem gev_limit_off_relic_curve (ff : FF) (om : Params → Coup → ℝ → Except Exc ℝ)
    (sg : Params → Coup → ℝ → ℝ → ℝ) (c : Cfg) (conv : ℝ) (fd : ℝ → ℝ → Finder) (hs : Sound fd)
    (hb : c.propMin ≤ c.propMax) (hl : c.log = true → 0 < c.propMin) (p : Params)
    (hm : 2 * |p.mx| < p.mv) (x0 : ℝ) (k : ℝ → Finder)
    (hfd : fd c.bracket.1 c.bracket.2 = .ask x0 k)
    (hom : ∀ q c' w w' r, om q c' w = .ok r → om q c' w' = .ok r → w = w') (y : ℝ)
    (h : (gevConstrain ff .gvxx om sg c conv fd (init p)).1 = .num y) :
    ∃ v W, c.propMin ≤ v ∧ v ≤ c.propMax ∧
      (widthV ff (init { p with gvxx := c.value x0 })).1 = .ok W ∧
      om { p with gvxx := v } ⟨p.gvuu, p.gvdd, p.gvss⟩ W = .ok omegaCdm ∧
      y = sg { p with gvxx := v } ⟨p.gvuu, p.gvdd, p.gvss⟩ W
        (2 * p.mx * (1 + c.vx ^ 2 / 2)) * c.vx * conv ∧
      (v ^ 2 ≠ c.value x0 ^ 2 →
        ((gevOps ff .gvxx om sg).omega (init { p with gvxx := v })).1 ≠ .ok omegaCdm) := by
  obtain ⟨W, hW, he⟩ := gev_limit_uses_first_width ff om sg c conv fd p x0 k hfd
  rw [he] at h
  have hlaw : Lawful (frozenOps p ⟨p.gvuu, p.gvdd, p.gvss⟩ W om sg) :=
    ⟨fun _ _ _ => rfl, fun _ => rfl, fun _ _ => rfl⟩
  obtain ⟨v, v1, v2, v3, ⟨sig, v4, v5⟩, -⟩ := limit_on_relic_curve _ hlaw c conv fd hs hb hl _ y h
  refine ⟨v, W, v1, v2, hW, v3, ?_, ?_⟩
  · have : sg { p with gvxx := v } ⟨p.gvuu, p.gvdd, p.gvss⟩ W (2 * p.mx * (1 + c.vx ^ 2 / 2)) = sig :=
      Except.ok.inj v4
    rw [this]; exact v5
  · intro hne hcon
    obtain ⟨W', hW'⟩ : ∃ W', (widthV ff (init { p with gvxx := v })).1 = .ok W' :=
      ⟨_, widthV_val (init_inv ff _)⟩
    rw [gev_omega hW'] at hcon
    have := hom _ _ _ _ _ v3 hcon
    exact widthV_gvxx_ne ff p hm _ _ hne.symm W W' hW hW' this

/-- The situation occurs: limits 1/2 and 1, a relic density that grows with the
coupling and with the width. -/
example (ff : FF) (p : Params) (sg : Params → Coup → ℝ → ℝ → ℝ) (conv : ℝ) :
    ∃ om : Params → Coup → ℝ → Except Exc ℝ,
      (∀ q c' w w' r, om q c' w = .ok r → om q c' w' = .ok r → w = w') ∧
      ∃ y, (gevConstrain ff .gvxx om sg ⟨1 / 2, 1, 1, false⟩ conv ends (init p)).1 = .num y := by
  obtain ⟨W, hW⟩ : ∃ W, (widthV ff (init { p with gvxx := 1 / 2 })).1 = .ok W :=
    ⟨_, widthV_val (init_inv ff _)⟩
  refine ⟨fun q _ w => .ok (omegaCdm + (q.gvxx - 1) + (w - W)), ?_, ?_⟩
  · intro q c' w w' r h h'
    have := Except.ok.inj (h.trans h'.symm)
    linarith
  · obtain ⟨W', hW', he⟩ := gev_limit_uses_first_width ff
      (fun q _ w => .ok (omegaCdm + (q.gvxx - 1) + (w - W))) sg ⟨1 / 2, 1, 1, false⟩ conv ends p
      (1 / 2) _ rfl
    have hv : (Cfg.mk (1 / 2) 1 1 false).value (1 / 2) = 1 / 2 := by simp [Cfg.value]
    rw [hv, hW] at hW'
    obtain rfl := Except.ok.inj hW'
    rw [he]
    have h0 : ¬ (omegaCdm + ((1 / 2 : ℝ) - 1) + (W - W) - omegaCdm = 0) := by norm_num
    have h1 : omegaCdm + ((1 : ℝ) - 1) + (W - W) - omegaCdm = 0 := by ring
    simp only [constrain, Cfg.bracket, ends, search, residual, frozenOps, Cfg.value, Except.map,
      Bool.false_eq_true, if_false, h0, h1, if_true, sigmav, catchValue]
    exact ⟨_, rfl⟩

end Hazma.RelicLimit
