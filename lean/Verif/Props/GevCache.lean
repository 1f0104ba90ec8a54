import Verif.Lemmas.GevCache

/-!
# Widths of the GeV vector mediator along a history of assignments and queries

The documented reading of the attributes: after any assignments a width is that
of a model built with the current attribute values.  This holds for the
hadronic channels, and fails for the fermion channels, whose setters read the
cached width before storing it.  The exact behaviour is given for every
history.
-/

namespace Hazma.GevCache

/-! ### Specification: attribute values, stored couplings, frozen arguments -/

/-- Attribute values after one action: assignments, nothing else. -/
def pAfter (p : Params) : Act → Params
  | .mx v => { p with mx := v }
  | .mv v => { p with mv := v }
  | .gvxx v => { p with gvxx := v }
  | .gvuu v => { p with gvuu := v }
  | .gvdd v => { p with gvdd := v }
  | .gvss v => { p with gvss := v }
  | .gvee v => { p with gvee := v }
  | .gvmumu v => { p with gvmumu := v }
  | .gvveve v => { p with gvveve := v }
  | .gvvmvm v => { p with gvvmvm := v }
  | .gvvtvt v => { p with gvvtvt := v }
  | .charges gq gl => { p with gvuu := gq, gvdd := gq, gvss := gq, gvee := gl, gvmumu := gl,
                               gvveve := gl, gvvmvm := gl, gvvtvt := gl }
  | .width _ _ => p
  | .widthV => p

/-- Attribute values after a history. -/
def attrs (p : Params) (h : List Act) : Params := h.foldl pAfter p

/-- Actions after which every width is computed anew. -/
def Act.flushes : Act → Prop
  | .mv _ | .gvuu _ | .gvdd _ | .gvss _ => True
  | _ => False

/-- Actions that evaluate the width of the channel `f`. -/
def Act.asks (f : Ferm) : Act → Prop
  | .width n kw => n = f.name ∧ kw = none
  | .widthV => True
  | .gvee _ => f = .e
  | .gvmumu _ => f = .mu
  | .gvveve _ => f = .ve
  | .gvvmvm _ => f = .vm
  | .gvvtvt _ => f = .vt
  | .gvxx _ => f = .x
  | .mx _ => f = .x
  | _ => False

open Classical in
/-- Mass and coupling at the first evaluation since the last flush, if there was
one; `p` are the attribute values before the action. -/
noncomputable def frozenStep (f : Ferm) (po : Params × Option (ℝ × ℝ)) (a : Act) :
    Params × Option (ℝ × ℝ) :=
  let p' := pAfter po.1 a
  if a.flushes then (p', none)
  else if a.asks f then (p', some (po.2.getD (f.mass p', f.g p')))
  else (p', po.2)

/-- See `frozenStep`. -/
noncomputable def frozen (f : Ferm) (p : Params) (h : List Act) : Option (ℝ × ℝ) :=
  (h.foldl (frozenStep f) (p, none)).2

/-- The quark couplings handed to the form factors: rebuilt by the three quark
setters only. -/
def coupStep (pc : Params × Coup) (a : Act) : Params × Coup :=
  let p' := pAfter pc.1 a
  match a with
  | .gvuu _ | .gvdd _ | .gvss _ => (p', ⟨p'.gvuu, p'.gvdd, p'.gvss⟩)
  | _ => (p', pc.2)

/-- See `coupStep`. -/
def couplings (p : Params) (h : List Act) : Coup :=
  (h.foldl coupStep (p, ⟨p.gvuu, p.gvdd, p.gvss⟩)).2

/-! ### The invariant along a history -/

lemma frozenStep_fst (f : Ferm) (po : Params × Option (ℝ × ℝ)) (a : Act) :
    (frozenStep f po a).1 = pAfter po.1 a := by
  unfold frozenStep; simp only; split_ifs <;> rfl

private lemma coupStep_fst (pc : Params × Coup) (a : Act) : (coupStep pc a).1 = pAfter pc.1 a := by
  unfold coupStep; cases a <;> rfl

lemma act_inv {ff : FF} {s : St} {seen : Seen} (I : Inv ff s seen) (a : Act) :
    (act ff s a).p = pAfter s.p a ∧ (act ff s a).coup = (coupStep (s.p, s.coup) a).2 ∧
      Inv ff (act ff s a) (fun f => (frozenStep f (s.p, seen f) a).2) := by
  have fin : ∀ f : Ferm, act ff s a = (width ff f.name none { s with p := pAfter s.p a }).2 →
      (pAfter s.p a).mv = s.p.mv → (coupStep (s.p, s.coup) a).2 = s.coup → ¬ a.flushes →
      (∀ f', a.asks f' ↔ f' = f) →
      (act ff s a).p = pAfter s.p a ∧ (act ff s a).coup = (coupStep (s.p, s.coup) a).2 ∧
        Inv ff (act ff s a) (fun f => (frozenStep f (s.p, seen f) a).2) := by
    intro f h1 h2 h3 h4 h5
    have J := assign_inv I (pAfter s.p a) h2
    obtain ⟨k1, k2⟩ := width_p ff f.name none { s with p := pAfter s.p a }
    have k3 := (width_inv J f.name none).2
    rw [h1, h3]
    refine ⟨k1, k2, ?_⟩
    have e : touch (pAfter s.p a) f.name none seen =
        fun f => (frozenStep f (s.p, seen f) a).2 := by
      funext f'
      by_cases h : f' = f
      · simp [touch, h, used, frozenStep, h4, h5]
      · have : f'.name ≠ f.name := fun e => h (name_inj e)
        simp [touch, h, this, frozenStep, h4, h5]
    rw [← e]
    exact k3
  cases a with
  | mx v => exact fin .x (refreshValue_eq _ _ _) rfl rfl id (fun _ => Iff.rfl)
  | gvxx v => exact fin .x (refresh_eq _ _ _) rfl rfl id (fun _ => Iff.rfl)
  | gvee v => exact fin .e (refresh_eq _ _ _) rfl rfl id (fun _ => Iff.rfl)
  | gvmumu v => exact fin .mu (refresh_eq _ _ _) rfl rfl id (fun _ => Iff.rfl)
  | gvveve v => exact fin .ve (refresh_eq _ _ _) rfl rfl id (fun _ => Iff.rfl)
  | gvvmvm v => exact fin .vm (refresh_eq _ _ _) rfl rfl id (fun _ => Iff.rfl)
  | gvvtvt v => exact fin .vt (refresh_eq _ _ _) rfl rfl id (fun _ => Iff.rfl)
  | mv v =>
    refine ⟨rfl, rfl, ?_⟩
    simpa [act, frozenStep, Act.flushes] using invalidate_inv (ff := ff) I.keys
      (s := { s with p := { s.p with mv := v } })
  | gvuu v =>
    refine ⟨rfl, rfl, ?_⟩
    simpa [act, frozenStep, Act.flushes] using invalidate_inv (ff := ff) I.keys
      (s := recouple { s with p := { s.p with gvuu := v } })
  | gvdd v =>
    refine ⟨rfl, rfl, ?_⟩
    simpa [act, frozenStep, Act.flushes] using invalidate_inv (ff := ff) I.keys
      (s := recouple { s with p := { s.p with gvdd := v } })
  | gvss v =>
    refine ⟨rfl, rfl, ?_⟩
    simpa [act, frozenStep, Act.flushes] using invalidate_inv (ff := ff) I.keys
      (s := recouple { s with p := { s.p with gvss := v } })
  | charges gq gl =>
    refine ⟨rfl, rfl, ?_⟩
    have h := assign_inv I (pAfter s.p (.charges gq gl)) rfl
    have e : (fun f => (frozenStep f (s.p, seen f) (.charges gq gl)).2) = seen := by
      funext f; simp [frozenStep, Act.flushes, Act.asks]
    rw [e]
    exact h
  | width n kw =>
    obtain ⟨h1, h2⟩ := width_p ff n kw s
    refine ⟨h1, h2, ?_⟩
    have h3 := (width_inv I n kw).2
    have e : (fun f => (frozenStep f (s.p, seen f) (.width n kw)).2) = touch s.p n kw seen := by
      funext f
      have hc : (n = f.name ∧ kw = none) ↔ (f.name = n ∧ kw = none) := by
        constructor <;> rintro ⟨a, b⟩ <;> exact ⟨a.symm, b⟩
      by_cases h : f.name = n ∧ kw = none
      · simp [frozenStep, Act.flushes, Act.asks, pAfter, touch, used, hc, h]
      · simp only [frozenStep, Act.flushes, Act.asks, pAfter, touch, hc, h, if_false]
    rw [e]
    exact h3
  | widthV =>
    obtain ⟨h1, h2, h3, h4⟩ := callAll_inv (partialCalls 50000) (partial_fine 50000) I
    rw [touch_all] at h4
    have hw : (widthV ff s).2 = (callAll ff (partialCalls 50000) s).2 := by
      unfold widthV
      rcases hc : callAll ff (partialCalls 50000) s with ⟨r, s'⟩
      cases r <;> rfl
    refine ⟨by simpa [act, hw, pAfter] using h2, by simpa [act, hw, coupStep] using h3, ?_⟩
    simpa [act, hw, frozenStep, Act.flushes, Act.asks, pAfter, used] using h4

lemma run_inv (ff : FF) (h : List Act) : ∀ (s : St) (seen : Seen), Inv ff s seen →
    (run ff s h).p = attrs s.p h ∧ (run ff s h).coup = (h.foldl coupStep (s.p, s.coup)).2 ∧
      Inv ff (run ff s h) (fun f => (h.foldl (frozenStep f) (s.p, seen f)).2) := by
  induction h with
  | nil => intro s seen I; exact ⟨rfl, rfl, I⟩
  | cons a rest ih =>
    intro s seen I
    obtain ⟨h1, h2, h3⟩ := act_inv I a
    obtain ⟨i1, i2, i3⟩ := ih _ _ h3
    refine ⟨?_, ?_, ?_⟩
    · rw [show run ff s (a :: rest) = run ff (act ff s a) rest from rfl, i1, h1]; rfl
    · rw [show run ff s (a :: rest) = run ff (act ff s a) rest from rfl, i2, h1, h2]
      rw [List.foldl_cons, ← coupStep_fst (s.p, s.coup) a]
    · rw [show run ff s (a :: rest) = run ff (act ff s a) rest from rfl]
      convert i3 using 2 with f
      rw [List.foldl_cons, h1, ← frozenStep_fst f (s.p, seen f) a]

lemma init_run (ff : FF) (p : Params) (h : List Act) :
    (run ff (init p) h).p = attrs p h ∧ (run ff (init p) h).coup = couplings p h ∧
      Inv ff (run ff (init p) h) (fun f => frozen f p h) :=
  run_inv ff h (init p) (fun _ => none) (init_inv ff p)

/-! ### Attributes -/

/-- Reading an attribute gives the value assigned last, along every history. -/
theorem attributes_are_last_assigned (ff : FF) (p : Params) (h : List Act) :
    (run ff (init p) h).p = attrs p h := (init_run ff p h).1

/-! ### Hadronic channels -/

/-- Only public operations: no direct writes of the underscored attributes. -/
def Public (h : List Act) : Prop := ∀ a ∈ h, ∀ gq gl, a ≠ Act.charges gq gl

lemma coup_public (h : List Act) (hp : Public h) : ∀ p : Params,
    (h.foldl coupStep (p, ⟨p.gvuu, p.gvdd, p.gvss⟩)).2 =
      ⟨(attrs p h).gvuu, (attrs p h).gvdd, (attrs p h).gvss⟩ := by
  induction h with
  | nil => intro p; rfl
  | cons a rest ih =>
    intro p
    have hr : Public rest := fun b hb => hp b (by simp [hb])
    have hs : coupStep (p, ⟨p.gvuu, p.gvdd, p.gvss⟩) a =
        (pAfter p a, ⟨(pAfter p a).gvuu, (pAfter p a).gvdd, (pAfter p a).gvss⟩) := by
      have ha := hp a (List.mem_cons_self ..)
      cases a <;> first | rfl | exact absurd rfl (ha _ _)
    rw [List.foldl_cons, hs, ih hr]
    rfl

/-- What a method call returns after a public history is what it returns on a
new object with the current attribute values: **every hadronic channel**. -/
theorem hadronic_width_is_current_partial (ff : FF) (p : Params) (h : List Act) (hp : Public h)
    (n : String) (hn : ∀ f : Ferm, f.name ≠ n) (kw : Option ℕ) :
    (width ff n kw (run ff (init p) h)).1 = (width ff n kw (init (attrs p h))).1 := by
  obtain ⟨h1, h2, h3⟩ := init_run ff p h
  obtain ⟨a1, _, a3, a4⟩ := (width_inv h3 n kw).1
  obtain ⟨b1, _, b3, b4⟩ := (width_inv (init_inv ff (attrs p h)) n kw).1
  have hc : couplings p h = (init (attrs p h)).coup := coup_public h hp p
  by_cases hk : Key n
  · have hh : Hadronic n := ⟨hk, hn⟩
    by_cases ha : Accepts n kw
    · rw [a3 hh ha, b3 hh ha, h1, h2, hc]; rfl
    · rw [a4 hh ha, b4 hh ha]
  · rw [a1 hk, b1 hk]

/-- The value itself: the form factor width at the current mediator mass and
quark couplings, with the number of points asked for. -/
theorem hadronic_width_value (ff : FF) (p : Params) (h : List Act) (hp : Public h)
    (n : String) (hk : n ∈ finalStates) (hn : ∀ f : Ferm, f.name ≠ n) :
    (width ff n none (run ff (init p) h)).1 =
        .ok (ff n (attrs p h).mv ⟨(attrs p h).gvuu, (attrs p h).gvdd, (attrs p h).gvss⟩
          ((defaultNpts n).getD 0)) ∧
      ∀ k, (defaultNpts n).isSome = true →
        (width ff n (some k) (run ff (init p) h)).1 =
          .ok (ff n (attrs p h).mv ⟨(attrs p h).gvuu, (attrs p h).gvdd, (attrs p h).gvss⟩ k) := by
  obtain ⟨h1, h2, h3⟩ := init_run ff p h
  have hh : Hadronic n := ⟨.inl hk, hn⟩
  have hc : couplings p h = _ := coup_public h hp p
  constructor
  · rw [(width_inv h3 n none).1.2.2.1 hh (.inl rfl), h1, h2, hc]; rfl
  · intro k hd
    rw [(width_inv h3 n (some k)).1.2.2.1 hh (.inr hd), h1, h2, hc]; rfl

/-- The method for two neutral pions raises `AssertionError` whatever happened
before: its name is not in the table. -/
theorem two_neutral_pions_never (ff : FF) (p : Params) (h : List Act) (kw : Option ℕ) :
    (width ff "pi0 pi0" kw (run ff (init p) h)).1 = .error .assertion :=
  (width_inv (init_run ff p h).2.2 "pi0 pi0" kw).1.1 (by decide)

/-! ### Fermion channels -/

/-- Exact value of a fermion width after any history: current mediator mass,
and the fermion mass and coupling **at the first evaluation since the last
assignment of `mv` or of a quark coupling**. -/
theorem fermion_width_value (ff : FF) (p : Params) (h : List Act) (f : Ferm) :
    (width ff f.name none (run ff (init p) h)).1 =
      .ok (f.scale * widthFF (attrs p h).mv
        ((frozen f p h).getD (f.mass (attrs p h), f.g (attrs p h))).1
        ((frozen f p h).getD (f.mass (attrs p h), f.g (attrs p h))).2) := by
  obtain ⟨h1, _, h3⟩ := init_run ff p h
  have := (width_inv h3 f.name none).1.2.1 f rfl
  simpa [used, h1] using this

/-- The fermion width of a new object. -/
theorem fermion_width_new (ff : FF) (p : Params) (f : Ferm) :
    (width ff f.name none (init p)).1 = .ok (f.scale * widthFF p.mv (f.mass p) (f.g p)) := by
  have := fermion_width_value ff p [] f
  simpa [frozen, attrs, run] using this

lemma widthFF_ne {mv m g g' : ℝ} (hm : 2 * |m| < mv) (hg : g ^ 2 ≠ g' ^ 2) :
    widthFF mv m g ≠ widthFF mv m g' := by
  have hmv : 0 < mv := by have := abs_nonneg m; linarith
  have hx : 0 < -4 * m ^ 2 + mv ^ 2 := by
    have := abs_nonneg m
    have h2 : (2 * |m|) ^ 2 < mv ^ 2 := by nlinarith
    have h3 : |m| ^ 2 = m ^ 2 := sq_abs m
    nlinarith
  have hs : 0 < √(max (-4 * m ^ 2 + mv ^ 2) 0) := Real.sqrt_pos.2 (lt_max_of_lt_left hx)
  have hw : ∀ g, widthFF mv m g =
      g ^ 2 * (√(max (-4 * m ^ 2 + mv ^ 2) 0) * (2 * m ^ 2 + mv ^ 2) / (12 * mv ^ 2 * Real.pi)) := by
    intro g; unfold widthFF; ring
  have hpos : 0 < √(max (-4 * m ^ 2 + mv ^ 2) 0) * (2 * m ^ 2 + mv ^ 2) /
      (12 * mv ^ 2 * Real.pi) := by
    have := Real.pi_pos
    positivity
  intro h
  rw [hw, hw] at h
  exact hg (mul_right_cancel₀ hpos.ne' h)

/-- **Violation.** For every model in which the electron channel is open: query
the width, assign a coupling of different size, query again.  The second answer
is the first one, not that of a model with the new coupling. -/
theorem electron_width_is_stale (ff : FF) (p : Params) (hm : 2 * mE < p.mv) (g : ℝ)
    (hg : p.gvee ^ 2 ≠ g ^ 2) :
    let s := run ff (init p) [.width "e e" none, .gvee g]
    s.p.gvee = g ∧
    (width ff "e e" none s).1 = (width ff "e e" none (init p)).1 ∧
    (width ff "e e" none s).1 ≠ (width ff "e e" none (init s.p)).1 := by
  intro s
  have hs : s.p = { p with gvee := g } := by
    have := attributes_are_last_assigned ff p [.width "e e" none, .gvee g]
    simpa [attrs, pAfter] using this
  have h1 := fermion_width_value ff p [.width "e e" none, .gvee g] .e
  have h0 := fermion_width_new ff p .e
  have h2 := fermion_width_new ff s.p .e
  have hfr : frozen .e p [.width "e e" none, .gvee g] = some (mE, p.gvee) := by
    simp [frozen, frozenStep, Act.flushes, Act.asks, pAfter, Ferm.name, Ferm.mass, Ferm.g]
  rw [hfr] at h1
  simp only [Ferm.name, Ferm.scale, Ferm.mass, Ferm.g, Option.getD_some, one_mul] at h0 h1 h2
  refine ⟨by rw [hs], ?_, ?_⟩
  · rw [show s = run ff (init p) [.width "e e" none, .gvee g] from rfl, h1, h0]
    simp [attrs, pAfter]
  · rw [show s = run ff (init p) [.width "e e" none, .gvee g] from rfl, h1]
    rw [show run ff (init p) [.width "e e" none, .gvee g] = s from rfl, h2, hs]
    simp only [attrs, pAfter, List.foldl, ne_eq, Except.ok.injEq]
    refine widthFF_ne ?_ hg
    have : (0 : ℝ) < mE := by norm_num [mE]
    rwa [abs_of_pos this]

/-- The dark matter width keeps the mass of its first evaluation too: the `mx`
setter stores what the cached method returns. -/
theorem dark_matter_width_is_stale (ff : FF) (p : Params) (h : List Act) (m m' : ℝ)
    (hf : frozen .x p h = none) :
    (width ff "x x" none (run ff (init p) (h ++ [.mx m, .mx m']))).1 =
      .ok (widthFF (attrs p h).mv m (attrs p h).gvxx) := by
  have h1 := fermion_width_value ff p (h ++ [.mx m, .mx m']) .x
  have hat : attrs p (h ++ [.mx m, .mx m']) = { attrs p h with mx := m' } := by
    simp [attrs, pAfter]
  have hpair : ∀ (l : List Act) (po : Params × Option (ℝ × ℝ)),
      (l.foldl (frozenStep .x) po).1 = attrs po.1 l := by
    intro l
    induction l with
    | nil => intro po; rfl
    | cons a r ih => intro po; rw [List.foldl_cons, ih, frozenStep_fst]; rfl
  have hfr : frozen .x p (h ++ [.mx m, .mx m']) = some (m, (attrs p h).gvxx) := by
    have h2 := hpair h (p, none)
    unfold frozen at hf
    unfold frozen
    rw [List.foldl_append]
    obtain ⟨q, hq⟩ : ∃ q, q = h.foldl (frozenStep .x) (p, none) := ⟨_, rfl⟩
    rw [← hq] at h2 hf ⊢
    obtain ⟨q1, q2⟩ := q
    simp only at h2 hf
    subst h2 hf
    simp [frozenStep, Act.flushes, Act.asks, pAfter, Ferm.mass, Ferm.g]
  rw [hfr, hat] at h1
  simpa [Ferm.name, Ferm.scale] using h1

/-- Assigning `mv` (its own value will do) makes **every** width that of a new
object with the current attribute values. -/
theorem assigning_mv_refreshes (ff : FF) (p : Params) (h : List Act) (hp : Public h) (v : ℝ)
    (n : String) (kw : Option ℕ) :
    (width ff n kw (run ff (init p) (h ++ [.mv v]))).1 =
      (width ff n kw (init { attrs p h with mv := v })).1 := by
  have hat : attrs p (h ++ [.mv v]) = { attrs p h with mv := v } := by simp [attrs, pAfter]
  by_cases hn : ∀ f : Ferm, f.name ≠ n
  · rw [← hat]
    refine hadronic_width_is_current_partial ff p _ ?_ n hn kw
    intro a ha
    rcases List.mem_append.1 ha with ha | ha
    · exact hp a ha
    · simp at ha; subst ha; intro _ _ h; cases h
  · push Not at hn
    obtain ⟨f, rfl⟩ := hn
    obtain ⟨h1, _, h3⟩ := init_run ff p (h ++ [.mv v])
    have a2 := (width_inv h3 f.name kw).1.2.1 f rfl
    have b2 := (width_inv (init_inv ff { attrs p h with mv := v }) f.name kw).1.2.1 f rfl
    have hfr : frozen f p (h ++ [.mv v]) = none := by
      unfold frozen
      rw [List.foldl_append]
      simp [frozenStep, Act.flushes]
    rw [a2, b2, h1, hat]
    simp [used, hfr, init]

/-- A fermion coupling assigned when nothing evaluated the channel since the
last flush takes effect. -/
theorem first_assignment_takes_effect (ff : FF) (p : Params) (v : ℝ) :
    (width ff "e e" none (run ff (init p) [.gvee v])).1 =
      (width ff "e e" none (init { p with gvee := v })).1 := by
  have h1 := fermion_width_value ff p [.gvee v] .e
  have h2 := fermion_width_new ff { p with gvee := v } .e
  simp only [Ferm.name] at h1 h2
  rw [h1, h2]
  simp [frozen, frozenStep, Act.flushes, Act.asks, pAfter, attrs, Ferm.mass, Ferm.g]

/-! ### The total width -/

/-- `width_v()` after any history: current hadronic widths (with 50000 points
where a number of points is passed) plus the frozen fermion widths; it cannot
raise. -/
theorem total_width_value (ff : FF) (p : Params) (h : List Act) (hp : Public h) :
    let q := attrs p h
    let c : Coup := ⟨q.gvuu, q.gvdd, q.gvss⟩
    let w : Ferm → ℝ := fun f => f.scale * widthFF q.mv
      ((frozen f p h).getD (f.mass q, f.g q)).1 ((frozen f p h).getD (f.mass q, f.g q)).2
    (widthV ff (run ff (init p) h)).1 = .ok (
      w .e + w .mu + w .ve + w .vm + w .vt + w .x +
      ff "pi pi" q.mv c 0 + ff "k0 k0" q.mv c 0 + ff "k k" q.mv c 0 + ff "pi0 gamma" q.mv c 0 +
      ff "eta gamma" q.mv c 0 + ff "pi0 phi" q.mv c 0 + ff "eta phi" q.mv c 0 +
      ff "eta omega" q.mv c 0 + ff "pi0 pi0 gamma" q.mv c 0 + ff "pi pi pi0" q.mv c 50000 +
      ff "pi pi eta" q.mv c 0 + ff "pi pi etap" q.mv c 0 + ff "pi pi omega" q.mv c 0 +
      ff "pi0 pi0 omega" q.mv c 0 + ff "pi0 k0 k0" q.mv c 50000 + ff "pi0 k k" q.mv c 50000 +
      ff "pi k k0" q.mv c 50000 + ff "pi pi pi pi" q.mv c 50000 +
      ff "pi pi pi0 pi0" q.mv c 50000) := by
  intro q c w
  obtain ⟨h1, h2, h3⟩ := init_run ff p h
  obtain ⟨i1, -, -, -⟩ := callAll_inv (partialCalls 50000) (partial_fine 50000) h3
  have hc : couplings p h = c := coup_public h hp p
  have hw : (widthV ff (run ff (init p) h)).1 =
      .ok ((partialCalls 50000).map
        (val ff (run ff (init p) h).p (run ff (init p) h).coup (fun f => frozen f p h))).sum := by
    unfold widthV
    rcases hcc : callAll ff (partialCalls 50000) (run ff (init p) h) with ⟨r, s'⟩
    rw [hcc] at i1
    simp only at i1
    subst i1
    rfl
  rw [hw, h1, h2, hc]
  simp only [partialCalls, List.map_cons, List.map_nil, List.sum_cons, List.sum_nil, val, used,
    defaultNpts]
  simp only [w, q]
  congr 1
  simp only [String.reduceEq, if_false, if_true, or_false, or_true, Option.getD_some, Option.getD_none,
    c, q, or_self]
  ring

/-! ### `KineticMixingGeV` -/

/-- **Violation.** Assigning `eps` always raises `AttributeError`; the object
then reports the new `eps`, with everything else as it was. -/
theorem eps_assignment_raises (ff : FF) (k : KM) (v : ℝ) :
    (kmAct ff k (.strength v)).1 = .error .attribute ∧
      (kmAct ff k (.strength v)).2.eps = v ∧ (kmAct ff k (.strength v)).2.st = k.st :=
  ⟨rfl, rfl, rfl⟩

private lemma km_hist (ff : FF) (h : List RAct) : ∀ k : KM, ∃ l : List Act,
    (kmRun ff k h).st = run ff k.st l ∧
      (∀ a ∈ l, (∃ v, a = .mx v) ∨ (∃ v, a = .mv v) ∨ (∃ v, a = .gvxx v) ∨
        (∃ n kw, a = .width n kw) ∨ a = .widthV) := by
  induction h with
  | nil => intro k; exact ⟨[], rfl, by simp⟩
  | cons a rest ih =>
    intro k
    obtain ⟨l, hl, hm⟩ := ih (kmAct ff k a).2
    have hr : kmRun ff k (a :: rest) = kmRun ff (kmAct ff k a).2 rest := rfl
    cases a with
    | mx v => exact ⟨.mx v :: l, by rw [hr, hl]; rfl, by simpa using hm⟩
    | mv v => exact ⟨.mv v :: l, by rw [hr, hl]; rfl, by simpa using hm⟩
    | gvxx v => exact ⟨.gvxx v :: l, by rw [hr, hl]; rfl, by simpa using hm⟩
    | hidden _ _ => exact ⟨l, by rw [hr, hl]; rfl, hm⟩
    | strength _ => exact ⟨l, by rw [hr, hl]; rfl, hm⟩
    | width n kw => exact ⟨.width n kw :: l, by rw [hr, hl]; rfl, by simpa using hm⟩
    | widthV => exact ⟨.widthV :: l, by rw [hr, hl]; rfl, by simpa using hm⟩

private lemma restricted_attrs (l : List Act)
    (hm : ∀ a ∈ l, (∃ v, a = .mx v) ∨ (∃ v, a = .mv v) ∨ (∃ v, a = .gvxx v) ∨
        (∃ n kw, a = .width n kw) ∨ a = .widthV) : ∀ p : Params,
    (attrs p l).gvuu = p.gvuu ∧ (attrs p l).gvdd = p.gvdd ∧ (attrs p l).gvss = p.gvss ∧
      (attrs p l).gvee = p.gvee ∧ (attrs p l).gvmumu = p.gvmumu ∧
      (attrs p l).gvveve = p.gvveve ∧ (attrs p l).gvvmvm = p.gvvmvm ∧
      (attrs p l).gvvtvt = p.gvvtvt := by
  induction l with
  | nil => intro p; exact ⟨rfl, rfl, rfl, rfl, rfl, rfl, rfl, rfl⟩
  | cons a r ih =>
    intro p
    have := ih (fun b hb => hm b (by simp [hb])) (pAfter p a)
    rcases hm a (by simp) with ⟨v, rfl⟩ | ⟨v, rfl⟩ | ⟨v, rfl⟩ | ⟨n, kw, rfl⟩ | rfl <;>
      simpa [attrs, pAfter] using this

/-- Whatever is assigned to a `KineticMixingGeV`, its Standard Model couplings
stay those of the `eps` it was built with. -/
theorem kinetic_mixing_couplings_fixed (ff : FF) (qe mx mv gvxx eps : ℝ) (h : List RAct) :
    let s := (kmRun ff (kmInit qe mx mv gvxx eps) h).st
    s.p.gvuu = -(2 / 3) * eps * qe ∧ s.p.gvdd = 1 / 3 * eps * qe ∧ s.p.gvss = 1 / 3 * eps * qe ∧
      s.p.gvee = eps * qe ∧ s.p.gvmumu = eps * qe ∧
      s.p.gvveve = 0 ∧ s.p.gvvmvm = 0 ∧ s.p.gvvtvt = 0 := by
  intro s
  obtain ⟨l, hl, hm⟩ := km_hist ff h (kmInit qe mx mv gvxx eps)
  have hs : s.p = attrs (kmParams qe mx mv gvxx eps) l := by
    rw [show s = run ff (init (kmParams qe mx mv gvxx eps)) l from hl]
    exact attributes_are_last_assigned _ _ _
  obtain ⟨h1, h2, h3, h4, h5, h6, h7, h8⟩ := restricted_attrs l hm (kmParams qe mx mv gvxx eps)
  rw [hs, h1, h2, h3, h4, h5, h6, h7, h8]
  simp only [kmParams, Qu, Qd, Qe]
  refine ⟨?_, ?_, ?_, ?_, ?_, ?_, ?_, ?_⟩ <;> first | trivial | ring

/-- The true part for kinetic mixing: with the couplings fixed, the widths into
Standard Model states after any history are those of a new object at the current
`mv`. -/
theorem kinetic_mixing_widths_partial (ff : FF) (qe mx mv gvxx eps : ℝ) (h : List RAct)
    (n : String) (hn : n ≠ "x x") (kw : Option ℕ) :
    let s := (kmRun ff (kmInit qe mx mv gvxx eps) h).st
    (width ff n kw s).1 = (width ff n kw (init (kmParams qe mx s.p.mv gvxx eps))).1 := by
  intro s
  obtain ⟨l, hl, hm⟩ := km_hist ff h (kmInit qe mx mv gvxx eps)
  have hl' : s = run ff (init (kmParams qe mx mv gvxx eps)) l := hl
  have hsp : s.p = attrs (kmParams qe mx mv gvxx eps) l := by
    rw [hl']; exact attributes_are_last_assigned _ _ _
  have hpub : Public l := by
    intro a ha gq gl e
    rcases hm a ha with ⟨v, rfl⟩ | ⟨v, rfl⟩ | ⟨v, rfl⟩ | ⟨n, kw, rfl⟩ | rfl <;> cases e
  have hfix := restricted_attrs l hm (kmParams qe mx mv gvxx eps)
  obtain ⟨h1, h2, h3⟩ := init_run ff (kmParams qe mx mv gvxx eps) l
  obtain ⟨a1, a2, a3, a4⟩ := (width_inv h3 n kw).1
  obtain ⟨b1, b2, b3, b4⟩ :=
    (width_inv (init_inv ff (kmParams qe mx s.p.mv gvxx eps)) n kw).1
  rw [hl']
  rw [hl'] at b1 b2 b3 b4
  by_cases hk : Key n
  swap
  · rw [a1 hk, b1 hk]
  rcases key_cases hk with ⟨f, hf⟩ | hh
  · have hfx : f ≠ .x := by rintro rfl; exact hn hf.symm
    rw [a2 f hf, b2 f hf]
    cases kw with
    | some k => rfl
    | none =>
      have hused : used (run ff (init (kmParams qe mx mv gvxx eps)) l).p
          (fun f => frozen f (kmParams qe mx mv gvxx eps) l) f =
          used (init (kmParams qe mx (run ff (init (kmParams qe mx mv gvxx eps)) l).p.mv gvxx eps)).p
            (fun _ => none) f := by
        -- all evaluations see the same mass and coupling
        have hfrz : ∀ (l : List Act), (∀ a ∈ l, (∃ v, a = .mx v) ∨ (∃ v, a = .mv v) ∨
            (∃ v, a = .gvxx v) ∨ (∃ n kw, a = .width n kw) ∨ a = .widthV) →
            ∀ (po : Params × Option (ℝ × ℝ)), po.2 = none ∨ po.2 = some (f.mass po.1, f.g po.1) →
            f.mass (attrs po.1 l) = f.mass po.1 ∧ f.g (attrs po.1 l) = f.g po.1 ∧
            ((l.foldl (frozenStep f) po).2 = none ∨
              (l.foldl (frozenStep f) po).2 = some (f.mass po.1, f.g po.1)) := by
          intro l
          induction l with
          | nil => intro _ po hpo; exact ⟨rfl, rfl, hpo⟩
          | cons a r ih =>
            intro hm po hpo
            have hma : f.mass (pAfter po.1 a) = f.mass po.1 ∧ f.g (pAfter po.1 a) = f.g po.1 := by
              rcases hm a (by simp) with ⟨v, rfl⟩ | ⟨v, rfl⟩ | ⟨v, rfl⟩ | ⟨n, kw, rfl⟩ | rfl <;>
                cases f <;> first | exact ⟨rfl, rfl⟩ | exact absurd rfl hfx
            have hst : (frozenStep f po a).2 = none ∨ (frozenStep f po a).2 =
                some (f.mass (frozenStep f po a).1, f.g (frozenStep f po a).1) := by
              rw [frozenStep_fst, hma.1, hma.2]
              unfold frozenStep
              simp only
              split_ifs
              · exact .inl rfl
              · right
                simp only [hma.1, hma.2]
                rcases hpo with h | h <;> simp [h]
              · exact hpo
            have := ih (fun b hb => hm b (by simp [hb])) (frozenStep f po a) hst
            rw [frozenStep_fst, hma.1, hma.2] at this
            exact this
        obtain ⟨c1, c2, c3⟩ := hfrz l hm (kmParams qe mx mv gvxx eps, none) (.inl rfl)
        simp only at c1 c2 c3
        have e1 : f.mass (kmParams qe mx (attrs (kmParams qe mx mv gvxx eps) l).mv gvxx eps) =
            f.mass (kmParams qe mx mv gvxx eps) := by cases f <;> rfl
        have e2 : f.g (kmParams qe mx (attrs (kmParams qe mx mv gvxx eps) l).mv gvxx eps) =
            f.g (kmParams qe mx mv gvxx eps) := by cases f <;> rfl
        have c3' : frozen f (kmParams qe mx mv gvxx eps) l = none ∨
            frozen f (kmParams qe mx mv gvxx eps) l =
              some (f.mass (kmParams qe mx mv gvxx eps), f.g (kmParams qe mx mv gvxx eps)) := c3
        unfold used
        rw [h1]
        simp only [init, Option.getD_none, e1, e2]
        rcases c3' with c | c <;> rw [c] <;> simp [c1, c2]
      rw [hused]
      rfl
  · by_cases ha : Accepts n kw
    · rw [a3 hh ha, b3 hh ha, h2]
      have hc := coup_public l hpub (kmParams qe mx mv gvxx eps)
      have : couplings (kmParams qe mx mv gvxx eps) l =
          (init (kmParams qe mx (run ff (init (kmParams qe mx mv gvxx eps)) l).p.mv gvxx eps)).coup := by
        unfold couplings
        rw [hc, hfix.1, hfix.2.1, hfix.2.2.1]
        rfl
      rw [this]
      rfl
    · rw [a4 hh ha, b4 hh ha]

/-! ### `BLGeV` -/

private lemma bl_hist (ff : FF) (h : List RAct) : ∀ b : BL, ∃ l : List Act,
    (blRun ff b h).st = run ff b.st l ∧
      (∀ a ∈ l, ∀ v, a ≠ .gvuu v ∧ a ≠ .gvdd v ∧ a ≠ .gvss v) := by
  induction h with
  | nil => intro k; exact ⟨[], rfl, by simp⟩
  | cons a rest ih =>
    intro b
    obtain ⟨l, hl, hm⟩ := ih (blAct ff b a).2
    have hr : blRun ff b (a :: rest) = blRun ff (blAct ff b a).2 rest := rfl
    cases a with
    | mx v => exact ⟨.mx v :: l, by rw [hr, hl]; rfl, by simpa using hm⟩
    | mv v => exact ⟨.mv v :: l, by rw [hr, hl]; rfl, by simpa using hm⟩
    | gvxx v => exact ⟨.gvxx v :: l, by rw [hr, hl]; rfl, by simpa using hm⟩
    | hidden _ _ => exact ⟨l, by rw [hr, hl]; rfl, hm⟩
    | strength v => exact ⟨.charges (v * (1 / 3)) (v * (-1)) :: l, by rw [hr, hl]; rfl, by simpa using hm⟩
    | width n kw => exact ⟨.width n kw :: l, by rw [hr, hl]; rfl, by simpa using hm⟩
    | widthV => exact ⟨.widthV :: l, by rw [hr, hl]; rfl, by simpa using hm⟩

private lemma coup_fixed (l : List Act)
    (hm : ∀ a ∈ l, ∀ v, a ≠ .gvuu v ∧ a ≠ .gvdd v ∧ a ≠ .gvss v) : ∀ pc : Params × Coup,
    (l.foldl coupStep pc).2 = pc.2 := by
  induction l with
  | nil => intro pc; rfl
  | cons a r ih =>
    intro pc
    rw [List.foldl_cons, ih (fun b hb => hm b (by simp [hb]))]
    have := hm a (by simp)
    cases a with
    | gvuu v => exact absurd rfl (this v).1
    | gvdd v => exact absurd rfl (this v).2.1
    | gvss v => exact absurd rfl (this v).2.2
    | _ => rfl

/-- **Violation.** The hadronic widths of a `BLGeV` are for ever those of the
coupling it was **built** with, whatever `g` is assigned later. -/
theorem baryon_minus_lepton_hadrons_keep_first_g (ff : FF) (mx mv gvxx g : ℝ) (h : List RAct)
    (n : String) (hk : n ∈ finalStates) (hn : ∀ f : Ferm, f.name ≠ n) :
    let s := (blRun ff (blInit mx mv gvxx g) h).st
    (width ff n none s).1 =
      .ok (ff n s.p.mv ⟨g / 3, g / 3, g / 3⟩ ((defaultNpts n).getD 0)) := by
  intro s
  obtain ⟨l, hl, hm⟩ := bl_hist ff h (blInit mx mv gvxx g)
  have hl' : s = run ff (init (blParams mx mv gvxx g)) l := hl
  obtain ⟨h1, h2, h3⟩ := init_run ff (blParams mx mv gvxx g) l
  have hh : Hadronic n := ⟨.inl hk, hn⟩
  rw [hl', (width_inv h3 n none).1.2.2.1 hh (.inl rfl), h2]
  unfold couplings
  rw [coup_fixed l hm]
  simp [blParams, div_eq_mul_inv]

/-- Assigning `g` does change the attributes: the reported couplings are the new
ones, and so is a lepton width not evaluated before. -/
theorem baryon_minus_lepton_attributes (ff : FF) (mx mv gvxx g g' : ℝ) :
    let b := (blAct ff (blInit mx mv gvxx g) (.strength g')).2
    b.g = g' ∧ b.st.p = blParams mx mv gvxx g' ∧
      (width ff "mu mu" none b.st).1 = .ok (widthFF mv mMu (-g')) := by
  intro b
  refine ⟨rfl, rfl, ?_⟩
  have h1 := fermion_width_value ff (blParams mx mv gvxx g) [.charges (g' * (1 / 3)) (g' * (-1))] .mu
  have hb : b.st = run ff (init (blParams mx mv gvxx g)) [.charges (g' * (1 / 3)) (g' * (-1))] := rfl
  rw [hb]
  simp only [Ferm.name] at h1
  rw [h1]
  simp [frozen, frozenStep, Act.flushes, Act.asks, pAfter, attrs, Ferm.mass, Ferm.g, Ferm.scale,
    blParams]

/-- So the answer differs from that of a new `BLGeV` whenever the form factor
width tells the two couplings apart. -/
theorem baryon_minus_lepton_hadrons_stale (ff : FF) (mx mv gvxx g g' : ℝ)
    (hd : ff "k k" mv ⟨g / 3, g / 3, g / 3⟩ 0 ≠ ff "k k" mv ⟨g' / 3, g' / 3, g' / 3⟩ 0) :
    let b := (blAct ff (blInit mx mv gvxx g) (.strength g')).2
    (width ff "k k" none b.st).1 ≠ (width ff "k k" none (blInit mx mv gvxx g').st).1 := by
  intro b
  have hn : ∀ f : Ferm, f.name ≠ "k k" := by intro f; cases f <;> decide
  have h1 := baryon_minus_lepton_hadrons_keep_first_g ff mx mv gvxx g [.strength g'] "k k"
    (by decide) hn
  have h2 := baryon_minus_lepton_hadrons_keep_first_g ff mx mv gvxx g' [] "k k" (by decide) hn
  have hd0 : (defaultNpts "k k").getD 0 = 0 := by decide
  simp only [hd0] at h1 h2
  have e1 : b.st = (blRun ff (blInit mx mv gvxx g) [.strength g']).st := rfl
  have e2 : (blInit mx mv gvxx g').st = (blRun ff (blInit mx mv gvxx g') []).st := rfl
  rw [e1, h1, e2, h2]
  simp only [ne_eq, Except.ok.injEq]
  exact hd

/-! ### Concrete cases -/

/-- A model with unit couplings. -/
noncomputable def unitModel : Params := ⟨100, 1000, 1, 1, 1, 1, 1, 1, 1, 1, 1⟩

-- Built with gvee = 1, queried, gvee set to 2, queried: still the first value.
example (ff : FF) :
    (width ff "e e" none (run ff (init unitModel) [.width "e e" none, .gvee 2])).1 =
      (width ff "e e" none (init unitModel)).1 :=
  (electron_width_is_stale ff unitModel (by norm_num [mE, unitModel]) 2
    (by norm_num [unitModel])).2.1

-- Without the query the assignment takes effect; a second assignment does not.
example (ff : FF) :
    (width ff "e e" none (run ff (init unitModel) [.gvee 2, .gvee 3])).1 =
      .ok (widthFF 1000 mE 2) := by
  have h := fermion_width_value ff unitModel [.gvee 2, .gvee 3] .e
  simp only [Ferm.name] at h
  rw [h]
  simp [frozen, frozenStep, Act.flushes, Act.asks, pAfter, attrs, Ferm.mass, Ferm.g, Ferm.scale,
    unitModel]

-- The hadronic channel follows the quark coupling, with the points asked for.
example (ff : FF) :
    (width ff "pi pi pi0" (some 7)
      (run ff (init unitModel) [.widthV, .gvuu 5, .width "pi pi pi0" none])).1 =
      .ok (ff "pi pi pi0" 1000 ⟨5, 1, 1⟩ 7) := by
  have h := (hadronic_width_value ff unitModel [.widthV, .gvuu 5, .width "pi pi pi0" none]
    (by intro a ha; fin_cases ha <;> intro _ _ h <;> cases h) "pi pi pi0" (by decide)
    (by intro f; cases f <;> decide)).2 7 (by decide)
  rw [h]
  simp [attrs, pAfter, unitModel]

-- B-L: kaon width after g := 4 still uses 3/3.
example (ff : FF) (h : ff "k k" 900 ⟨1, 1, 1⟩ 0 = 7) :
    (width ff "k k" none (blRun ff (blInit 100 900 1 3) [.strength 4, .widthV]).st).1 = .ok 7 := by
  have := baryon_minus_lepton_hadrons_keep_first_g ff 100 900 1 3 [.strength 4, .widthV] "k k"
    (by decide) (by intro f; cases f <;> decide)
  simp only [(by decide : (defaultNpts "k k").getD 0 = 0)] at this
  have hmv : (blRun ff (blInit 100 900 1 3) [.strength 4, .widthV]).st.p.mv = 900 := by
    have e : (blRun ff (blInit 100 900 1 3) [.strength 4, .widthV]).st =
      run ff (init (blParams 100 900 1 3)) [.charges (4 * (1 / 3)) (4 * (-1)), .widthV] := rfl
    rw [e, attributes_are_last_assigned]
    simp [attrs, pAfter, blParams]
  rw [this, hmv]
  norm_num [h]

end Hazma.GevCache
