import Verif.Model.Pbh
import Mathlib.Tactic

/-!
# Primordial black holes

The spectrum of a `PBH` is the tabulated one of its mass, whatever the fraction;
a failed assignment of the mass leaves the object with a mass and the spectrum of
another.
-/

namespace Hazma.Pbh

open Hazma.Theory

/-! ### The spectrum -/

lemma spectra_eq (o : Obj) (e : ℝ) : spectra o e =
    .ok (let v := if 0 < o.f then interp1d o.curve e else 0; [("all", v), ("total", v)]) := by
  unfold spectra widths spectrumFuncs spectraDec spectrumFuncsDec decayBranchingFractions decayWidths
  simp only [Dict.mapVals, List.map_cons, List.map_nil, Dict.set, Dict.values, List.sum_cons,
    List.sum_nil, add_zero, index, Dict.get?, String.reduceEq, if_false, if_true, Dict.erase]
  by_cases h0 : o.f = 0
  · simp only [h0, lt_irrefl, if_true, if_false, bind, Except.bind, pure, Except.pure, buildDict, Dict.get?]
    simp [Dict.get?, buildDict, Dict.set, List.filter, bind, Except.bind]
  · by_cases h1 : 0 < o.f
    · simp [h0, h1, Dict.get?, buildDict, Dict.set, List.filter, bind, Except.bind, pure, Except.pure]
    · simp [h0, h1, Dict.get?, buildDict, Dict.set, List.filter, bind, Except.bind, pure, Except.pure]

/-- The spectrum does not depend on the fraction as long as it is positive: a
fraction that is not positive gives no photons. -/
theorem spectrum_fraction (o : Obj) (e : ℝ) :
    totalSpectrum o e = .ok (if 0 < o.f then interp1d o.curve e else 0) ∧
    spectra o e = .ok [("all", if 0 < o.f then interp1d o.curve e else 0),
      ("total", if 0 < o.f then interp1d o.curve e else 0)] := by
  have h := spectra_eq o e
  refine ⟨?_, h⟩
  unfold totalSpectrum
  rw [h]
  simp [index, Dict.get?]

/-- Increasing energies. -/
def Increasing (c : List (ℝ × ℝ)) : Prop := c.Pairwise fun a b => a.1 < b.1

/-- The interpolated spectrum: zero outside the table, the tabulated value at
every tabulated energy, and between two neighbouring values in between. -/
theorem interp1d_spec (c : List (ℝ × ℝ)) (hc : Increasing c) :
    (∀ e, (∀ a ∈ c, e < a.1) ∨ (∀ a ∈ c, a.1 < e) → interp1d c e = 0) ∧
    (2 ≤ c.length → ∀ a ∈ c, interp1d c a.1 = a.2) ∧
    (∀ i (h : i + 1 < c.length) e, c[i].1 ≤ e → e ≤ c[i + 1].1 →
      min c[i].2 c[i + 1].2 ≤ interp1d c e ∧ interp1d c e ≤ max c[i].2 c[i + 1].2 ∧
      (interp1d c e - c[i].2) * (c[i + 1].1 - c[i].1) = (c[i + 1].2 - c[i].2) * (e - c[i].1)) := by
  have key : ∀ c : List (ℝ × ℝ), Increasing c → ∀ i (h : i + 1 < c.length) e, c[i].1 ≤ e →
      e ≤ c[i + 1].1 → interp1d c e =
        c[i].2 + (c[i + 1].2 - c[i].2) / (c[i + 1].1 - c[i].1) * (e - c[i].1) := by
    intro c
    induction c with
    | nil => intro _ i h; simp at h
    | cons a t ih =>
      intro hc i h e h1 h2
      cases t with
      | nil => simp at h
      | cons b r =>
        cases i with
        | zero =>
          simp only [List.getElem_cons_zero, List.getElem_cons_succ, zero_add] at h1 h2 ⊢
          simp only [interp1d, h1, h2, and_self, if_true]
        | succ j =>
          have hc' : Increasing (b :: r) := (List.pairwise_cons.1 hc).2
          have hj : j + 1 < (b :: r).length := by simpa using h
          simp only [List.getElem_cons_succ] at h1 h2 ⊢
          have := ih hc' j hj e h1 h2
          by_cases hcell : a.1 ≤ e ∧ e ≤ b.1
          · -- then `e` is the common node of the first two cells
            have hbj : b.1 ≤ (b :: r)[j].1 := by
              rcases Nat.eq_zero_or_pos j with rfl | hjp
              · simp
              · have := (List.pairwise_iff_getElem.1 hc') 0 j (by simp) (by omega) hjp
                exact le_of_lt this
            have he : e = b.1 := le_antisymm hcell.2 (hbj.trans h1)
            have hj0 : j = 0 := by
              by_contra hne
              have := (List.pairwise_iff_getElem.1 hc') 0 j (by simp) (by omega) (by omega)
              simp only [List.getElem_cons_zero] at this
              linarith
            subst hj0
            have hab : a.1 < b.1 := (List.pairwise_cons.1 hc).1 b (by simp)
            subst he
            simp only [interp1d, hcell, and_self, if_true, List.getElem_cons_zero, sub_self, mul_zero,
              add_zero]
            rw [div_mul_cancel₀ _ (sub_pos.2 hab).ne']
            ring
          · have hstep : interp1d (a :: b :: r) e = interp1d (b :: r) e := by
              simp only [interp1d, hcell, if_false]
            exact hstep.trans this
  refine ⟨?_, ?_, ?_⟩
  · clear key
    intro e
    induction c with
    | nil => intro _; rfl
    | cons a t ih =>
      intro h
      cases t with
      | nil => rfl
      | cons b r =>
        have hcell : ¬ (a.1 ≤ e ∧ e ≤ b.1) := by
          rintro ⟨h1, h2⟩
          rcases h with h | h
          · exact absurd (h a (by simp)) (not_lt.2 h1)
          · exact absurd (h b (by simp)) (not_lt.2 h2)
        simp only [interp1d, hcell, if_false]
        refine ih (List.pairwise_cons.1 hc).2 ?_
        rcases h with h | h
        · exact .inl fun x hx => h x (by simp [hx])
        · exact .inr fun x hx => h x (by simp [hx])
  · intro hlen a ha
    obtain ⟨i, hi, rfl⟩ := List.getElem_of_mem ha
    by_cases hlast : i + 1 < c.length
    · have hlt := (List.pairwise_iff_getElem.1 hc) i (i + 1) hi hlast (by omega)
      rw [key c hc i hlast _ le_rfl hlt.le]
      ring
    · obtain ⟨j, rfl⟩ : ∃ j, i = j + 1 := ⟨i - 1, by omega⟩
      have hlt := (List.pairwise_iff_getElem.1 hc) j (j + 1) (by omega) hi (by omega)
      rw [key c hc j hi _ hlt.le le_rfl, div_mul_cancel₀ _ (sub_pos.2 hlt).ne']
      ring
  · intro i h e h1 h2
    have hlt := (List.pairwise_iff_getElem.1 hc) i (i + 1) (by omega) h (by omega)
    rw [key c hc i h e h1 h2]
    obtain ⟨x, hx⟩ : ∃ x, x = c[i] := ⟨_, rfl⟩
    obtain ⟨y, hy⟩ : ∃ y, y = c[i + 1] := ⟨_, rfl⟩
    rw [← hx, ← hy] at hlt ⊢
    rw [← hx] at h1
    rw [← hy] at h2
    have hd : 0 < y.1 - x.1 := sub_pos.2 hlt
    obtain ⟨t, ht⟩ : ∃ t, t = (e - x.1) / (y.1 - x.1) := ⟨_, rfl⟩
    have t0 : 0 ≤ t := by rw [ht]; exact div_nonneg (by linarith) hd.le
    have t1 : t ≤ 1 := by rw [ht, div_le_one hd]; linarith
    have hval : x.2 + (y.2 - x.2) / (y.1 - x.1) * (e - x.1) = x.2 + (y.2 - x.2) * t := by
      rw [ht]; ring
    rw [hval]
    refine ⟨?_, ?_, ?_⟩
    · rcases le_total x.2 y.2 with h | h
      · rw [min_eq_left h]; nlinarith
      · rw [min_eq_right h]; nlinarith
    · rcases le_total x.2 y.2 with h | h
      · rw [max_eq_right h]; nlinarith
      · rw [max_eq_left h]; nlinarith
    · have : t * (y.1 - x.1) = e - x.1 := by rw [ht, div_mul_cancel₀ _ hd.ne']
      rw [← this]; ring

/-! ### Construction -/

/-- The tabulated curve of a mass: energies in MeV and rates per MeV, from the
column of the first header entry with that mass. -/
def IsCurve (gToMeV : ℝ) (t : File) (mx : ℝ) (c : List (ℝ × ℝ)) : Prop :=
  ∃ i, ∃ hi : i < t.header.length, t.header[i].1 * 10 ^ t.header[i].2 * gToMeV = mx ∧
    (∀ j (hj : j < i), t.header[j].1 * 10 ^ t.header[j].2 * gToMeV ≠ mx) ∧
    c = t.rows.map fun r => (1000 * r.1, (r.2.map fun x => x / 1000).getD i 0)

lemma findIdx_spec (l : List ℝ) (mx : ℝ) :
    (∀ i, indexOf l mx = some i → ∃ hi : i < l.length, l[i] = mx ∧ ∀ j (hj : j < i), l[j] ≠ mx) ∧
    (indexOf l mx = none ↔ mx ∉ l) := by
  unfold indexOf
  constructor
  · intro i h
    rw [List.findIdx?_eq_some_iff_getElem] at h
    obtain ⟨hi, h1, h2⟩ := h
    refine ⟨hi, by simpa using h1, ?_⟩
    intro j hj
    simpa using h2 j hj
  · rw [List.findIdx?_eq_none_iff]
    simp only [decide_eq_false_iff_not]
    constructor
    · intro h hm; exact h mx hm rfl
    · intro h x hx e; exact h (e ▸ hx)

lemma column_eq (g : ℝ) (t : File) (i : ℕ) :
    column (t.rows.map fun r => r.1 * 1e3) (t.rows.map fun r => r.2.map fun x => x * 1e-3) i =
      t.rows.map fun r => (1000 * r.1, (r.2.map fun x => x / 1000).getD i 0) := by
  have h : ∀ l : List ℝ, l.map (fun x => x * 1e-3) = l.map fun x => x / 1000 := by
    intro l
    refine List.map_congr_left fun x _ => ?_
    norm_num
    ring
  unfold column
  rw [List.map_map, List.zip_map']
  refine List.map_congr_left fun r _ => ?_
  simp only [Function.comp, h]
  congr 1
  norm_num
  ring

/-- Construction: the kind selects the file, the mass must be one of its masses,
and the spectrum of the object is that of the mass. -/
theorem construct_spec (g : ℝ) (fs : Files) (mx f : ℝ) (kind : String) (b : Bool) :
    (kind ≠ "primary" → kind ≠ "secondary" → construct g fs mx f kind b = .error .valueError) ∧
    ∀ t, (kind = "primary" ∧ t = fs.primaryBh ∨ kind = "secondary" ∧ b = true ∧ t = fs.secondaryBh ∨
        kind = "secondary" ∧ b = false ∧ t = fs.secondary) →
      ((∀ h ∈ t.header, h.1 * 10 ^ h.2 * g ≠ mx) → construct g fs mx f kind b = .error .indexError) ∧
      ((∃ h ∈ t.header, h.1 * 10 ^ h.2 * g = mx) →
        ∃ o, construct g fs mx f kind b = .ok o ∧ o.mx = mx ∧ o.f = f ∧ o.kind = kind ∧
          o.bhSecondary = b ∧ IsCurve g t mx o.curve) := by
  constructor
  · intro h1 h2
    simp [construct, fileOf, h1, h2]
  · intro t ht
    have hfile : fileOf fs kind b = .ok t := by
      rcases ht with ⟨rfl, rfl⟩ | ⟨rfl, rfl, rfl⟩ | ⟨rfl, rfl, rfl⟩ <;> simp [fileOf]
    obtain ⟨f1, f2⟩ := findIdx_spec (massesOf g t) mx
    have hmem : mx ∈ massesOf g t ↔ ∃ h ∈ t.header, h.1 * 10 ^ h.2 * g = mx := by
      simp [massesOf]
    constructor
    · intro hno
      have : indexOf (massesOf g t) mx = none := by
        rw [f2, hmem]
        rintro ⟨h, hh, e⟩
        exact hno h hh e
      simp [construct, hfile, setMx, this]
    · intro hyes
      have hne : indexOf (massesOf g t) mx ≠ none := by
        rw [Ne, f2, not_not, hmem]; exact hyes
      obtain ⟨i, hi⟩ := Option.ne_none_iff_exists'.1 hne
      obtain ⟨hl, e1, e2⟩ := f1 i hi
      refine ⟨_, by simp only [construct, hfile, setMx, hi]; rfl, rfl, rfl, rfl, rfl, ?_⟩
      have hl' : i < t.header.length := by simpa [massesOf] using hl
      refine ⟨i, hl', ?_, ?_, column_eq g t i⟩
      · simpa [massesOf] using e1
      · intro j hj
        have := e2 j hj
        simpa [massesOf] using this

/-- The conversion from GeV to MeV keeps the number of photons: the trapezoid sum
of the curve is the one of the file. -/
noncomputable def trapezoid : List (ℝ × ℝ) → ℝ
  | a :: b :: r => (b.1 - a.1) * (a.2 + b.2) / 2 + trapezoid (b :: r)
  | _ => 0

theorem conversion_keeps_number (rows : List (ℝ × List ℝ)) (i : ℕ) :
    trapezoid (rows.map fun r => (1000 * r.1, (r.2.map fun x => x / 1000).getD i 0)) =
      trapezoid (rows.map fun r => (r.1, r.2.getD i 0)) := by
  have hg : ∀ l : List ℝ, (l.map fun x => x / 1000).getD i 0 = l.getD i 0 / 1000 := by
    intro l
    rw [List.getD_eq_getElem?_getD, List.getD_eq_getElem?_getD, List.getElem?_map]
    cases l[i]? <;> simp
  induction rows with
  | nil => rfl
  | cons a t ih =>
    cases t with
    | nil => rfl
    | cons b r =>
      simp only [List.map_cons, trapezoid] at ih ⊢
      rw [ih, hg, hg]
      ring

/-! ### Assignments -/

/-- An object whose spectrum is that of its mass. -/
def Consistent (o : Obj) : Prop :=
  ∃ i, indexOf o.mxs o.mx = some i ∧ o.curve = column o.eGams o.d2n i

/-- The mass assigned last, and the mass assigned last without an exception. -/
noncomputable def lastMx (mxs : List ℝ) (p : ℝ × ℝ) : Act → ℝ × ℝ
  | .mx v => (v, if v ∈ mxs then v else p.2)
  | _ => p

/-- After any history of assignments: the mass is the one assigned last, even if
that raised; the spectrum is the one of the last mass in the table; the table,
kind and file never change. -/
theorem history (o : Obj) (hc : Consistent o) (h : List Act) :
    let p := h.foldl (lastMx o.mxs) (o.mx, o.mx)
    (run o h).mx = p.1 ∧
    (∃ i, indexOf o.mxs p.2 = some i ∧ (run o h).curve = column o.eGams o.d2n i) ∧
    (run o h).mxs = o.mxs ∧ (run o h).eGams = o.eGams ∧ (run o h).d2n = o.d2n ∧
    (run o h).kind = o.kind ∧ (run o h).bhSecondary = o.bhSecondary := by
  have key : ∀ (h : List Act) (q : Obj) (m : ℝ),
      (∃ i, indexOf q.mxs m = some i ∧ q.curve = column q.eGams q.d2n i) →
      let p := h.foldl (lastMx q.mxs) (q.mx, m)
      (run q h).mx = p.1 ∧
      (∃ i, indexOf q.mxs p.2 = some i ∧ (run q h).curve = column q.eGams q.d2n i) ∧
      (run q h).mxs = q.mxs ∧ (run q h).eGams = q.eGams ∧ (run q h).d2n = q.d2n ∧
      (run q h).kind = q.kind ∧ (run q h).bhSecondary = q.bhSecondary := by
    intro h
    induction h with
    | nil => intro q m hm; exact ⟨rfl, hm, rfl, rfl, rfl, rfl, rfl⟩
    | cons a t ih =>
      intro q m hm
      have hrun : run q (a :: t) = run (act q a).2 t := rfl
      cases a with
      | mx v =>
        cases hi : indexOf q.mxs v with
        | none =>
          have hv : v ∉ q.mxs := (findIdx_spec q.mxs v).2.1 hi
          have ha : (act q (.mx v)).2 = { q with mx := v } := by
            simp [act, setMx, hi]
          rw [hrun, ha]
          have := ih { q with mx := v } m hm
          simpa [lastMx, hv] using this
        | some i =>
          have hv : v ∈ q.mxs := by
            by_contra hno
            rw [(findIdx_spec q.mxs v).2.2 hno] at hi
            cases hi
          have ha : (act q (.mx v)).2 = { q with mx := v, curve := column q.eGams q.d2n i } := by
            simp [act, setMx, hi]
          rw [hrun, ha]
          have := ih { q with mx := v, curve := column q.eGams q.d2n i } v ⟨i, hi, rfl⟩
          simpa [lastMx, hv] using this
      | f v => rw [hrun]; simpa [act, lastMx] using ih { q with f := v } m hm
      | kind s => rw [hrun]; simpa [act, lastMx] using ih q m hm
      | bhSecondary b => rw [hrun]; simpa [act, lastMx] using ih q m hm
  exact key h o o.mx hc

/-- What remains true of "the spectrum is that of the mass": it holds after every
history in which no mass outside the table was assigned. -/
theorem spectrum_of_mass_partial (o : Obj) (hc : Consistent o) (h : List Act)
    (hh : ∀ v, Act.mx v ∈ h → v ∈ o.mxs) : Consistent (run o h) := by
  obtain ⟨h1, ⟨i, h2, h3⟩, h4, h5, h6, -⟩ := history o hc h
  have hp : ∀ (h : List Act) (p : ℝ × ℝ), (∀ v, Act.mx v ∈ h → v ∈ o.mxs) → p.1 = p.2 →
      (h.foldl (lastMx o.mxs) p).1 = (h.foldl (lastMx o.mxs) p).2 := by
    intro h
    induction h with
    | nil => intro p _ e; exact e
    | cons a t ih =>
      intro p hm e
      refine ih _ (fun v hv => hm v (by simp [hv])) ?_
      cases a with
      | mx v => simp [lastMx, hm v (by simp)]
      | _ => exact e
  refine ⟨i, ?_, ?_⟩
  · rw [h4, h1, hp h _ hh rfl]; exact h2
  · rw [h5, h6]; exact h3

/-- **Violation.** Assigning a mass outside the table raises `IndexError`, after
which the object reports that mass with the spectrum of the former one. -/
theorem failed_assignment_keeps_spectrum (o : Obj) (v : ℝ) (hv : v ∉ o.mxs) :
    (setMx o v).1 = .error .indexError ∧ (setMx o v).2.mx = v ∧
    (∀ e, totalSpectrum (setMx o v).2 e = totalSpectrum o e) ∧ ¬ Consistent (setMx o v).2 := by
  have hi : indexOf o.mxs v = none := (findIdx_spec o.mxs v).2.2 hv
  have h2 : setMx o v = (.error .indexError, { o with mx := v }) := by simp [setMx, hi]
  rw [h2]
  refine ⟨rfl, rfl, ?_, ?_⟩
  · intro e
    rw [(spectrum_fraction _ e).1, (spectrum_fraction o e).1]
  · rintro ⟨i, h, -⟩
    simp only [hi] at h
    cases h

/-- Kind and file are fixed at construction: assigning them raises and changes
nothing. -/
theorem kind_is_fixed (o : Obj) (s : String) (b : Bool) :
    act o (.kind s) = (.error .runtimeError, o) ∧
    act o (.bhSecondary b) = (.error .runtimeError, o) := ⟨rfl, rfl⟩

/-- **Violation.** Of the interface of a decaying model, the list of final states
is missing (its name is misspelt) and the positron methods always raise; photon
lines are empty and the only channel of the widths is `"all"`. -/
theorem interface_partial (o : Obj) (e : ℝ) :
    gammaRayLines o = .ok [] ∧ (widths o).keys = listFinalDecayStates ∧
    (spectrumFuncs o).keys = listFinalDecayStates ∧
    listDecayFinalStates o ≠ some listFinalDecayStates ∧
    positronSpectra o e = .error .attributeError ∧ positronLines o = .error .attributeError := by
  refine ⟨?_, rfl, rfl, by simp [listDecayFinalStates], rfl, rfl⟩
  unfold gammaRayLines linesDec decayBranchingFractions decayWidths widths
  simp only [Dict.mapVals, List.map_cons, List.map_nil, Dict.set, Dict.values, List.sum_cons,
    List.sum_nil, add_zero, index, Dict.get?, String.reduceEq, if_false, if_true]
  by_cases h0 : o.f = 0
  · simp [h0, bind, Except.bind, pure, Except.pure, buildDict]
  · simp [h0, bind, Except.bind, pure, Except.pure, buildDict]

/-- A table with two masses. -/
noncomputable def small : Obj := ⟨1, "primary", false, [1, 2], [10, 20], [[3, 5], [4, 9]], 1, [(10, 3), (20, 4)]⟩

example : Consistent small ∧ totalSpectrum small 15 = .ok 3.5 ∧
    totalSpectrum (run small [.mx 2, .mx 7]) 15 = .ok 7 ∧ (run small [.mx 2, .mx 7]).mx = 7 := by
  have i1 : indexOf [1, 2] (1 : ℝ) = some 0 := by simp [indexOf, List.findIdx?_cons]
  have i2 : indexOf [1, 2] (2 : ℝ) = some 1 := by simp [indexOf, List.findIdx?_cons]
  have i7 : indexOf [1, 2] (7 : ℝ) = none := by simp [indexOf, List.findIdx?_cons]
  refine ⟨⟨0, i1, rfl⟩, ?_, ?_, ?_⟩
  · rw [(spectrum_fraction _ _).1]; norm_num [small, interp1d]
  · rw [(spectrum_fraction _ _).1]
    norm_num [run, act, setMx, small, i2, i7, column, interp1d]
  · simp [run, act, setMx, small, i2, i7]

end Hazma.Pbh
