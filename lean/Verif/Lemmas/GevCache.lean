import Verif.Model.GevCache
import Mathlib.Tactic

/-! # Invariants of the width cache -/

namespace Hazma.GevCache

/-- The six fermion-pair channels. -/
inductive Ferm
  | e | mu | ve | vm | vt | x
  deriving DecidableEq

/-- Name of the channel in the width table. -/
def Ferm.name : Ferm → String
  | .e => "e e" | .mu => "mu mu" | .ve => "ve ve" | .vm => "vm vm" | .vt => "vt vt" | .x => "x x"

/-- Mass of the fermion. -/
noncomputable def Ferm.mass (p : Params) : Ferm → ℝ
  | .e => mE | .mu => mMu | .ve => 0 | .vm => 0 | .vt => 0 | .x => p.mx

/-- Coupling of the mediator to the fermion. -/
def Ferm.g (p : Params) : Ferm → ℝ
  | .e => p.gvee | .mu => p.gvmumu | .ve => p.gvveve | .vm => p.gvvmvm | .vt => p.gvvtvt
  | .x => p.gvxx

/-- One half for the left-handed neutrinos. -/
noncomputable def Ferm.scale : Ferm → ℝ
  | .e => 1 | .mu => 1 | .ve => 1 / 2 | .vm => 1 / 2 | .vt => 1 / 2 | .x => 1

/-- Names with a record in the cache. -/
def Key (n : String) : Prop := n ∈ finalStates ∨ n = "x x"

instance (n : String) : Decidable (Key n) := inferInstanceAs (Decidable (_ ∨ _))

/-- Not one of the fermion channels. -/
def Hadronic (n : String) : Prop := Key n ∧ ∀ f : Ferm, f.name ≠ n

/-- Arguments the width method accepts. -/
def Accepts (n : String) (kw : Option ℕ) : Prop := kw = none ∨ (defaultNpts n).isSome = true

abbrev Seen := Ferm → Option (ℝ × ℝ)

/-- Mass and coupling the channel is evaluated with. -/
noncomputable def used (p : Params) (seen : Seen) (f : Ferm) : ℝ × ℝ :=
  (seen f).getD (f.mass p, f.g p)

structure Inv (ff : FF) (s : St) (seen : Seen) : Prop where
  keys : ∀ n, (s.cache n).isSome = true ↔ Key n
  ferm : ∀ f e, s.cache (Ferm.name f) = some e →
    match seen f with
    | none => e.valid = false
    | some (m, g) => e.valid = true ∧ e.kw = none ∧ e.value = f.scale * widthFF s.p.mv m g
  had : ∀ n e, Hadronic n → s.cache n = some e → e.valid = true →
    Accepts n e.kw ∧ e.value = ff n s.p.mv s.coup (e.kw.getD ((defaultNpts n).getD 0))

lemma name_key (f : Ferm) : Key f.name := by
  cases f <;> decide

lemma name_inj {f f' : Ferm} (h : f.name = f'.name) : f = f' := by
  cases f <;> cases f' <;> first | rfl | (simp [Ferm.name] at h)

lemma hadronic_ne {n : String} (h : Hadronic n) :
    n ≠ "e e" ∧ n ≠ "mu mu" ∧ n ≠ "ve ve" ∧ n ≠ "vm vm" ∧ n ≠ "vt vt" ∧ n ≠ "x x" :=
  ⟨(h.2 .e).symm, (h.2 .mu).symm, (h.2 .ve).symm, (h.2 .vm).symm, (h.2 .vt).symm, (h.2 .x).symm⟩

lemma body_ferm (ff : FF) (s : St) (f : Ferm) :
    body ff s f.name none = .ok (f.scale * widthFF s.p.mv (f.mass s.p) (f.g s.p)) := by
  cases f <;> simp [body, Ferm.name, defaultNpts, Ferm.scale, Ferm.mass, Ferm.g] <;> ring

lemma body_ferm_some (ff : FF) (s : St) (f : Ferm) (k : ℕ) :
    body ff s f.name (some k) = .error .typeError := by
  cases f <;> simp [body, Ferm.name, defaultNpts]

lemma body_had (ff : FF) (s : St) {n : String} (h : Hadronic n) {kw : Option ℕ}
    (hk : Accepts n kw) :
    body ff s n kw = .ok (ff n s.p.mv s.coup (kw.getD ((defaultNpts n).getD 0))) := by
  obtain ⟨h1, h2, h3, h4, h5, h6⟩ := hadronic_ne h
  unfold body
  rcases hk with rfl | hk
  · cases defaultNpts n <;> simp [h1, h2, h3, h4, h5, h6]
  · obtain ⟨d, hd⟩ := Option.isSome_iff_exists.1 hk
    simp [hd, h1, h2, h3, h4, h5, h6]

lemma body_had_error (ff : FF) (s : St) {n : String} {kw : Option ℕ}
    (hk : ¬ Accepts n kw) : body ff s n kw = .error .typeError := by
  unfold Accepts at hk
  push Not at hk
  obtain ⟨k, rfl⟩ := Option.ne_none_iff_exists'.1 hk.1
  have : defaultNpts n = none := by
    cases h : defaultNpts n
    · rfl
    · simp [h] at hk
  simp [body, this]

lemma key_cases {n : String} (h : Key n) : (∃ f : Ferm, f.name = n) ∨ Hadronic n := by
  by_cases hf : ∃ f : Ferm, f.name = n
  · exact .inl hf
  · exact .inr ⟨h, fun f e => hf ⟨f, e⟩⟩

/-- Effect of one query on the frozen arguments. -/
noncomputable def touch (p : Params) (n : String) (kw : Option ℕ) (seen : Seen) : Seen :=
  fun f => if f.name = n ∧ kw = none then some (used p seen f) else seen f

lemma used_touch (p : Params) (n : String) (kw : Option ℕ) (seen : Seen) (f : Ferm) :
    used p (touch p n kw seen) f = used p seen f := by
  unfold touch
  by_cases h : f.name = n ∧ kw = none
  · simp [used, h]
  · simp [used, h]

/-- What a query must return. -/
noncomputable def answer (ff : FF) (p : Params) (c : Coup) (seen : Seen) (n : String)
    (kw : Option ℕ) (r : Except Err ℝ) : Prop :=
  (¬ Key n → r = .error .assertion) ∧
  (∀ f : Ferm, f.name = n →
    r = match kw with
      | none => .ok (f.scale * widthFF p.mv (used p seen f).1 (used p seen f).2)
      | some _ => .error .typeError) ∧
  (Hadronic n → Accepts n kw → r = .ok (ff n p.mv c (kw.getD ((defaultNpts n).getD 0)))) ∧
  (Hadronic n → ¬ Accepts n kw → r = .error .typeError)

lemma width_p (ff : FF) (n : String) (kw : Option ℕ) (s : St) :
    (width ff n kw s).2.p = s.p ∧ (width ff n kw s).2.coup = s.coup := by
  unfold width
  cases s.cache n with
  | none => simp
  | some e =>
    by_cases h : e.valid = true ∧ e.kw = kw
    · simp [h]
    · simp only [h, if_false]
      cases body ff s n kw <;> simp [put]

lemma width_inv {ff : FF} {s : St} {seen : Seen} (I : Inv ff s seen) (n : String)
    (kw : Option ℕ) :
    answer ff s.p s.coup seen n kw (width ff n kw s).1 ∧
      Inv ff (width ff n kw s).2 (touch s.p n kw seen) := by
  by_cases hk : Key n
  swap
  · have hc : s.cache n = none := by
      cases h : s.cache n
      · rfl
      · exact absurd ((I.keys n).1 (by simp [h])) hk
    have hnf : ∀ f : Ferm, f.name ≠ n := fun f e => hk (e ▸ name_key f)
    have ht : touch s.p n kw seen = seen := by
      funext f; simp [touch, hnf f]
    have hw : width ff n kw s = (.error .assertion, s) := by simp [width, hc]
    rw [hw, ht]
    exact ⟨⟨fun _ => rfl, fun f e => absurd e (hnf f), fun h => absurd h.1 hk,
      fun h => absurd h.1 hk⟩, I⟩
  obtain ⟨e, he⟩ := Option.isSome_iff_exists.1 ((I.keys n).2 hk)
  rcases key_cases hk with ⟨f, rfl⟩ | hh
  · -- fermion channel
    have hnh : ¬ Hadronic f.name := fun h => h.2 f rfl
    have key : ∀ f', Ferm.name f' = f.name → f' = f := fun f' => name_inj
    cases kw with
    | some k =>
      have hF := I.ferm f e he
      have hw : width ff f.name (some k) s = (.error .typeError, s) := by
        have hno : ¬ (e.valid = true ∧ e.kw = some k) := by
          rintro ⟨h1, h2⟩
          cases hs : seen f with
          | none => rw [hs] at hF; simp [h1] at hF
          | some mg => obtain ⟨m, g⟩ := mg; rw [hs] at hF; simp [h2] at hF
        simp only [width, he, hno, if_false, body_ferm_some]
      have ht : touch s.p f.name (some k) seen = seen := by funext f'; simp [touch]
      rw [hw, ht]
      exact ⟨⟨fun h => absurd hk h, fun _ _ => rfl, fun h => absurd h hnh,
        fun h => absurd h hnh⟩, I⟩
    | none =>
      have hF := I.ferm f e he
      cases hs : seen f with
      | some mg =>
        obtain ⟨m, g⟩ := mg
        rw [hs] at hF
        obtain ⟨h1, h2, h3⟩ := hF
        have hw : width ff f.name none s = (.ok e.value, s) := by simp [width, he, h1, h2]
        have ht : touch s.p f.name none seen = seen := by
          funext f'
          by_cases h : f'.name = f.name
          · obtain rfl := key f' h
            simp [touch, used, hs]
          · simp [touch, h]
        rw [hw, ht]
        refine ⟨⟨fun h => absurd hk h, fun f' e' => ?_, fun h => absurd h hnh,
          fun h => absurd h hnh⟩, I⟩
        obtain rfl := key f' e'
        simp [used, hs, h3]
      | none =>
        rw [hs] at hF
        have hF' : e.valid = false := hF
        have hw : width ff f.name none s =
            (.ok (f.scale * widthFF s.p.mv (f.mass s.p) (f.g s.p)),
              put s f.name ⟨f.scale * widthFF s.p.mv (f.mass s.p) (f.g s.p), true, none⟩) := by
          simp only [width, he, hF', body_ferm]; simp
        rw [hw]
        refine ⟨⟨fun h => absurd hk h, fun f' e' => ?_, fun h => absurd h hnh,
          fun h => absurd h hnh⟩, ?_⟩
        · obtain rfl := key f' e'
          simp [used, hs]
        · refine ⟨fun m => ?_, fun f' e' h' => ?_, fun m e' hm h' hv => ?_⟩
          · by_cases hm : m = f.name
            · simp [put, hm, hk]
            · simp [put, hm, I.keys m]
          · by_cases hm : f' = f
            · subst hm
              simp only [put, if_true, Option.some.injEq] at h'
              subst h'
              simp [touch, used, hs, put]
            · have hm' : f'.name ≠ f.name := fun h => hm (key f' h)
              simp only [put, hm', if_false] at h'
              have := I.ferm f' e' h'
              simpa [touch, hm', put] using this
          · have hmn : m ≠ f.name := fun h => hnh (h ▸ hm)
            simp only [put, hmn, if_false] at h'
            simpa [put] using I.had m e' hm h' hv
  · -- hadronic channel
    have hnf : ∀ f : Ferm, f.name ≠ n := hh.2
    have ht : touch s.p n kw seen = seen := by
      funext f; simp [touch, hnf f]
    rw [ht]
    by_cases hv : e.valid = true ∧ e.kw = kw
    · have hw : width ff n kw s = (.ok e.value, s) := by simp [width, he, hv]
      rw [hw]
      obtain ⟨hv1, rfl⟩ := hv
      obtain ⟨h1, h2⟩ := I.had n e hh he hv1
      exact ⟨⟨fun h => absurd hk h, fun f h => absurd h (hnf f), fun _ _ => by rw [h2],
        fun _ h => absurd h1 h⟩, I⟩
    · by_cases ha : Accepts n kw
      · have hw : width ff n kw s =
            (.ok (ff n s.p.mv s.coup (kw.getD ((defaultNpts n).getD 0))),
              put s n ⟨ff n s.p.mv s.coup (kw.getD ((defaultNpts n).getD 0)), true, kw⟩) := by
          simp only [width, he, hv, if_false, body_had ff s hh ha]
        rw [hw]
        refine ⟨⟨fun h => absurd hk h, fun f h => absurd h (hnf f), fun _ _ => rfl,
          fun _ h => absurd ha h⟩, ?_⟩
        refine ⟨fun m => ?_, fun f' e' h' => ?_, fun m e' hm h' hv' => ?_⟩
        · by_cases hm : m = n
          · simp [put, hm, hk]
          · simp [put, hm, I.keys m]
        · simp only [put, hnf f', if_false] at h'
          simpa [put] using I.ferm f' e' h'
        · by_cases hmn : m = n
          · subst hmn
            simp only [put, if_true, Option.some.injEq] at h'
            subst h'
            exact ⟨ha, rfl⟩
          · simp only [put, hmn, if_false] at h'
            simpa [put] using I.had m e' hm h' hv'
      · have hw : width ff n kw s = (.error .typeError, s) := by
          simp only [width, he, hv, if_false, body_had_error ff s ha]
        rw [hw]
        exact ⟨⟨fun h => absurd hk h, fun f h => absurd h (hnf f), fun _ h => absurd h ha,
          fun _ _ => rfl⟩, I⟩

lemma put_same (s : St) (n : String) (e : Entry) (h : s.cache n = some e) : put s n e = s := by
  cases s with
  | mk p c k =>
    simp only [put, St.mk.injEq, true_and]
    funext m
    by_cases hm : m = n
    · subst hm; simpa using h.symm
    · simp [hm]

lemma width_ok_entry {ff : FF} {n : String} {kw : Option ℕ} {s s' : St} {v : ℝ}
    (h : width ff n kw s = (.ok v, s')) : ∃ k, s'.cache n = some ⟨v, true, k⟩ := by
  unfold width at h
  cases hc : s.cache n with
  | none => simp [hc] at h
  | some e =>
    simp only [hc] at h
    by_cases hv : e.valid = true ∧ e.kw = kw
    · simp only [hv, and_self, if_true, Prod.mk.injEq, Except.ok.injEq] at h
      obtain ⟨rfl, rfl⟩ := h
      refine ⟨e.kw, ?_⟩
      rw [hc]
      cases e
      simp_all
    · simp only [hv, if_false] at h
      cases hb : body ff s n kw with
      | error x => simp [hb] at h
      | ok w =>
        simp only [hb, Prod.mk.injEq, Except.ok.injEq] at h
        obtain ⟨rfl, rfl⟩ := h
        exact ⟨kw, by simp [put]⟩

lemma refresh_eq (ff : FF) (n : String) (s : St) : refresh ff n s = (width ff n none s).2 := by
  unfold refresh
  obtain ⟨w, hw⟩ : ∃ w, w = width ff n none s := ⟨_, rfl⟩
  rw [← hw]
  obtain ⟨r, s'⟩ := w
  cases r with
  | error x => rfl
  | ok v =>
    obtain ⟨k, hk⟩ := width_ok_entry hw.symm
    simp only [hk]
    exact put_same _ _ _ hk

lemma refreshValue_eq (ff : FF) (n : String) (s : St) :
    refreshValue ff n s = (width ff n none s).2 := by
  unfold refreshValue
  obtain ⟨w, hw⟩ : ∃ w, w = width ff n none s := ⟨_, rfl⟩
  rw [← hw]
  obtain ⟨r, s'⟩ := w
  cases r with
  | error x => rfl
  | ok v =>
    obtain ⟨k, hk⟩ := width_ok_entry hw.symm
    simp only [hk]
    exact put_same _ _ _ hk

lemma invalidate_inv {ff : FF} {s : St} (hk : ∀ n, (s.cache n).isSome = true ↔ Key n) :
    Inv ff (invalidate s) (fun _ => none) := by
  refine ⟨fun n => ?_, fun f e h => ?_, fun n e _ h hv => ?_⟩
  · simp [invalidate, hk n]
  · simp only [invalidate, Option.map_eq_some_iff] at h
    obtain ⟨e', _, rfl⟩ := h
    rfl
  · simp only [invalidate, Option.map_eq_some_iff] at h
    obtain ⟨e', _, rfl⟩ := h
    simp at hv

lemma assign_inv {ff : FF} {s : St} {seen : Seen} (I : Inv ff s seen) (p' : Params)
    (h : p'.mv = s.p.mv) : Inv ff { s with p := p' } seen := by
  refine ⟨I.keys, fun f e he => ?_, fun n e hn he hv => ?_⟩
  · simpa [h] using I.ferm f e he
  · simpa [h] using I.had n e hn he hv

lemma init_inv (ff : FF) (p : Params) : Inv ff (init p) (fun _ => none) := by
  refine ⟨fun n => ?_, fun f e h => ?_, fun n e _ h hv => ?_⟩
  · unfold init Key
    by_cases h : n ∈ finalStates ∨ n = "x x" <;> simp [h]
  · simp only [init] at h
    split_ifs at h
    · cases h; rfl
  · simp only [init] at h
    split_ifs at h
    · cases h; simp at hv

/-- The value of a call that is accepted. -/
noncomputable def val (ff : FF) (p : Params) (c : Coup) (seen : Seen) (call : String × Option ℕ) : ℝ :=
  if call.1 = "e e" then Ferm.scale .e * widthFF p.mv (used p seen .e).1 (used p seen .e).2
  else if call.1 = "mu mu" then Ferm.scale .mu * widthFF p.mv (used p seen .mu).1 (used p seen .mu).2
  else if call.1 = "ve ve" then Ferm.scale .ve * widthFF p.mv (used p seen .ve).1 (used p seen .ve).2
  else if call.1 = "vm vm" then Ferm.scale .vm * widthFF p.mv (used p seen .vm).1 (used p seen .vm).2
  else if call.1 = "vt vt" then Ferm.scale .vt * widthFF p.mv (used p seen .vt).1 (used p seen .vt).2
  else if call.1 = "x x" then Ferm.scale .x * widthFF p.mv (used p seen .x).1 (used p seen .x).2
  else ff call.1 p.mv c (call.2.getD ((defaultNpts call.1).getD 0))

/-- A call that cannot raise. -/
def Fine (call : String × Option ℕ) : Prop :=
  ((∃ f : Ferm, f.name = call.1) ∧ call.2 = none) ∨ (Hadronic call.1 ∧ Accepts call.1 call.2)

lemma answer_val {ff : FF} {p : Params} {c : Coup} {seen : Seen} {n : String} {kw : Option ℕ}
    {r : Except Err ℝ} (h : answer ff p c seen n kw r) (hf : Fine (n, kw)) :
    r = .ok (val ff p c seen (n, kw)) := by
  rcases hf with ⟨⟨f, hf⟩, hk⟩ | ⟨hh, ha⟩
  · simp only at hf hk
    subst hk
    rw [h.2.1 f hf]
    subst hf
    cases f <;> simp [val, Ferm.name]
  · rw [h.2.2.1 hh ha]
    obtain ⟨h1, h2, h3, h4, h5, h6⟩ := hadronic_ne hh
    simp only at h1 h2 h3 h4 h5 h6
    simp [val, h1, h2, h3, h4, h5, h6]

lemma val_congr (ff : FF) (p : Params) (c : Coup) {seen seen' : Seen}
    (h : ∀ f, used p seen f = used p seen' f) : val ff p c seen = val ff p c seen' := by
  funext call
  simp only [val, h]

lemma callAll_inv {ff : FF} (calls : List (String × Option ℕ)) (hf : ∀ c ∈ calls, Fine c) :
    ∀ {s : St} {seen : Seen}, Inv ff s seen →
      (callAll ff calls s).1 = .ok (calls.map (val ff s.p s.coup seen)) ∧
      (callAll ff calls s).2.p = s.p ∧ (callAll ff calls s).2.coup = s.coup ∧
      Inv ff (callAll ff calls s).2 (calls.foldl (fun sn c => touch s.p c.1 c.2 sn) seen) := by
  induction calls with
  | nil => intro s seen I; exact ⟨rfl, rfl, rfl, I⟩
  | cons c rest ih =>
    intro s seen I
    obtain ⟨n, kw⟩ := c
    obtain ⟨ha, hI⟩ := width_inv I n kw
    have hv := answer_val ha (hf _ (by simp))
    obtain ⟨hp, hc⟩ := width_p ff n kw s
    obtain ⟨w, hw⟩ : ∃ w, w = width ff n kw s := ⟨_, rfl⟩
    rw [← hw] at hv hI hp hc
    obtain ⟨r, s'⟩ := w
    simp only at hv hI hp hc
    subst hv
    obtain ⟨i1, i2, i3, i4⟩ := ih (fun c h => hf c (by simp [h])) hI
    obtain ⟨w', hw'⟩ : ∃ w', w' = callAll ff rest s' := ⟨_, rfl⟩
    rw [← hw'] at i1 i2 i3 i4
    obtain ⟨r', s''⟩ := w'
    simp only at i1 i2 i3 i4
    subst i1
    have hcall : callAll ff ((n, kw) :: rest) s =
        (.ok (val ff s.p s.coup seen (n, kw) :: rest.map (val ff s'.p s'.coup (touch s.p n kw seen))),
          s'') := by
      simp only [callAll, ← hw, ← hw']
    rw [hcall]
    refine ⟨?_, i2.trans hp, i3.trans hc, ?_⟩
    · rw [hp, hc, val_congr ff s.p s.coup (fun f => used_touch s.p n kw seen f)]
      rfl
    · rw [hp] at i4
      exact i4

lemma partial_fine (npts : ℕ) : ∀ c ∈ partialCalls npts, Fine c := by
  have hh : ∀ n : String, Key n → n ≠ "e e" → n ≠ "mu mu" → n ≠ "ve ve" → n ≠ "vm vm" →
      n ≠ "vt vt" → n ≠ "x x" → Hadronic n := by
    intro n hk h1 h2 h3 h4 h5 h6
    refine ⟨hk, fun f => ?_⟩
    cases f <;> simp only [Ferm.name] <;> exact Ne.symm (by assumption)
  intro c hc
  simp only [partialCalls, List.mem_cons, List.not_mem_nil, or_false] at hc
  rcases hc with rfl | rfl | rfl | rfl | rfl | rfl | h
  · exact .inl ⟨⟨.e, rfl⟩, rfl⟩
  · exact .inl ⟨⟨.mu, rfl⟩, rfl⟩
  · exact .inl ⟨⟨.ve, rfl⟩, rfl⟩
  · exact .inl ⟨⟨.vm, rfl⟩, rfl⟩
  · exact .inl ⟨⟨.vt, rfl⟩, rfl⟩
  · exact .inl ⟨⟨.x, rfl⟩, rfl⟩
  · right
    rcases h with rfl | rfl | rfl | rfl | rfl | rfl | rfl | rfl | rfl | rfl | rfl | rfl | rfl |
      rfl | rfl | rfl | rfl | rfl | rfl <;>
    dsimp only <;>
    refine ⟨hh _ (by decide) (by decide) (by decide) (by decide) (by decide) (by decide)
      (by decide), ?_⟩ <;>
    first
      | exact .inl rfl
      | exact .inr (by decide)

lemma touch_all (p : Params) (npts : ℕ) (seen : Seen) :
    (partialCalls npts).foldl (fun sn c => touch p c.1 c.2 sn) seen =
      fun f => some (used p seen f) := by
  funext f
  cases f <;> simp [partialCalls, touch, Ferm.name, used]

end Hazma.GevCache
