import Verif.Props.RhWidths
import Verif.Props.Theory

/-!
# The right-handed-neutrino model object

Properties C127-C134.
-/

namespace Hazma.RhNeutrino

open Hazma Hazma.Kinematics Hazma.Theory

/-! ## The dictionary of final states -/

theorem foldl_set {β : Type} (l acc : Dict β) (h : (acc ++ l).keys.Nodup) :
    l.foldl (fun d e => d.set e.1 e.2) acc = acc ++ l := by
  induction l generalizing acc with
  | nil => simp
  | cons e l ih =>
    have hk : e.1 ∉ acc.keys := by
      intro hm
      simp only [Dict.keys, List.map_append, List.map_cons] at h
      exact (List.nodup_append.mp h).2.2 _ hm _ (by simp) rfl
    rw [List.foldl_cons, Dict.set_of_not_mem hk, ih]
    · simp
    · simpa using h

/-- The entries in the order in which they are written. -/
noncomputable def entries (env : Env) (g : Gen) : Dict Attrs :=
  mesonEntries env g ++ (threeLepton g false).map lepEntry ++ [Gen.fst, .snd, .trd].map (nuEntry g)

/-- The keys, spelled out. -/
def keyList : Gen → List String
  | .fst => ["ve a", "ve pi0", "ve eta", "ve rho", "ve omega", "ve phi", "e k", "e pi", "e rho",
      "ve pi pi", "e pi pi0", "ve e e", "ve mu mu", "ve tau tau", "vm e mu", "vm mu e",
      "vt e tau", "vt tau e", "ve ve ve", "ve vm vm", "ve vt vt"]
  | .snd => ["vm a", "vm pi0", "vm eta", "vm rho", "vm omega", "vm phi", "mu k", "mu pi", "mu rho",
      "vm pi pi", "mu pi pi0", "vm mu mu", "vm e e", "vm tau tau", "ve mu e", "ve e mu",
      "vt mu tau", "vt tau mu", "vm ve ve", "vm vm vm", "vm vt vt"]
  | .trd => ["vt a", "vt pi0", "vt eta", "vt rho", "vt omega", "vt phi", "tau k", "tau pi",
      "tau rho", "vt pi pi", "tau pi pi0", "vt tau tau", "vt e e", "vt mu mu", "ve tau e",
      "ve e tau", "vm tau mu", "vm mu tau", "vt ve ve", "vt vm vm", "vt vt vt"]

theorem keyList_nodup (g : Gen) : (keyList g).Nodup := by cases g <;> decide

theorem entries_keys (env : Env) (g : Gen) : (entries env g).keys = keyList g := by
  cases g <;> rfl

theorem configure_eq (env : Env) (g : Gen) : configure env g = entries env g := by
  have := foldl_set (entries env g) [] (by
    rw [List.nil_append, entries_keys]; exact keyList_nodup g)
  simpa [configure, entries] using this

theorem configure_keys (env : Env) (g : Gen) : (configure env g).keys = keyList g := by
  rw [configure_eq, entries_keys]

theorem total_not_key (g : Gen) : "total" ∉ keyList g := by cases g <;> decide

/-! ## C127: widths -/

/-- A constructed model. -/
def genOf : String → Option Gen
  | "e" => some .fst | "mu" => some .snd | "tau" => some .trd | _ => none

theorem init_spec {env : Env} {mx th : ℝ} {f : String} {m : Model}
    (h : init env mx th f = some m) :
    m.mx = mx ∧ m.theta = th ∧ m.flavor = f ∧ m.lstr = f ∧ m.config = configure env m.gen ∧
      genOf f = some m.gen ∧ m.vstr = nuStr m.gen ∧ m.ml = lepMass m.gen := by
  unfold init at h
  split_ifs at h with h1 h2 h3
  · obtain rfl := Option.some.inj h
    subst h1
    refine ⟨rfl, rfl, rfl, rfl, by dsimp only, by simp [genOf], rfl, ?_⟩
    simp [smMasses, Dict.get?, lepMass]
  · obtain rfl := Option.some.inj h
    subst h2
    refine ⟨rfl, rfl, rfl, rfl, by dsimp only, by simp [genOf], rfl, ?_⟩
    simp [smMasses, Dict.get?, lepMass]
  · obtain rfl := Option.some.inj h
    subst h3
    refine ⟨rfl, rfl, rfl, rfl, by dsimp only, by simp [genOf], rfl, ?_⟩
    simp [smMasses, Dict.get?, lepMass]

theorem init_none_iff (env : Env) (mx th : ℝ) (f : String) :
    init env mx th f = none ↔ f ≠ "e" ∧ f ≠ "mu" ∧ f ≠ "tau" := by
  unfold init
  split_ifs <;> simp_all

/-- The generations of the leptons in a three-lepton final state. -/
theorem threeLepton_cases {g : Gen} {t : Gen × Gen × Gen} (h : t ∈ threeLepton g false) :
    (t.1 = g ∧ t.2.1 = t.2.2) ∨ (t.1 ≠ g ∧ t.2.1 = g ∧ t.1 = t.2.2) ∨
      (t.1 ≠ g ∧ t.2.2 = g ∧ t.1 = t.2.1) := by
  revert h
  rcases t with ⟨a, b, c⟩
  cases g <;> cases a <;> cases b <;> cases c <;> decide

/-- One channel of the table: the width function is sound for the masses listed. -/
structure ChannelOk (g : Gen) (a : Attrs) : Prop where
  nonneg : ∀ mx th, 0 < mx → 0 ≤ a.width ⟨mx, th, g⟩
  closed : ∀ mx th, 0 < mx → mx < a.masses.sum → a.width ⟨mx, th, g⟩ = 0
  angle : ∀ mx th th', Real.tan (2 * th) ^ 2 = Real.tan (2 * th') ^ 2 →
    a.width ⟨mx, th, g⟩ = a.width ⟨mx, th', g⟩

theorem ChannelOk.of_sound {g : Gen} {a : Attrs} {thr : Gen → ℝ} (h : Sound a.width thr)
    (hm : a.masses.sum = thr g) : ChannelOk g a where
  nonneg mx th hx := h.nonneg ⟨mx, th, g⟩ hx
  closed mx th hx hlt := h.closed ⟨mx, th, g⟩ hx (by rw [← hm]; exact hlt)
  angle mx th th' ht := h.angle mx th th' g ht

theorem lepEntry_ok {g : Gen} {t : Gen × Gen × Gen} (ht : t ∈ threeLepton g false) :
    ChannelOk g (lepEntry t).2 := by
  rcases t with ⟨a, b, c⟩
  rcases threeLepton_cases ht with ⟨h1, h2⟩ | ⟨h0, h1, h2⟩ | ⟨h0, h1, h2⟩ <;>
    simp only at h1 h2
  · subst h1 h2
    have hw : ∀ mx th, widthVLL ⟨mx, th, a⟩ a b b = widthVLLsame ⟨mx, th, a⟩ b := by
      intro mx th; simp [widthVLL]
    have hs := sound_vllsame b
    refine ⟨fun mx th hx => ?_, fun mx th hx hlt => ?_, fun mx th th' h => ?_⟩
    · simp only [lepEntry, hw]; exact hs.nonneg ⟨mx, th, a⟩ hx
    · simp only [lepEntry, hw]
      exact hs.closed ⟨mx, th, a⟩ hx (by simpa [lepEntry] using hlt)
    · simp only [lepEntry, hw]; exact hs.angle mx th th' a h
  · subst h1 h2
    simp only at h0
    have hw : ∀ mx th, widthVLL ⟨mx, th, b⟩ a b a = widthLUD ⟨mx, th, b⟩ 0 (lepMass a) (lepMass b) := by
      intro mx th; simp [widthVLL, Ne.symm h0]
    have hs := sound_lud (md := fun _ => lepMass a) (ml := fun _ => lepMass b)
      (fun _ => lepMass_pos a) (fun _ => lepMass_pos b)
    refine ⟨fun mx th hx => ?_, fun mx th hx hlt => ?_, fun mx th th' h => ?_⟩
    · simp only [lepEntry, hw]; exact hs.nonneg ⟨mx, th, b⟩ hx
    · simp only [lepEntry, hw]
      exact hs.closed ⟨mx, th, b⟩ hx (by simpa [lepEntry] using hlt)
    · simp only [lepEntry, hw]; exact hs.angle mx th th' b h
  · subst h1 h2
    simp only at h0
    have hw : ∀ mx th, widthVLL ⟨mx, th, c⟩ a a c = widthLUD ⟨mx, th, c⟩ 0 (lepMass a) (lepMass c) := by
      intro mx th; simp [widthVLL, Ne.symm h0]
    have hs := sound_lud (md := fun _ => lepMass a) (ml := fun _ => lepMass c)
      (fun _ => lepMass_pos a) (fun _ => lepMass_pos c)
    refine ⟨fun mx th hx => ?_, fun mx th hx hlt => ?_, fun mx th th' h => ?_⟩
    · simp only [lepEntry, hw]; exact hs.nonneg ⟨mx, th, c⟩ hx
    · simp only [lepEntry, hw]
      exact hs.closed ⟨mx, th, c⟩ hx (by simp [lepEntry] at hlt ⊢; linarith)
    · simp only [lepEntry, hw]; exact hs.angle mx th th' c h

theorem nuEntry_ok (g gv : Gen) : ChannelOk g (nuEntry g gv).2 :=
  ChannelOk.of_sound (sound_vvv gv) (by simp [nuEntry])

theorem mesonEntries_ok (env : Env) (g : Gen) {e : String × Attrs} (he : e ∈ mesonEntries env g) :
    ChannelOk g e.2 := by
  have p1 : 0 < mK := by unfold mK; norm_num
  have p2 : 0 < mRho := by unfold mRho; norm_num
  simp only [mesonEntries, List.mem_cons, List.not_mem_nil, or_false] at he
  rcases he with rfl | rfl | rfl | rfl | rfl | rfl | rfl | rfl | rfl | rfl | rfl
  · exact .of_sound sound_va (by simp)
  · exact .of_sound (sound_vhp _ _) (by simp)
  · exact .of_sound (sound_vhp _ _) (by simp)
  · exact .of_sound (sound_vhv _ _ _) (by simp)
  · exact .of_sound (sound_vhv _ _ _) (by simp)
  · exact .of_sound (sound_vhv _ _ _) (by simp)
  · exact .of_sound (sound_lhp p1 _ _) (by simp)
  · exact .of_sound (sound_lhp mPi_pos _ _) (by simp)
  · exact .of_sound (sound_lhv p2 _ _) (by simp)
  · exact .of_sound (sound_vpipi env) (by simp)
  · exact .of_sound (sound_lpipi0 env) (by simp)

theorem entries_ok (env : Env) (g : Gen) {e : String × Attrs} (he : e ∈ configure env g) :
    ChannelOk g e.2 := by
  rw [configure_eq, entries] at he
  simp only [List.mem_append, List.mem_map] at he
  rcases he with (h | ⟨t, ht, rfl⟩) | ⟨gv, -, rfl⟩
  · exact mesonEntries_ok env g h
  · exact lepEntry_ok ht
  · exact nuEntry_ok g gv

/-- **C127.** For a constructed model of positive mass every partial width is nonnegative, is zero
when the mass is below the sum of the masses listed for the final state, and depends on the mixing
angle only through `tan²(2θ)` (so it is even in `θ`). -/
theorem partial_widths_sound {env : Env} {mx th : ℝ} {f : String} {m : Model}
    (h : init env mx th f = some m) (hmx : 0 < mx) :
    m.config.keys = keyList m.gen ∧ (keyList m.gen).Nodup ∧
    (∀ k a, (k, a) ∈ m.config → 0 ≤ a.width m.toCore ∧
      (mx < a.masses.sum → a.width m.toCore = 0) ∧
      ∀ th', Real.tan (2 * th') ^ 2 = Real.tan (2 * th) ^ 2 →
        a.width ⟨mx, th', m.gen⟩ = a.width m.toCore) := by
  obtain ⟨h1, h2, -, -, hc, -⟩ := init_spec h
  refine ⟨by rw [hc, configure_keys], keyList_nodup _, fun k a ha => ?_⟩
  rw [hc] at ha
  have ok := entries_ok env m.gen ha
  have hcore : m.toCore = ⟨mx, th, m.gen⟩ := by
    rw [← h1, ← h2]
  rw [hcore]
  exact ⟨ok.nonneg mx th hmx, ok.closed mx th hmx, fun th' ht => ok.angle mx th' th ht⟩

theorem pre_pos (b : Bool) : 0 < pre b := by unfold pre; split_ifs <;> norm_num

theorem partialWidths_keys (m : Model) : m.partialWidths.keys = m.config.keys := by
  simp [Model.partialWidths]

/-- **C127.** The branching fractions of a constructed model with nonzero mixing are a probability
distribution over the 21 final states. -/
theorem branching_fractions_distribution {env : Env} {mx th : ℝ} {f : String} {m : Model}
    (h : init env mx th f = some m) (hmx : 0 < mx) (hu : Real.tan (2 * th) ≠ 0) :
    ∃ bfs, decayBranchingFractions m.partialWidths = .ok bfs ∧ bfs.keys = keyList m.gen ∧
      (∀ b ∈ bfs.values, 0 ≤ b ∧ b ≤ 1) ∧ bfs.values.sum = 1 := by
  obtain ⟨hk, hnd, hall⟩ := partial_widths_sound h hmx
  have hkeys : m.partialWidths.keys = keyList m.gen := by rw [partialWidths_keys, hk]
  have hpos : ∀ fs x, (fs, x) ∈ m.partialWidths → 0 ≤ x := by
    intro fs x hx
    simp only [Model.partialWidths, Dict.mapVals, List.mem_map, Prod.mk.injEq] at hx
    obtain ⟨⟨k, a⟩, ha, rfl, rfl⟩ := hx
    exact mul_nonneg (pre_pos _).le (hall k a ha).1
  obtain ⟨-, bfs, hb, hbk, -, hb01, hb1, -⟩ := decay_branching_fractions_distribution
    m.partialWidths (by rw [hkeys]; exact hnd) (by rw [hkeys]; exact total_not_key _) hpos
  refine ⟨bfs, hb, by rw [hbk, hkeys], hb01, hb1 ?_⟩
  obtain ⟨h1, h2, -, -, hc, -⟩ := init_spec h
  have hmem : (nuStr m.gen ++ " a", (⟨dndeZero, widthVA, true, [0, 0]⟩ : Attrs)) ∈ m.config := by
    rw [hc, configure_eq]
    simp [entries, mesonEntries]
  have hu' : m.toCore.u ≠ 0 := by
    unfold Core.u; rw [h2]; norm_num; exact hu
  have hva : 0 < widthVA m.toCore := va_pos (by rw [h1]; exact hmx) hu'
  have hin : (nuStr m.gen ++ " a", pre true * widthVA m.toCore) ∈ m.partialWidths := by
    simp only [Model.partialWidths, Dict.mapVals, List.mem_map]
    exact ⟨_, hmem, rfl⟩
  have hle : pre true * widthVA m.toCore ≤ m.partialWidths.values.sum := by
    refine le_sum_of_mem ?_ (List.mem_map.mpr ⟨_, hin, rfl⟩)
    intro x hx
    obtain ⟨⟨k, y⟩, hy, rfl⟩ := List.mem_map.mp hx
    exact hpos k y hy
  have := mul_pos (pre_pos true) hva
  linarith

/-- **C128 (true part).** Every final state that does not involve two pions has a strictly positive
width as soon as the mass exceeds the sum of the masses, the mixing is nonzero and the CKM elements
do not vanish. -/
theorem open_channels_positive_partial {env : Env} {mx th : ℝ} {f : String} {m : Model}
    (h : init env mx th f = some m) (hmx : 0 < mx) (hu : Real.tan (2 * th) ≠ 0)
    (hud : env.vud ≠ 0) (hus : env.vus ≠ 0) {k : String} {a : Attrs} (ha : (k, a) ∈ m.config)
    (hk1 : k ≠ nuStr m.gen ++ " pi pi") (hk2 : k ≠ lepStr m.gen ++ " pi pi0")
    (hopen : a.masses.sum < mx) : 0 < a.width m.toCore := by
  obtain ⟨h1, h2, -, -, hc, -⟩ := init_spec h
  have hu' : m.toCore.u ≠ 0 := by
    unfold Core.u; rw [h2]; norm_num; exact hu
  have hmx' : 0 < m.toCore.mx := by rw [h1]; exact hmx
  rw [hc, configure_eq, entries] at ha
  simp only [List.mem_append, List.mem_map] at ha
  rw [← h1] at hopen
  rcases ha with (ha | ⟨t, ht, he⟩) | ⟨gv, -, he⟩
  · simp only [mesonEntries, List.mem_cons, List.not_mem_nil, or_false, Prod.mk.injEq] at ha
    rcases ha with ⟨-, rfl⟩ | ⟨-, rfl⟩ | ⟨-, rfl⟩ | ⟨-, rfl⟩ | ⟨-, rfl⟩ | ⟨-, rfl⟩ | ⟨-, rfl⟩ |
      ⟨-, rfl⟩ | ⟨-, rfl⟩ | ⟨e, -⟩ | ⟨e, -⟩
    · exact va_pos hmx' hu'
    · exact vhp_pos (by unfold mPi0; norm_num) (by simpa using hopen) hu' (by unfold fpi0; norm_num)
    · exact vhp_pos (by unfold mEta; norm_num) (by simpa using hopen) hu' (by unfold feta; norm_num)
    · exact vhv_pos (by unfold mRho; norm_num) (by simpa using hopen) hu'
        (by unfold sw2; norm_num) (by norm_num)
    · exact vhv_pos (by unfold mOmega; norm_num) (by simpa using hopen) hu'
        (by unfold sw2; norm_num) (by norm_num)
    · exact vhv_pos (by unfold mPhi; norm_num) (by simpa using hopen) hu'
        (by unfold sw2; norm_num) (by norm_num)
    · exact lhp_pos (by unfold mK; norm_num) (by simpa using hopen) hu'
        (by unfold fk; norm_num) hus
    · exact lhp_pos mPi_pos (by simpa using hopen) hu' (by unfold fpi; norm_num) hud
    · exact lhv_pos (by unfold mRho; norm_num) (by simpa using hopen) hu' (by norm_num) hud
    · exact absurd e hk1
    · exact absurd e hk2
  · rcases t with ⟨a', b, c⟩
    simp only [lepEntry, Prod.mk.injEq] at he
    obtain ⟨-, rfl⟩ := he
    simp only [List.sum_cons, List.sum_nil, zero_add, add_zero] at hopen
    rcases threeLepton_cases ht with ⟨e1, e2⟩ | ⟨e0, e1, e2⟩ | ⟨e0, e1, e2⟩ <;>
      simp only at e1 e2
    · subst e2
      simp only [widthVLL, e1, if_true]
      rw [vllsame_eq]
      exact vff_pos (lepMass_pos b) (by linarith) hu' (Or.inr sw2_ne)
    · subst e2
      simp only at e0
      have : m.gen ≠ a' := fun h => e0 h.symm
      simp only [widthVLL, e1, if_neg this, true_and, if_true]
      exact lud_pos (lepMass_pos _) (lepMass_pos _) (by rw [e1] at hopen; exact hopen) hu'
    · subst e2
      simp only at e0
      have : m.gen ≠ a' := fun h => e0 h.symm
      change 0 < widthVLL m.toCore a' a' c
      rw [show widthVLL m.toCore a' a' c = widthLUD m.toCore 0 (lepMass a') (lepMass m.gen) by
        simp [widthVLL, e1, this]]
      exact lud_pos (md := lepMass a') (ml := lepMass m.gen) (lepMass_pos _) (lepMass_pos _)
        (by rw [e1] at hopen; linarith) hu'
  · simp only [nuEntry, Prod.mk.injEq] at he
    obtain ⟨-, rfl⟩ := he
    exact vvv_pos gv hmx' hu'

/-- **C128 (negation).** The channel `ℓ π π0` is closed by the code in a window above its threshold:
the test uses twice the charged-pion mass. -/
theorem lepton_two_pion_window (env : Env) (mx th : ℝ) (g : Gen)
    (h1 : lepMass g + mPi + mPi0 < mx) (h2 : mx < lepMass g + 2 * mPi) :
    ∃ a, (lepStr g ++ " pi pi0", a) ∈ configure env g ∧ a.masses.sum < mx ∧
      a.width ⟨mx, th, g⟩ = 0 := by
  refine ⟨_, by
    rw [configure_eq]
    simp only [entries, mesonEntries, List.mem_append, List.mem_cons]
    left; left; iterate 10 right
    left; rfl, ?_, ?_⟩
  · simp; linarith
  · simp only [widthLPi0Pi]; rw [if_pos (by linarith)]

/-- The window is not empty: 277 MeV for the electron flavour. -/
example (env : Env) (th : ℝ) : ∃ a, ("e pi pi0", a) ∈ configure env .fst ∧
    a.masses.sum < 277 ∧ a.width ⟨277, th, .fst⟩ = 0 :=
  lepton_two_pion_window env 277 th .fst (by unfold lepMass mPi mPi0; norm_num)
    (by unfold lepMass mPi; norm_num)

/-! ## C129: assigning the parameters -/

/-- **C129.** Assigning `mx` or `theta` gives the object that the constructor would give. -/
theorem set_mx_theta {env : Env} {mx th : ℝ} {f : String} {m : Model}
    (h : init env mx th f = some m) (v : ℝ) :
    init env v th f = some (setMx m v) ∧ init env mx v f = some (setTheta m v) := by
  unfold init at h ⊢
  split_ifs at h ⊢ with h1 h2 h3 <;> obtain rfl := Option.some.inj h <;>
    exact ⟨by dsimp only [setMx], by dsimp only [setTheta]⟩

/-- **C129 (true part).** Assigning `flavor = "e"` gives the object that the constructor would give,
and exactly the values that the constructor rejects are rejected (before anything is changed). -/
theorem set_flavor_partial (env : Env) (m : Model) :
    setFlavor env m "e" = init env m.mx m.theta "e" ∧
    ∀ f, setFlavor env m f = none ↔ init env m.mx m.theta f = none := by
  refine ⟨by simp [setFlavor, init], fun f => ?_⟩
  unfold setFlavor init
  split_ifs <;> simp

/-- **C129 (what the code does).** Assigning `flavor = "mu"` gives the constructor's object except for
the private name of the neutrino. -/
theorem set_flavor_mu (env : Env) (m m' : Model) (h : init env m.mx m.theta "mu" = some m') :
    setFlavor env m "mu" = some { m' with vstr := "vmu" } ∧ m'.vstr = "vm" := by
  have e : init env m.mx m.theta "mu" = some ⟨⟨m.mx, m.theta, .snd⟩, "mu", "vm", "mu",
      (smMasses.get? "mu").getD 0, configure env .snd⟩ := by simp [init]
  rw [e] at h
  obtain rfl := Option.some.inj h
  exact ⟨by simp [setFlavor], rfl⟩

/-- **C129 (what the code does).** Assigning `flavor = "tau"` gives a model whose widths, final states
and spectra are those of the *muon* flavour, with the label and the lepton mass of the tau. -/
theorem set_flavor_tau (env : Env) (m m' : Model) (h : setFlavor env m "tau" = some m') :
    m'.flavor = "tau" ∧ m'.ml = lepMass .trd ∧ m'.gen = .snd ∧
      ∃ mm, init env m.mx m.theta "mu" = some mm ∧ m'.config = mm.config ∧
        m'.partialWidths = mm.partialWidths ∧ m'.finalStates = mm.finalStates := by
  have e : setFlavor env m "tau" = some ⟨⟨m.mx, m.theta, .snd⟩, "tau", "vmu", "tau",
      (smMasses.get? "tau").getD 0, configure env .snd⟩ := by simp [setFlavor]
  have e2 : init env m.mx m.theta "mu" = some ⟨⟨m.mx, m.theta, .snd⟩, "mu", "vm", "mu",
      (smMasses.get? "mu").getD 0, configure env .snd⟩ := by simp [init]
  rw [e] at h
  obtain rfl := Option.some.inj h
  refine ⟨rfl, by simp [smMasses, Dict.get?, lepMass], rfl, _, e2, ?_, ?_, ?_⟩
  · dsimp only
  · dsimp only [Model.partialWidths]
  · dsimp only [Model.finalStates]

/-- **C129 (negation).** Assigning a flavour is not constructing with it: for the tau even the list of
final states differs. -/
theorem set_flavor_differs (env : Env) (m : Model) :
    ∃ m1 m2, setFlavor env m "tau" = some m1 ∧ init env m.mx m.theta "tau" = some m2 ∧
      "tau pi" ∈ m2.finalStates ∧ "tau pi" ∉ m1.finalStates := by
  refine ⟨_, _, by simp [setFlavor]; rfl, by simp [init]; rfl, ?_, ?_⟩
  · simp only [Model.finalStates, configure_keys]; decide
  · simp only [Model.finalStates, configure_keys]; decide

/-! ## C130: line energies -/

/-- Objects that can be obtained from the constructor and the setters. -/
inductive Reachable (env : Env) : Model → Prop
  | init {mx th f m} : init env mx th f = some m → Reachable env m
  | mx {m} (v) : Reachable env m → Reachable env (setMx m v)
  | theta {m} (v) : Reachable env m → Reachable env (setTheta m v)
  | flavor {m m'} (v) : Reachable env m → setFlavor env m v = some m' → Reachable env m'

theorem reachable_config {env : Env} {m : Model} (h : Reachable env m) :
    m.config = configure env m.gen := by
  induction h with
  | init h => exact (init_spec h).2.2.2.2.1
  | mx v _ ih => exact ih
  | theta v _ ih => exact ih
  | flavor v _ h _ =>
    unfold setFlavor at h
    split_ifs at h <;> obtain rfl := Option.some.inj h <;> dsimp only

theorem bf_ok {env : Env} {m : Model} (h : Reachable env m) :
    decayBranchingFractions m.partialWidths
      = .ok (m.partialWidths.mapVals fun _ x => x / m.partialWidths.values.sum) :=
  decBf_eq _ (by rw [partialWidths_keys, reachable_config h, configure_keys]; exact total_not_key _)

theorem lines_error {env : Env} {m : Model} (h : Reachable env m) (k : String) (e : ℝ)
    (rest : Dict ℝ) (hk : k ∉ keyList m.gen) :
    linesDec m.partialWidths ((k, e) :: rest) = .error (.keyError k) := by
  unfold linesDec
  rw [bf_ok h]
  simp only [bind, Except.bind]
  have hn : (m.partialWidths.mapVals fun _ x => x / m.partialWidths.values.sum).get? k = none := by
    rw [Dict.get?_eq_none_iff, Dict.keys_mapVals, partialWidths_keys, reachable_config h,
      configure_keys]
    exact hk
  simp [buildDict, index_error hn]

/-- **C130 (negation).** `gamma_ray_lines` raises `KeyError("nu g")` for every right-handed-neutrino
model, whatever its parameters (and with it every function that needs the lines). -/
theorem gamma_ray_lines_raise {env : Env} {m : Model} (h : Reachable env m) :
    m.gammaRayLines = .error (.keyError "nu g") := by
  unfold Model.gammaRayLines Model.gammaLines
  exact lines_error h _ _ _ (by cases m.gen <;> decide)

/-- **C130 (what the code does).** `positron_lines` raises `KeyError("pi l")` for the electron flavour
and is empty otherwise. -/
theorem positron_lines_raise {env : Env} {m : Model} (h : Reachable env m) :
    m.positronLinesOf = if m.flavor = "e" then .error (.keyError "pi l") else .ok [] := by
  unfold Model.positronLinesOf Model.positronLines
  split_ifs
  · exact lines_error h _ _ _ (by cases m.gen <;> decide)
  · simp [linesDec, bf_ok h, buildDict, bind, Except.bind]

/-- The energy of the massless particle in the decay of a mass `mx` at rest into it and a mass `mh`
(specification: energy conservation with momentum balance). -/
theorem massless_energy_unique {mx mh E : ℝ} (hmx : 0 < mx) (hE : E ≤ mx)
    (h : E + Real.sqrt (E ^ 2 + mh ^ 2) = mx) : E = (mx ^ 2 - mh ^ 2) / (2 * mx) := by
  have h' : Real.sqrt (E ^ 2 + mh ^ 2) = mx - E := by linarith
  have h2 := Real.sq_sqrt (show 0 ≤ E ^ 2 + mh ^ 2 by positivity)
  rw [h'] at h2
  field_simp
  nlinarith

/-- **C130 (true part).** Below the eta mass a constructed model lists exactly the neutrino lines of
the photon and (when open) neutral-pion final states, under keys that are final states, at the
energies that kinematics gives. -/
theorem neutrino_lines_partial {env : Env} {mx th : ℝ} {f : String} {m : Model}
    (h : init env mx th f = some m) (hmx : 0 < mx) (heta : mx ≤ mEta) :
    (∀ k E, m.neutrinoLines.get? k = some E → k ∈ m.finalStates ∧
      ((k = nuStr m.gen ++ " a" ∧ E + Real.sqrt (E ^ 2 + 0 ^ 2) = mx) ∨
        (k = nuStr m.gen ++ " pi0" ∧ mPi0 < mx ∧ E + Real.sqrt (E ^ 2 + mPi0 ^ 2) = mx))) ∧
    (m.neutrinoLines.get? (nuStr m.gen ++ " a")).isSome = true ∧
    ((m.neutrinoLines.get? (nuStr m.gen ++ " pi0")).isSome = true ↔ mPi0 < mx) := by
  obtain ⟨h1, -, -, -, hc, -, hv, -⟩ := init_spec h
  have hne : nuStr m.gen ++ " pi0" ≠ nuStr m.gen ++ " a" := by cases m.gen <;> decide
  have hka : nuStr m.gen ++ " a" ∈ m.finalStates := by
    rw [Model.finalStates, hc, configure_keys]; cases m.gen <;> decide
  have hkp : nuStr m.gen ++ " pi0" ∈ m.finalStates := by
    rw [Model.finalStates, hc, configure_keys]; cases m.gen <;> decide
  have e1 : (0.5 * mx) + Real.sqrt ((0.5 * mx) ^ 2 + 0 ^ 2) = mx := by
    rw [show (0.5 * mx) ^ 2 + (0 : ℝ) ^ 2 = (0.5 * mx) ^ 2 by ring, Real.sqrt_sq (by positivity)]
    ring
  have e2 : (mx ^ 2 - mPi0 ^ 2) / (2 * mx)
      + Real.sqrt (((mx ^ 2 - mPi0 ^ 2) / (2 * mx)) ^ 2 + mPi0 ^ 2) = mx := by
    rw [show ((mx ^ 2 - mPi0 ^ 2) / (2 * mx)) ^ 2 + mPi0 ^ 2
      = ((mx ^ 2 + mPi0 ^ 2) / (2 * mx)) ^ 2 by field_simp; ring, Real.sqrt_sq (by positivity)]
    field_simp; ring
  unfold Model.neutrinoLines
  rw [hv, h1]
  simp only [if_neg heta.not_gt]
  by_cases hp : mPi0 < mx
  · simp only [if_pos hp, Dict.set, if_neg hne]
    refine ⟨fun k E hk => ?_, ?_, ?_⟩
    · simp only [Dict.get?] at hk
      split_ifs at hk with a b
      · subst a
        obtain rfl := Option.some.inj hk
        exact ⟨hkp, Or.inr ⟨rfl, hp, e2⟩⟩
      · subst b
        obtain rfl := Option.some.inj hk
        exact ⟨hka, Or.inl ⟨rfl, e1⟩⟩
    · simp [Dict.get?, hne]
    · simp [Dict.get?, hp]
  · simp only [if_neg hp, Dict.set]
    refine ⟨fun k E hk => ?_, ?_, ?_⟩
    · simp only [Dict.get?] at hk
      split_ifs at hk with b
      subst b
      obtain rfl := Option.some.inj hk
      exact ⟨hka, Or.inl ⟨rfl, e1⟩⟩
    · simp [Dict.get?]
    · simp [Dict.get?, hp, hne.symm]

/-- **C130 (negation).** Above the eta mass the line stored for the neutral-pion final state is the one
of the eta, and the eta final state has no line. -/
theorem neutrino_lines_eta_overwrites {env : Env} {mx th : ℝ} {f : String} {m : Model}
    (h : init env mx th f = some m) (hmx : mEta < mx) :
    m.neutrinoLines.get? (nuStr m.gen ++ " pi0") = some ((mx ^ 2 - mEta ^ 2) / (2 * mx)) ∧
    (mx ^ 2 - mEta ^ 2) / (2 * mx) < (mx ^ 2 - mPi0 ^ 2) / (2 * mx) ∧
    m.neutrinoLines.get? (nuStr m.gen ++ " eta") = none ∧
    nuStr m.gen ++ " eta" ∈ m.finalStates := by
  obtain ⟨h1, -, -, -, hc, -, hv, -⟩ := init_spec h
  have hne : nuStr m.gen ++ " pi0" ≠ nuStr m.gen ++ " a" := by cases m.gen <;> decide
  have hne2 : nuStr m.gen ++ " pi0" ≠ nuStr m.gen ++ " eta" := by cases m.gen <;> decide
  have hne3 : nuStr m.gen ++ " a" ≠ nuStr m.gen ++ " eta" := by cases m.gen <;> decide
  have hlt : mPi0 < mEta := by unfold mPi0 mEta; norm_num
  have h0 : 0 < mPi0 := by unfold mPi0; norm_num
  have hpos : 0 < mx := by linarith
  refine ⟨?_, ?_, ?_, ?_⟩
  · unfold Model.neutrinoLines
    rw [hv, h1]
    simp [hmx, hlt.trans hmx, Dict.set, Dict.get?, hne]
  · apply div_lt_div_of_pos_right _ (by positivity)
    nlinarith
  · unfold Model.neutrinoLines
    rw [hv, h1]
    simp [hmx, hlt.trans hmx, Dict.set, Dict.get?, hne, hne2, hne3]
  · rw [Model.finalStates, hc, configure_keys]; cases m.gen <;> decide

/-! ## C131: charge conjugation is counted once -/

/-- Charge configurations `(ν, ℓ⁻, ℓ⁺)` covered by an entry of the table: the entry itself, and its
conjugate when the code doubles the width. -/
def covered (t : Gen × Gen × Gen) : List (Gen × Gen × Gen) :=
  if t.2.1 = t.2.2 then [t] else [t, (t.1, t.2.2, t.2.1)]

/-- The three-lepton configurations that a sterile neutrino mixing with generation `g` can decay
into: the generation is carried by the neutrino or by one of the charged leptons. -/
def processes (g : Gen) : List (Gen × Gen × Gen) :=
  let all := [Gen.fst, .snd, .trd]
  (all.product (all.product all)).filter fun t =>
    (t.1 = g ∧ t.2.1 = t.2.2) ∨ (t.1 ≠ g ∧ ((t.2.1 = g ∧ t.1 = t.2.2) ∨ (t.2.2 = g ∧ t.1 = t.2.1)))

/-- **C131 (negation).** In the dictionary used by `decay_widths` every lepton-flavour-changing
configuration is covered twice and every other one once. -/
theorem configurations_covered (g : Gen) :
    ∀ t ∈ processes g, ((threeLepton g false).flatMap covered).count t
      = if t.2.1 = t.2.2 then 1 else 2 := by
  cases g <;> decide

/-- The value `unique=True`, which the model does not use, drops them instead. -/
theorem configurations_covered_unique (g : Gen) :
    ∀ t ∈ processes g, ((threeLepton g true).flatMap covered).count t
      = if t.2.1 = t.2.2 then 1 else 0 := by
  cases g <;> decide

/-- The width of `N → ℓ u d` is symmetric under exchange of `ℓ` and `d`. -/
theorem lud_symm (c : Core) (mu md ml : ℝ) : widthLUD c mu md ml = widthLUD c mu ml md := by
  unfold widthLUD integrandLUD kallenLambda
  simp only
  rw [show ml + mu + md = md + mu + ml by ring, add_comm (md / c.mx) (ml / c.mx)]
  split_ifs
  · rfl
  · congr 1
    apply intervalIntegral.integral_congr
    intro x _
    simp only
    rw [show x - (ml / c.mx) ^ 2 - (md / c.mx) ^ 2 = x - (md / c.mx) ^ 2 - (ml / c.mx) ^ 2 by ring,
      show x ^ 2 + ((ml / c.mx) ^ 2) ^ 2 + ((md / c.mx) ^ 2) ^ 2 - 2 * x * (ml / c.mx) ^ 2
        - 2 * x * (md / c.mx) ^ 2 - 2 * (ml / c.mx) ^ 2 * (md / c.mx) ^ 2
        = x ^ 2 + ((md / c.mx) ^ 2) ^ 2 + ((ml / c.mx) ^ 2) ^ 2 - 2 * x * (md / c.mx) ^ 2
        - 2 * x * (ml / c.mx) ^ 2 - 2 * (md / c.mx) ^ 2 * (ml / c.mx) ^ 2 by ring]

theorem mem_entry {env : Env} {mx th : ℝ} {f : String} {m : Model} (h : init env mx th f = some m)
    {t : Gen × Gen × Gen} (ht : t ∈ threeLepton m.gen false) :
    m.partialWidths.get? (lepEntry t).1
      = some (pre (lepEntry t).2.selfConj * widthVLL m.toCore t.1 t.2.1 t.2.2) := by
  obtain ⟨-, -, -, -, hc, -⟩ := init_spec h
  have hmem : lepEntry t ∈ m.config := by
    rw [hc, configure_eq, entries]
    simp only [List.mem_append, List.mem_map]
    exact Or.inl (Or.inr ⟨t, ht, rfl⟩)
  have hnd : m.config.keys.Nodup := by rw [hc, configure_keys]; exact keyList_nodup _
  rw [Model.partialWidths, Dict.get?_mapVals,
    Dict.get?_of_mem (k := (lepEntry t).1) (v := (lepEntry t).2) hnd hmem]
  rfl

/-- **C131 (what the code does).** The two entries of a lepton-flavour-changing channel carry the same
width, each already twice the width of one charge configuration: the total width contains that
channel twice over. -/
theorem flavour_changing_twice {env : Env} {mx th : ℝ} {f : String} {m : Model}
    (h : init env mx th f = some m) (g : Gen) (hg : g ≠ m.gen) :
    m.partialWidths.get? (nuStr g ++ " " ++ lepStr m.gen ++ " " ++ lepStr g)
      = some (2 * widthLUD m.toCore 0 (lepMass g) (lepMass m.gen)) ∧
    m.partialWidths.get? (nuStr g ++ " " ++ lepStr g ++ " " ++ lepStr m.gen)
      = some (2 * widthLUD m.toCore 0 (lepMass g) (lepMass m.gen)) := by
  have t1 : (g, m.gen, g) ∈ threeLepton m.gen false := by
    revert hg; generalize m.gen = g'; cases g <;> cases g' <;> decide
  have t2 : (g, g, m.gen) ∈ threeLepton m.gen false := by
    revert hg; generalize m.gen = g'; cases g <;> cases g' <;> decide
  have a := mem_entry h t1
  have b := mem_entry h t2
  constructor
  · refine a.trans ?_
    simp [lepEntry, pre, hg.symm, widthVLL]
  · refine b.trans ?_
    simp [lepEntry, pre, hg, hg.symm, widthVLL]

/-- **C131 (true part).** Entry by entry, the recorded width is the width function of the entry summed
over its one or two charge configurations; by `configurations_covered` no configuration outside the
flavour-changing three-lepton ones appears in two entries. -/
theorem widths_count_conjugates_partial {env : Env} {mx th : ℝ} {f : String} {m : Model}
    (h : init env mx th f = some m) {k : String} {a : Attrs} (ha : (k, a) ∈ m.config) :
    m.partialWidths.get? k = some (if a.selfConj then a.width m.toCore else
      a.width m.toCore + a.width m.toCore) := by
  obtain ⟨-, -, -, -, hc, -⟩ := init_spec h
  have hnd : m.config.keys.Nodup := by rw [hc, configure_keys]; exact keyList_nodup _
  rw [Model.partialWidths, Dict.get?_mapVals, Dict.get?_of_mem hnd ha]
  simp only [Option.map_some, pre]
  split_ifs <;> simp [two_mul]

/-- What `hazma.spectra.dnde_photon` returns, when it does not raise. -/
def Loads (load : String → ℝ → List String → Option (ℝ → ℝ → ℝ) → ℝ → Except Err ℝ)
    (m : Model) (product : String) (e : ℝ) (v : String → ℝ) : Prop :=
  ∀ k a, (k, a) ∈ m.config → runAct load (a.dnde m.toCore product) e = .ok (v k)

/-- **C131 (what the code does).** In `spectra` (photons) a channel is weighted with its branching
fraction times its spectrum if it is self-conjugate, but with *twice* that if it is not — although the
branching fraction already contains both charge configurations. -/
theorem photon_spectra_weights {env : Env} {mx th : ℝ} {f : String} {m : Model}
    (h : init env mx th f = some m) (hmx : 0 < mx)
    (load : String → ℝ → List String → Option (ℝ → ℝ → ℝ) → ℝ → Except Err ℝ) (e : ℝ)
    (v : String → ℝ) (hv : Loads load m "photon" e v) :
    ∃ out, spectraDec m.partialWidths (m.spectrumFuncs load "photon") e = .ok out ∧
      ∀ k a, (k, a) ∈ m.config → 0 < a.width m.toCore →
        out.get? k = some ((if a.selfConj then 1 else 2)
          * (pre a.selfConj * a.width m.toCore / m.partialWidths.values.sum * v k)) := by
  obtain ⟨hk, hnd, hall⟩ := partial_widths_sound h hmx
  have hcn : m.config.keys.Nodup := by rw [hk]; exact hnd
  have hkeys : m.partialWidths.keys = keyList m.gen := by rw [partialWidths_keys, hk]
  have hfk : (m.spectrumFuncs load "photon").keys = keyList m.gen := by
    rw [Model.spectrumFuncs, Dict.keys_mapVals, hk]
  obtain ⟨out, ho, -, hout, -⟩ := spectra_dec_weighted m.partialWidths
    (m.spectrumFuncs load "photon") e (by rw [hkeys]; exact hnd)
    (by rw [hkeys]; exact total_not_key _) (by rw [hfk]; exact hnd)
    (by rw [hkeys, hfk]; exact fun _ h => h)
    (fun k => match m.config.get? k with
      | some a => specPre "photon" a.selfConj * v k
      | none => 0) (by
      intro fs fn x hfn _ _
      simp only [Model.spectrumFuncs, Dict.mapVals, List.mem_map, Prod.mk.injEq] at hfn
      obtain ⟨⟨k, a⟩, ha, rfl, rfl⟩ := hfn
      simp only [hv k a ha, Dict.get?_of_mem hcn ha, bind, Except.bind, pure, Except.pure])
  refine ⟨out, ho, fun k a ha hpos => ?_⟩
  have hkm : k ∈ (m.spectrumFuncs load "photon").keys := by
    rw [hfk, ← hk]; exact List.mem_map.mpr ⟨(k, a), ha, rfl⟩
  rw [hout k hkm]
  have hget : m.partialWidths.get? k = some (pre a.selfConj * a.width m.toCore) := by
    rw [Model.partialWidths, Dict.get?_mapVals, Dict.get?_of_mem hcn ha]; rfl
  simp only [decContribution, hget, Dict.get?_of_mem hcn ha,
    if_pos (mul_pos (pre_pos a.selfConj) hpos), specPre]
  congr 1
  cases a.selfConj <;> simp <;> ring

/-- **C131 (negation).** So the photon spectrum of `N → ℓ π` is twice its branching fraction times the
spectrum of one decay whenever the channel is open. -/
theorem lepton_pion_photons_doubled {env : Env} {mx th : ℝ} {f : String} {m : Model}
    (h : init env mx th f = some m) (hu : Real.tan (2 * th) ≠ 0) (hud : env.vud ≠ 0)
    (hopen : lepMass m.gen + mPi < mx)
    (load : String → ℝ → List String → Option (ℝ → ℝ → ℝ) → ℝ → Except Err ℝ) (e : ℝ)
    (v : String → ℝ) (hv : Loads load m "photon" e v) (hpos : 0 < v (lepStr m.gen ++ " pi")) :
    ∃ out bfs bf x, spectraDec m.partialWidths (m.spectrumFuncs load "photon") e = .ok out ∧
      decayBranchingFractions m.partialWidths = .ok bfs ∧
      bfs.get? (lepStr m.gen ++ " pi") = some bf ∧ out.get? (lepStr m.gen ++ " pi") = some x ∧
      x = 2 * (bf * v (lepStr m.gen ++ " pi")) ∧ bf * v (lepStr m.gen ++ " pi") < x := by
  have hp := mPi_pos
  have hl := lepMass_pos m.gen
  have hmx : 0 < mx := by linarith
  obtain ⟨out, ho, hout⟩ := photon_spectra_weights h hmx load e v hv
  obtain ⟨h1, h2, -, -, hc, -⟩ := init_spec h
  have hu' : m.toCore.u ≠ 0 := by
    unfold Core.u; rw [h2]; norm_num; exact hu
  have hmem : (lepStr m.gen ++ " pi", (⟨dnde2 fun g => [lepStr g, "pi"],
      fun c => widthLHp c (lepMass c.gen) mPi fpi env.vud, false, [lepMass m.gen, mPi]⟩ : Attrs))
      ∈ m.config := by
    rw [hc, configure_eq]
    simp [entries, mesonEntries]
  have hw : 0 < widthLHp m.toCore (lepMass m.gen) mPi fpi env.vud :=
    lhp_pos mPi_pos (by rw [h1]; exact hopen) hu' (by unfold fpi; norm_num) hud
  have hx := hout _ _ hmem hw
  obtain ⟨hk, hnd, hall⟩ := partial_widths_sound h hmx
  have hcn : m.config.keys.Nodup := by rw [hk]; exact hnd
  have hget : m.partialWidths.get? (lepStr m.gen ++ " pi")
      = some (pre false * widthLHp m.toCore (lepMass m.gen) mPi fpi env.vud) := by
    rw [Model.partialWidths, Dict.get?_mapVals, Dict.get?_of_mem hcn hmem]; rfl
  have hbget : (m.partialWidths.mapVals fun _ x => x / m.partialWidths.values.sum).get?
      (lepStr m.gen ++ " pi") = some (pre false * widthLHp m.toCore (lepMass m.gen) mPi fpi env.vud
        / m.partialWidths.values.sum) := by
    rw [Dict.get?_mapVals, hget]; rfl
  refine ⟨out, _, _, _, ho, bf_ok (.init h), hbget, hx, by simp, ?_⟩
  have hle : pre false * widthLHp m.toCore (lepMass m.gen) mPi fpi env.vud
      ≤ m.partialWidths.values.sum := by
    refine le_sum_of_mem ?_ (List.mem_map.mpr ⟨_, Dict.mem_of_get? hget, rfl⟩)
    intro x hx
    obtain ⟨⟨k, y⟩, hy, rfl⟩ := List.mem_map.mp hx
    simp only [Model.partialWidths, Dict.mapVals, List.mem_map, Prod.mk.injEq] at hy
    obtain ⟨⟨k, a⟩, ha, rfl, rfl⟩ := hy
    exact mul_nonneg (pre_pos _).le (hall k a ha).1
  have hpp := mul_pos (pre_pos false) hw
  have : 0 < pre false * widthLHp m.toCore (lepMass m.gen) mPi fpi env.vud
      / m.partialWidths.values.sum := div_pos hpp (by linarith)
  have := mul_pos this hpos
  simp only [Bool.false_eq_true, if_false]
  linarith

/-- Electron flavour: `N → ν_μ e⁻ μ⁺` is counted under `vm e mu` and again under `vm mu e`. -/
example : ((threeLepton .fst false).flatMap covered).count (.snd, .fst, .snd) = 2 ∧
    (.snd, .fst, .snd) ∈ processes .fst := by decide

/-! ## C132: the spectra of a channel are those of the particles it names -/

/-- The key of a list of particle names. -/
def joinKey : List String → String
  | [] => ""
  | [a] => a
  | a :: l => a ++ " " ++ joinKey l

/-- `rho` beside a neutrino is the neutral one. -/
def spectrumName (s : String) : String := if s = "rho" then "rho0" else s

/-- An entry hands the particles of its key to the spectra code, at `cme = mx`, and gives zeros below
their masses. -/
def UsesNamed (m : Model) (k : String) (a : Attrs) : Prop :=
  ∃ names states ms, joinKey names = k ∧ states.Perm (names.map spectrumName) ∧
    ∀ product, (m.mx < massSum states → a.dnde m.toCore product = .zeros) ∧
      (massSum states ≤ m.mx → ∀ fn, productFn product = some fn →
        a.dnde m.toCore product = .call fn m.mx states ms) ∧
      (massSum states ≤ m.mx → productFn product = none → a.dnde m.toCore product = .valueError)

theorem dnde_spec (states : List String) (ms : Core → Option (ℝ → ℝ → ℝ)) (c : Core)
    (product : String) :
    (c.mx < massSum states → dnde states ms c product = .zeros) ∧
      (massSum states ≤ c.mx → ∀ fn, productFn product = some fn →
        dnde states ms c product = .call fn c.mx states (ms c)) ∧
      (massSum states ≤ c.mx → productFn product = none →
        dnde states ms c product = .valueError) := by
  unfold dnde
  refine ⟨fun h => if_pos h, fun h fn hf => ?_, fun h hf => ?_⟩ <;>
    rw [if_neg (not_lt.mpr h), hf]

/-- **C132 (true part).** Apart from `{ν} eta`, `{ℓ} rho` and the photon channel, every entry computes
spectra of exactly the particles in its key. -/
theorem spectra_use_named_particles_partial {env : Env} {mx th : ℝ} {f : String} {m : Model}
    (h : init env mx th f = some m) {k : String} {a : Attrs} (ha : (k, a) ∈ m.config)
    (h1 : k ≠ nuStr m.gen ++ " eta") (h2 : k ≠ lepStr m.gen ++ " rho")
    (h3 : k ≠ nuStr m.gen ++ " a") : UsesNamed m k a := by
  obtain ⟨-, -, -, -, hc, -⟩ := init_spec h
  rw [hc, configure_eq, entries] at ha
  simp only [List.mem_append, List.mem_map] at ha
  rcases ha with (ha | ⟨t, ht, he⟩) | ⟨gv, -, he⟩
  · simp only [mesonEntries, List.mem_cons, Prod.mk.injEq, List.not_mem_nil, or_false] at ha
    rcases ha with ⟨rfl, rfl⟩ | ⟨rfl, rfl⟩ | ⟨rfl, rfl⟩ | ⟨rfl, rfl⟩ | ⟨rfl, rfl⟩ | ⟨rfl, rfl⟩ |
      ⟨rfl, rfl⟩ | ⟨rfl, rfl⟩ | ⟨rfl, rfl⟩ | ⟨rfl, rfl⟩ | ⟨rfl, rfl⟩
    · exact absurd rfl h3
    · exact ⟨[nuStr m.gen, "pi0"], [nuStr m.gen, "pi0"], none, by cases m.gen <;> rfl,
        by cases m.gen <;> decide,
          fun product => dnde_spec [nuStr m.gen, "pi0"] (fun _ => none) m.toCore product⟩
    · exact absurd rfl h1
    · exact ⟨[nuStr m.gen, "rho"], [nuStr m.gen, "rho0"], none, by cases m.gen <;> rfl,
        by cases m.gen <;> decide,
          fun product => dnde_spec [nuStr m.gen, "rho0"] (fun _ => none) m.toCore product⟩
    · exact ⟨[nuStr m.gen, "omega"], [nuStr m.gen, "omega"], none, by cases m.gen <;> rfl,
        by cases m.gen <;> decide,
          fun product => dnde_spec [nuStr m.gen, "omega"] (fun _ => none) m.toCore product⟩
    · exact ⟨[nuStr m.gen, "phi"], [nuStr m.gen, "phi"], none, by cases m.gen <;> rfl,
        by cases m.gen <;> decide,
          fun product => dnde_spec [nuStr m.gen, "phi"] (fun _ => none) m.toCore product⟩
    · exact ⟨[lepStr m.gen, "k"], [lepStr m.gen, "k"], none, by cases m.gen <;> rfl,
        by cases m.gen <;> decide,
          fun product => dnde_spec [lepStr m.gen, "k"] (fun _ => none) m.toCore product⟩
    · exact ⟨[lepStr m.gen, "pi"], [lepStr m.gen, "pi"], none, by cases m.gen <;> rfl,
        by cases m.gen <;> decide,
          fun product => dnde_spec [lepStr m.gen, "pi"] (fun _ => none) m.toCore product⟩
    · exact absurd rfl h2
    · exact ⟨[nuStr m.gen, "pi", "pi"], [nuStr m.gen, "pi", "pi"], _, by cases m.gen <;> rfl,
        by cases m.gen <;> decide,
          fun product => dnde_spec [nuStr m.gen, "pi", "pi"] (fun c => some (msqrdVPiPi env c)) m.toCore product⟩
    · exact ⟨[lepStr m.gen, "pi", "pi0"], [m.gen.str, "pi0", "pi"], _, by cases m.gen <;> rfl,
        by cases m.gen <;> decide,
          fun product => dnde_spec [m.gen.str, "pi0", "pi"] (fun c => some (msqrdLPi0Pi env c)) m.toCore product⟩
  · obtain ⟨a', b, c⟩ := t
    simp only [lepEntry, Prod.mk.injEq] at he
    obtain ⟨rfl, rfl⟩ := he
    exact ⟨[nuStr a', lepStr b, lepStr c], [nuStr a', lepStr b, lepStr c], _,
      by cases a' <;> cases b <;> cases c <;> rfl,
      by cases a' <;> cases b <;> cases c <;> decide,
          fun product => dnde_spec [nuStr a', lepStr b, lepStr c] (fun c' => some (msqrdVLL c' a' b c).1) m.toCore product⟩
  · simp only [nuEntry, Prod.mk.injEq] at he
    obtain ⟨rfl, rfl⟩ := he
    exact ⟨[nuStr m.gen, nuStr gv, nuStr gv], [nuStr m.gen, nuStr gv, nuStr gv], _,
      by cases gv <;> cases m.gen <;> rfl,
      by cases gv <;> cases m.gen <;> decide,
          fun product => dnde_spec [nuStr m.gen, nuStr gv, nuStr gv] (fun c => some (msqrdVVV c gv)) m.toCore product⟩

/-- **C132 (negation).** The `{ν} eta` entry computes the spectra of a neutral pion, the `{ℓ} rho`
entry those of a charged kaon. -/
theorem eta_and_rho_spectra {env : Env} {mx th : ℝ} {f : String} {m : Model}
    (h : init env mx th f = some m) {product fn : String} (hp : productFn product = some fn) :
    (mPi0 ≤ mx → ∃ a, m.config.get? (nuStr m.gen ++ " eta") = some a ∧
      a.dnde m.toCore product = .call fn mx [nuStr m.gen, "pi0"] none) ∧
    (lepMass m.gen + mK ≤ mx → ∃ a, m.config.get? (lepStr m.gen ++ " rho") = some a ∧
      a.dnde m.toCore product = .call fn mx [lepStr m.gen, "k"] none) := by
  obtain ⟨e1, -, -, -, hc, -⟩ := init_spec h
  have hnd : m.config.keys.Nodup := by rw [hc, configure_keys]; exact keyList_nodup _
  constructor
  · intro hm
    refine ⟨(⟨dnde2 fun g => [nuStr g, "pi0"], fun c => widthVHp c mEta feta, true,
      [0, mEta]⟩ : Attrs), Dict.get?_of_mem hnd ?_, ?_⟩
    · rw [hc, configure_eq]; simp [entries, mesonEntries]
    · rw [← e1]
      refine (dnde_spec [nuStr m.gen, "pi0"] (fun _ => none) m.toCore product).2.1 ?_ fn hp
      rw [e1]
      refine le_trans (le_of_eq ?_) hm
      cases m.gen <;> simp [massSum, smMasses, Dict.get?, nuStr, mPi0]
  · intro hm
    refine ⟨(⟨dnde2 fun g => [lepStr g, "k"], fun c => widthLHv c (lepMass c.gen) mRho 0.162e6 env.vud,
      false, [lepMass m.gen, mRho]⟩ : Attrs), Dict.get?_of_mem hnd ?_, ?_⟩
    · rw [hc, configure_eq]; simp [entries, mesonEntries]
    · rw [← e1]
      refine (dnde_spec [lepStr m.gen, "k"] (fun _ => none) m.toCore product).2.1 ?_ fn hp
      rw [e1]
      refine le_trans (le_of_eq ?_) hm
      cases m.gen <;> simp [massSum, smMasses, Dict.get?, lepStr, mK, lepMass]

/-- **C132 (negation).** Below threshold the neutrino product is the one-dimensional array of zeros,
not the `(3, n)` array that the same entry returns above threshold and the photon channel always
returns. -/
theorem neutrino_zeros_shape {env : Env} {mx th : ℝ} {f : String} {m : Model}
    (h : init env mx th f = some m) (hlow : mx < mPi0) :
    (∃ a, m.config.get? (nuStr m.gen ++ " pi0") = some a ∧ a.dnde m.toCore "neutrino" = .zeros) ∧
    (∃ a, m.config.get? (nuStr m.gen ++ " a") = some a ∧ a.dnde m.toCore "neutrino" = .zeros3) := by
  obtain ⟨e1, -, -, -, hc, -⟩ := init_spec h
  have hnd : m.config.keys.Nodup := by rw [hc, configure_keys]; exact keyList_nodup _
  constructor
  · refine ⟨(⟨dnde2 fun g => [nuStr g, "pi0"], fun c => widthVHp c mPi0 fpi0, true,
      [0, mPi0]⟩ : Attrs), Dict.get?_of_mem hnd ?_, ?_⟩
    · rw [hc, configure_eq]; simp [entries, mesonEntries]
    · refine (dnde_spec [nuStr m.gen, "pi0"] (fun _ => none) m.toCore "neutrino").1 ?_
      rw [e1]
      refine lt_of_lt_of_eq hlow ?_
      cases m.gen <;> simp [massSum, smMasses, Dict.get?, nuStr, mPi0]
  · refine ⟨(⟨dndeZero, widthVA, true, [0, 0]⟩ : Attrs), Dict.get?_of_mem hnd ?_, ?_⟩
    · rw [hc, configure_eq]; simp [entries, mesonEntries]
    · simp [dndeZero]

/-- A 600 MeV electron-flavoured model: the photons of `ve eta` are those of a neutral pion. -/
example (env : Env) : ∃ m a, init env 600 0.001 "e" = some m ∧ m.config.get? "ve eta" = some a ∧
    a.dnde m.toCore "photon" = .call "photon" 600 ["ve", "pi0"] none := by
  have h : init env 600 0.001 "e" = some ⟨⟨600, 0.001, .fst⟩, "e", "ve", "e",
      (smMasses.get? "e").getD 0, configure env .fst⟩ := by simp [init]
  obtain ⟨a, h1, h2⟩ := (eta_and_rho_spectra h (product := "photon") rfl).1
    (by unfold mPi0; norm_num)
  exact ⟨_, a, h, h1, h2⟩

/-! ## C133: `decay_width` -/

theorem decayWidth1_eq (m : Model) (k : String) :
    m.decayWidth1 k = (match m.partialWidths.get? k with
      | some w => .ok w
      | none => .error (.keyError k)) := by
  rw [Model.decayWidth1, Model.partialWidths, Dict.get?_mapVals]
  cases m.config.get? k <;> rfl

/-- **C133 (negation).** Every non-empty string — in particular every final state of the model —
raises `KeyError` on its first character. -/
theorem decay_width_string_raises {env : Env} {mx th : ℝ} {f : String} {m : Model}
    (h : init env mx th f = some m) {s : String} {c : Char} {cs : List Char}
    (hs : s.toList = c :: cs) :
    m.decayWidth (.str s) = .error (.keyError (String.singleton c)) := by
  obtain ⟨-, -, -, -, hc, -⟩ := init_spec h
  have hlen : ∀ g, ∀ k ∈ keyList g, k.toList.length ≠ 1 := by
    intro g; cases g <;> decide
  have hnot : m.config.get? (String.singleton c) = none := by
    rw [Dict.get?_eq_none_iff, hc, configure_keys]
    intro hk
    exact hlen _ _ hk (by simp)
  simp only [Model.decayWidth, StatesArg.iter, hs, List.map_cons, buildDict, Model.decayWidth1, hnot]

theorem buildDict_get {γ : Type} {body : String → Unit → Except Err γ} {w : String → γ} :
    ∀ (l : List String) (acc : Dict γ), (∀ k ∈ l, body k () = .ok (w k)) →
      ∃ out, buildDict body (l.map fun s => (s, ())) acc = .ok out ∧
        ∀ k, out.get? k = if k ∈ l then some (w k) else acc.get? k
  | [], acc, _ => ⟨acc, rfl, by simp⟩
  | a :: l, acc, hb => by
    obtain ⟨out, ho, hg⟩ := buildDict_get (body := body) (w := w) l (acc.set a (w a))
      (fun k hk => hb k (List.mem_cons_of_mem _ hk))
    refine ⟨out, ?_, fun k => ?_⟩
    · simp only [List.map_cons, buildDict, hb a List.mem_cons_self]
      exact ho
    · rw [hg k]
      by_cases hkl : k ∈ l
      · simp [hkl]
      · by_cases hka : k = a
        · subst hka; simp [hkl, Dict.get?_set_self]
        · simp [hkl, hka, Dict.get?_set_ne _ hka]

/-- **C133 (true part).** For a sequence of final states the result contains exactly those states,
with the values of `decay_widths`; the first state that is not one of the model's raises `KeyError`. -/
theorem decay_width_sequence_partial {env : Env} {mx th : ℝ} {f : String} {m : Model}
    (h : init env mx th f = some m) (l : List String) :
    ((∀ k ∈ l, k ∈ m.finalStates) → ∃ out, m.decayWidth (.seq l) = .ok out ∧
      (∀ k ∈ l, out.get? k = m.partialWidths.get? k ∧ (out.get? k).isSome) ∧
      ∀ k ∉ l, out.get? k = none) ∧
    (∀ p k q, l = p ++ k :: q → (∀ j ∈ p, j ∈ m.finalStates) → k ∉ m.finalStates →
      m.decayWidth (.seq l) = .error (.keyError k)) := by
  have hk : ∀ k ∈ m.finalStates, ∃ w, m.partialWidths.get? k = some w := by
    intro k hk
    rw [← Option.ne_none_iff_exists']
    intro hn
    rw [Dict.get?_eq_none_iff, partialWidths_keys] at hn
    exact hn hk
  constructor
  · intro hl
    obtain ⟨out, ho, hg⟩ := buildDict_get (body := fun fs (_ : Unit) => m.decayWidth1 fs)
      (w := fun k => (m.partialWidths.get? k).getD 0) l [] (by
        intro k hkl
        obtain ⟨w, hw⟩ := hk k (hl k hkl)
        rw [decayWidth1_eq m, hw]; rfl)
    refine ⟨out, ho, fun k hkl => ?_, fun k hkl => ?_⟩
    · obtain ⟨w, hw⟩ := hk k (hl k hkl)
      rw [hg k, if_pos hkl, hw]; simp
    · rw [hg k, if_neg hkl]; rfl
  · rintro p k q rfl hp hkn
    refine buildDict_error _ _ (p.map fun s => (s, ())) k () (q.map fun s => (s, ())) ?_ ?_ ?_
    · simp [StatesArg.iter]
    · rintro j w hj
      obtain ⟨j', hj', e⟩ := List.mem_map.mp hj
      obtain ⟨rfl, -⟩ := Prod.mk.inj e
      obtain ⟨w', hw⟩ := hk j' (hp j' hj')
      exact ⟨w', by simp only [decayWidth1_eq m, hw]⟩
    · have : m.partialWidths.get? k = none := by
        rw [Dict.get?_eq_none_iff, partialWidths_keys]; exact hkn
      simp only [decayWidth1_eq m, this]

/-- The call suggested by the signature. -/
example (env : Env) : ∃ m, init env 600 0.001 "e" = some m ∧
    m.decayWidth (.str "e pi") = .error (.keyError "e") ∧
    (∃ out, m.decayWidth (.seq ["e pi"]) = .ok out) := by
  have h : init env 600 0.001 "e" = some ⟨⟨600, 0.001, .fst⟩, "e", "ve", "e",
      (smMasses.get? "e").getD 0, configure env .fst⟩ := by simp [init]
  refine ⟨_, h, decay_width_string_raises h (s := "e pi") (c := 'e') (cs := [' ', 'p', 'i']) rfl, ?_⟩
  obtain ⟨out, ho, -⟩ := (decay_width_sequence_partial h ["e pi"]).1 (by
    simp only [Model.finalStates, configure_keys]; decide)
  exact ⟨out, ho⟩

/-! ## C134: positron spectra -/

/-- **C134 (negation).** In `positron_spectra` every channel of every right-handed-neutrino model
carries the spectrum of the last entry of the table, three neutrinos; if that spectrum is zero, so is
the positron spectrum of every channel, whatever the other channels' spectra are. -/
theorem positron_spectra_zero {env : Env} {mx th : ℝ} {f : String} {m : Model}
    (h : init env mx th f = some m) (hmx : 0 < mx)
    (load : String → ℝ → List String → Option (ℝ → ℝ → ℝ) → ℝ → Except Err ℝ) (e : ℝ)
    (hload : ∀ ms, load "positron" mx [nuStr m.gen, "vt", "vt"] ms e = .ok 0) :
    ∃ out, positronSpectraDec m.partialWidths (m.spectrumFuncs load "positron") e = .ok out ∧
      ∀ k ∈ m.finalStates, out.get? k = some 0 := by
  obtain ⟨hk, hnd, -⟩ := partial_widths_sound h hmx
  obtain ⟨e1, -, -, -, hc, -⟩ := init_spec h
  have hcn : m.config.keys.Nodup := by rw [hk]; exact hnd
  have hkeys : m.partialWidths.keys = keyList m.gen := by rw [partialWidths_keys, hk]
  have hfk : (m.spectrumFuncs load "positron").keys = keyList m.gen := by
    rw [Model.spectrumFuncs, Dict.keys_mapVals, hk]
  have hlast : m.config.getLast? = some (nuEntry m.gen .trd) := by
    rw [hc, configure_eq, entries]
    simp
  have hmem : nuEntry m.gen .trd ∈ m.config := List.mem_of_getLast? hlast
  obtain ⟨out, ho, -, hout⟩ := positron_spectra_dec_uses_last_channel m.partialWidths
    (m.spectrumFuncs load "positron") e (by rw [hkeys]; exact hnd)
    (by rw [hkeys]; exact total_not_key _) (by rw [hfk]; exact hnd)
    (by rw [hkeys, hfk]; exact fun _ h => h) (nuEntry m.gen .trd).1
    (fun e => do
      let v ← runAct load ((nuEntry m.gen .trd).2.dnde m.toCore "positron") e
      return specPre "positron" (nuEntry m.gen .trd).2.selfConj * v)
    (pre (nuEntry m.gen .trd).2.selfConj * (nuEntry m.gen .trd).2.width m.toCore) 0
    (by simp only [Model.spectrumFuncs, Dict.mapVals, List.getLast?_map, hlast]; rfl)
    (by
      simp only [Model.partialWidths, Dict.mapVals, List.mem_map]
      exact ⟨_, hmem, rfl⟩)
    (by
      intro _
      have hm : massSum [nuStr m.gen, "vt", "vt"] ≤ m.toCore.mx := by
        rw [e1]
        refine le_trans (le_of_eq ?_) hmx.le
        cases m.gen <;> simp [massSum, smMasses, Dict.get?, nuStr]
      have := (dnde_spec [nuStr m.gen, "vt", "vt"] (fun c => some (msqrdVVV c .trd)) m.toCore
        "positron").2.1 hm "positron" rfl
      have hd : (nuEntry m.gen .trd).2.dnde m.toCore "positron"
          = .call "positron" m.toCore.mx [nuStr m.gen, "vt", "vt"] (some (msqrdVVV m.toCore .trd)) :=
        this
      simp only [hd, runAct, e1, hload, bind, Except.bind, pure, Except.pure, mul_zero])
  refine ⟨out, ho, fun k hkm => ?_⟩
  have hkp : k ∈ m.partialWidths.keys := by rw [partialWidths_keys]; exact hkm
  obtain ⟨⟨k', x⟩, hx, rfl⟩ := List.mem_map.mp hkp
  rw [hout k' x (by rw [hfk, ← hk]; exact hkm) hx]
  simp

/-- Every channel is affected, the electron–pion one for instance. -/
example : ("e pi" ∈ keyList .fst) ∧ (keyList .fst).getLast? = some "ve vt vt" := by decide

end Hazma.RhNeutrino
