import Verif.Proofs.Opt.InitLive

/-! Parameter groups of a constructed optimizer. -/

set_option linter.unusedSectionVars false
open IOProof
variable {α : Type} [Field α] [LinearOrder α]

namespace Construct

/-- groups share no parameters -/
def GroupsDisjoint (gs : List (GroupArg α)) : Prop := gs.Pairwise fun a b => ∀ p ∈ a.params, ∀ q ∈ b.params, p.ptr ≠ q.ptr

/-- a group with the missing entries filled in -/
def fill (dflt : Hyper α) (g : GroupArg α) : PGroup α := ⟨g.params.map (·.ptr), g.entries dflt⟩

open Classical in
theorem addGroups_eq (dflt : Hyper α) : ∀ (seen : List ℕ) (gs : List (GroupArg α)), addGroups dflt seen gs =
    if (∀ g ∈ gs, ∀ p ∈ g.params, p.ptr ∉ seen) ∧ GroupsDisjoint gs then .ok (gs.map (fill dflt)) else .error .valueError
  | seen, [] => by simp [addGroups, GroupsDisjoint]
  | seen, g :: gs => by
    rw [addGroups]
    by_cases h1 : ∀ p ∈ g.params, p.ptr ∉ seen
    · rw [if_neg (by simpa using h1), addGroups_eq dflt (seen ++ g.params.map (·.ptr)) gs]
      have e : ((∀ g' ∈ gs, ∀ p ∈ g'.params, p.ptr ∉ seen ++ g.params.map (·.ptr)) ∧ GroupsDisjoint gs) ↔
          ((∀ g' ∈ g :: gs, ∀ p ∈ g'.params, p.ptr ∉ seen) ∧ GroupsDisjoint (g :: gs)) := by
        unfold GroupsDisjoint
        rw [List.pairwise_cons, List.forall_mem_cons]
        simp only [List.mem_append, List.mem_map, not_or, not_exists, not_and]
        constructor
        · rintro ⟨a, b⟩
          exact ⟨⟨h1, fun g' hg' p hp => (a g' hg' p hp).1⟩, fun g' hg' p hp q hq => (a g' hg' q hq).2 p hp, b⟩
        · rintro ⟨⟨_, a⟩, b, c⟩
          exact ⟨fun g' hg' p hp => ⟨a g' hg' p hp, fun q hq => b g' hg' q hq p hp⟩, c⟩
      by_cases h2 : (∀ g' ∈ gs, ∀ p ∈ g'.params, p.ptr ∉ seen ++ g.params.map (·.ptr)) ∧ GroupsDisjoint gs
      · rw [if_pos h2, if_pos (e.1 h2), Except.bind_ok', Except.pure_ok]; rfl
      · rw [if_neg h2, if_neg fun h => h2 (e.2 h), Except.bind_error']
    · rw [if_pos (by simpa using h1), if_neg fun h => h1 (h.1 g (by simp))]

open Classical in
theorem torchInit_eq (dflt : Hyper α) (gs : List (GroupArg α)) : torchInit dflt gs =
    if gs ≠ [] ∧ GroupsDisjoint gs then .ok (gs.map (fill dflt)) else .error .valueError := by
  rw [torchInit]
  by_cases h : gs = []
  · rw [if_pos h, if_neg fun h' => h'.1 h]
  · rw [if_neg h, addGroups_eq]
    by_cases h2 : GroupsDisjoint gs
    · rw [if_pos ⟨by simp, h2⟩, if_pos ⟨h, h2⟩]
    · rw [if_neg fun h' => h2 h'.2, if_neg fun h' => h2 h'.2]

theorem torchInit_ok {dflt : Hyper α} {gs : List (GroupArg α)} {r : List (PGroup α)} (h : torchInit dflt gs = .ok r) :
    gs ≠ [] ∧ GroupsDisjoint gs ∧ r = gs.map (fill dflt) := by
  classical
  rw [torchInit_eq] at h
  split at h
  · rename_i h1; cases h; exact ⟨h1.1, h1.2, rfl⟩
  · cases h

/-- the groups of a constructed optimizer: those given, with missing entries filled in and checked -/
theorem InitSpec.groups_eq {structs : String → Option Cls} {model : Model} {p : ParamArg α} {a : Args α} {o : Opt α} {ws : List Warn}
    (h : InitSpec structs model p a o ws) : o.groups = (groupArgs model.layers a.warnUnsupported p).1.map fun g =>
      ⟨g.params.map (·.ptr), checked (g.entries (defaults a))⟩ := by
  obtain ⟨gs, ws', ht, hc, _⟩ := h.groups
  obtain ⟨_, _, rfl⟩ := torchInit_ok ht
  obtain ⟨_, h2, _⟩ := checkGroups_ok hc
  rw [h2, List.map_map]
  rfl

/-- a parameter is in at most one group -/
theorem InitSpec.unique {structs : String → Option Cls} {model : Model} {p : ParamArg α} {a : Args α} {o : Opt α} {ws : List Warn}
    (h : InitSpec structs model p a o ws) {q i j : ℕ} {g g' : PGroup α} (hi : o.groups[i]? = some g) (hj : o.groups[j]? = some g')
    (hq : q ∈ g.params) (hq' : q ∈ g'.params) : i = j := by
  obtain ⟨gs, ws', ht, _, _⟩ := h.groups
  have hd := (torchInit_ok ht).2.1
  rw [h.groups_eq, List.getElem?_map] at hi hj
  obtain ⟨a1, e1, rfl⟩ := Option.map_eq_some_iff.1 hi
  obtain ⟨a2, e2, rfl⟩ := Option.map_eq_some_iff.1 hj
  obtain ⟨p1, m1, x1⟩ := List.mem_map.1 hq
  obtain ⟨p2, m2, x2⟩ := List.mem_map.1 hq'
  unfold GroupsDisjoint at hd
  rw [List.pairwise_iff_getElem] at hd
  obtain ⟨l1, y1⟩ := List.getElem?_eq_some_iff.1 e1
  obtain ⟨l2, y2⟩ := List.getElem?_eq_some_iff.1 e2
  rcases lt_trichotomy i j with hlt | heq | hlt
  · exact absurd (x1.trans x2.symm) (hd i j l1 l2 hlt p1 (by rw [y1]; exact m1) p2 (by rw [y2]; exact m2))
  · exact heq
  · exact absurd (x2.trans x1.symm) (hd j i l2 l1 hlt p2 (by rw [y2]; exact m2) p1 (by rw [y1]; exact m1))

theorem ptrGroup_eq_some {gs : List (PGroup α)} {p i : ℕ} {g : PGroup α} (hg : gs[i]? = some g) (hp : p ∈ g.params)
    (hu : ∀ j g', gs[j]? = some g' → p ∈ g'.params → j = i) : ptrGroup gs p = some i := by
  unfold ptrGroup
  have hl : i < gs.length := (List.getElem?_eq_some_iff.1 hg).1
  have hm : i ∈ (List.range gs.length).filter fun i => ((gs.map (·.params)).getD i []).contains p := by
    rw [List.mem_filter]
    refine ⟨List.mem_range.2 hl, ?_⟩
    rw [List.getD_eq_getElem?_getD, List.getElem?_map, hg]
    simpa using hp
  have hall : ∀ j ∈ (List.range gs.length).filter fun i => ((gs.map (·.params)).getD i []).contains p, j = i := by
    intro j hj
    rw [List.mem_filter] at hj
    obtain ⟨g', hg'⟩ : ∃ g', gs[j]? = some g' := ⟨_, List.getElem?_eq_getElem (List.mem_range.1 hj.1)⟩
    refine hu j g' hg' ?_
    have := hj.2
    rw [List.getD_eq_getElem?_getD, List.getElem?_map, hg'] at this
    simpa using this
  obtain ⟨x, hx⟩ : ∃ x, ((List.range gs.length).filter fun i => ((gs.map (·.params)).getD i []).contains p).getLast? = some x := by
    rw [← Option.isSome_iff_exists, List.getLast?_isSome]
    intro e; rw [e] at hm; cases hm
  rw [hx, hall x (List.mem_of_getLast? hx)]

end Construct

namespace Construct

/-- the factors of a layer can be created -/
def CanInit (structs : String → Option Cls) (h : Hyper α) (m : Layer) : Prop := ∃ cK cC K C, structs h.structures.1 = some cK ∧
  structs h.structures.2 = some cC ∧ SM.eye (α := α) cK m.nK = .ok K ∧ SM.eye (α := α) cC m.nC = .ok C ∧
  (h.alpha1 ≠ 0 → ∃ mK mC, SM.zeros (α := α) cK m.nK = .ok mK ∧ SM.zeros (α := α) cC m.nC = .ok mC)

theorem initBuffers_exists' : ∀ (ms : List Layer) (o : Opt α), (∀ m ∈ ms, m.supported = true ∧ ∃ h, o.hyperOf m = .ok h ∧
    CanInit o.structs h m) → ∃ o', initBuffers ms o = .ok o'
  | [], o, _ => ⟨o, rfl⟩
  | m :: ms, o, h => by
    obtain ⟨sup, hy, e1, cK, cC, K, C, e2, e3, eK, eC, eZ⟩ := h m (by simp)
    obtain ⟨o1, h1, h2, h3, h4⟩ : ∃ o1, initLayer o m = .ok o1 ∧ o1.structs = o.structs ∧ o1.ptrGroup = o.ptrGroup ∧ o1.groups = o.groups := by
      rw [initLayer, Layer.dims_eq sup, Except.bind_ok', e1, Except.bind_ok', lookup, e2, Except.bind_ok', lookup, e3, Except.bind_ok',
        eK, Except.bind_ok', eC, Except.bind_ok']
      dsimp only
      split
      · rename_i h0
        obtain ⟨ZK, ZC, eZK, eZC⟩ := eZ h0
        rw [eZK, Except.bind_ok', eZC, Except.bind_ok']
        exact ⟨_, rfl, rfl, rfl, rfl⟩
      · exact ⟨_, rfl, rfl, rfl, rfl⟩
    rw [initBuffers, h1, Except.bind_ok']
    refine initBuffers_exists' ms o1 fun m' hm' => ?_
    have : o1.hyperOf m' = o.hyperOf m' := by unfold Opt.hyperOf; rw [h3, h4]
    rw [this, h2]
    exact h m' (by simp [hm'])

/-- construction succeeds if the arguments are accepted and the factors of every trained layer can be created -/
theorem init_exists' {structs : String → Option Cls} {model : Model} {p : ParamArg α} {a : Args α} (hw : model.wrapped = false)
    (hv : validate a = .ok ()) (hne : (groupArgs model.layers a.warnUnsupported p).1 ≠ [])
    (hd : GroupsDisjoint (groupArgs model.layers a.warnUnsupported p).1)
    (ha : ∀ g ∈ (groupArgs model.layers a.warnUnsupported p).1, Accepted (g.entries (defaults a)))
    (gs : List (PGroup α)) (hgs : gs = (groupArgs model.layers a.warnUnsupported p).1.map fun g =>
      ⟨g.params.map (·.ptr), checked (g.entries (defaults a))⟩)
    (hl : checkLayers model.layers gs = .ok ())
    (hh : ∀ m ∈ hooked model.layers gs, ∃ i g, ptrGroup gs m.weight.ptr = some i ∧ gs[i]? = some g ∧ CanInit structs g.h m) :
    ∃ o ws, init structs model p a = .ok (o, ws) := by
  classical
  have e1 : checkGroups 0 ((groupArgs model.layers a.warnUnsupported p).1.map (fill (defaults a))) =
      .ok (gs, groupWarns 0 ((groupArgs model.layers a.warnUnsupported p).1.map (fill (defaults a)))) := by
    rw [checkGroups_eq, if_pos, List.map_map, hgs]
    · rfl
    · intro g hg
      obtain ⟨g0, h0, rfl⟩ := List.mem_map.1 hg
      exact ha g0 h0
  obtain ⟨o, ho⟩ := initBuffers_exists' (hooked model.layers gs) (blank structs model.layers gs a.initGradScale) (by
    intro m hm
    obtain ⟨i, g, h1, h2, h3⟩ := hh m hm
    have sup : m.supported = true := by
      have := (List.mem_filter.1 hm).2
      simp only [Bool.and_eq_true] at this
      exact this.1
    refine ⟨sup, g.h, ?_, h3⟩
    rw [Opt.hyperOf, if_pos sup, lookup]
    have h1' : (blank structs model.layers gs a.initGradScale).ptrGroup m.weight.ptr = some i := h1
    have h2' : (blank structs model.layers gs a.initGradScale).groups[i]? = some g := h2
    rw [h1', Except.bind_ok', h2'])
  refine ⟨o, (groupArgs model.layers a.warnUnsupported p).2 ++ groupWarns 0 ((groupArgs model.layers a.warnUnsupported p).1.map (fill (defaults a))), ?_⟩
  rw [init, if_neg (by simp [hw]), hv, Except.bind_ok']
  dsimp only
  rw [torchInit_eq, if_pos ⟨hne, hd⟩, Except.bind_ok', e1, Except.bind_ok']
  dsimp only
  rw [hl, Except.bind_ok', ho, Except.bind_ok']
  rfl

variable [CharZero α]

/-- construction succeeds if the arguments are accepted and every trained layer's weight is in a group with registered structures -/
theorem init_exists {structs : String → Option Cls} {model : Model} {p : ParamArg α} {a : Args α} (hw : model.wrapped = false)
    (hv : validate a = .ok ()) (hne : (groupArgs model.layers a.warnUnsupported p).1 ≠ [])
    (hd : GroupsDisjoint (groupArgs model.layers a.warnUnsupported p).1)
    (ha : ∀ g ∈ (groupArgs model.layers a.warnUnsupported p).1, Accepted (g.entries (defaults a)))
    (gs : List (PGroup α)) (hgs : gs = (groupArgs model.layers a.warnUnsupported p).1.map fun g =>
      ⟨g.params.map (·.ptr), checked (g.entries (defaults a))⟩)
    (hl : checkLayers model.layers gs = .ok ())
    (hh : ∀ m ∈ hooked model.layers gs, ∃ i g cK cC, ptrGroup gs m.weight.ptr = some i ∧ gs[i]? = some g ∧
      structs g.h.structures.1 = some cK ∧ structs g.h.structures.2 = some cC ∧ cK.Supports m.nK ∧ cC.Supports m.nC) :
    ∃ o ws, init structs model p a = .ok (o, ws) := by
  refine init_exists' hw hv hne hd ha gs hgs hl fun m hm => ?_
  obtain ⟨i, g, cK, cC, h1, h2, h3, h4, h5, h6⟩ := hh m hm
  obtain ⟨K, eK, _⟩ := smeye_spec (α := α) h5
  obtain ⟨C, eC, _⟩ := smeye_spec (α := α) h6
  obtain ⟨ZK, eZK, _⟩ := smzeros_spec (α := α) h5
  obtain ⟨ZC, eZC, _⟩ := smzeros_spec (α := α) h6
  exact ⟨i, g, h1, h2, cK, cC, K, C, h3, h4, eK, eC, fun _ => ⟨ZK, ZC, eZK, eZC⟩⟩

end Construct
