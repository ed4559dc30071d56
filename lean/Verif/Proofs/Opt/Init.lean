import Verif.Model.Construct
import Verif.Proofs.Opt.History
import Verif.Proofs.ProcessIO

/-! What a successful construction yields. -/

set_option linter.unusedSectionVars false
open IOProof
variable {α : Type} [Field α] [LinearOrder α]

namespace Construct

/-- the factor-independent attributes agree -/
structure SameRest (o o' : Opt α) : Prop where
  structs : o'.structs = o.structs
  layers : o'.layers = o.layers
  ptrGroup : o'.ptrGroup = o.ptrGroup
  groups : o'.groups = o.groups
  steps : o'.steps = o.steps
  scales : o'.scales = o.scales
  HKs : o'.HKs = o.HKs
  HCs : o'.HCs = o.HCs
  mom : o'.mom = o.mom

theorem SameRest.trans {o o' o'' : Opt α} (h : SameRest o o') (h' : SameRest o' o'') : SameRest o o'' :=
  ⟨h'.1.trans h.1, h'.2.trans h.2, h'.3.trans h.3, h'.4.trans h.4, h'.5.trans h.5, h'.6.trans h.6, h'.7.trans h.7, h'.8.trans h.8,
    h'.9.trans h.9⟩

theorem SameRest.hyperOf {o o' : Opt α} (h : SameRest o o') (m : Layer) : o'.hyperOf m = o.hyperOf m := by
  unfold Opt.hyperOf; rw [h.ptrGroup, h.groups]

/-- initial factors of a layer: identities of the classes of its group, and zero momenta iff `alpha1 ≠ 0` -/
structure LayerInit (o : Opt α) (m : Layer) : Prop where
  sup : m.supported
  ex : ∃ h cK cC K C, o.hyperOf m = .ok h ∧ o.structs h.structures.1 = some cK ∧ o.structs h.structures.2 = some cC ∧
    SM.eye cK m.nK = .ok K ∧ SM.eye cC m.nC = .ok C ∧ o.Ks m.name = some K ∧ o.Cs m.name = some C ∧
    (h.alpha1 = 0 → o.mKs m.name = none ∧ o.mCs m.name = none) ∧
    (h.alpha1 ≠ 0 → ∃ mK mC, SM.zeros cK m.nK = .ok mK ∧ SM.zeros cC m.nC = .ok mC ∧ o.mKs m.name = some mK ∧
      o.mCs m.name = some mC)

theorem lookup_ok {κ v : Type} {d : κ → Option v} {k : κ} {x : v} (h : lookup d k = .ok x) : d k = some x := by
  unfold lookup at h
  rcases hd : d k with _ | y <;> simp_all

theorem initLayer_ok {o o' : Opt α} {m : Layer} (h : initLayer o m = .ok o') (h0 : o.mKs m.name = none) (h0' : o.mCs m.name = none) :
    SameRest o o' ∧ LayerInit o' m ∧ ∀ n, n ≠ m.name → o'.Ks n = o.Ks n ∧ o'.Cs n = o.Cs n ∧ o'.mKs n = o.mKs n ∧ o'.mCs n = o.mCs n := by
  unfold initLayer at h
  obtain ⟨d, hd, h⟩ := Except.bind_eq_ok h
  obtain ⟨hy, hh, h⟩ := Except.bind_eq_ok h
  obtain ⟨cK, hcK, h⟩ := Except.bind_eq_ok h
  obtain ⟨cC, hcC, h⟩ := Except.bind_eq_ok h
  obtain ⟨K, hK, h⟩ := Except.bind_eq_ok h
  obtain ⟨C, hC, h⟩ := Except.bind_eq_ok h
  obtain ⟨sup, rfl⟩ := Layer.supported_of_dims hd
  replace hcK := lookup_ok hcK
  replace hcC := lookup_ok hcC
  dsimp only at hK hC h
  split at h
  · rename_i ha
    obtain ⟨mK, hmK, h⟩ := Except.bind_eq_ok h
    obtain ⟨mC, hmC, h⟩ := Except.bind_eq_ok h
    rw [Except.pure_ok] at h
    cases h
    refine ⟨⟨rfl, rfl, rfl, rfl, rfl, rfl, rfl, rfl, rfl⟩, ⟨sup, hy, cK, cC, K, C, hh, hcK, hcC, hK, hC, ?_, ?_, ?_, ?_⟩, ?_⟩
    · simp [Dict.set]
    · simp [Dict.set]
    · intro h1; exact absurd h1 ha
    · intro _; exact ⟨mK, mC, hmK, hmC, by simp [Dict.set], by simp [Dict.set]⟩
    · intro n hn; simp [Dict.set, hn]
  · rename_i ha
    rw [not_not] at ha
    rw [Except.pure_ok] at h
    cases h
    refine ⟨⟨rfl, rfl, rfl, rfl, rfl, rfl, rfl, rfl, rfl⟩, ⟨sup, hy, cK, cC, K, C, hh, hcK, hcC, hK, hC, ?_, ?_, ?_, ?_⟩, ?_⟩
    · simp [Dict.set]
    · simp [Dict.set]
    · intro _; exact ⟨h0, h0'⟩
    · intro h1; exact absurd ha h1
    · intro n hn; simp [Dict.set, hn]

theorem initBuffers_ok : ∀ {ms : List Layer} {o o' : Opt α}, initBuffers ms o = .ok o' → (ms.map (·.name)).Nodup →
    (∀ m ∈ ms, o.mKs m.name = none ∧ o.mCs m.name = none) →
    SameRest o o' ∧ (∀ m ∈ ms, LayerInit o' m) ∧
      ∀ n, (∀ m ∈ ms, n ≠ m.name) → o'.Ks n = o.Ks n ∧ o'.Cs n = o.Cs n ∧ o'.mKs n = o.mKs n ∧ o'.mCs n = o.mCs n
  | [], o, o', h, _, _ => by
    cases h; exact ⟨⟨rfl, rfl, rfl, rfl, rfl, rfl, rfl, rfl, rfl⟩, by simp, fun _ _ => ⟨rfl, rfl, rfl, rfl⟩⟩
  | m :: ms, o, o', h, hn, h0 => by
    unfold initBuffers at h
    obtain ⟨o1, h1, h2⟩ := Except.bind_eq_ok h
    obtain ⟨r1, l1, n1⟩ := initLayer_ok h1 (h0 m (by simp)).1 (h0 m (by simp)).2
    simp only [List.map_cons, List.nodup_cons, List.mem_map, not_exists, not_and] at hn
    obtain ⟨r2, l2, n2⟩ := initBuffers_ok h2 hn.2 (fun m' hm' => by
      have := n1 m'.name (fun e => hn.1 m' hm' e)
      rw [this.2.2.1, this.2.2.2]; exact h0 m' (by simp [hm']))
    refine ⟨r1.trans r2, ?_, ?_⟩
    · intro m' hm'
      rcases List.mem_cons.1 hm' with rfl | hm'
      · obtain ⟨a, b, c, d⟩ := n2 m'.name (fun m2 h2' e => hn.1 m2 h2' e.symm)
        obtain ⟨sup, h, cK, cC, K, C, e1, e2, e3, e4, e5, e6, e7, e8, e9⟩ := l1
        refine ⟨sup, h, cK, cC, K, C, by rw [r2.hyperOf, e1], by rw [r2.structs, e2], by rw [r2.structs, e3], e4, e5, by rw [a, e6],
          by rw [b, e7], by rw [c, d]; exact e8, by rw [c, d]; exact e9⟩
      · exact l2 m' hm'
    · intro n hn'
      obtain ⟨a, b, c, d⟩ := n2 n (fun m' h' => hn' m' (by simp [h']))
      obtain ⟨a', b', c', d'⟩ := n1 n (hn' m (by simp))
      exact ⟨a.trans a', b.trans b', c.trans c', d.trans d'⟩

/-- everything a successful construction guarantees -/
structure InitSpec (structs : String → Option Cls) (model : Model) (p : ParamArg α) (a : Args α) (o : Opt α) (ws : List Warn) : Prop where
  unwrapped : model.wrapped = false
  valid : validate a = .ok ()
  groups : ∃ gs ws', torchInit (defaults a) (groupArgs model.layers a.warnUnsupported p).1 = .ok gs ∧ checkGroups 0 gs = .ok (o.groups, ws') ∧
    ws = (groupArgs model.layers a.warnUnsupported p).2 ++ ws'
  check : checkLayers model.layers o.groups = .ok ()
  structs : o.structs = structs
  layers : o.layers = hooked model.layers o.groups
  ptrGroup : o.ptrGroup = Construct.ptrGroup o.groups
  steps : o.steps = 0
  scales : o.scales = Dict.set (fun _ => none) (-1) a.initGradScale
  HKs : o.HKs = fun _ => none
  HCs : o.HCs = fun _ => none
  mom : o.mom = fun _ => none
  lay : ∀ m ∈ o.layers, LayerInit o m
  other : ∀ n, (∀ m ∈ o.layers, n ≠ m.name) → o.Ks n = none ∧ o.Cs n = none ∧ o.mKs n = none ∧ o.mCs n = none

theorem init_ok {structs : String → Option Cls} {model : Model} {p : ParamArg α} {a : Args α} {o : Opt α} {ws : List Warn}
    (hn : (model.layers.map (·.name)).Nodup) (h : init structs model p a = .ok (o, ws)) : InitSpec structs model p a o ws := by
  unfold init at h
  split at h
  · cases h
  · rename_i hw
    obtain ⟨_, hv, h⟩ := Except.bind_eq_ok h
    dsimp only at h
    obtain ⟨gs, hg, h⟩ := Except.bind_eq_ok h
    obtain ⟨⟨g, ws'⟩, hc, h⟩ := Except.bind_eq_ok h
    obtain ⟨_, hl, h⟩ := Except.bind_eq_ok h
    obtain ⟨o', hb, h⟩ := Except.bind_eq_ok h
    cases h
    have hn' : ((hooked model.layers g).map (·.name)).Nodup := hn.sublist (List.filter_sublist.map _)
    obtain ⟨r, l, n⟩ := initBuffers_ok hb hn' (fun m hm => ⟨rfl, rfl⟩)
    have hg' : o.groups = g := r.groups
    exact ⟨by simpa using hw, hv, ⟨gs, ws', hg, by rw [hg']; exact hc, rfl⟩, by rw [hg']; exact hl, r.structs, by rw [hg']; exact r.layers,
      by rw [hg']; exact r.ptrGroup, r.steps, r.scales, r.HKs, r.HCs, r.mom, by rw [r.layers]; exact l, by rw [r.layers]; exact n⟩

/-- the scale book-keeping is in order after construction -/
theorem InitSpec.scaleInv {structs : String → Option Cls} {model : Model} {p : ParamArg α} {a : Args α} {o : Opt α} {ws : List Warn}
    (h : InitSpec structs model p a o ws) : ScaleInv o := by
  unfold ScaleInv
  rw [h.steps, h.scales]
  constructor
  · simp [Dict.set]
  · intro t ht
    rw [Dict.set, Function.update_apply] at ht
    split at ht
    · left; simpa using ‹_›
    · exact absurd rfl ht

end Construct

theorem hyperOf_ok {o : Opt α} {m : Layer} {h : Hyper α} (e : o.hyperOf m = .ok h) :
    ∃ i g, o.ptrGroup m.weight.ptr = some i ∧ o.groups[i]? = some g ∧ g.h = h := by
  unfold Opt.hyperOf at e
  split at e
  · obtain ⟨i, hi, e⟩ := Except.bind_eq_ok e
    rcases hg : o.groups[i]? with _ | g
    · rw [hg] at e; cases e
    · rw [hg] at e; cases e
      exact ⟨i, g, Construct.lookup_ok hi, hg, rfl⟩
  · cases e

/-- the hyper-parameters of a layer after an assignment to a group -/
theorem hyperOf_setHyper {o : Opt α} {m : Layer} {h h' : Hyper α} {i : ℕ} (e : o.hyperOf m = .ok h') :
    Opt.hyperOf { o with groups := o.groups.modify i fun g => { g with h := h } } m =
      .ok (if o.ptrGroup m.weight.ptr = some i then h else h') := by
  have hs : m.supported = true := by
    unfold Opt.hyperOf at e
    split at e
    · assumption
    · cases e
  obtain ⟨j, g, hj, hg, rfl⟩ := hyperOf_ok e
  unfold Opt.hyperOf
  rw [if_pos hs, lookup, hj, Except.bind_ok']
  simp only [List.getElem?_modify, hg, Option.map_some]
  by_cases hij : i = j
  · subst hij; simp
  · simp [hij, Ne.symm hij]

theorem Untied.name_inj {ms : List Layer} (h : Untied ms) {a b : Layer} (ha : a ∈ ms) (hb : b ∈ ms) (e : a.name = b.name) : a = b := by
  induction ms with
  | nil => cases ha
  | cons m ms ih =>
    have h' := List.pairwise_cons.1 h
    rcases List.mem_cons.1 ha with rfl | ha' <;> rcases List.mem_cons.1 hb with rfl | hb'
    · rfl
    · exact absurd e (h'.1 b hb').1
    · exact absurd e.symm (h'.1 a ha').1
    · exact ih h'.2 ha' hb'

theorem ptrGroup_mem {gs : List (PGroup α)} {p i : ℕ} (h : Construct.ptrGroup gs p = some i) : ∃ g, gs[i]? = some g ∧ p ∈ g.params := by
  have := List.mem_of_getLast? h
  simp only [List.mem_filter, List.mem_range] at this
  obtain ⟨h1, h2⟩ := this
  refine ⟨gs[i], List.getElem?_eq_getElem h1, ?_⟩
  rw [List.getD_eq_getElem?_getD, List.getElem?_map, List.getElem?_eq_getElem h1] at h2
  simpa using h2
