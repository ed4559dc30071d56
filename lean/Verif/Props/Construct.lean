import Verif.Props.LiveSample
import Verif.Props.History

/-! C25, C45, C46, C51, C54: construction, and training without misuse. -/

set_option linter.unusedSectionVars false
open Construct Matrix
variable {α : Type} [Field α] [LinearOrder α]

/-! ### C54 -/

/-- **C54.** Without an explicit selection there is exactly one group. Its parameters are, layer by layer in the order of the
model's modules, the gradient-requiring parameters of the leaf linear and convolution layers in the layer's own order; the
warnings are about exactly the unsupported leaf layers with gradient-requiring parameters, in order, iff warnings are enabled
(a warning about `alpha1` can follow, see C46). -/
theorem C54_default_selection {structs : String → Option Cls} {model : Model} {a : Args α} {o : Opt α} {ws : List Warn}
    (hn : (model.layers.map (·.name)).Nodup) (h : Construct.init structs model .default a = .ok (o, ws)) :
    ∃ (g : PGroup α) (sel : Layer → List Param) (wl : List Layer) (ws' : List Warn),
      o.groups = [g] ∧ g.params = (model.layers.map sel).flatten.map (·.ptr) ∧
      (∀ m, (sel m).Sublist m.parameters ∧ (∀ p, p ∈ sel m ↔ m.leaf = true ∧ m.kind ≠ .other ∧ p ∈ m.parameters ∧ p.requiresGrad = true) ∧
        ∀ p, p ∈ sel m → (sel m).count p = m.parameters.count p) ∧
      ws = wl.map (fun m => Warn.unsupported m.name) ++ ws' ∧ (∀ n, Warn.unsupported n ∉ ws') ∧
      wl.Sublist model.layers ∧ ∀ m, m ∈ wl ↔ a.warnUnsupported = true ∧ m ∈ model.layers ∧ m.leaf = true ∧ m.kind = .other ∧
        ∃ p ∈ m.parameters, p.requiresGrad = true := by
  have I := init_ok hn h
  obtain ⟨gs, ws', ht, hc, hws⟩ := I.groups
  have hg := I.groups_eq
  have hne := (torchInit_ok ht).1
  have hsup : ∀ m : Layer, m.supported = true ↔ m.kind ≠ .other := by
    intro m; unfold Layer.supported; cases m.kind <;> simp
  have hsup' : ∀ m : Layer, m.supported = false ↔ m.kind = .other := by
    intro m; unfold Layer.supported; cases m.kind <;> simp
  let sel : Layer → List Param := fun m => if m.leaf = true ∧ m.supported = true then m.parameters.filter (·.requiresGrad) else []
  have hsel : (trainable model.layers a.warnUnsupported).1 = (model.layers.map sel).flatten := by
    unfold trainable
    dsimp only
    rw [← List.flatMap_def]
    induction model.layers with
    | nil => rfl
    | cons m ms ih =>
      rw [List.filter_cons, List.flatMap_cons]
      by_cases hl : m.leaf = true
      · rw [if_pos hl, List.flatMap_cons, ih]
        simp [sel, hl]
      · rw [if_neg hl, ih]
        simp [sel, hl]
  rw [groupArgs] at hg hne
  dsimp only at hg hne
  split at hne
  · exact absurd rfl hne
  · rename_i hne'
    rw [if_neg hne', hsel] at hg
    refine ⟨_, sel, (model.layers.filter (·.leaf)).filter fun m => !m.supported && (m.parameters.filter (·.requiresGrad)) ≠ [] &&
      a.warnUnsupported, ws', hg, rfl, ?_, by rw [hws]; rfl, ?_, (List.filter_sublist).trans List.filter_sublist, ?_⟩
    · intro m
      refine ⟨?_, ?_, ?_⟩
      · dsimp only [sel]; split
        · exact List.filter_sublist
        · exact List.nil_sublist _
      · intro p
        dsimp only [sel]; split
        · rename_i hm; rw [List.mem_filter, ← hsup]; tauto
        · rename_i hm; rw [← hsup]; simp; tauto
      · intro p
        dsimp only [sel]; split
        · intro hp
          rw [List.count_filter (List.mem_filter.1 hp).2]
        · simp
    · intro n hn'
      rw [(checkGroups_ok hc).2.2] at hn'
      revert hn'
      generalize 0 = i
      induction gs generalizing i with
      | nil => simp [groupWarns]
      | cons g gs ih =>
        have : ∀ i (gs : List (PGroup α)), Warn.unsupported n ∉ groupWarns i gs := by
          intro i gs
          induction gs generalizing i with
          | nil => simp [groupWarns]
          | cons g gs ih' =>
            simp only [groupWarns, List.mem_append, not_or]
            exact ⟨by split <;> simp, ih' _⟩
        exact this _ _
    · intro m
      simp only [List.mem_filter, Bool.and_eq_true, Bool.not_eq_true', hsup', decide_eq_true_eq, ne_eq,
        List.filter_eq_nil_iff, not_forall, not_not]
      constructor
      · rintro ⟨⟨h1, h2⟩, ⟨h3, p, h4, h5⟩, h6⟩; exact ⟨h6, h1, h2, h3, p, h4, h5⟩
      · rintro ⟨h6, h1, h2, h3, p, h4, h5⟩; exact ⟨⟨h1, h2⟩, ⟨h3, p, h4, h5⟩, h6⟩

/-- **C54, nothing to train.** If no leaf linear or convolution layer has a gradient-requiring parameter, construction without a
selection raises `ValueError` (torch rejects an empty parameter list). -/
theorem C54_nothing_to_train {structs : String → Option Cls} {model : Model} {a : Args α} (hw : model.wrapped = false)
    (h : ∀ m ∈ model.layers, m.leaf = true → m.kind ≠ .other → ∀ p ∈ m.parameters, p.requiresGrad = false) :
    Construct.init structs model .default a = .error .valueError := by
  have he : (trainable model.layers a.warnUnsupported).1 = [] := by
    unfold trainable
    dsimp only
    rw [List.flatMap_eq_nil_iff]
    intro m hm
    split
    · rename_i hs
      rw [List.filter_eq_nil_iff]
      intro p hp
      rw [List.mem_filter] at hm
      have hk : m.kind ≠ .other := by intro e; simp [Layer.supported, e] at hs
      simp [h m hm.1 hm.2 hk p hp]
    · rfl
  rw [Construct.init, if_neg (by simp [hw])]
  unfold validate
  split
  · rfl
  · rw [Except.bind_ok', groupArgs]
    dsimp only
    rw [if_pos he, torchInit, if_pos rfl]
    rfl

/-- a frozen bias and an unsupported layer are left out; the latter with a warning -/
def Sample.mixed : Model := ⟨false, [⟨"a", true, .linear, ⟨0, true⟩, some ⟨1, false⟩, 1, 1, []⟩,
  ⟨"n", true, .other, ⟨9, true⟩, none, 0, 0, [⟨3, true⟩]⟩, Sample.lb]⟩
example : Sample.isOk (Construct.init supportedStructures Sample.mixed .default Sample.args) = true ∧
    (Sample.opt Sample.mixed .default Sample.args).groups.map (·.params) = [[0, 2]] ∧
    (match Construct.init supportedStructures Sample.mixed .default Sample.args with | .ok r => r.2 | .error _ => []) = [.unsupported "n"] := by
  decide +kernel

/-! ### C45 -/

/-- **C45 (wrapped models).** Construction over a wrapped model raises `TypeError`, whatever the other arguments. -/
theorem C45_wrapped {structs : String → Option Cls} {model : Model} {p : ParamArg α} {a : Args α} (h : model.wrapped = true) :
    Construct.init structs model p a = .error .typeError := by
  rw [Construct.init, if_pos h]

/-- a Python float with a negative value -/
def NegFloat (x : PyNum α) : Prop := ∃ y, x = .float y ∧ y < 0

theorem rejected_iff {x : PyNum α} : x.rejected = true ↔ NegFloat x := by
  cases x <;> simp [PyNum.rejected, NegFloat]

/-- **C45 (values), what the code does.** Construction raises `ValueError` if one of `lr`, `lr_cov`, `alpha1`, `momentum`,
`weight_decay` is a negative float. The documented claim is stronger (non-positive values of any type, and group entries);
`C45_false` refutes it. -/
theorem C45_negative_float_partial {structs : String → Option Cls} {model : Model} {p : ParamArg α} {a : Args α} (hw : model.wrapped = false)
    (h : NegFloat a.lr ∨ (∃ x, a.lrCov = .num x ∧ NegFloat x) ∨ NegFloat a.alpha1 ∨ NegFloat a.momentum ∨ NegFloat a.weightDecay) :
    Construct.init structs model p a = .error .valueError := by
  have : validate a = .error .valueError := by
    unfold validate
    rw [if_pos]
    simp only [Bool.or_eq_true, rejected_iff]
    rcases h with h | ⟨x, h1, h2⟩ | h | h | h
    · tauto
    · rw [h1]; simp only [PyRate.rejected, rejected_iff]; tauto
    · tauto
    · tauto
    · tauto
  rw [Construct.init, if_neg (by simp [hw]), this]
  rfl

/-- **C45, exactly.** The validation of the five numbers rejects nothing but negative floats. -/
theorem C45_validation_exact (a : Args α) : validate a = .ok () ↔
    ¬ (NegFloat a.lr ∨ (∃ x, a.lrCov = .num x ∧ NegFloat x) ∨ NegFloat a.alpha1 ∨ NegFloat a.momentum ∨ NegFloat a.weightDecay) := by
  have hr : a.lrCov.rejected = true ↔ ∃ x, a.lrCov = .num x ∧ NegFloat x := by
    cases a.lrCov <;> simp [PyRate.rejected, rejected_iff]
  unfold validate
  split
  · rename_i h
    simp only [Bool.or_eq_true, rejected_iff, hr] at h
    simp only [reduceCtorEq, false_iff, not_not]
    simpa only [or_assoc] using h
  · rename_i h
    simp only [Bool.or_eq_true, rejected_iff, hr] at h
    simp only [true_iff]
    simpa only [or_assoc] using h

/-- **C45 is false**: zero values, negative integers, and negative values in groups are accepted. -/
theorem C45_false : ∃ a1 a2 a3 : Args ℚ, ∃ gs : List (GroupArg ℚ),
    a1.lr.val = 0 ∧ Sample.isOk (Construct.init supportedStructures Sample.model .default a1) = true ∧
    a2.lr.val < 0 ∧ a2.momentum.val < 0 ∧ a2.weightDecay.val < 0 ∧
    Sample.isOk (Construct.init supportedStructures Sample.model .default a2) = true ∧
    (∃ g ∈ gs, (g.entries (defaults a3)).lr < 0) ∧ Sample.isOk (Construct.init supportedStructures Sample.model (.groups gs) a3) = true := by
  refine ⟨{ Sample.args with lr := .float 0 }, { Sample.args with lr := .int (-1), momentum := .int (-2), weightDecay := .int (-1) },
    Sample.args, [⟨[⟨0, true⟩, ⟨1, true⟩], fun h => { h with lr := -1 }⟩], rfl, by decide +kernel, ?_, ?_, ?_, by decide +kernel,
    ⟨_, List.mem_singleton.2 rfl, ?_⟩, by decide +kernel⟩ <;> simp [PyNum.val]

example : NegFloat ({ Sample.args with momentum := .float (-1) } : Args ℚ).momentum := ⟨-1, rfl, by norm_num⟩

/-! ### C46 -/

/-- **C46 (rejection).** If torch accepts the groups, construction raises `ValueError` when some group has an unsupported
`kfac_approx` or `loss_average`, or when the trained parameters of a leaf linear/convolution layer lie in different groups. -/
theorem C46_rejects {structs : String → Option Cls} {model : Model} {p : ParamArg α} {a : Args α} (hw : model.wrapped = false)
    (hv : validate a = .ok ()) {gs : List (PGroup α)}
    (ht : torchInit (defaults a) (groupArgs model.layers a.warnUnsupported p).1 = .ok gs)
    (h : (∃ g ∈ gs, ¬ (g.h.kfacApprox = "expand" ∨ g.h.kfacApprox = "reduce") ∨
        ¬ (g.h.lossAverage = none ∨ g.h.lossAverage = some "batch" ∨ g.h.lossAverage = some "batch+sequence")) ∨
      ∃ m ∈ model.layers, m.leaf = true ∧ m.kind ≠ .other ∧ ∃ q ∈ m.parameters, ∃ q' ∈ m.parameters, ∃ (i j : ℕ) (g g' : PGroup α),
        gs[i]? = some g ∧ gs[j]? = some g' ∧ q.ptr ∈ g.params ∧ q'.ptr ∈ g'.params ∧ i ≠ j) :
    Construct.init structs model p a = .error .valueError := by
  classical
  rw [Construct.init, if_neg (by simp [hw]), hv, Except.bind_ok']
  dsimp only
  rw [ht, Except.bind_ok', checkGroups_eq]
  by_cases hA : ∀ g ∈ gs, Accepted g.h
  · rw [if_pos hA, Except.bind_ok']
    dsimp only
    rcases h with ⟨g, hg, h⟩ | ⟨m, hm, hl, hk, q, hq, q', hq', i, j, g, g', hi, hj, qi, qj, hij⟩
    · have := hA g hg; unfold Accepted at this; tauto
    · -- both parameters have the group they are in, uniquely
      obtain ⟨_, hd, hgs⟩ := torchInit_ok ht
      set gs' : List (PGroup α) := gs.map fun g => { g with h := checked g.h } with hgs'
      have uniq : ∀ (x i j : ℕ) (g g' : PGroup α), gs[i]? = some g → gs[j]? = some g' → x ∈ g.params → x ∈ g'.params → i = j := by
        intro x i j g g' hi hj hx hx'
        rw [hgs, List.getElem?_map] at hi hj
        obtain ⟨a1, e1, rfl⟩ := Option.map_eq_some_iff.1 hi
        obtain ⟨a2, e2, rfl⟩ := Option.map_eq_some_iff.1 hj
        obtain ⟨p1, m1, x1⟩ := List.mem_map.1 hx
        obtain ⟨p2, m2, x2⟩ := List.mem_map.1 hx'
        unfold GroupsDisjoint at hd
        rw [List.pairwise_iff_getElem] at hd
        obtain ⟨l1, y1⟩ := List.getElem?_eq_some_iff.1 e1
        obtain ⟨l2, y2⟩ := List.getElem?_eq_some_iff.1 e2
        rcases lt_trichotomy i j with hlt | heq | hlt
        · exact absurd (x1.trans x2.symm) (hd i j l1 l2 hlt p1 (by rw [y1]; exact m1) p2 (by rw [y2]; exact m2))
        · exact heq
        · exact absurd (x2.trans x1.symm) (hd j i l2 l1 hlt p2 (by rw [y2]; exact m2) p1 (by rw [y1]; exact m1))
      have pg : ∀ (x i : ℕ) (g : PGroup α), gs[i]? = some g → x ∈ g.params → ptrGroup gs' x = some i ∧ x ∈ paramIds gs' := by
        intro x i g hi hx
        have hi' : gs'[i]? = some { g with h := checked g.h } := by rw [hgs', List.getElem?_map, hi]; rfl
        refine ⟨ptrGroup_eq_some hi' hx fun k g2 hk2 hx2 => ?_, ?_⟩
        · rw [hgs', List.getElem?_map] at hk2
          obtain ⟨g3, e3, rfl⟩ := Option.map_eq_some_iff.1 hk2
          exact uniq x k i g3 g e3 hi hx2 hx
        · exact List.mem_flatMap.2 ⟨_, List.mem_of_getElem? hi', hx⟩
      have : checkLayers model.layers gs' = .error .valueError := by
        rw [checkLayers, if_neg]
        rw [List.all_eq_true]
        intro hall
        have := hall m hm
        simp only [Bool.or_eq_true, Bool.not_eq_true', Bool.and_eq_false_iff, decide_eq_true_eq] at this
        have hsup : m.supported = true := by unfold Layer.supported; cases hk' : m.kind <;> simp_all
        rcases this with (h1 | h1) | h1
        · simp [hl] at h1
        · simp [hsup] at h1
        · have := h1 q hq q' hq' (pg _ i g hi qi).2 (pg _ j g' hj qj).2
          rw [(pg _ i g hi qi).1, (pg _ j g' hj qj).1] at this
          exact hij (Option.some_injective _ this)
      rw [this]; rfl
  · rw [if_neg hA]; rfl

/-- **C46 (acceptance).** After a successful construction the weight of every trained layer lies in exactly one group, and it is
this group's hyper-parameters the layer is trained with; all trained parameters of a leaf layer lie in that group; groups have
supported options; `kfac_like` groups have `alpha1 = 0`. -/
theorem C46_accepted {structs : String → Option Cls} {model : Model} {p : ParamArg α} {a : Args α} {o : Opt α} {ws : List Warn}
    (hn : (model.layers.map (·.name)).Nodup) (h : Construct.init structs model p a = .ok (o, ws)) :
    (∀ m ∈ o.layers, ∃ (i : ℕ) (g : PGroup α), o.groups[i]? = some g ∧ m.weight.ptr ∈ g.params ∧ o.hyperOf m = .ok g.h ∧
      (∀ (j : ℕ) (g' : PGroup α), o.groups[j]? = some g' → m.weight.ptr ∈ g'.params → j = i) ∧
      (m.leaf = true → ∀ q ∈ m.parameters, ∀ (j : ℕ) (g' : PGroup α), o.groups[j]? = some g' → q.ptr ∈ g'.params → j = i)) ∧
    ∀ g ∈ o.groups, (g.h.kfacApprox = "expand" ∨ g.h.kfacApprox = "reduce") ∧
      (g.h.lossAverage = none ∨ g.h.lossAverage = some "batch" ∨ g.h.lossAverage = some "batch+sequence") ∧
      (g.h.kfacLike = true → g.h.alpha1 = 0) := by
  have I := init_ok hn h
  constructor
  · intro m hm
    obtain ⟨sup, hy, cK, cC, K, C, hh, _⟩ := I.lay m hm
    obtain ⟨i, g, h1, h2, rfl⟩ := hyperOf_ok hh
    rw [I.ptrGroup] at h1
    obtain ⟨g', h3, h4⟩ := ptrGroup_mem h1
    rw [h2] at h3; cases h3
    have uw := fun (j : ℕ) (g' : PGroup α) hj hp => I.unique (q := m.weight.ptr) (i := j) (g := g') hj h2 hp h4
    refine ⟨i, g, h2, h4, hh, uw, ?_⟩
    intro hl q hq j g' hj hp
    have hc := I.check
    unfold checkLayers at hc
    split at hc
    · rename_i hall
      rw [List.all_eq_true] at hall
      have hmem : m ∈ model.layers := by
        rw [I.layers] at hm; exact (List.mem_filter.1 hm).1
      have := hall m hmem
      simp only [hl, sup, Bool.and_self, Bool.not_true, Bool.false_or, decide_eq_true_eq] at this
      have wp : m.weight ∈ m.parameters := by simp [Layer.parameters, sup]
      have w1 : m.weight.ptr ∈ paramIds o.groups := List.mem_flatMap.2 ⟨g, List.mem_of_getElem? h2, h4⟩
      have q1 : q.ptr ∈ paramIds o.groups := List.mem_flatMap.2 ⟨g', List.mem_of_getElem? hj, hp⟩
      have e := this q hq m.weight wp q1 w1
      rw [h1, ptrGroup_eq_some hj hp fun k g2 hk hk2 => I.unique hk hj hk2 hp] at e
      exact Option.some_injective _ e
    · cases hc
  · intro g hg
    have := I.accepted g hg
    exact ⟨this.1.1, this.1.2, this.2⟩

/-- conflicting groups for a layer -/
example : Sample.isOk (Construct.init supportedStructures Sample.model (.groups [⟨[⟨0, true⟩], id⟩, ⟨[⟨1, true⟩], id⟩]) Sample.args) = false := by
  decide +kernel
example : Sample.isOk (Construct.init supportedStructures Sample.model (.groups [⟨[⟨0, true⟩, ⟨1, true⟩], id⟩,
    ⟨[⟨2, true⟩], fun h => { h with kfacLike := true }⟩]) Sample.args) = true := by decide +kernel

/-- **C46 is false for non-leaf layers**: the trained parameters of a linear layer with a sub-module may lie in different groups
(`_check_param_groups` looks at leaf modules only); the layer is then trained with its weight's group. -/
theorem C46_nonleaf_false : ∃ (model : Model) (gs : List (GroupArg ℚ)) (a : Args ℚ) (o : Opt ℚ) (ws : List Warn) (m : Layer) (b : Param),
    (model.layers.map (·.name)).Nodup ∧ Construct.init supportedStructures model (.groups gs) a = .ok (o, ws) ∧ m ∈ o.layers ∧
    m.kind = .linear ∧ m.bias = some b ∧ ∃ g g' : PGroup ℚ, o.groups[0]? = some g ∧ o.groups[1]? = some g' ∧ m.weight.ptr ∈ g.params ∧ b.ptr ∈ g'.params := by
  let m : Layer := ⟨"a", false, .linear, ⟨0, true⟩, some ⟨1, true⟩, 1, 1, []⟩
  let model : Model := ⟨false, [m, ⟨"a.drop", true, .other, ⟨9, true⟩, none, 0, 0, []⟩]⟩
  let p : List (GroupArg ℚ) := [⟨[⟨0, true⟩], id⟩, ⟨[⟨1, true⟩], id⟩]
  have hok : Sample.isOk (Construct.init supportedStructures model (.groups p) Sample.args) = true := by decide +kernel
  obtain ⟨ws, h⟩ := Sample.init_eq hok
  have I := init_ok (by decide) h
  have hg := I.groups_eq
  have hl : (Sample.opt model (.groups p) Sample.args).layers = [m] := by rw [I.layers, hg]; rfl
  exact ⟨model, p, Sample.args, _, ws, m, ⟨1, true⟩, by decide, h, by rw [hl]; simp, rfl, rfl, ⟨[0], _⟩, ⟨[1], _⟩, by rw [hg]; rfl, by rw [hg]; rfl,
    by simp [m], by simp⟩

/-! ### C25 -/

variable [IsStrictOrderedRing α]

/-- **C25 (construction).** After construction every trained layer has identity factors of the classes its group asks for, zero
factor momenta of the same classes if `alpha1 ≠ 0` and none otherwise, no statistics, no momentum buffers, and the step counter is 0. -/
theorem C25_initial_state {structs : String → Option Cls} {model : Model} {p : ParamArg α} {a : Args α} {o : Opt α} {ws : List Warn}
    (hn : (model.layers.map (·.name)).Nodup) (hi : Construct.init structs model p a = .ok (o, ws)) {m : Layer} (hm : m ∈ o.layers)
    (hs : ∀ s c, structs s = some c → c.Supports m.nK ∧ c.Supports m.nC) :
    ∃ h cK cC K C, o.hyperOf m = .ok h ∧ structs h.structures.1 = some cK ∧ structs h.structures.2 = some cC ∧
      o.Ks m.name = some K ∧ WF cK m.nK K ∧ K.den m.nK = 1 ∧ o.Cs m.name = some C ∧ WF cC m.nC C ∧ C.den m.nC = 1 ∧
      (h.alpha1 = 0 → o.mKs m.name = none ∧ o.mCs m.name = none) ∧
      (h.alpha1 ≠ 0 → ∃ mK mC, o.mKs m.name = some mK ∧ WF cK m.nK mK ∧ mK.den m.nK = 0 ∧
        o.mCs m.name = some mC ∧ WF cC m.nC mC ∧ mC.den m.nC = 0) ∧
      o.HKs m.name = none ∧ o.HCs m.name = none ∧ o.steps = 0 ∧ ∀ q, o.mom q = none := by
  have I := init_ok hn hi
  obtain ⟨h, cK, cC, K, C, e1, e2, e3, eK, eC, sK, sC, m0, m1⟩ := (I.lay m hm).ex
  rw [I.structs] at e2 e3
  obtain ⟨⟨K', eK', wK, dK⟩, ⟨ZK, eZK, wZK, dZK⟩⟩ := C12_eye_zeros (α := α) (hs _ _ e2).1
  obtain ⟨⟨C', eC', wC, dC⟩, ⟨ZC, eZC, wZC, dZC⟩⟩ := C12_eye_zeros (α := α) (hs _ _ e3).2
  rw [eK] at eK'; cases eK'
  rw [eC] at eC'; cases eC'
  refine ⟨h, cK, cC, K, C, e1, e2, e3, sK, wK, dK, sC, wC, dC, m0, ?_, by rw [I.HKs], by rw [I.HCs], I.steps, by simp [I.mom]⟩
  intro h0
  obtain ⟨mK, mC, z1, z2, z3, z4⟩ := m1 h0
  rw [eZK] at z1; cases z1
  rw [eZC] at z2; cases z2
  exact ⟨ZK, ZC, z3, wZK, dZK, z4, wZC, dZC⟩

/-- the default structures satisfy the hypothesis of `C25_initial_state` for every non-empty layer -/
example (m : Layer) (hK : 0 < m.nK) (hC : 0 < m.nC) : ∀ s c, supportedStructures s = some c → c.Supports m.nK ∧ c.Supports m.nC :=
  fun _ _ h => ⟨(supportedStructures_good h hK).1, (supportedStructures_good h hC).1⟩

variable [LawfulSqrt α]

/-- operations other than `step` change neither factors, factor momenta, momentum buffers nor the counter -/
theorem exec_nonstep {op : Op α} (h : ∀ c a f, op ≠ .step c a f) (w : World α) :
    (exec op w).2.opt.Ks = w.opt.Ks ∧ (exec op w).2.opt.Cs = w.opt.Cs ∧ (exec op w).2.opt.mom = w.opt.mom ∧
    (exec op w).2.opt.steps = w.opt.steps ∧ (exec op w).2.opt.layers = w.opt.layers := by
  cases op with
  | forward i x ge => rcases exec_forward i x ge w with e | ⟨_, m, _, _, e⟩ <;> simp [e]
  | backward k g =>
    have f := exec_backward k g w
    exact ⟨funext fun n => f.Ks n id, funext fun n => f.Cs n id, funext fun n => f.mom n id, f.steps, f.layers⟩
  | setGrad p G => simp [exec, Py.modify]
  | setParam p M => simp [exec, Py.modify]
  | setHyper i h' => simp [exec, World.setOpt, Py.modify]
  | setScale s => simp [exec, World.setScale_state]
  | step c a f => exact absurd rfl (h c a f)

theorem run_nonstep : ∀ {ops : List (Op α)} (_ : ∀ op ∈ ops, ∀ c a f, op ≠ .step c a f) (w : World α),
    (run ops w).opt.Ks = w.opt.Ks ∧ (run ops w).opt.Cs = w.opt.Cs ∧ (run ops w).opt.mom = w.opt.mom ∧
    (run ops w).opt.steps = w.opt.steps ∧ (run ops w).opt.layers = w.opt.layers
  | [], _, w => ⟨rfl, rfl, rfl, rfl, rfl⟩
  | op :: ops, h, w => by
    obtain ⟨a1, a2, a3, a4, a5⟩ := run_nonstep (ops := ops) (fun o ho => h o (by simp [ho])) (exec op w).2
    obtain ⟨b1, b2, b3, b4, b5⟩ := exec_nonstep (h op (by simp)) w
    exact ⟨a1.trans b1, a2.trans b2, a3.trans b3, a4.trans b4, a5.trans b5⟩

theorem gram_one (c : Cls) (n : ℕ) : c.gram (1 : Matrix (Fin n) (Fin n) α) = 1 := by
  unfold Cls.gram; split <;> simp

theorem weightPart_gradM {w : World α} {m : Layer} {G : Mat α} (h : w.grad m.weight.ptr = some G) :
    weightPart (gradM w m) = G.M m.dout m.din := by
  funext i j
  simp [weightPart, gradM, h, Mat.M]

theorem biasPart_gradM {w : World α} {m : Layer} {b : Param} {G : Mat α} (hb : m.bias = some b) (hs : m.bias.isSome) (h : w.grad b.ptr = some G) :
    biasPart hs (gradM w m) = G.M m.dout 1 := by
  funext i j
  have : j = 0 := Subsingleton.elim _ _
  subst this
  simp [biasPart, gradM, hb, h, Mat.M]

theorem weightPart_smul {m : Layer} (c : α) (N : Matrix (Fin m.nC) (Fin m.nK) α) : weightPart (c • N) = c • weightPart N := rfl
theorem biasPart_smul {m : Layer} (hs : m.bias.isSome) (c : α) (N : Matrix (Fin m.nC) (Fin m.nK) α) :
    biasPart hs (c • N) = c • biasPart hs N := rfl

/-- a rate is 0 if `lr_cov` is -/
theorem IsRate.zero {h : Hyper α} {t n : ℕ} {M : Matrix (Fin n) (Fin n) α} {b : α} (hr : IsRate h t M b) (h0 : h.lrCov.at t = 0) : b = 0 := by
  unfold IsRate at hr
  split at hr
  · obtain ⟨v, _, hb⟩ := hr; rw [hb, h0, zero_div]
  · rw [hr, h0]

/-- **C25 (first step).** From a constructed optimizer over a trainable model, after any fitting operations other than `step`,
the first step (every layer ready) succeeds, and for every layer whose pre-conditioner update is off (`lr_cov` is 0 at step 0 -
the period cannot switch it off, since every `T` divides 0) it keeps identity factors and does plain gradient descent with weight
decay on weight and bias, with the gradient divided by the scale `s`. -/
theorem C25_gradient_descent {structs : String → Option Cls} {model : Model} {p : ParamArg α} {a : Args α} {o : Opt α} {ws : List Warn}
    (hn : (model.layers.map (·.name)).Nodup) (hi : Construct.init structs model p a = .ok (o, ws)) {data : ℕ → Mat α}
    {grad : ℕ → Option (Mat α)} (ht : Trainable o data) (hs : 0 < a.initGradScale) {ops : List (Op α)}
    (hno : ∀ op ∈ ops, ∀ c a f, op ≠ .step c a f) (hf : FitsRun ⟨o, data, grad, []⟩ ops) {w : World α}
    (hw : w = run ops ⟨o, data, grad, []⟩) {attr : Option α} (hfs : FitsOp w (.step false attr false)) {s : α}
    (hsc : s = (w.opt.scales 0).getD (attr.getD 1)) :
    ∃ w', exec (.step false attr false) w = (.ok (), w') ∧ ∀ m ∈ o.layers, ∀ h, w.opt.hyperOf m = .ok h → h.lrCov.at 0 = 0 →
      denO (w'.opt.Ks m.name) m.nK = 1 ∧ denO (w'.opt.Cs m.name) m.nC = 1 ∧
      (∃ G, w.grad m.weight.ptr = some G ∧ (w'.data m.weight.ptr).M m.dout m.din = (w.data m.weight.ptr).M m.dout m.din -
        h.lr • ((1 / s) • G.M m.dout m.din + h.weightDecay • (w.data m.weight.ptr).M m.dout m.din)) ∧
      ∀ b, m.bias = some b → ∃ G, w.grad b.ptr = some G ∧ (w'.data b.ptr).M m.dout 1 = (w.data b.ptr).M m.dout 1 -
        h.lr • ((1 / s) • G.M m.dout 1 + h.weightDecay • (w.data b.ptr).M m.dout 1) := by
  have I := init_ok hn hi
  obtain ⟨cl, hcl, hlive⟩ := I.live (grad := grad) ht hs
  have hw1 := (hlive.run hf).2
  rw [← hw] at hw1
  obtain ⟨n1, n2, n3, n4, n5⟩ := run_nonstep hno ⟨o, data, grad, []⟩
  rw [← hw] at n1 n2 n3 n4 n5
  have st : w.opt.steps = 0 := by rw [n4]; exact I.steps
  obtain ⟨pv, hp⟩ := hw1.prev
  have hs0 : 0 < s := by
    rw [hsc]
    rcases hc : w.opt.scales 0 with _ | s'
    · rcases attr with _ | x
      · exact one_pos
      · exact hfs.2.1 x rfl
    · exact hw1.pos _ _ hc
  obtain ⟨w', e, sp⟩ := World.step_spec hw1.sound (hfs.2.2 rfl) hp (attr := attr) (s := s) (by rw [hsc, st]; rfl) hs0.ne'
  refine ⟨w', e, ?_⟩
  intro m hm h hh h0
  have hm' : m ∈ w.opt.layers := by rw [n5]; exact hm
  have L := sp.layer m hm' h hh
  have g := ht.cls m hm
  obtain ⟨hy, cK, cC, K, C, e1, e2, e3, eK, eC, sK, sC, m0, m1⟩ := (I.lay m hm).ex
  obtain ⟨g1, g2, g3, g4⟩ := g hy cK cC e1 e2 e3
  obtain ⟨K', eK', _, dK⟩ := (C12_eye_zeros (α := α) g1).1
  obtain ⟨C', eC', _, dC⟩ := (C12_eye_zeros (α := α) g3).1
  rw [eK] at eK'; cases eK'
  rw [eC] at eC'; cases eC'
  obtain ⟨mK, mC, bK, bC, _, _, _, rK, rC, fK, fC⟩ := (L.upd (by rw [st]; exact Nat.zero_mod _)).eqs
  rw [st] at rK rC
  have dK0 : denO (w.opt.Ks m.name) m.nK = 1 := by rw [n1, show (World.mk o data grad []).opt.Ks m.name = some K from sK, denO_some, dK]
  have dC0 : denO (w.opt.Cs m.name) m.nC = 1 := by rw [n2, show (World.mk o data grad []).opt.Cs m.name = some C from sC, denO_some, dC]
  have dK1 : denO (w'.opt.Ks m.name) m.nK = 1 := by rw [fK, rK.zero h0, dK0]; simp
  have dC1 : denO (w'.opt.Cs m.name) m.nC = 1 := by rw [fC, rC.zero h0, dC0]; simp
  have hdir : natDir (cl m.name) s (gradM w m) (denO (w'.opt.Ks m.name) m.nK) (denO (w'.opt.Cs m.name) m.nC) = (1 / s) • gradM w m := by
    rw [dK1, dC1, natDir, gram_one, gram_one]; simp
  have mom0 : ∀ q, w.opt.mom q = none := by rw [n3]; intro q; exact congrFun I.mom q
  obtain ⟨aw, ab⟩ := L.apply
  rw [hdir] at aw
  refine ⟨dK1, dC1, ?_, ?_⟩
  · obtain ⟨G, hG, _⟩ := (hfs.2.2 rfl m hm').grads.weight
    refine ⟨G, hG, ?_⟩
    rw [aw.data, mom0, weightPart_smul, weightPart_gradM hG]
    simp [momO]
  · intro b hb
    obtain ⟨G, hG, _⟩ := (hfs.2.2 rfl m hm').grads.bias b hb
    refine ⟨G, hG, ?_⟩
    have := (ab b hb).data
    rw [hdir] at this
    rw [this, mom0, biasPart_smul, biasPart_gradM hb _ hG]
    simp [momO]

/-- a state that satisfies the hypotheses (over `ℝ`, for instance); with `lr_cov` switched off before the step -/
example : ∃ (o : Opt α) (ws : List Warn), Construct.init supportedStructures Sample.model .default Sample.gargs = .ok (o, ws) ∧
    Trainable o Sample.gdata ∧ FitsRun ⟨o, Sample.gdata, Sample.ggrad, []⟩ Sample.gpass ∧
    FitsOp (run Sample.gpass ⟨o, Sample.gdata, Sample.ggrad, []⟩) (.step false none false) := by
  obtain ⟨o, ws, cl, h, _, ht, _, _, hf, _, hs⟩ := Sample.glive (α := α)
  exact ⟨o, ws, h, ht, hf, hs⟩

/-! ### C51 -/

/-- **C51 (dimensions).** For every supported layer, fitting input and output gradient, and valid hyper-parameters: processing
succeeds, the processed input has as many columns as `preconditioner_dims` gives `K`, the processed gradient as many as `C`, and
the bias-extended gradient matrix is `dim_C × dim_K`. -/
theorem C51_dimensions {m : Layer} {h : Hyper α} {x g : ND α} (hv : h.Valid) (hx : InputFits m h.kfacApprox x) (hg : GradFits m g) :
    ∃ dK dC X Y, m.dims = .ok (dK, dC) ∧ PIO.processInput x m.kind m.bias.isSome h.kfacApprox = .ok X ∧ X.cols = dK ∧
      PIO.processGradOutput g m.kind h.lossAverage h.kfacApprox = .ok Y ∧ Y.cols = dC ∧
      ∀ w : World α, LayerGrads w m → ∃ G, w.gradMat m = .ok G ∧ G.rows = dC ∧ G.cols = dK := by
  have sup : m.supported = true := by
    unfold InputFits at hx
    unfold Layer.supported
    cases hk : m.kind <;> simp_all
  obtain ⟨X, eX, cX, _⟩ := processInput_fits hv.approx hx
  obtain ⟨Y, eY, cY, _⟩ := processGrad_fits hv.approx hv.avg hg
  refine ⟨m.nK, m.nC, X, Y, Layer.dims_eq sup, eX, cX, eY, cY, fun w hw => ?_⟩
  obtain ⟨G, e, h1, _⟩ := World.gradMat_spec sup hw
  exact ⟨G, e, h1.1, h1.2⟩

/-- **C51 (training).** From a constructed optimizer over a trainable model, no history of fitting operations ever raises, and
afterwards every trained layer still has factors (and momenta, statistics) of its classes and dimensions, and weights, biases and
momentum buffers of the layer's shapes. -/
theorem C51_training_never_fails {structs : String → Option Cls} {model : Model} {p : ParamArg α} {a : Args α} {o : Opt α} {ws : List Warn}
    (hn : (model.layers.map (·.name)).Nodup) (hi : Construct.init structs model p a = .ok (o, ws)) {data : ℕ → Mat α}
    {grad : ℕ → Option (Mat α)} (ht : Trainable o data) (hs : 0 < a.initGradScale) {ops : List (Op α)}
    (hf : FitsRun ⟨o, data, grad, []⟩ ops) :
    ∃ w, runOk ops ⟨o, data, grad, []⟩ = some w ∧ w.opt.layers = o.layers ∧ ∀ m ∈ o.layers, ∃ h cK cC K C,
      o.hyperOf m = .ok h ∧ structs h.structures.1 = some cK ∧ structs h.structures.2 = some cC ∧
      w.opt.Ks m.name = some K ∧ WF cK m.nK K ∧ w.opt.Cs m.name = some C ∧ WF cC m.nC C ∧
      (∀ X, w.opt.mKs m.name = some X ∨ w.opt.HKs m.name = some X → WF cK m.nK X) ∧
      (∀ X, w.opt.mCs m.name = some X ∨ w.opt.HCs m.name = some X → WF cC m.nC X) ∧
      (w.data m.weight.ptr).OfShape m.dout m.din ∧ (∀ B, w.opt.mom m.weight.ptr = some B → B.OfShape m.dout m.din) ∧
      ∀ b, m.bias = some b → (w.data b.ptr).OfShape m.dout 1 ∧ ∀ B, w.opt.mom b.ptr = some B → B.OfShape m.dout 1 := by
  have I := init_ok hn hi
  obtain ⟨cl, hcl, hlive⟩ := I.live (grad := grad) ht hs
  obtain ⟨e, l⟩ := hlive.run hf
  have hlay : (run ops ⟨o, data, grad, []⟩).opt.layers = o.layers :=
    run_inv (P := fun w => w.opt.layers = o.layers) (fun op w h => (exec_static op w).1.trans h) ops _ rfl
  refine ⟨_, e, hlay, ?_⟩
  intro m hm
  obtain ⟨hy, e1, e2, e3⟩ := hcl m hm
  have hm' : m ∈ (run ops ⟨o, data, grad, []⟩).opt.layers := by rw [hlay]; exact hm
  have lw := l.sound.lay m hm'
  have ls := l.sound.shape m hm'
  obtain ⟨K, eK, wK⟩ := lw.K
  obtain ⟨C, eC, wC⟩ := lw.C
  exact ⟨hy, _, _, K, C, e1, e2, e3, eK, wK, eC, wC, fun X hX => hX.elim (lw.mK X) (lw.HK X), fun X hX => hX.elim (lw.mC X) (lw.HC X),
    ls.weight.data, ls.weight.mom, fun b hb => ⟨(ls.bias b hb).1.data, (ls.bias b hb).1.mom⟩⟩

/-- the hypotheses hold for a model with two layers and a history with a pass and a step -/
example : ∃ (o : Opt α) (ws : List Warn), Construct.init supportedStructures Sample.model .default Sample.gargs = .ok (o, ws) ∧
    Trainable o Sample.gdata ∧ FitsRun ⟨o, Sample.gdata, Sample.ggrad, []⟩ (Sample.gpass ++ [.step false none false]) := by
  obtain ⟨o, ws, cl, h, _, ht, _, _, hf, _, hs⟩ := Sample.glive (α := α)
  refine ⟨o, ws, h, ht, ?_⟩
  obtain ⟨a1, a2, a3, a4, _⟩ := hf
  exact ⟨a1, a2, a3, a4, hs, trivial⟩
