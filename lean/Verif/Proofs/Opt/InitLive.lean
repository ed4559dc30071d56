import Verif.Proofs.Opt.Live

/-! Construction: group checks, and the well-formedness of the constructed optimizer. -/

set_option linter.unusedSectionVars false
open IOProof
variable {α : Type} [Field α] [LinearOrder α]

namespace Construct

/-- what the group check does to hyper-parameters: `alpha1` of `kfac_like` groups is set to 0 -/
def checked (h : Hyper α) : Hyper α := if h.kfacLike = true ∧ h.alpha1 ≠ 0 then { h with alpha1 := 0 } else h

/-- the values the group check accepts -/
def Accepted (h : Hyper α) : Prop := (h.kfacApprox = "expand" ∨ h.kfacApprox = "reduce") ∧
  (h.lossAverage = none ∨ h.lossAverage = some "batch" ∨ h.lossAverage = some "batch+sequence")

theorem accepted_checked {h : Hyper α} : Accepted (checked h) ↔ Accepted h := by
  unfold Accepted checked; split <;> rfl

theorem checked_alpha1 {h : Hyper α} (hk : (checked h).kfacLike = true) : (checked h).alpha1 = 0 := by
  unfold checked at *
  split at hk
  · rw [if_pos ‹_›]
  · rename_i hn
    rw [if_neg hn]
    by_contra h0
    exact hn ⟨hk, h0⟩

theorem checkGroup_eq (h : Hyper α) [Decidable (Accepted h)] : checkGroup h =
    if Accepted h then .ok (checked h, h.kfacLike && decide (h.alpha1 ≠ 0)) else .error .valueError := by
  have e : (if (h.kfacLike && decide (h.alpha1 ≠ 0)) = true then { h with alpha1 := 0 } else h) = checked h := by
    unfold checked; simp
  unfold checkGroup
  dsimp only
  rw [e]
  have ha : (checked h).kfacApprox = h.kfacApprox := by unfold checked; split <;> rfl
  have hl : (checked h).lossAverage = h.lossAverage := by unfold checked; split <;> rfl
  rw [ha, hl]
  by_cases h1 : h.kfacApprox = "expand" ∨ h.kfacApprox = "reduce"
  · rw [if_neg (not_not.2 h1)]
    by_cases h2 : h.lossAverage = none ∨ h.lossAverage = some "batch" ∨ h.lossAverage = some "batch+sequence"
    · rw [if_neg (not_not.2 h2), if_pos ⟨h1, h2⟩]
    · rw [if_pos h2, if_neg fun h => h2 h.2]
  · rw [if_pos h1, if_neg fun h => h1 h.1]

/-- warnings of the group check -/
def groupWarns : ℕ → List (PGroup α) → List Warn
  | _, [] => []
  | i, g :: gs => (if g.h.kfacLike = true ∧ g.h.alpha1 ≠ 0 then [Warn.kfacLikeMomentum i] else []) ++ groupWarns (i + 1) gs

open Classical in
/-- the group check accepts iff all groups are acceptable, and raises `ValueError` otherwise -/
theorem checkGroups_eq : ∀ (i : ℕ) (gs : List (PGroup α)), checkGroups i gs =
    if ∀ g ∈ gs, Accepted g.h then .ok (gs.map fun g => { g with h := checked g.h }, groupWarns i gs) else .error .valueError
  | i, [] => by simp [checkGroups, groupWarns]
  | i, g :: gs => by
    rw [checkGroups, checkGroup_eq]
    by_cases h1 : Accepted g.h
    · rw [if_pos h1, Except.bind_ok', checkGroups_eq (i + 1) gs]
      by_cases h2 : ∀ g ∈ gs, Accepted g.h
      · rw [if_pos h2, Except.bind_ok', Except.pure_ok, if_pos (show ∀ g' ∈ g :: gs, Accepted g'.h from List.forall_mem_cons.2 ⟨h1, h2⟩)]
        simp [groupWarns]
      · rw [if_neg h2, Except.bind_error', if_neg (fun h => h2 fun g' hg' => h g' (by simp [hg']))]
    · rw [if_neg h1, Except.bind_error', if_neg (fun h => h1 (h g (by simp)))]

theorem checkGroups_ok {i : ℕ} {gs gs' : List (PGroup α)} {ws : List Warn} (h : checkGroups i gs = .ok (gs', ws)) :
    (∀ g ∈ gs, Accepted g.h) ∧ gs' = (gs.map fun g => { g with h := checked g.h }) ∧ ws = groupWarns i gs := by
  classical
  rw [checkGroups_eq] at h
  split at h
  · simp only [Except.ok.injEq, Prod.mk.injEq] at h
    exact ⟨‹_›, h.1.symm, h.2.symm⟩
  · cases h

/-- groups of a constructed optimizer -/
theorem InitSpec.accepted {structs : String → Option Cls} {model : Model} {p : ParamArg α} {a : Args α} {o : Opt α} {ws : List Warn}
    (h : InitSpec structs model p a o ws) : ∀ g ∈ o.groups, Accepted g.h ∧ (g.h.kfacLike = true → g.h.alpha1 = 0) := by
  obtain ⟨gs, ws', _, hc, _⟩ := h.groups
  obtain ⟨h1, h2, _⟩ := checkGroups_ok hc
  rw [h2]
  intro g hg
  obtain ⟨g0, hg0, rfl⟩ := List.mem_map.1 hg
  exact ⟨accepted_checked.2 (h1 g0 hg0), checked_alpha1⟩

end Construct

/-- the default structures support every positive dimension -/
theorem supportedStructures_good {s : String} {c : Cls} (h : supportedStructures s = some c) {n : ℕ} (hn : 0 < n) :
    c.Supports n ∧ c.Regular := by
  unfold supportedStructures at h
  split_ifs at h <;> cases h <;> simp [Cls.Supports, Cls.Regular, Cls.NoHier, hn]

variable [IsStrictOrderedRing α] [LawfulSqrt α]

/-- the factors of a constructed optimizer are well-formed -/
theorem Construct.InitSpec.layerWF {structs : String → Option Cls} {model : Model} {p : ParamArg α} {a : Args α} {o : Opt α} {ws : List Warn}
    (h : InitSpec structs model p a o ws) {m : Layer} (hm : m ∈ o.layers) {hy : Hyper α} {c : Cls × Cls} (e1 : o.hyperOf m = .ok hy)
    (e2 : o.structs hy.structures.1 = some c.1) (e3 : o.structs hy.structures.2 = some c.2) (a1 : c.1.Supports m.nK)
    (a3 : c.2.Supports m.nC) : LayerWF c o m := by
  obtain ⟨hy', cK, cC, K, C, f1, f2, f3, eK, eC, sK, sC, m0, m1⟩ := (h.lay m hm).ex
  rw [e1] at f1; cases f1
  rw [e2] at f2; cases f2
  rw [e3] at f3; cases f3
  obtain ⟨K', eK', wK, _⟩ := smeye_spec (α := α) a1
  obtain ⟨C', eC', wC, _⟩ := smeye_spec (α := α) a3
  rw [eK] at eK'; cases eK'
  rw [eC] at eC'; cases eC'
  obtain ⟨ZK, eZK, wZK, _⟩ := smzeros_spec (α := α) a1
  obtain ⟨ZC, eZC, wZC, _⟩ := smzeros_spec (α := α) a3
  refine ⟨⟨K, sK, wK⟩, ⟨C, sC, wC⟩, ?_, ?_, ?_, ?_⟩
  · intro X hX
    by_cases h0 : hy.alpha1 = 0
    · rw [show _ = none from (m0 h0).1] at hX; cases hX
    · obtain ⟨mK, mC, z1, z2, z3, z4⟩ := m1 h0
      rw [eZK] at z1; cases z1
      rw [show _ = some ZK from z3] at hX; cases hX; exact wZK
  · intro X hX
    by_cases h0 : hy.alpha1 = 0
    · rw [show _ = none from (m0 h0).2] at hX; cases hX
    · obtain ⟨mK, mC, z1, z2, z3, z4⟩ := m1 h0
      rw [eZC] at z2; cases z2
      rw [show _ = some ZC from z4] at hX; cases hX; exact wZC
  · intro X hX
    simp [h.HKs] at hX
  · intro X hX
    simp [h.HCs] at hX

/-- a constructed optimizer over a trainable model is ready for training; `cl` are the classes its groups ask for -/
theorem Construct.InitSpec.live {structs : String → Option Cls} {model : Model} {p : ParamArg α} {a : Args α} {o : Opt α} {ws : List Warn}
    (h : InitSpec structs model p a o ws) {data : ℕ → Mat α} {grad : ℕ → Option (Mat α)} (ht : Trainable o data)
    (hs : 0 < a.initGradScale) : ∃ cl : String → Cls × Cls,
      (∀ m ∈ o.layers, ∃ hy, o.hyperOf m = .ok hy ∧ structs hy.structures.1 = some (cl m.name).1 ∧
        structs hy.structures.2 = some (cl m.name).2) ∧ World.Live cl ⟨o, data, grad, []⟩ := by
  classical
  have key : ∀ n : String, ∃ c : Cls × Cls, ∀ m ∈ o.layers, m.name = n → ∃ hy, o.hyperOf m = .ok hy ∧
      structs hy.structures.1 = some c.1 ∧ structs hy.structures.2 = some c.2 := by
    intro n
    by_cases hn : ∃ m ∈ o.layers, m.name = n
    · obtain ⟨m, hm, rfl⟩ := hn
      obtain ⟨hy, cK, cC, K, C, e1, e2, e3, _⟩ := (h.lay m hm).ex
      refine ⟨(cK, cC), fun m' hm' e => ?_⟩
      obtain rfl := ht.untied.name_inj hm' hm e
      rw [h.structs] at e2 e3
      exact ⟨hy, e1, e2, e3⟩
    · exact ⟨(.dense, .dense), fun m hm e => absurd ⟨m, hm, e⟩ hn⟩
  choose cl hcl using key
  refine ⟨cl, fun m hm => hcl m.name m hm rfl, ⟨?_, ?_, by simp, ?_, ?_, ?_⟩⟩
  · refine ⟨ht.untied, ?_, ?_, ?_, ?_⟩
    · intro m hm
      obtain ⟨hy, e1, e2, e3⟩ := hcl m.name m hm rfl
      rw [← h.structs] at e2 e3
      obtain ⟨a1, a2, a3, a4⟩ := ht.cls m hm hy _ _ e1 e2 e3
      exact ⟨(h.lay m hm).sup, ht.posK m hm, ht.posC m hm, a1, a3, a2, a4⟩
    · intro m hm
      obtain ⟨hy, e1, e2, e3⟩ := hcl m.name m hm rfl
      rw [← h.structs] at e2 e3
      obtain ⟨a1, a2, a3, a4⟩ := ht.cls m hm hy _ _ e1 e2 e3
      exact h.layerWF hm e1 e2 e3 a1 a3
    · intro m hm
      exact ⟨⟨ht.weight m hm, by simp [h.mom]⟩, fun b hb => ⟨⟨(ht.bias m hm b hb).1, by simp [h.mom]⟩, (ht.bias m hm b hb).2⟩⟩
    · intro m hm
      obtain ⟨hy, e1, _⟩ := hcl m.name m hm rfl
      exact ⟨hy, e1, ht.T m hm hy e1⟩
  · intro m hm hy e1
    obtain ⟨i, g, _, hg, rfl⟩ := hyperOf_ok e1
    have := h.accepted g (List.mem_of_getElem? hg)
    exact ⟨this.1.1, this.1.2, ht.T m hm _ e1⟩
  · refine ⟨a.initGradScale, ?_⟩
    simp [h.steps, h.scales, Dict.set]
  · intro t s hs'
    simp only [h.scales, Dict.set, Function.update_apply] at hs'
    split at hs'
    · cases hs'; exact hs
    · cases hs'
  · intro m hm hy e1 ha
    obtain ⟨hy', cK, cC, K, C, f1, f2, f3, eK, eC, sK, sC, m0, m1⟩ := (h.lay m hm).ex
    replace e1 : o.hyperOf m = .ok hy := e1
    rw [e1] at f1; cases f1
    obtain ⟨mK, mC, z1, z2, z3, z4⟩ := m1 ha
    simp [z3, z4]
