import Verif.Model.Device
import Verif.Props.Dtype

/-! C79: devices in training runs and restored checkpoints. -/

namespace Dv
open Dt (okBind mapM_cases forall2_set Post post_pure post_ok post_error post_bind post_bind')

/-- all tensors of a structured matrix are on device `d` -/
def DM.On (d : Dev) (M : DM) : Prop := ∀ e ∈ M.devices, e = d

/-- the parts of a recursive matrix are of the classes it declares -/
def DM.Proper : DM → Prop
  | .topRight _ _ cA cC A _ C => A.cls = cA ∧ C.cls = cC ∧ A.Proper ∧ C.Proper
  | .bottomLeft _ _ cA cC A _ C => A.cls = cA ∧ C.cls = cC ∧ A.Proper ∧ C.Proper
  | _ => True

/-- a matrix of class `c` with all its tensors on device `d` -/
def DM.Lies (c : Cls) (d : Dev) (M : DM) : Prop := M.cls = c ∧ M.Proper ∧ M.On d

/-- what training needs of the restored (or current) matrices of a layer: they are of the layer's classes, momenta are there if they are used, and **everything lies
on the device of the weight** -/
structure Saved.Usable (p : Spec) (s : Saved) : Prop where
  K : s.K.Lies p.clsK p.weight
  C : s.C.Lies p.clsC p.weight
  mK : ∀ M ∈ s.mK, M.Lies p.clsK p.weight
  mC : ∀ M ∈ s.mC, M.Lies p.clsC p.weight
  has : p.riem = true → s.mK.isSome ∧ s.mC.isSome
  HK : ∀ M ∈ s.HK, M.Lies p.clsK p.weight
  HC : ∀ M ∈ s.HC, M.Lies p.clsC p.weight
  pair : s.HK.isSome = s.HC.isSome

/-- weight and bias of a layer are on one device -/
def Spec.Together (p : Spec) : Prop := ∀ b ∈ p.bias, b = p.weight

/-- a layer as training needs it -/
structure LState.Good (p : Spec) (l : LState) : Prop where
  spec : l.spec = p
  mats : l.mats.Usable p
  bufW : ∀ b ∈ l.bufW, b = p.weight
  bufB : ∀ b ∈ l.bufB, b = p.weight

/-- the operation takes place where the layers live: inputs and gradients arrive on the device of the layer's weight, and a restored checkpoint lies where the weights are -/
def Op.Local (ps : List Spec) : Op → Prop
  | .backward i x g => ∀ p ∈ ps[i]?, x = p.weight ∧ g = p.weight
  | .step _ => True
  | .load _ ss => List.Forall₂ (fun p s => Saved.Usable p s.1) ps ss

/-! ### Matrices on one device -/

theorem join_self (d : Dev) : join d d = .ok d := by simp [join]
theorem join_ne {a b : Dev} (h : a ≠ b) : join a b = .error .runtimeError := by simp [join, h]

theorem fromDense_cls (c : Cls) (d : Dev) : (fromDense c d).cls = c := by cases c <;> rfl

theorem fromDense_on (c : Cls) (d : Dev) : (fromDense c d).On d := by
  induction c with
  | topRight a b cA cC iA iC =>
    intro e h
    simp only [fromDense, DM.devices, List.mem_cons, List.mem_append] at h
    rcases h with h | h | h
    exacts [h, iA e h, iC e h]
  | bottomLeft a b cA cC iA iC =>
    intro e h
    simp only [fromDense, DM.devices, List.mem_cons, List.mem_append] at h
    rcases h with h | h | h
    exacts [h, iA e h, iC e h]
  | _ => exact fun e h => by simpa [fromDense, DM.devices] using h

theorem fromDense_proper (c : Cls) (d : Dev) : (fromDense c d).Proper := by
  induction c with
  | topRight a b cA cC iA iC => exact ⟨fromDense_cls .., fromDense_cls .., iA, iC⟩
  | bottomLeft a b cA cC iA iC => exact ⟨fromDense_cls .., fromDense_cls .., iA, iC⟩
  | _ => trivial

theorem eq_fromDense {d : Dev} : ∀ {M : DM}, M.Proper → M.On d → M = fromDense M.cls d
  | .dense e, _, h | .diagonal e, _, h | .tril e, _, h | .triu e, _, h => by have := h e (by simp [DM.devices]); subst this; rfl
  | .block D b l, _, h => by
    have h1 := h b (by simp [DM.devices])
    have h2 := h l (by simp [DM.devices])
    subst h1 h2
    rfl
  | .hier a b A B C D E, _, h => by
    have h1 := h A (by simp [DM.devices])
    have h2 := h B (by simp [DM.devices])
    have h3 := h C (by simp [DM.devices])
    have h4 := h D (by simp [DM.devices])
    have h5 := h E (by simp [DM.devices])
    subst h1 h2 h3 h4 h5
    rfl
  | .topRight a c cA cC A B C, p, h => by
    have h1 := eq_fromDense (M := A) p.2.2.1 fun e he => h e (by simp [DM.devices, he])
    have h2 := eq_fromDense (M := C) p.2.2.2 fun e he => h e (by simp [DM.devices, he])
    have h3 := h B (by simp [DM.devices])
    rw [p.1] at h1
    rw [p.2.1] at h2
    rw [h3, h1, h2]
    rfl
  | .bottomLeft a c cA cC A B C, p, h => by
    have h1 := eq_fromDense (M := A) p.2.2.1 fun e he => h e (by simp [DM.devices, he])
    have h2 := eq_fromDense (M := C) p.2.2.2 fun e he => h e (by simp [DM.devices, he])
    have h3 := h B (by simp [DM.devices])
    rw [p.1] at h1
    rw [p.2.1] at h2
    rw [h3, h1, h2]
    rfl

theorem lies_iff {c : Cls} {d : Dev} {M : DM} : M.Lies c d ↔ M = fromDense c d :=
  ⟨fun h => by have := eq_fromDense h.2.1 h.2.2; rwa [h.1] at this, fun h => h ▸ ⟨fromDense_cls .., fromDense_proper .., fromDense_on _ _⟩⟩

theorem fromDense_inj {c : Cls} {d e : Dev} (h : fromDense c d = fromDense c e) : d = e := by
  cases c <;> simp [fromDense] at h <;> first | exact h | exact h.1 | exact h.2.1

theorem toDense_at (c : Cls) (d : Dev) : (fromDense c d).toDense = .ok d := by
  induction c with
  | topRight a b cA cC iA iC => simp only [fromDense, DM.toDense, iA, iC, okBind, join_self, sliceAssign]; rfl
  | bottomLeft a b cA cC iA iC => simp only [fromDense, DM.toDense, iA, iC, okBind, join_self, sliceAssign]; rfl
  | hier a b => simp only [fromDense, DM.toDense, okBind, join_self, sliceAssign]; rfl
  | _ => simp only [fromDense, DM.toDense, join_self, sliceAssign]

theorem matmulT_at (c : Cls) (d x : Dev) : (fromDense c d).matmulT x = join d x := by
  have t := toDense_at c d
  by_cases h : d = x
  · subst h
    cases c <;> simp only [fromDense, DM.matmulT, join_self, okBind] <;> (rw [← fromDense, t, okBind, join_self])
  · rw [join_ne h]
    cases c <;> simp only [fromDense, DM.matmulT, join_self, okBind, join_ne h, join_ne (Ne.symm h)] <;> first | rfl | (rw [← fromDense, t, okBind, join_ne h])

theorem rmatmat_at (c : Cls) (d x : Dev) : (fromDense c d).rmatmat x = join d x := by
  have t := toDense_at c d
  by_cases h : d = x
  · subst h
    cases c <;> simp only [fromDense, DM.rmatmat, DM.matmulT, join_self, okBind] <;> (rw [← fromDense, t, okBind, join_self])
  · rw [join_ne h]
    cases c <;> simp only [fromDense, DM.rmatmat, DM.matmulT, join_self, okBind, join_ne h, join_ne (Ne.symm h)] <;> first | rfl | (rw [← fromDense, t, okBind, join_ne h])

theorem matmulS_at (c : Cls) (d : Dev) : (fromDense c d).matmulS (fromDense c d) = .ok (fromDense c d) := by
  have t := toDense_at c d
  cases c <;> simp only [fromDense] at t <;> simp only [fromDense, DM.matmulS, join_self, okBind, t] <;> rfl

theorem fromInner_at (c : Cls) (d x : Dev) : (fromDense c d).fromInner x = if d = x then .ok (fromDense c d) else .error .runtimeError := by
  have t := rmatmat_at c d x
  by_cases h : d = x
  · subst h
    rw [join_self] at t
    rw [if_pos rfl]
    cases c <;> simp only [fromDense] at t <;> simp only [fromDense, DM.fromInner, DM.fromMatInner, join_self, okBind, t] <;> rfl
  · rw [join_ne h] at t
    rw [if_neg h]
    cases c <;> simp only [fromDense] at t <;> simp only [fromDense, DM.fromInner, join_ne h, t] <;> rfl

theorem fromInner0_at (c : Cls) (d : Dev) : (fromDense c d).fromInner0 = .ok (fromDense c d) := by
  have t := toDense_at c d
  cases c <;> simp only [fromDense] at t <;> simp only [fromDense, DM.fromInner0, DM.fromMatInner, join_self, okBind, t] <;> rfl

theorem averageTrace_at (c : Cls) (d : Dev) : (fromDense c d).averageTrace = .ok () := by
  have t := toDense_at c d
  cases c <;> simp only [fromDense] at t <;> simp only [fromDense, DM.averageTrace, join_self, okBind, t] <;> rfl

theorem diagAdd_at (c : Cls) (d : Dev) : (fromDense c d).diagAdd = .ok (fromDense c d) := by
  have t := toDense_at c d
  cases c <;> simp only [fromDense] at t <;> simp only [fromDense, DM.diagAdd, okBind, t] <;> rfl

theorem devices_at (c : Cls) : ∃ n : ℕ, ∀ d, (fromDense c d).devices = List.replicate (n + 1) d := by
  induction c with
  | topRight a b cA cC iA iC =>
    obtain ⟨m, hm⟩ := iA
    obtain ⟨n, hn⟩ := iC
    refine ⟨m + 1 + (n + 1), fun d => ?_⟩
    simp only [fromDense, DM.devices, hm, hn, List.replicate_succ (n := m + 1 + (n + 1)), List.replicate_add]
  | bottomLeft a b cA cC iA iC =>
    obtain ⟨m, hm⟩ := iA
    obtain ⟨n, hn⟩ := iC
    refine ⟨m + 1 + (n + 1), fun d => ?_⟩
    simp only [fromDense, DM.devices, hm, hn, List.replicate_succ (n := m + 1 + (n + 1)), List.replicate_add]
  | block D => exact ⟨1, fun d => rfl⟩
  | hier a b => exact ⟨4, fun d => rfl⟩
  | _ => exact ⟨0, fun d => rfl⟩

theorem joins_at (d e : Dev) : ∀ n : ℕ, (List.replicate (n + 1) (d, e)).mapM (fun p : Dev × Dev => join p.1 p.2) = if d = e then .ok (List.replicate (n + 1) d) else .error .runtimeError
  | 0 => by
    by_cases h : d = e
    · subst h; simp [List.mapM_cons, join_self, okBind]
    · simp [List.mapM_cons, join_ne h, h]
  | n + 1 => by
    rw [List.replicate_succ, List.mapM_cons, joins_at d e n]
    by_cases h : d = e
    · subst h; simp [join_self, okBind, List.replicate_succ]
    · simp [join_ne h, h]; rfl

theorem add_at (c : Cls) (d e : Dev) : (fromDense c d).add_ (fromDense c e) = if d = e then .ok (fromDense c d) else .error .runtimeError := by
  obtain ⟨n, hn⟩ := devices_at c
  unfold DM.add_
  rw [hn d, hn e, show (List.replicate (n + 1) d).zip (List.replicate (n + 1) e) = List.replicate (n + 1) (d, e) by simp, joins_at]
  split_ifs <;> rfl

/-! ### One layer -/

theorem map_at (f : Dev → Dev) (c : Cls) (d : Dev) : (fromDense c d).map f = fromDense c (f d) := by
  induction c with
  | topRight a b cA cC iA iC => simp only [fromDense, DM.map, iA, iC]
  | bottomLeft a b cA cC iA iC => simp only [fromDense, DM.map, iA, iC]
  | _ => rfl

/-- the usable matrices, written out -/
theorem usable_iff {p : Spec} {s : Saved} : s.Usable p ↔ s.K = fromDense p.clsK p.weight ∧ s.C = fromDense p.clsC p.weight ∧ (∀ M ∈ s.mK, M = fromDense p.clsK p.weight) ∧
    (∀ M ∈ s.mC, M = fromDense p.clsC p.weight) ∧ (p.riem = true → s.mK.isSome ∧ s.mC.isSome) ∧ (∀ M ∈ s.HK, M = fromDense p.clsK p.weight) ∧
    (∀ M ∈ s.HC, M = fromDense p.clsC p.weight) ∧ s.HK.isSome = s.HC.isSome := by
  simp only [← lies_iff]
  exact ⟨fun h => ⟨h.1, h.2, h.3, h.4, h.5, h.6, h.7, h.8⟩, fun h => ⟨h.1, h.2.1, h.2.2.1, h.2.2.2.1, h.2.2.2.2.1, h.2.2.2.2.2.1, h.2.2.2.2.2.2.1, h.2.2.2.2.2.2.2⟩⟩

theorem good_init (p : Spec) : (LState.init p).Good p where
  spec := rfl
  mats := by
    refine usable_iff.mpr ⟨rfl, rfl, ?_, ?_, ?_, by simp [LState.init], by simp [LState.init], rfl⟩ <;> simp only [LState.init] <;> split_ifs <;> simp_all [zeros]
  bufW := by simp [LState.init]
  bufB := by simp [LState.init]

theorem Good_clear {p : Spec} {l : LState} (g : l.Good p) : ({ l with mats := { l.mats with HK := none, HC := none } } : LState).Good p :=
  ⟨g.spec, ⟨g.mats.K, g.mats.C, g.mats.mK, g.mats.mC, g.mats.has, by simp, by simp, rfl⟩, g.bufW, g.bufB⟩

theorem plus_at (c : Cls) (d h : Dev) {o : Option DM} (ho : ∀ M ∈ o, M = fromDense c h) :
    plus o (fromDense c d) = if o = none ∨ h = d then .ok (fromDense c d) else .error .runtimeError := by
  cases o with
  | none => simp [plus]
  | some M =>
    obtain rfl := ho M rfl
    simp only [plus, add_at, reduceCtorEq, false_or]
    split_ifs with e
    · rw [e]
    · rfl

/-- one backward hook and one step of a layer, with input and gradient on the device of its weight -/
def LState.iterate (n : ℕ) (l : LState) : Except PyErr LState := do (← l.accumulate l.spec.weight l.spec.weight).step n

/-- a layer whose matrices lie, each on a device of its own -/
structure Saved.Lying (p : Spec) (k c mk mc hk hc : Dev) (s : Saved) : Prop where
  K : s.K.Lies p.clsK k
  C : s.C.Lies p.clsC c
  mK : ∀ M ∈ s.mK, M.Lies p.clsK mk
  mC : ∀ M ∈ s.mC, M.Lies p.clsC mc
  has : p.riem = true → s.mK.isSome ∧ s.mC.isSome
  HK : ∀ M ∈ s.HK, M.Lies p.clsK hk
  HC : ∀ M ∈ s.HC, M.Lies p.clsC hc

theorem accumulate_at {p : Spec} {l : LState} {k c mk mc hk hc : Dev} (h : l.mats.Lying p k c mk mc hk hc) (x g : Dev) :
    l.accumulate x g = if k = x ∧ c = g ∧ (l.mats.HK = none ∨ hk = k) ∧ (l.mats.HC = none ∨ hc = c) then
      .ok { l with mats := { l.mats with HK := some (fromDense p.clsK k), HC := some (fromDense p.clsC c) } } else .error .runtimeError := by
  unfold LState.accumulate
  rw [lies_iff.mp h.K, lies_iff.mp h.C, fromInner_at, fromInner_at]
  by_cases h1 : k = x
  · by_cases h2 : c = g
    · rw [if_pos h1, if_pos h2, okBind, okBind, plus_at p.clsK k hk fun M hM => lies_iff.mp (h.HK M hM), plus_at p.clsC c hc fun M hM => lies_iff.mp (h.HC M hM)]
      by_cases h3 : l.mats.HK = none ∨ hk = k
      · by_cases h4 : l.mats.HC = none ∨ hc = c
        · rw [if_pos h3, if_pos h4, if_pos ⟨h1, h2, h3, h4⟩]; rw [← lies_iff.mp h.K, ← lies_iff.mp h.C]; rfl
        · rw [if_pos h3, if_neg h4, if_neg fun H : k = x ∧ _ => h4 H.2.2.2]; rfl
      · rw [if_neg h3, if_neg fun H : k = x ∧ _ => h3 H.2.2.1]; rfl
    · rw [if_pos h1, if_neg h2, if_neg fun H : k = x ∧ _ => h2 H.2.1]; rfl
  · rw [if_neg h1, if_neg fun H : k = x ∧ _ => h1 H.1]; rfl

theorem update_at {p : Spec} {l : LState} {mk mc : Dev} (e : l.spec = p) (hT : p.T ≠ 0) (n : ℕ) (h : l.mats.Lying p p.weight p.weight mk mc p.weight p.weight)
    (hK : l.mats.HK.isSome) (hC : l.mats.HC.isSome) :
    l.update n = if n % p.T ≠ 0 then .ok l else if p.riem = true → mk = p.weight ∧ mc = p.weight then
      .ok { l with mats := ⟨fromDense p.clsK p.weight, fromDense p.clsC p.weight, if p.riem then some (fromDense p.clsK p.weight) else l.mats.mK,
        if p.riem then some (fromDense p.clsC p.weight) else l.mats.mC, none, none⟩ } else .error .runtimeError := by
  subst e
  obtain ⟨sp, ⟨K, C, mK, mC, HK, HC⟩, bW, bB⟩ := l
  obtain ⟨a, b, c, d, f, g, i⟩ := h
  simp only at *
  obtain ⟨HK, rfl⟩ := Option.isSome_iff_exists.mp hK
  obtain ⟨HC, rfl⟩ := Option.isSome_iff_exists.mp hC
  rw [lies_iff] at a b
  have g := lies_iff.mp (g HK rfl)
  have i := lies_iff.mp (i HC rfl)
  subst a b g i
  unfold LState.update
  simp only [hT, if_false]
  by_cases due : n % sp.T ≠ 0
  · simp [due]
  · simp only [due, if_false, need, okBind, fromInner0_at, zeros, fromDense_cls, averageTrace_at, ite_self, add_at, if_true, diagAdd_at]
    cases hr : sp.riem with
    | false => 
      cases sp.kfacLike <;> simp [okBind, matmulS_at, add_at, pure, Except.pure]
    | true =>
      obtain ⟨h1, h2⟩ := f hr
      obtain ⟨mK, rfl⟩ := Option.isSome_iff_exists.mp h1
      obtain ⟨mC, rfl⟩ := Option.isSome_iff_exists.mp h2
      have c := lies_iff.mp (c mK rfl)
      have d := lies_iff.mp (d mC rfl)
      subst c d
      have q1 : (mk = sp.weight) = (sp.weight = mk) := propext eq_comm
      have q2 : (mc = sp.weight) = (sp.weight = mc) := propext eq_comm
      simp only [q1, q2]
      by_cases e2 : sp.weight = mc
      · subst e2
        by_cases e1 : sp.weight = mk
        · subst e1
          cases sp.kfacLike <;> simp [okBind, matmulS_at, add_at, pure, Except.pure]
        · cases sp.kfacLike <;> simp [okBind, add_at, pure, Except.pure, e1] <;> rfl
      · cases sp.kfacLike <;> simp [okBind, add_at, pure, Except.pure, e2] <;> rfl

theorem gradMat_at {p : Spec} (h : p.Together) : p.gradMat = .ok p.weight := by
  unfold Spec.gradMat
  cases hb : p.bias with
  | none => rfl
  | some b =>
    obtain rfl := h b hb
    exact join_self _

theorem naturalGradient_at {l : LState} {p : Spec} (e : l.spec = p) (t : p.Together) {k c : Dev} (hK : l.mats.K = fromDense p.clsK k) (hC : l.mats.C = fromDense p.clsC c) :
    l.naturalGradient = if k = p.weight ∧ c = p.weight then .ok p.weight else .error .runtimeError := by
  unfold LState.naturalGradient
  rw [e, gradMat_at t, okBind, hK, hC, rmatmat_at]
  by_cases h1 : k = p.weight
  · subst h1
    rw [join_self, okBind, matmulT_at, join_self, okBind, rmatmat_at]
    by_cases h2 : c = p.weight
    · subst h2
      rw [join_self, okBind, matmulT_at, join_self, if_pos ⟨rfl, rfl⟩]
    · rw [join_ne h2, if_neg fun h => h2 h.2]
      rfl
  · rw [join_ne h1, if_neg fun h => h1 h.1]
    rfl

theorem applyParam_at {p : Spec} {d : Dev} {buf : Option Dev} (hb : ∀ b ∈ buf, b = d) : ∃ buf', applyParam p d buf d = .ok buf' ∧ ∀ b ∈ buf', b = d := by
  unfold applyParam
  have hg : buf.getD d = d := by
    cases buf with
    | none => rfl
    | some b => exact hb b rfl
  cases p.decay <;> cases p.momentum <;> simp only [hg, join_self, if_true, if_false, Bool.false_eq_true, okBind, reduceIte]
  all_goals first
    | exact ⟨_, rfl, hb⟩
    | exact ⟨_, rfl, by simp⟩

theorem finish_at {l : LState} {p : Spec} (e : l.spec = p) (t : p.Together) (hW : ∀ b ∈ l.bufW, b = p.weight) (hB : ∀ b ∈ l.bufB, b = p.weight)
    (n : ℕ) (l₁ : LState) (hu : l.update n = .ok l₁) (g : l₁.Good p) : ∃ l', l.step n = .ok l' ∧ l'.Good p := by
  unfold LState.step
  rw [hu, okBind, naturalGradient_at g.spec t (lies_iff.mp g.mats.K) (lies_iff.mp g.mats.C), if_pos ⟨rfl, rfl⟩, okBind, g.spec]
  obtain ⟨bW, h1, h2⟩ := applyParam_at (p := p) g.bufW
  rw [h1, okBind]
  cases hb : p.bias with
  | none => exact ⟨_, rfl, ⟨by simp [g.spec], g.mats, h2, g.bufB⟩⟩
  | some b =>
    obtain rfl := t b hb
    obtain ⟨bB, h3, h4⟩ := applyParam_at (p := p) g.bufB
    simp only [h3, okBind]
    exact ⟨_, rfl, ⟨by simp [g.spec], g.mats, h2, h4⟩⟩

theorem Usable_lying {p : Spec} {s : Saved} (h : s.Usable p) : s.Lying p p.weight p.weight p.weight p.weight p.weight p.weight :=
  ⟨h.K, h.C, h.mK, h.mC, h.has, h.HK, h.HC⟩

theorem Good_accumulate {p : Spec} {l : LState} (g : l.Good p) : ∃ l', l.accumulate p.weight p.weight = .ok l' ∧ l'.Good p ∧ l'.mats.HK.isSome := by
  rw [accumulate_at (Usable_lying g.mats), if_pos ⟨rfl, rfl, .inr rfl, .inr rfl⟩]
  refine ⟨_, rfl, ⟨g.spec, ?_, g.bufW, g.bufB⟩, rfl⟩
  exact ⟨g.mats.K, g.mats.C, g.mats.mK, g.mats.mC, g.mats.has, fun M hM => by cases hM; exact lies_iff.mpr rfl, fun M hM => by cases hM; exact lies_iff.mpr rfl, rfl⟩

/-- a step of a good layer: it succeeds, or the statistics are missing -/
theorem Good_step {p : Spec} {l : LState} (g : l.Good p) (t : p.Together) (hT : p.T ≠ 0) (n : ℕ) :
    (∃ l', l.step n = .ok l' ∧ l'.Good p) ∨ (l.step n = .error .keyError ∧ n % p.T = 0 ∧ l.mats.HK = none) := by
  by_cases due : n % p.T = 0
  · cases hK : l.mats.HK with
    | none =>
      refine .inr ⟨?_, due, rfl⟩
      unfold LState.step LState.update
      simp [g.spec, hT, due, hK, need]
      rfl
    | some M =>
      have hC : l.mats.HC.isSome := by rw [← g.mats.pair, hK]; rfl
      have u := update_at g.spec hT n (Usable_lying g.mats) (by simp [hK]) hC
      rw [if_neg (by simp [due]), if_pos fun _ => ⟨rfl, rfl⟩] at u
      refine .inl (finish_at g.spec t g.bufW g.bufB n _ u ⟨g.spec, ?_, g.bufW, g.bufB⟩)
      refine usable_iff.mpr ⟨rfl, rfl, ?_, ?_, ?_, by simp, by simp, rfl⟩
      · simp only
        split_ifs
        · simp
        · exact fun M hM => lies_iff.mp (g.mats.mK M hM)
      · simp only
        split_ifs
        · simp
        · exact fun M hM => lies_iff.mp (g.mats.mC M hM)
      · intro h
        simp [h]
  · refine .inl (finish_at g.spec t g.bufW g.bufB n l ?_ g)
    unfold LState.update
    simp [g.spec, hT, due]

/-! ### Runs -/

theorem exec_local {ps : List Spec} {s : State} (g : List.Forall₂ (fun p l => LState.Good p l) ps s.layers) (t : ∀ p ∈ ps, p.Together) (hT : ∀ p ∈ ps, p.T ≠ 0) {op : Op}
    (ho : op.Local ps) : (∃ s', exec s op = .ok s' ∧ List.Forall₂ (fun p l => LState.Good p l) ps s'.layers) ∨ exec s op = .error .keyError := by
  cases op with
  | backward i x y =>
    simp only [exec]
    cases hl : s.layers[i]? with
    | none => exact .inl ⟨s, rfl, g⟩
    | some l =>
      have hp : ∃ p, ps[i]? = some p ∧ l.Good p := by
        rw [List.forall₂_iff_get] at g
        obtain ⟨h, e⟩ := List.getElem?_eq_some_iff.mp hl
        refine ⟨ps[i]'(g.1 ▸ h), List.getElem?_eq_getElem _, ?_⟩
        have := g.2 i (g.1 ▸ h) h
        simp only [List.get_eq_getElem] at this
        rwa [e] at this
      obtain ⟨p, hp, gl⟩ := hp
      obtain ⟨rfl, rfl⟩ := ho p hp
      obtain ⟨l', h1, h2, -⟩ := Good_accumulate gl
      simp only [h1, okBind]
      refine .inl ⟨_, rfl, ?_⟩
      obtain ⟨hi, e⟩ := List.getElem?_eq_some_iff.mp hl
      obtain ⟨hj, e'⟩ := List.getElem?_eq_some_iff.mp hp
      rw [List.forall₂_iff_get] at g ⊢
      refine ⟨by simpa using g.1, fun j h3 h4 => ?_⟩
      simp only [List.get_eq_getElem, List.getElem_set]
      split_ifs with hij
      · subst hij
        rwa [e']
      · exact g.2 j h3 (by simpa using h4)
  | step inf =>
    cases inf with
    | true =>
      refine .inl ⟨_, rfl, ?_⟩
      simp only [List.forall₂_map_right_iff]
      exact g.imp fun p l h => Good_clear h
    | false =>
      simp only [exec, Bool.false_eq_true, if_false]
      rcases mapM_cases (P := fun p l => LState.Good p l) (E := fun e => e = .keyError) (G := fun p l => LState.Good p l) ps
        (k := LState.step s.steps) (fun p hp l gl => by
          rcases Good_step gl (t p hp) (hT p hp) s.steps with h | h
          · exact .inl h
          · exact .inr ⟨_, rfl, h.1⟩) g with ⟨g', h1, h2⟩ | ⟨e, rfl, h1⟩
      · exact .inl ⟨⟨s.steps + 1, g'⟩, by rw [h1]; rfl, h2⟩
      · exact .inr (by rw [h1]; rfl)
  | load n ss =>
    refine .inl ⟨_, rfl, ?_⟩
    simp only [Op.Local] at ho
    have t' := t
    generalize s.layers = ls at g
    induction ho generalizing ls with
    | nil => cases g; exact .nil
    | @cons p s ps ss h1 h2 ih =>
      cases g with
      | @cons _ l _ ls g1 g2 =>
        refine .cons ⟨g1.spec, h1, ?_, ?_⟩ (ih (fun p hp => t p (List.mem_cons_of_mem _ hp)) (fun p hp => hT p (List.mem_cons_of_mem _ hp))
          (fun p hp => t p (List.mem_cons_of_mem _ hp)) ls g2)
        · simp only [LState.load]
          split_ifs <;> simp [g1.spec]
        · simp only [LState.load]
          split_ifs
          · rw [g1.spec]; exact t p (List.mem_cons_self ..)
          · simp

theorem run_local {ps : List Spec} (t : ∀ p ∈ ps, p.Together) (hT : ∀ p ∈ ps, p.T ≠ 0) : ∀ (ops : List Op) {s : State},
    List.Forall₂ (fun p l => LState.Good p l) ps s.layers → (∀ op ∈ ops, op.Local ps) →
    (∃ s', run s ops = .ok s' ∧ List.Forall₂ (fun p l => LState.Good p l) ps s'.layers) ∨ run s ops = .error .keyError
  | [], s, g, _ => .inl ⟨s, rfl, g⟩
  | op :: ops, s, g, ho => by
    simp only [run]
    rcases exec_local g t hT (ho op (List.mem_cons_self ..)) with ⟨s', h1, h2⟩ | h
    · rw [h1, okBind]
      exact run_local t hT ops h2 fun o h => ho o (List.mem_cons_of_mem _ h)
    · rw [h]
      exact .inr rfl

theorem good_inits (ps : List Spec) : List.Forall₂ (fun p l => LState.Good p l) ps (init ps).layers := by
  simp only [init, List.forall₂_map_right_iff]
  exact List.forall₂_same.mpr fun p _ => good_init p

/-- **One device per layer.** Let weight and bias of every layer be on one device (different layers may be on different devices). Then in every run in which layer inputs and
output gradients arrive on the device of their layer and restored checkpoints lie there, no operation ever raises because of a device (a step can only raise the `KeyError` of
missing statistics), and all tensors of all factors, momenta, statistics and momentum buffers of a layer are always on the device of its weight. -/
theorem C79_one_device (ps : List Spec) (t : ∀ p ∈ ps, p.Together) (hT : ∀ p ∈ ps, p.T ≠ 0) (ops : List Op) (ho : ∀ op ∈ ops, op.Local ps) :
    (∃ s, run (init ps) ops = .ok s ∧ List.Forall₂ (fun p l => l.spec = p ∧ (∀ M ∈ l.mats.matrices, ∀ d ∈ M.devices, d = p.weight) ∧
      (∀ b ∈ l.bufW, b = p.weight) ∧ ∀ b ∈ l.bufB, b = p.weight) ps s.layers) ∨ run (init ps) ops = .error .keyError := by
  rcases run_local t hT ops (good_inits ps) ho with ⟨s, h1, h2⟩ | h
  · refine .inl ⟨s, h1, h2.imp fun p l g => ⟨g.spec, fun M hM => ?_, g.bufW, g.bufB⟩⟩
    simp only [Saved.matrices, List.mem_cons, List.mem_append, Option.mem_toList] at hM
    rcases hM with rfl | rfl | ((hM | hM) | hM) | hM
    exacts [g.mats.K.2.2, g.mats.C.2.2, (g.mats.mK M hM).2.2, (g.mats.mC M hM).2.2, (g.mats.HK M hM).2.2, (g.mats.HC M hM).2.2]
  · exact .inr h

/-! ### When restored matrices can be used -/

theorem finish_ok {l l₁ : LState} {p : Spec} (t : p.Together) (n : ℕ) (hu : l.update n = .ok l₁) (e : l₁.spec = p) (hK : l₁.mats.K = fromDense p.clsK p.weight)
    (hC : l₁.mats.C = fromDense p.clsC p.weight) (hW : ∀ b ∈ l₁.bufW, b = p.weight) (hB : ∀ b ∈ l₁.bufB, b = p.weight) : ∃ l', l.step n = .ok l' := by
  unfold LState.step
  rw [hu, okBind, naturalGradient_at e t hK hC, if_pos ⟨rfl, rfl⟩, okBind, e]
  obtain ⟨bW, h1, h2⟩ := applyParam_at (p := p) hW
  rw [h1, okBind]
  cases hb : p.bias with
  | none => exact ⟨_, rfl⟩
  | some b =>
    obtain rfl := t b hb
    obtain ⟨bB, h3, h4⟩ := applyParam_at (p := p) hB
    simp only [h3, okBind]
    exact ⟨_, rfl⟩

theorem on_at {c : Cls} {d e : Dev} {M : DM} (h : M.Lies c d) : M.On e ↔ d = e := by
  constructor
  · intro ho
    obtain ⟨n, hn⟩ := devices_at c
    have := lies_iff.mp h
    exact ho d (by rw [this, hn]; simp)
  · rintro rfl
    exact h.2.2

theorem iterate_at {p : Spec} {l : LState} {k c mk mc hk hc : Dev} (e : l.spec = p) (t : p.Together) (hT : p.T ≠ 0) (h : l.mats.Lying p k c mk mc hk hc)
    (hW : ∀ b ∈ l.bufW, b = p.weight) (hB : ∀ b ∈ l.bufB, b = p.weight) (n : ℕ) :
    (∃ l', l.iterate n = .ok l') ↔ k = p.weight ∧ c = p.weight ∧ (l.mats.HK = none ∨ hk = p.weight) ∧ (l.mats.HC = none ∨ hc = p.weight) ∧
      (n % p.T = 0 → p.riem = true → mk = p.weight ∧ mc = p.weight) := by
  obtain ⟨sp, mats, bW, bB⟩ := l
  simp only at e h hW hB
  have e' := e.symm
  subst e'
  unfold LState.iterate
  rw [accumulate_at h]
  split_ifs with hh
  · obtain ⟨rfl, rfl, h3, h4⟩ := hh
    rw [okBind]
    have L : Saved.Lying p p.weight p.weight mk mc p.weight p.weight
        { mats with HK := some (fromDense p.clsK p.weight), HC := some (fromDense p.clsC p.weight) } :=
      ⟨h.K, h.C, h.mK, h.mC, h.has, fun M hM => by cases hM; exact lies_iff.mpr rfl, fun M hM => by cases hM; exact lies_iff.mpr rfl⟩
    have u := update_at (l := ⟨p, { mats with HK := some (fromDense p.clsK p.weight), HC := some (fromDense p.clsC p.weight) }, bW, bB⟩) rfl hT n L rfl rfl
    by_cases due : n % p.T = 0
    · rw [if_neg (by simp [due])] at u
      by_cases hm : p.riem = true → mk = p.weight ∧ mc = p.weight
      · rw [if_pos hm] at u
        exact ⟨fun _ => ⟨rfl, rfl, h3, h4, fun _ => hm⟩, fun _ => finish_ok t n u rfl rfl rfl hW hB⟩
      · rw [if_neg hm] at u
        refine ⟨fun ⟨l', hl⟩ => ?_, fun H => absurd (H.2.2.2.2 due) hm⟩
        simp only [LState.step, u] at hl
        cases hl
    · rw [if_pos due] at u
      exact ⟨fun _ => ⟨rfl, rfl, h3, h4, fun h => absurd h due⟩, fun _ => finish_ok t n u rfl (lies_iff.mp h.K) (lies_iff.mp h.C) hW hB⟩
  · refine ⟨fun ⟨l', hl⟩ => (by cases hl), fun H => absurd ?_ hh⟩
    obtain ⟨rfl, rfl, h3, h4, -⟩ := H
    exact ⟨rfl, rfl, h3, h4⟩

/-- the backward hooks of the layers numbered `i, i + 1, …`, each on the device of its weight -/
def passFrom : ℕ → List Spec → List Op
  | _, [] => []
  | i, p :: ps => .backward i p.weight p.weight :: passFrom (i + 1) ps

/-- an iteration of the training loop: a backward pass through all layers, then a step -/
def iteration (ps : List Spec) : List Op := passFrom 0 ps ++ [.step false]

theorem run_append : ∀ (a b : List Op) (s : State), run s (a ++ b) = run s a >>= fun s => run s b
  | [], _, _ => rfl
  | op :: a, b, s => by
    simp only [List.cons_append, run]
    cases exec s op with
    | error e => rfl
    | ok s' => exact run_append a b s'

theorem run_pass (n : ℕ) : ∀ (ps : List Spec) (pre ls : List LState), List.Forall₂ (fun p l => LState.spec l = p) ps ls →
    run ⟨n, pre ++ ls⟩ (passFrom pre.length ps) = ls.mapM (fun l => l.accumulate l.spec.weight l.spec.weight) >>= fun ls' => .ok ⟨n, pre ++ ls'⟩
  | _, pre, _, .nil => rfl
  | _, pre, _, .cons (a := p) (b := l) (l₁ := ps) (l₂ := ls) h hs => by
    subst h
    have hg : (pre ++ l :: ls)[pre.length]? = some l := by simp
    simp only [passFrom, run, exec, hg, List.mapM_cons]
    cases hl : l.accumulate l.spec.weight l.spec.weight with
    | error e => rfl
    | ok l' =>
      simp only [okBind]
      have : ({ steps := n, layers := (pre ++ l :: ls).set pre.length l' } : State) = ⟨n, (pre ++ [l']) ++ ls⟩ := by simp
      rw [show (pure ({ steps := n, layers := (pre ++ l :: ls).set pre.length l' } : State) : Except PyErr State) = .ok ⟨n, (pre ++ [l']) ++ ls⟩ by rw [← this]; rfl, okBind]
      have := run_pass n ps (pre ++ [l']) ls hs
      simp only [List.length_append, List.length_cons, List.length_nil] at this
      rw [this]
      cases ls.mapM fun l => l.accumulate l.spec.weight l.spec.weight with
      | error e => rfl
      | ok ls' => simp [okBind, pure, Except.pure]

theorem mapM_ok {β γ : Type} {f : β → Except PyErr γ} : ∀ {g : List β} {r : List γ}, g.mapM f = .ok r ↔ List.Forall₂ (fun a b => f a = .ok b) g r
  | [], r => by
    simp only [List.mapM_nil, List.forall₂_nil_left_iff]
    exact ⟨fun h => by cases h; rfl, fun h => by rw [h]; rfl⟩
  | a :: g, r => by
    rw [List.mapM_cons]
    constructor
    · intro h
      cases ha : f a with
      | error e => rw [ha] at h; cases h
      | ok b =>
        cases hg : g.mapM f with
        | error e => rw [ha, hg] at h; cases h
        | ok r' =>
          rw [ha, hg] at h
          cases h
          exact .cons ha (mapM_ok.mp hg)
    · rintro (_ | ⟨ha, hg⟩)
      rw [ha, mapM_ok.mpr hg]
      rfl

theorem mapM_two {β : Type} {f h : β → Except PyErr β} (g : List β) : (∃ r, (g.mapM f >>= fun g' => g'.mapM h) = .ok r) ↔ ∀ a ∈ g, ∃ b, (f a >>= h) = .ok b := by
  constructor
  · rintro ⟨r, hr⟩ a ha
    cases hg : g.mapM f with
    | error e => rw [hg] at hr; cases hr
    | ok g' =>
      rw [hg, okBind] at hr
      have h1 := mapM_ok.mp hg
      have h2 := mapM_ok.mp hr
      obtain ⟨i, hi, rfl⟩ := List.getElem_of_mem ha
      rw [List.forall₂_iff_get] at h1 h2
      refine ⟨r[i]'(by rw [← h2.1, ← h1.1]; exact hi), ?_⟩
      have e1 := h1.2 i hi (h1.1 ▸ hi)
      have e2 := h2.2 i (h1.1 ▸ hi) (by rw [← h2.1, ← h1.1]; exact hi)
      simp only [List.get_eq_getElem] at e1 e2
      rw [e1, okBind, e2]
  · intro H
    induction g with
    | nil => exact ⟨[], rfl⟩
    | cons a g ih =>
      obtain ⟨b, hb⟩ := H a (List.mem_cons_self ..)
      obtain ⟨r, hr⟩ := ih fun a ha => H a (List.mem_cons_of_mem _ ha)
      cases ha : f a with
      | error e => rw [ha] at hb; cases hb
      | ok a' =>
        rw [ha, okBind] at hb
        cases hg : g.mapM f with
        | error e => rw [hg] at hr; cases hr
        | ok g' =>
          rw [hg, okBind] at hr
          refine ⟨b :: r, ?_⟩
          simp only [List.mapM_cons, ha, hg, okBind, hb, hr, pure, Except.pure]

/-- what the state of a layer must be for `C79_exact`: its matrices are of the right classes and each lies on *some* device; momentum buffers are where torch puts them -/
structure LState.Loaded (p : Spec) (l : LState) : Prop where
  spec : l.spec = p
  lying : ∃ k c mk mc hk hc, l.mats.Lying p k c mk mc hk hc
  bufW : ∀ b ∈ l.bufW, b = p.weight
  bufB : ∀ b ∈ l.bufB, b = p.weight

/-- **When an iteration succeeds, exactly.** Let each matrix of each layer lie on some device (as after restoring a checkpoint), at any step counter. A backward pass and a step
succeed if and only if in every layer both factors are on the device of the weight, so are statistics that are already there, and, if the pre-conditioner is due for an
update and uses momenta, the momenta as well. -/
theorem C79_exact (ps : List Spec) (t : ∀ p ∈ ps, p.Together) (hT : ∀ p ∈ ps, p.T ≠ 0) (s : State) (h : List.Forall₂ (fun p l => LState.Loaded p l) ps s.layers) :
    (∃ s', run s (iteration ps) = .ok s') ↔ List.Forall₂ (fun p l => l.mats.K.On p.weight ∧ l.mats.C.On p.weight ∧ (∀ M ∈ l.mats.HK, M.On p.weight) ∧
      (∀ M ∈ l.mats.HC, M.On p.weight) ∧ (s.steps % p.T = 0 → p.riem = true → (∀ M ∈ l.mats.mK, M.On p.weight) ∧ ∀ M ∈ l.mats.mC, M.On p.weight)) ps s.layers := by
  obtain ⟨n, ls⟩ := s
  simp only at h ⊢
  have hr : (∃ s', run ⟨n, ls⟩ (iteration ps) = .ok s') ↔ ∀ l ∈ ls, ∃ l', l.iterate n = .ok l' := by
    have e := run_pass n ps [] ls (h.imp fun p l g => g.spec)
    simp only [List.nil_append, List.length_nil] at e
    rw [iteration, run_append, e]
    refine Iff.trans ?_ (mapM_two (f := fun l : LState => l.accumulate l.spec.weight l.spec.weight) (h := LState.step n) ls)
    cases ls.mapM fun l => l.accumulate l.spec.weight l.spec.weight with
    | error e => exact ⟨fun ⟨_, h⟩ => (by cases h), fun ⟨_, h⟩ => (by cases h)⟩
    | ok ls' =>
      simp only [okBind, run, exec, Bool.false_eq_true, if_false]
      cases ls'.mapM (LState.step n) with
      | error e => exact ⟨fun ⟨_, h⟩ => (by cases h), fun ⟨_, h⟩ => (by cases h)⟩
      | ok r => exact ⟨fun _ => ⟨_, rfl⟩, fun _ => ⟨_, rfl⟩⟩
  rw [hr]
  clear hr
  induction h with
  | nil => simp
  | @cons p l ps ls g _ ih =>
    rw [List.forall_mem_cons, List.forall₂_cons]
    refine and_congr ?_ (ih (fun p hp => t p (List.mem_cons_of_mem _ hp)) fun p hp => hT p (List.mem_cons_of_mem _ hp))
    obtain ⟨k, c, mk, mc, hk, hc, L⟩ := g.lying
    rw [iterate_at g.spec (t p (List.mem_cons_self ..)) (hT p (List.mem_cons_self ..)) L g.bufW g.bufB, on_at L.K, on_at L.C]
    refine and_congr Iff.rfl (and_congr Iff.rfl (and_congr ?_ (and_congr ?_ (imp_congr_right fun _ => imp_congr_ctx Iff.rfl fun hr => ?_))))
    · cases hK : l.mats.HK with
      | none => simp
      | some M => simpa using (on_at (L.HK M hK)).symm
    · cases hC : l.mats.HC with
      | none => simp
      | some M => simpa using (on_at (L.HC M hC)).symm
    · obtain ⟨h1, h2⟩ := L.has hr
      obtain ⟨M, hM⟩ := Option.isSome_iff_exists.mp h1
      obtain ⟨N, hN⟩ := Option.isSome_iff_exists.mp h2
      rw [hM, hN]
      simp only [Option.mem_def, Option.some.injEq, forall_eq']
      rw [on_at (L.mK M hM), on_at (L.mC N hN)]

/-! ### Nothing moves a factor -/

/-- the operation restores a checkpoint -/
def Op.IsLoad : Op → Prop
  | .load .. => True
  | _ => False

theorem add_keeps {K L : DM} : Post (K.add_ L) fun K' => K' = K := post_bind fun _ => post_pure rfl

theorem update_keeps {n : ℕ} {l : LState} : Post (l.update n) fun l' => l'.spec = l.spec ∧ l'.mats.K = l.mats.K ∧ l'.mats.C = l.mats.C := by
  unfold LState.update
  split
  · exact post_error
  · split
    · exact post_ok ⟨rfl, rfl, rfl⟩
    · repeat' first | exact post_error | refine post_bind' add_keeps fun _ h => ?_ | refine post_bind fun _ => ?_ | split
      all_goals (refine post_pure ⟨rfl, ?_, ?_⟩ <;> assumption)

theorem step_keeps {n : ℕ} {l : LState} : Post (l.step n) fun l' => (l'.spec, l'.mats.K, l'.mats.C) = (l.spec, l.mats.K, l.mats.C) := by
  refine post_bind' update_keeps fun l₁ h => post_bind fun _ => post_bind fun _ => ?_
  split
  · exact post_pure (by simp [h])
  · exact post_bind fun _ => post_pure (by simp [h])

theorem accumulate_keeps {l : LState} {x g : Dev} : Post (l.accumulate x g) fun l' => (l'.spec, l'.mats.K, l'.mats.C) = (l.spec, l.mats.K, l.mats.C) :=
  post_bind fun _ => post_bind fun _ => post_bind fun _ => post_bind fun _ => post_pure rfl

theorem exec_keeps {s : State} {op : Op} (ho : ¬ op.IsLoad) :
    Post (exec s op) fun s' => (s'.layers.map fun l => (l.spec, l.mats.K, l.mats.C)) = s.layers.map fun l => (l.spec, l.mats.K, l.mats.C) := by
  cases op with
  | backward i x g =>
    simp only [exec]
    split
    · exact post_ok rfl
    · rename_i l hl
      refine post_bind' accumulate_keeps fun l' h => post_pure ?_
      obtain ⟨hi, e⟩ := List.getElem?_eq_some_iff.mp hl
      refine List.ext_getElem (by simp) fun j h1 h2 => ?_
      simp only [List.getElem_map, List.getElem_set]
      split_ifs with hij
      · subst hij
        rw [e, h]
      · rfl
  | step inf =>
    cases inf with
    | true => exact post_pure (by simp [Function.comp_def])
    | false =>
      simp only [exec, Bool.false_eq_true, if_false]
      exact post_bind' (Dt.mapM_keeps (F := fun l : LState => (l.spec, l.mats.K, l.mats.C)) (fun l l' h => step_keeps l' h) s.layers) fun _ h => post_pure h
  | load n ss => exact absurd trivial ho

/-- where the gradients of a layer can be preconditioned -/
theorem naturalGradient_needs {l : LState} {p : Spec} (e : l.spec = p) {k c d : Dev} (hK : l.mats.K = fromDense p.clsK k) (hC : l.mats.C = fromDense p.clsC c)
    (h : l.naturalGradient = .ok d) : p.Together ∧ k = p.weight ∧ c = p.weight := by
  have t : p.Together := by
    intro b hb
    by_contra hne
    unfold LState.naturalGradient Spec.gradMat at h
    rw [e, hb] at h
    simp only [join_ne (Ne.symm hne)] at h
    cases h
  rw [naturalGradient_at e t hK hC] at h
  split_ifs at h with hh
  exact ⟨t, hh⟩

theorem step_needs {l l' : LState} {p : Spec} {n : ℕ} (e : l.spec = p) {k c : Dev} (hK : l.mats.K = fromDense p.clsK k) (hC : l.mats.C = fromDense p.clsC c)
    (h : l.step n = .ok l') : p.Together ∧ k = p.weight ∧ c = p.weight := by
  unfold LState.step at h
  cases hu : l.update n with
  | error e => rw [hu] at h; cases h
  | ok l₁ =>
    obtain ⟨h1, h2, h3⟩ := update_keeps l₁ hu
    rw [hu, okBind] at h
    cases hn : l₁.naturalGradient with
    | error e => rw [hn] at h; cases h
    | ok d => exact naturalGradient_needs (h1.trans e) (h2.trans hK) (h3.trans hC) hn

theorem run_keeps : ∀ (ops : List Op) {s : State}, (∀ op ∈ ops, ¬ op.IsLoad) →
    Post (run s ops) fun s' => (s'.layers.map fun l => (l.spec, l.mats.K, l.mats.C)) = s.layers.map fun l => (l.spec, l.mats.K, l.mats.C)
  | [], _, _ => post_ok rfl
  | op :: ops, _, ho => post_bind' (exec_keeps (ho op (List.mem_cons_self ..))) fun _ h => fun s' e =>
      (run_keeps ops (fun o h => ho o (List.mem_cons_of_mem _ h)) s' e).trans h

/-- **Training never gets away from a misplaced factor or bias.** If in some layer the bias or one of the factors is not on the device of the weight, then from this state on,
whatever is done short of restoring another checkpoint: every step (that is not skipped for infinities) raises, and so does every backward hook of a layer whose factor
is not where its input or output gradient is. Nothing in the code moves a factor. -/
theorem C79_stuck (s s' : State) (ops : List Op) (ho : ∀ op ∈ ops, ¬ op.IsLoad) (hr : run s ops = .ok s') (i : ℕ) (l : LState) (hl : s.layers[i]? = some l) (k c : Dev)
    (hK : l.mats.K.Lies l.spec.clsK k) (hC : l.mats.C.Lies l.spec.clsC c) :
    (Op.step false ∈ ops → l.spec.Together ∧ k = l.spec.weight ∧ c = l.spec.weight) ∧ ∀ x g, Op.backward i x g ∈ ops → k = x ∧ c = g := by
  rw [lies_iff] at hK hC
  suffices H : ∀ op ∈ ops, (op = .step false → l.spec.Together ∧ k = l.spec.weight ∧ c = l.spec.weight) ∧ ∀ x g, op = .backward i x g → k = x ∧ c = g from
    ⟨fun h => (H _ h).1 rfl, fun x g h => (H _ h).2 x g rfl⟩
  intro op hop
  obtain ⟨a, b, rfl⟩ := List.append_of_mem hop
  rw [run_append] at hr
  cases ha : run s a with
  | error e => rw [ha] at hr; cases hr
  | ok s₁ =>
    rw [ha, okBind, run] at hr
    have hk := run_keeps a (fun o h => ho o (by simp [h])) s₁ ha
    have hl₁ : ∃ l₁, s₁.layers[i]? = some l₁ ∧ l₁.spec = l.spec ∧ l₁.mats.K = l.mats.K ∧ l₁.mats.C = l.mats.C := by
      have := congrArg (fun x => x[i]?) hk
      simp only [List.getElem?_map, hl, Option.map_some] at this
      cases h1 : s₁.layers[i]? with
      | none => rw [h1] at this; cases this
      | some l₁ =>
        rw [h1] at this
        simp only [Option.map_some, Option.some.injEq, Prod.mk.injEq] at this
        exact ⟨l₁, rfl, this⟩
    obtain ⟨l₁, e0, e1, e2, e3⟩ := hl₁
    refine ⟨?_, ?_⟩
    · rintro rfl
      simp only [exec, Bool.false_eq_true, if_false] at hr
      cases hm : s₁.layers.mapM (LState.step s₁.steps) with
      | error e => rw [hm] at hr; cases hr
      | ok ls =>
        obtain ⟨h1, h2⟩ := List.forall₂_iff_get.mp (mapM_ok.mp hm)
        obtain ⟨hi, e⟩ := List.getElem?_eq_some_iff.mp e0
        have := h2 i hi (h1 ▸ hi)
        simp only [List.get_eq_getElem, e] at this
        exact step_needs e1 (e2.trans hK) (e3.trans hC) this
    · rintro x g rfl
      simp only [exec, e0] at hr
      cases hm : l₁.accumulate x g with
      | error e => rw [hm] at hr; cases hr
      | ok l₂ =>
        unfold LState.accumulate at hm
        rw [e2, e3, hK, hC, fromInner_at, fromInner_at] at hm
        by_cases h1 : k = x
        · by_cases h2 : c = g
          · exact ⟨h1, h2⟩
          · rw [if_pos h1, if_neg h2] at hm; cases hm
        · rw [if_neg h1] at hm; cases hm

/-! ### Checkpoints on other devices -/

theorem lies_map {f : Dev → Dev} {c : Cls} {d : Dev} {M : DM} (h : M.Lies c d) : (M.map f).Lies c (f d) := by
  rw [lies_iff] at h ⊢
  rw [h, map_at]

/-- **Which checkpoints can be restored where.** Take any optimiser in a usable state, save it, read the checkpoint with `map_location=f`, and restore it into an optimiser with
the same classes and update intervals whose layers may live on other devices. Then the next iteration succeeds if and only if `f` sends the device of every layer's old weight to
the device of its new weight. (The momentum buffers do not matter: torch puts them where the parameters are.) -/
theorem C79_map_location (f : Dev → Dev) (ps qs : List Spec) (s s₀ : State) (bufs : List (Bool × Bool)) (hlen : bufs.length = s.layers.length)
    (g : List.Forall₂ (fun p l => LState.Good p l) ps s.layers) (g₀ : List.Forall₂ (fun p l => LState.Good p l) qs s₀.layers)
    (same : List.Forall₂ (fun p q => Spec.clsK p = q.clsK ∧ p.clsC = q.clsC ∧ p.riem = q.riem) ps qs) (t : ∀ q ∈ qs, q.Together) (hT : ∀ q ∈ qs, q.T ≠ 0) :
    (∃ s', run s₀ (.load s.steps (List.zip (s.layers.map fun l => l.mats.map f) bufs) :: iteration qs) = .ok s') ↔
      List.Forall₂ (fun p q => f (Spec.weight p) = q.weight) ps qs := by
  simp only [run, exec, okBind]
  rw [List.forall₂_iff_get] at g g₀ same
  set ls := List.zipWith (fun l s => LState.load l s.1 s.2) s₀.layers (List.zip (s.layers.map fun l => l.mats.map f) bufs) with hls
  have len : ls.length = qs.length := by
    rw [hls]
    simp only [List.length_zipWith, List.length_zip, List.length_map, hlen, ← g.1, ← g₀.1, same.1, min_self]
  have lying : ∀ (i : ℕ) (h1 : i < ps.length) (h2 : i < qs.length) (h3 : i < ls.length), ls[i].spec = qs[i] ∧
      ls[i].mats.Lying qs[i] (f ps[i].weight) (f ps[i].weight) (f ps[i].weight) (f ps[i].weight) (f ps[i].weight) (f ps[i].weight) ∧
      (∀ b ∈ ls[i].bufW, b = qs[i].weight) ∧ ∀ b ∈ ls[i].bufB, b = qs[i].weight := by
    intro i h1 h2 h3
    have a := g.2 i h1 (g.1 ▸ h1)
    have b := g₀.2 i h2 (g₀.1 ▸ h2)
    obtain ⟨c1, c2, c3⟩ := same.2 i h1 h2
    simp only [List.get_eq_getElem] at a b c1 c2 c3
    have e : ls[i] = LState.load (s₀.layers[i]'(g₀.1 ▸ h2)) ((s.layers[i]'(g.1 ▸ h1)).mats.map f) (bufs[i]'(by rw [hlen, ← g.1]; exact h1)) := by
      simp [hls]
    rw [e]
    refine ⟨b.spec, ⟨?_, ?_, ?_, ?_, ?_, ?_, ?_⟩, ?_, ?_⟩
    · exact c1 ▸ lies_map a.mats.K
    · exact c2 ▸ lies_map a.mats.C
    · intro M hM
      simp only [LState.load, Saved.map, Option.mem_def, Option.map_eq_some_iff] at hM
      obtain ⟨N, hN, rfl⟩ := hM
      exact c1 ▸ lies_map (a.mats.mK N hN)
    · intro M hM
      simp only [LState.load, Saved.map, Option.mem_def, Option.map_eq_some_iff] at hM
      obtain ⟨N, hN, rfl⟩ := hM
      exact c2 ▸ lies_map (a.mats.mC N hN)
    · intro h
      simpa [LState.load, Saved.map] using a.mats.has (c3.trans h)
    · intro M hM
      simp only [LState.load, Saved.map, Option.mem_def, Option.map_eq_some_iff] at hM
      obtain ⟨N, hN, rfl⟩ := hM
      exact c1 ▸ lies_map (a.mats.HK N hN)
    · intro M hM
      simp only [LState.load, Saved.map, Option.mem_def, Option.map_eq_some_iff] at hM
      obtain ⟨N, hN, rfl⟩ := hM
      exact c2 ▸ lies_map (a.mats.HC N hN)
    · simp only [LState.load]
      split_ifs <;> simp [b.spec]
    · simp only [LState.load]
      split_ifs
      · rw [b.spec]; exact t _ (List.getElem_mem _)
      · simp
  rw [C79_exact qs t hT ⟨s.steps, ls⟩ (List.forall₂_iff_get.mpr ⟨len.symm, fun i h1 h2 => by
    obtain ⟨a, b, c, d⟩ := lying i (same.1 ▸ h1) h1 h2
    exact ⟨a, ⟨_, _, _, _, _, _, b⟩, c, d⟩⟩), List.forall₂_iff_get, List.forall₂_iff_get]
  constructor
  · rintro ⟨-, H⟩
    refine ⟨same.1, fun i h1 h2 => ?_⟩
    have h3 : i < ls.length := len ▸ h2
    obtain ⟨-, b, -, -⟩ := lying i h1 h2 h3
    exact (on_at b.K).mp (H i h2 h3).1
  · rintro ⟨-, H⟩
    refine ⟨len.symm, fun i h1 h2 => ?_⟩
    have h3 : i < ps.length := same.1 ▸ h1
    obtain ⟨-, b, -, -⟩ := lying i h3 h1 h2
    have e := H i h3 h1
    simp only [List.get_eq_getElem] at e ⊢
    exact ⟨(on_at b.K).mpr e, (on_at b.C).mpr e, fun M hM => (on_at (b.HK M hM)).mpr e, fun M hM => (on_at (b.HC M hM)).mpr e,
      fun _ _ => ⟨fun M hM => (on_at (b.mK M hM)).mpr e, fun M hM => (on_at (b.mC M hM)).mpr e⟩⟩

/-! ### Examples -/

namespace Sample

/-- a layer with a bias on GPU 1 -/
def gpu1 : Spec := ⟨1, some 1, .block 2, .topRight (.int 2) .inf .dense .diagonal, 1, false, true, true, true⟩
/-- a layer without bias on GPU 2 -/
def gpu2 : Spec := ⟨2, none, .hier 1 1, .tril, 2, true, false, false, true⟩
/-- a layer whose bias was left on the CPU -/
def split : Spec := { gpu1 with bias := some 0 }
/-- a layer like `gpu1` on the CPU -/
def cpu : Spec := { gpu1 with weight := 0, bias := some 0 }

def isOk {β : Type} : Except PyErr β → Bool
  | .ok _ => true
  | .error _ => false

/-- the state after two iterations -/
def trained (ps : List Spec) : State := match run (init ps) (iteration ps ++ iteration ps) with
  | .ok s => s
  | .error _ => init ps

/-- the checkpoint of a state, read with `map_location=f` -/
def checkpoint (f : Dev → Dev) (s : State) : Op := .load s.steps (s.layers.map fun l => (l.mats.map f, l.bufW.isSome, l.bufB.isSome))

end Sample

open Sample

/-- a model spread over two GPUs, trained, with a skipped step and a restored checkpoint -/
example : (∀ p ∈ [gpu1, gpu2], p.Together) ∧ (∀ p ∈ [gpu1, gpu2], p.T ≠ 0) ∧
    isOk (run (init [gpu1, gpu2]) (iteration [gpu1, gpu2] ++ [.step true] ++ iteration [gpu1, gpu2] ++ iteration [gpu1, gpu2])) = true := by
  refine ⟨?_, by decide, by decide +kernel⟩
  intro p hp b hb
  fin_cases hp <;> simp_all [gpu1, gpu2]

/-- **A checkpoint read onto the CPU cannot be used on a GPU**: training on GPU 1, checkpoint restored with `map_location="cpu"` into the same optimiser on GPU 1: the next
backward pass raises, although `load_state_dict` accepted the checkpoint; with `map_location` the GPU it goes on. The other way round likewise. -/
theorem C79_cpu_false : run (trained [gpu1]) [checkpoint (fun _ => 0) (trained [gpu1]), .backward 0 1 1] = .error .runtimeError ∧
    isOk (run (trained [gpu1]) (checkpoint id (trained [gpu1]) :: iteration [gpu1])) = true ∧
    run (trained [cpu]) [checkpoint id (trained [gpu1]), .backward 0 0 0] = .error .runtimeError ∧
    isOk (run (trained [cpu]) (checkpoint (fun _ => 0) (trained [gpu1]) :: iteration [cpu])) = true := by
  decide +kernel

/-- **A bias on another device**: the constructor and the backward pass succeed, the first step raises -/
theorem C79_bias_false : isOk (run (init [split]) (passFrom 0 [split])) = true ∧ run (init [split]) (iteration [split]) = .error .runtimeError := by
  decide +kernel

/-- hypotheses of `C79_map_location`: a state after training on GPU 1 and a new optimiser on the CPU -/
example : ∃ s : State, run (init [gpu1]) (iteration [gpu1]) = .ok s ∧ List.Forall₂ (fun p l => LState.Good p l) [gpu1] s.layers ∧
    List.Forall₂ (fun p l => LState.Good p l) [cpu] (init [cpu]).layers ∧
    List.Forall₂ (fun p q => Spec.clsK p = q.clsK ∧ p.clsC = q.clsC ∧ p.riem = q.riem) [gpu1] [cpu] ∧ List.Forall₂ (fun p q => (fun _ => 0) (Spec.weight p) = q.weight) [gpu1] [cpu] := by
  have t : ∀ p ∈ [gpu1], p.Together := fun p hp b hb => by simp_all [gpu1]
  rcases run_local t (by decide) (iteration [gpu1]) (good_inits [gpu1]) (by
      intro op h
      simp only [iteration, passFrom, List.mem_append, List.mem_cons, List.not_mem_nil, or_false] at h
      rcases h with rfl | rfl
      · intro p hp
        simp at hp
        subst hp
        exact ⟨rfl, rfl⟩
      · trivial) with ⟨s, h1, h2⟩ | h
  · exact ⟨s, h1, h2, good_inits _, .cons ⟨rfl, rfl, rfl⟩ .nil, .cons rfl .nil⟩
  · exact absurd h (by decide +kernel)

/-- hypotheses of `C79_exact` and `C79_stuck` with matrices on different devices: a restored layer whose momenta are on the CPU, factors and statistics on GPU 1 -/
example : LState.Loaded gpu1 ⟨gpu1, ⟨eye gpu1.clsK 1, eye gpu1.clsC 1, some (zeros gpu1.clsK 0), some (zeros gpu1.clsC 0), none, none⟩, some 1, some 1⟩ :=
  ⟨rfl, ⟨1, 1, 0, 0, 0, 0, lies_iff.mpr rfl, lies_iff.mpr rfl, fun M h => by cases h; exact lies_iff.mpr rfl, fun M h => by cases h; exact lies_iff.mpr rfl, fun _ => ⟨rfl, rfl⟩,
    (by simp), (by simp)⟩, by simp [gpu1], by simp [gpu1]⟩

/-! ### Matrices whose tensors are scattered over devices -/

theorem join_eq_ok {a b d : Dev} : join a b = .ok d ↔ a = d ∧ b = d := by
  unfold join
  split_ifs with h
  · subst h; simp
  · simp only [reduceCtorEq, false_iff]; rintro ⟨rfl, rfl⟩; exact h rfl

theorem bind_eq_ok {β γ : Type} {x : Except PyErr β} {f : β → Except PyErr γ} {c : γ} : (x >>= f) = .ok c ↔ ∃ b, x = .ok b ∧ f b = .ok c := by
  cases x with
  | error e => exact ⟨(by intro h; cases h), (by rintro ⟨_, h, _⟩; cases h)⟩
  | ok b => exact ⟨fun h => ⟨b, rfl, h⟩, (by rintro ⟨_, h, h'⟩; cases h; exact h')⟩

/-- **Products need every tensor of a matrix in one place**: a matrix of a class that is not nested, with its tensors on arbitrary devices, can be multiplied by a tensor exactly if all
its tensors are on the device of that tensor, where the product is put; the transposed product likewise. -/
theorem C79_scattered_apply (M : DM) (hM : ∀ a c cA cC, M.cls ≠ .topRight a c cA cC ∧ M.cls ≠ .bottomLeft a c cA cC) (x d : Dev) :
    (M.matmulT x = .ok d ↔ M.On x ∧ d = x) ∧ (M.rmatmat x = .ok d ↔ M.On x ∧ d = x) := by
  cases M with
  | topRight a c cA cC A B C => exact absurd rfl (hM a c cA cC).1
  | bottomLeft a c cA cC A B C => exact absurd rfl (hM a c cA cC).2
  | _ =>
    simp only [DM.matmulT, DM.rmatmat, DM.On, DM.devices, bind_eq_ok, join_eq_ok, List.mem_cons, List.not_mem_nil, or_false, forall_eq_or_imp, forall_eq]
    constructor <;> constructor <;> first | (rintro ⟨h, rfl⟩; simp_all) | (intro h; grind)

/-- **What the dense copy of a scattered matrix needs**: for the hierarchical class only `A` and `C` must be together (the other tensors are copied into place), for the nested classes
the dense copies of the two diagonal parts; the result is on their device. -/
theorem C79_scattered_dense (d : Dev) :
    (∀ a b A B C D E, (DM.hier a b A B C D E).toDense = .ok d ↔ A = d ∧ C = d) ∧
    (∀ a c cA cC A B C, (DM.topRight a c cA cC A B C).toDense = .ok d ↔ A.toDense = .ok d ∧ C.toDense = .ok d) ∧
    ∀ a c cA cC A B C, (DM.bottomLeft a c cA cC A B C).toDense = .ok d ↔ A.toDense = .ok d ∧ C.toDense = .ok d := by
  refine ⟨fun a b A B C D E => ?_, fun a c cA cC A B C => ?_, fun a c cA cC A B C => ?_⟩ <;>
    simp only [DM.toDense, sliceAssign, bind_eq_ok, join_eq_ok, pure, Except.pure, Except.ok.injEq] <;> grind

/-- **Products of two hierarchical matrices** with tensors on arbitrary devices succeed exactly if all ten tensors are on one device, where the product is put. -/
theorem C79_scattered_product (a b a' b' : ℕ) (A B C D E A' B' C' D' E' : Dev) (M : DM) :
    (DM.hier a b A B C D E).matmulS (.hier a' b' A' B' C' D' E') = .ok M ↔
      ∃ d, (DM.hier a b A B C D E).On d ∧ (DM.hier a' b' A' B' C' D' E').On d ∧ M = fromDense (.hier a b) d := by
  simp only [DM.matmulS, DM.On, DM.devices, fromDense, bind_eq_ok, join_eq_ok, List.mem_cons, List.not_mem_nil, or_false, forall_eq_or_imp, forall_eq, pure, Except.pure, Except.ok.injEq]
  constructor
  · grind
  · rintro ⟨d, ⟨rfl, rfl, rfl, rfl, rfl⟩, ⟨rfl, rfl, rfl, rfl, rfl⟩, rfl⟩
    simp

/-- hypotheses of the three: a hierarchical matrix with one tensor left on the CPU has a dense copy and no product -/
example : (DM.hier 1 1 1 1 1 0 1).toDense = .ok 1 ∧ (DM.hier 1 1 1 1 1 0 1).matmulT 1 = .error .runtimeError ∧
    (DM.hier 1 1 1 1 1 0 1).matmulS (.hier 1 1 1 1 1 1 1) = .error .runtimeError ∧ (DM.hier 1 1 1 1 1 1 1).matmulS (.hier 1 1 1 1 1 1 1) = .ok (.hier 1 1 1 1 1 1 1) := by
  decide +kernel

/-- **The update of a parameter** with natural gradient and momentum buffer on arbitrary devices succeeds exactly if the natural gradient and, with momentum, the buffer are on the device of the parameter. -/
theorem C79_parameter (s : Spec) (p n : Dev) (buf r : Option Dev) :
    applyParam s p buf n = .ok r ↔ n = p ∧ (s.momentum = true → ∀ b ∈ buf, b = p) ∧ r = if s.momentum then some p else buf := by
  unfold applyParam
  cases hd : s.decay <;> cases hm : s.momentum <;> cases buf <;>
    simp only [Bool.false_eq_true, if_false, if_true, bind_eq_ok, join_eq_ok, pure, Except.pure, Except.ok.injEq, Option.getD, Option.mem_def, reduceCtorEq, Option.some.injEq] <;> grind

example : applyParam { gpu1 with momentum := true, decay := true } 1 (some 1) 1 = .ok (some 1) ∧ applyParam { gpu1 with momentum := true } 1 (some 0) 1 = .error .runtimeError := by decide +kernel

/-- **The step counter** of a run without restored checkpoints is the number of steps, also of skipped ones. -/
theorem C79_counter (ops : List Op) (ho : ∀ op ∈ ops, ¬ op.IsLoad) (ps : List Spec) (s : State) (h : run (init ps) ops = .ok s) :
    s.steps = ops.countP fun op => decide (op = .step true ∨ op = .step false) := by
  have key : ∀ (ops : List Op) (s₀ s : State), (∀ op ∈ ops, ¬ op.IsLoad) → run s₀ ops = .ok s → s.steps = s₀.steps + ops.countP fun op => decide (op = .step true ∨ op = .step false) := by
    intro ops
    induction ops with
    | nil => intro s₀ s _ h; injection h with h; subst h; simp
    | cons op ops ih =>
      intro s₀ s ho h
      rw [run, bind_eq_ok] at h
      obtain ⟨s₁, h1, h2⟩ := h
      have := ih s₁ s (fun o m => ho o (List.mem_cons_of_mem _ m)) h2
      rw [this, List.countP_cons]
      cases op with
      | backward i x g =>
        have e : s₁.steps = s₀.steps := by
          rw [exec] at h1
          split at h1
          · injection h1 with h1; rw [h1]
          · rw [bind_eq_ok] at h1
            obtain ⟨l', -, h1⟩ := h1
            injection h1 with h1; rw [← h1]
        simp [e]
      | step b =>
        have e : s₁.steps = s₀.steps + 1 := by
          rw [exec, bind_eq_ok] at h1
          obtain ⟨l', -, h1⟩ := h1
          injection h1 with h1; rw [← h1]
        cases b <;> simp [e] <;> omega
      | load n ss => exact (ho (.load n ss) (by simp) trivial).elim
  simpa [init] using key ops (init ps) s ho h

example : (match run (init [gpu1]) (iteration [gpu1] ++ [.step true]) with | .ok s => s.steps | .error _ => 0) = 2 := by decide +kernel

/-- **Restored momentum buffers**: a parameter has one exactly if the checkpoint has. -/
theorem C79_restored_buffers (l : LState) (s : Saved) (buf : Bool × Bool) :
    ((l.load s buf).bufW = if buf.1 then some l.spec.weight else none) ∧ ((l.load s buf).bufB.isSome = (buf.2 && l.spec.bias.isSome)) ∧ ∀ b ∈ (l.load s buf).bufB, some b = l.spec.bias := by
  obtain ⟨a, b⟩ := buf
  unfold LState.load
  cases a <;> cases b <;> cases l.spec.bias <;> simp

end Dv
