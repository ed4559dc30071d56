import Verif.Proofs.HeapSim

set_option linter.unusedSectionVars false

/-! Parameter steps, statistics and whole histories at the level of memory. -/

variable {α : Type} [Field α] [LinearOrder α] [HasSqrt α]

namespace HWorld
open Mem

theorem updatePreconditioner_sim (m : Layer) : Sim (α := α) (updatePreconditioner m) (World.updatePreconditioner m) :=
  Sim.get fun hw => Sim.lift (hw.base.opt.hyperOf m) fun h => by
    change Sim (if h.T = 0 then _ else if hw.base.opt.steps % h.T ≠ 0 then _ else _)
      (if h.T = 0 then _ else if hw.base.opt.steps % h.T ≠ 0 then _ else _)
    split
    · exact Sim.raise _ _
    · split
      · exact Sim.pure
      · exact updateOn_sim h m

theorem forwardHook_sim (m : Layer) (x : ND α) (ge : Bool) : Sim (forwardHook m x ge) (World.forwardHook m x ge) :=
  Sim.get fun hw => Sim.lift (hw.base.opt.hyperOf m) fun h => by
    change Sim (if ge = true then if h.T = 0 then _ else if hw.base.opt.steps % h.T = 0 then _ else _ else _)
      (if ge = true then if h.T = 0 then _ else if hw.base.opt.steps % h.T = 0 then _ else _ else _)
    split
    · split
      · exact Sim.raise _ _
      · split
        · intro hw o w' e
          cases e
          exact ⟨_, rfl, ⟨o.nodup, o.lt, o.sep, o.data, o.mom⟩, rfl⟩
        · exact Sim.pure
    · exact Sim.pure

/-! ### tensors that are only held by local variables -/

/-- `r` shares no memory with anything stored -/
structure Temp (hw : HWorld α) (r : SM ℕ) : Prop where
  nodup : (loc r).Nodup
  lt : ∀ x ∈ loc r, x < hw.mem.next
  sep : ∀ s r', hw.ref s = some r' → ∀ x ∈ loc r, x ∉ loc r'

theorem Owned.val_temp {hw : HWorld α} {m' : Mem α} {r : SM ℕ} (t : Temp hw r) (i : InPlace (loc r) hw.mem m') :
    ({ hw with mem := m' } : HWorld α).val = hw.val := by
  funext s
  simp only [val]
  rcases h : hw.ref s with _ | r'
  · rfl
  · simp only [Option.map_some, i.read fun x hx hy => t.sep s r' h x hy hx]

theorem Temp.inPlace {hw : HWorld α} {m' : Mem α} {r : SM ℕ} (t : Temp hw r) {l : List ℕ} (i : InPlace l hw.mem m') :
    Temp { hw with mem := m' } r := ⟨t.nodup, fun x hx => by simp only; rw [i.next]; exact t.lt x hx, t.sep⟩
theorem Temp.ext {hw : HWorld α} {m' : Mem α} {r : SM ℕ} (t : Temp hw r) (i : Ext hw.mem m') :
    Temp { hw with mem := m' } r := ⟨t.nodup, fun x hx => lt_of_lt_of_le (t.lt x hx) i.le, t.sep⟩
theorem Temp.of_new {hw : HWorld α} {m' : Mem α} {r : SM ℕ} {X : SM α} (o : Owned hw) (n : New hw.mem m' r X) : Temp { hw with mem := m' } r :=
  ⟨n.fresh.nodup, n.lt, fun s r' h x hx hy => by have := o.lt s r' h x hy; have := n.fresh.mem x hx; omega⟩

/-- `t` is still a temporary with the same contents -/
def Kept (hw hw' : HWorld α) (t : SM ℕ) : Prop := Temp hw' t ∧ hw'.mem.read t = hw.mem.read t

theorem accum_spec {hw : HWorld α} (o : Owned hw) {s : Slot} {r : SM ℕ} {X : SM α} (hs : ∀ p, s ≠ .data p ∧ s ≠ .mom p) (t : Temp hw r)
    (e : World.accum (hw.val s) (hw.mem.read r) = .ok X) :
    ∃ hw', accum s r hw = (.ok (), hw') ∧ Owned hw' ∧ hw'.base = hw.base ∧ hw'.val = Function.update hw.val s (some X) ∧
      ∀ r', Temp hw r' → (∀ x ∈ loc r', x ∉ loc r) → Kept hw hw' r' := by
  rcases h : hw.ref s with _ | H0
  · simp only [val, h, Option.map_none, World.accum] at e
    cases e
    refine ⟨{ hw with ref := Function.update hw.ref s (some r) }, ?_, o.assign t.nodup t.lt (fun s' r' _ h' => t.sep s' r' h') fun p hp => ?_,
      rfl, val_assign s r, fun r' t' d => ⟨⟨t'.nodup, t'.lt, fun s' r'' h' => ?_⟩, rfl⟩⟩
    · simp only [accum]; rw [Py.get_bind_run]; simp only [h]; rfl
    · rcases hp with hp | hp
      · exact absurd hp (hs p).1
      · exact absurd hp (hs p).2
    · by_cases e : s' = s
      · subst e; simp at h'; subst h'; exact d
      · simp only [Function.update_of_ne e] at h'; exact t'.sep s' r'' h'
  · simp only [val, h, Option.map_some, World.accum] at e
    obtain ⟨m1, f1, i1, r1⟩ := add_spec H0 r 1 hw.mem X (o.nodup s H0 h) (.inr fun x hx hy => t.sep s H0 h x hy hx) e
    refine ⟨{ hw with mem := m1 }, ?_, o.inPlace i1, rfl, by rw [o.val_inPlace h i1, r1], fun r' t' d =>
      ⟨t'.inPlace i1, i1.read fun x hx => t'.sep s H0 h x hx⟩⟩
    simp only [accum]; rw [Py.get_bind_run]; simp only [h]
    exact onMem_run f1

theorem accumulateH_sim (m : Layer) (x g : ND α) : Sim (accumulateH m x g) (World.accumulateH m x g) := by
  intro hw o w' e
  rw [World.accumulateH, Py.get_bind_run] at e
  obtain ⟨H, _, e1, e⟩ := Py.bind_eq_ok.1 e
  obtain ⟨eH, rfl⟩ := lift_ok e1
  rw [World.commitH, Py.get_bind_run] at e
  obtain ⟨XK, _, e1, e⟩ := Py.bind_eq_ok.1 e
  obtain ⟨eXK, rfl⟩ := lift_ok e1
  rw [World.setOpt, Py.modify_bind_run] at e
  obtain ⟨XC, _, e1, e⟩ := Py.bind_eq_ok.1 e
  obtain ⟨eXC, rfl⟩ := lift_ok e1
  cases e
  obtain ⟨h, eh, eH⟩ := IOProof.Except.bind_eq_ok eH
  obtain ⟨a, ea, eH⟩ := IOProof.Except.bind_eq_ok eH
  obtain ⟨g1, eg, eH⟩ := IOProof.Except.bind_eq_ok eH
  obtain ⟨K, eK, eH⟩ := IOProof.Except.bind_eq_ok eH
  obtain ⟨C, eC, eH⟩ := IOProof.Except.bind_eq_ok eH
  obtain ⟨HK, eHK, eH⟩ := IOProof.Except.bind_eq_ok eH
  obtain ⟨prev, ep, eH⟩ := IOProof.Except.bind_eq_ok eH
  obtain ⟨g2, eg2, eH⟩ := IOProof.Except.bind_eq_ok eH
  obtain ⟨HC, eHC, eH⟩ := IOProof.Except.bind_eq_ok eH
  cases eH
  change hw.base.opt.hyperOf m = .ok h at eh
  change hw.base.opt.scale ((hw.base.opt.steps : ℤ) - 1) = .ok prev at ep
  obtain ⟨rK, hK, vK⟩ := ref_of_val (hw := hw) (lookup_ok eK)
  obtain ⟨rC, hC, vC⟩ := ref_of_val (hw := hw) (lookup_ok eC)
  rw [← vK] at eHK
  obtain ⟨r1, m1, f1, N1⟩ := fromInner_spec eHK
  rw [← vC, ← N1.ext.read (o.lt _ _ hC)] at eHC
  obtain ⟨r2, m2, f2, N2⟩ := fromInner_spec eHC
  have o1 := o.ext N1.ext
  have v1 := o.val_ext N1.ext
  have t1 := Temp.of_new o N1
  set hw1 : HWorld α := { hw with mem := m1 } with d1
  have o2 : Owned { hw1 with mem := m2 } := o1.ext N2.ext
  have v2 : ({ hw1 with mem := m2 } : HWorld α).val = hw1.val := o1.val_ext N2.ext
  have t1' : Temp { hw1 with mem := m2 } r1 := t1.ext N2.ext
  have t2 : Temp { hw1 with mem := m2 } r2 := Temp.of_new o1 N2
  set hw2 : HWorld α := { hw1 with mem := m2 } with d2
  have run : localH m x g hw = (.ok (r1, r2), hw2) := by
    unfold localH
    rw [Py.get_bind_run, lift_bind eh, lift_bind ea, lift_bind eg, Py.bind_ok (deref_run hK), Py.bind_ok (deref_run hC),
      Py.bind_ok (onMem_run f1), lift_bind ep, lift_bind eg2, Py.bind_ok (onMem_run (hw := hw1) f2)]
    rfl
  have q1 : hw2.mem.read r1 = HK := by rw [d2]; simp only; rw [N2.ext.read N1.lt, N1.read]
  have q2 : hw2.mem.read r2 = HC := N2.read
  have w2 : hw2.val = hw.val := v2.trans v1
  obtain ⟨hw3, f3, o3, b3, v3, k3⟩ := accum_spec o2 (s := .HK m.name) (X := XK) (by simp) t1' (by rw [w2, q1]; exact eXK)
  obtain ⟨t3, q3⟩ := k3 r2 t2 fun x hx hy => by have := N2.fresh.mem x hx; have := N1.lt x hy; omega
  obtain ⟨hw4, f4, o4, b4, v4, k4⟩ := accum_spec o3 (s := .HC m.name) (X := XC) (by simp) t3 (by
    rw [v3, q3, q2, Function.update_of_ne (by simp), w2]; exact eXC)
  refine ⟨hw4, ?_, o4, ?_⟩
  · unfold accumulateH
    rw [Py.bind_ok run, Py.bind_ok f3, f4]
  · rw [HWorld.abs, v4, v3, w2, b4, b3, build_HC, build_HK]
    rfl


/-! ### parameters -/

theorem read_dense {m : Mem α} {d : Mat ℕ} : m.read (.dense d) = .dense (m.readM d) := rfl
theorem add_dense {d e : Mat ℕ} {s : α} {m : Mem α} {X : Mat α} (hd : (locM d).Nodup) (hs : ∀ a ∈ locM d, a ∉ locM e)
    (h : (m.readM d).add? ((m.readM e).smul s) = .ok X) :
    ∃ m', add_ (.dense d) (.dense e) s m = (.ok (), m') ∧ InPlace (locM d) m m' ∧ m'.readM d = X := by
  obtain ⟨m', e1, i, r⟩ := add_spec (.dense d) (.dense e) s m (.dense X) hd (.inr hs) (by
    rw [read_dense, read_dense, SM.add_]
    simp only [h]
    rfl)
  exact ⟨m', e1, i, by simpa [Mem.read] using r⟩

theorem abs_data {hw : HWorld α} {p : ℕ} {d : Mat ℕ} (h : hw.ref (.data p) = some (.dense d)) : hw.abs.data p = hw.mem.readM d := by
  simp only [abs, World.build, val, h, Option.map_some, Option.getD_some, Mem.read, SM.toDense]

/-- `p.data.add_(step, alpha=-lr)` -/
theorem moveParam_spec {hw : HWorld α} (o : Owned hw) {h : Hyper α} {p : ℕ} {d e : Mat ℕ} {w' : World α} (hd : hw.ref (.data p) = some (.dense d))
    (he : ∀ x ∈ locM e, x ∉ locM d) (ev : World.moveParam h p (hw.mem.readM e) hw.abs = (.ok (), w')) :
    ∃ hw', onMem (add_ (.dense d) (.dense e) (-h.lr)) hw = (.ok (), hw') ∧ Owned hw' ∧ hw'.base = hw.base ∧ hw'.ref = hw.ref ∧ hw'.abs = w' ∧
      InPlace (locM d) hw.mem hw'.mem := by
  rw [World.moveParam, Py.get_bind_run] at ev
  obtain ⟨X, _, e1, ev⟩ := Py.bind_eq_ok.1 ev
  obtain ⟨eX, rfl⟩ := lift_ok e1
  cases ev
  rw [abs_data hd] at eX
  obtain ⟨m1, f1, i1, r1⟩ := add_dense (o.nodup _ _ hd) (fun a ha hb => he a hb ha) eX
  refine ⟨_, onMem_run f1, o.inPlace i1, rfl, rfl, ?_, i1⟩
  rw [abs, o.val_inPlace hd i1, build_data, read_dense, r1]
  rfl

/-- the momentum buffer exists afterwards -/
theorem buffer_spec {hw : HWorld α} (o : Owned hw) (p r c : ℕ) :
    ∃ b hw', buffer p r c hw = (.ok (.dense b), hw') ∧ Owned hw' ∧ hw'.base = hw.base ∧ hw'.ref (.mom p) = some (.dense b) ∧
      hw'.mem.readM b = (hw.abs.opt.mom p).getD (Mat.zeros r c) ∧
      (∀ s, s ≠ .mom p → hw'.ref s = hw.ref s ∧ hw'.val s = hw.val s) ∧ Ext hw.mem hw'.mem ∧
      ∀ t, Temp hw t → Kept hw hw' t := by
  rcases h : hw.ref (.mom p) with _ | b
  · obtain ⟨z, m1, f1, x1, r1, _, _, fr⟩ := newM_spec (Mat.zeros r c) hw.mem
    have o1 := o.ext x1
    have v1 := o.val_ext x1
    have nd : ∀ t r', hw.ref t = some r' → ∀ a ∈ locM z, a ∉ loc r' := fun t r' h a ha hb => by
      have := o.lt t r' h a hb; have := fr.mem a ha; omega
    refine ⟨z, { hw with mem := m1, ref := Function.update hw.ref (.mom p) (some (.dense z)) }, ?_,
      o1.assign (r := .dense z) fr.nodup (fun a ha => (fr.mem a ha).2) (fun t r' _ h => nd t r' h) (fun _ _ => ⟨z, rfl⟩), rfl, by simp, ?_, ?_, x1, ?_⟩
    · simp only [buffer]; rw [Py.get_bind_run]; simp only [h]
      rw [Py.bind_ok (onMem_run f1)]; rfl
    · simp only [abs, World.build, val, h, Option.map_none, Option.getD_none, r1]
    · intro s hs
      refine ⟨Function.update_of_ne hs _ _, ?_⟩
      have := congrFun (val_assign (hw := { hw with mem := m1 }) (.mom p) (.dense z)) s
      rw [Function.update_of_ne hs, v1] at this
      exact this
    · intro t ht
      refine ⟨⟨ht.nodup, fun x hx => lt_of_lt_of_le (ht.lt x hx) x1.le, fun s r' h' x hx hy => ?_⟩, x1.read ht.lt⟩
      by_cases e : s = .mom p
      · subst e; simp at h'; subst h'; have := fr.mem x hy; have := ht.lt x hx; omega
      · simp only [Function.update_of_ne e] at h'; exact ht.sep s r' h' x hx hy
  · obtain ⟨d, rfl⟩ := o.mom p b h
    refine ⟨d, hw, ?_, o, rfl, h, ?_, fun s _ => ⟨rfl, rfl⟩, .refl _, fun t ht => ⟨ht, rfl⟩⟩
    · simp only [buffer]; rw [Py.get_bind_run]; simp only [h]; rfl
    · simp only [abs, World.build, val, h, Option.map_some, Option.getD_some, Mem.read, SM.toDense]

theorem smul_one_mat (X : Mat α) : X.smul 1 = X := Mat.ext' rfl rfl fun i hi j hj => by simp

/-- one parameter; `step` is only held by a local variable, and so are the `t` that survive -/
theorem paramStep_spec {hw : HWorld α} (o : Owned hw) {h : Hyper α} {p : ℕ} {d : Mat ℕ} {w' : World α} (ht : Temp hw (.dense d))
    (ev : World.paramStep h p (hw.mem.readM d) hw.abs = (.ok (), w')) :
    ∃ hw', paramStep h p (.dense d) hw = (.ok (), hw') ∧ Owned hw' ∧ hw'.abs = w' ∧
      ∀ t, Temp hw t → (∀ x ∈ loc t, x ∉ locM d) → Kept hw hw' t := by
  obtain ⟨e, he⟩ := o.data p
  rw [World.paramStep, Py.get_bind_run] at ev
  obtain ⟨S, _, e1, ev⟩ := Py.bind_eq_ok.1 ev
  obtain ⟨eS, rfl⟩ := lift_ok e1
  have de : ∀ x ∈ locM d, x ∉ locM e := ht.sep _ _ he
  -- weight decay
  obtain ⟨hw1, f1, o1, b1, rf1, v1, s1, t1, k1⟩ : ∃ hw1, decay h (.dense e) (.dense d) hw =
      (.ok (), hw1) ∧ Owned hw1 ∧ hw1.base = hw.base ∧ hw1.ref = hw.ref ∧ hw1.val = hw.val ∧ hw1.mem.readM d = S ∧ Temp hw1 (.dense d) ∧
      ∀ t, Temp hw t → (∀ x ∈ loc t, x ∉ locM d) → Kept hw hw1 t := by
    rw [World.decay] at eS
    split at eS
    · rename_i hw0
      rw [abs_data he] at eS
      obtain ⟨m1, f1, i1, r1⟩ := add_dense ht.nodup de eS
      exact ⟨_, by rw [decay, if_pos hw0]; exact onMem_run f1, o.inPlace i1, rfl, rfl, Owned.val_temp ht i1, r1, ht.inPlace i1,
        fun t h hd => ⟨h.inPlace i1, i1.read hd⟩⟩
    · rename_i hw0
      cases eS
      exact ⟨hw, by rw [decay, if_neg hw0]; rfl, o, rfl, rfl, rfl, rfl, ht, fun t h _ => ⟨h, rfl⟩⟩
  have a1 : hw1.abs = hw.abs := by rw [abs, abs, v1, b1]
  have he1 : hw1.ref (.data p) = some (.dense e) := by rw [rf1, he]
  rw [paramStep]
  rw [Py.bind_ok (deref_run he), Py.bind_ok f1]
  split at ev
  · rename_i hm
    rw [if_pos hm, Py.get_bind_run]
    obtain ⟨B, _, e2, ev⟩ := Py.bind_eq_ok.1 ev
    obtain ⟨eB, rfl⟩ := lift_ok e2
    rw [World.setOpt, Py.modify_bind_run] at ev
    rw [World.newBuffer] at eB
    obtain ⟨b, hw2, f2, o2, b2, rb2, q2, u2, x2, k2⟩ := buffer_spec o1 p (hw1.mem.read (.dense e)).toDense.rows (hw1.mem.read (.dense e)).toDense.cols
    have rr : (hw1.mem.read (.dense e)).toDense = hw.abs.data p := by rw [← a1, abs_data he1]; rfl
    rw [rr, a1] at q2
    obtain ⟨t2, s2⟩ := k2 _ t1
    have s2 : hw2.mem.readM d = S := by rw [read_dense, read_dense, SM.dense.injEq] at s2; rw [s2, s1]
    have db : ∀ x ∈ locM b, x ∉ locM d := fun x hx hy => t2.sep _ _ rb2 x hy hx
    -- buffer
    obtain ⟨m3, f3, i3, r3⟩ := mul_spec (.dense b) h.momentum hw2.mem (o2.nodup _ _ rb2)
    have r3 : m3.readM b = (hw2.mem.readM b).smul h.momentum := by
      rw [read_dense, read_dense, SM.mul_, SM.dense.injEq] at r3; exact r3
    obtain ⟨m4, f4, i4, r4⟩ := add_dense (d := b) (e := d) (s := 1) (m := m3) (X := B) (o2.nodup _ _ rb2) db (by
      rw [r3, q2, smul_one_mat, i3.readM (d := d) fun x hx hy => db x hy hx, s2]; exact eB)
    have i34 : InPlace (locM b) hw2.mem m4 := i3.trans i4
    have o4 := o2.inPlace i34
    have v4 := o2.val_inPlace rb2 i34
    have t4 : Temp { hw2 with mem := m4 } (.dense d) := t2.inPlace i34
    rw [read_dense, r4] at v4
    have va : Function.update hw2.val (.mom p) (some (.dense B)) = Function.update hw.val (.mom p) (some (.dense B)) := by
      funext s
      by_cases e : s = .mom p
      · subst e; simp
      · rw [Function.update_of_ne e, Function.update_of_ne e, (u2 s e).2, v1]
    have a4 : ({ hw2 with mem := m4 } : HWorld α).abs = { hw.abs with opt := { hw.abs.opt with mom := Dict.set hw.abs.opt.mom p B } } := by
      rw [abs, v4, va, b2, b1, build_mom]; rfl
    have he4 : ({ hw2 with mem := m4 } : HWorld α).ref (.data p) = some (.dense e) := by
      simp only; rw [(u2 _ (by simp)).1, he1]
    obtain ⟨hw5, f5, o5, b5, rf5, a5, i5⟩ := moveParam_spec o4 (h := h) (p := p) (d := e) (e := b) (w' := w') he4
      (o4.sep (.mom p) (.data p) _ _ (by simp) rb2 he4) (by rw [a4]; simp only [r4]; exact ev)
    refine ⟨hw5, ?_, o5, a5, fun t h hd => ?_⟩
    · rw [Py.bind_ok f2, Py.bind_ok (onMem_run f3), Py.bind_ok (onMem_run (hw := { hw2 with mem := m3 }) f4), f5]
    · obtain ⟨g1, c1⟩ := k1 t h hd
      obtain ⟨g2, c2⟩ := k2 t g1
      have g5 : Temp { hw2 with mem := hw5.mem } t := g2.inPlace (l := locM b ++ locM e) ((i34.mono fun x hx => List.mem_append_left _ hx).trans (i5.mono fun x hx => List.mem_append_right _ hx))
      refine ⟨⟨g5.nodup, g5.lt, fun s r' h' => g5.sep s r' (by rw [← h', rf5])⟩, ?_⟩
      rw [i5.read fun x hx => g2.sep (.data p) (.dense e) he4 x hx]
      simp only
      rw [i34.read fun x hx => g2.sep (.mom p) (.dense b) rb2 x hx, c2, c1]
  · rename_i hm
    rw [if_neg hm]
    obtain ⟨hw5, f5, o5, b5, rf5, a5, i5⟩ := moveParam_spec o1 (h := h) (p := p) (d := e) (e := d) (w' := w') he1 de (by rw [a1, s1]; exact ev)
    refine ⟨hw5, f5, o5, a5, fun t h hd => ?_⟩
    obtain ⟨g1, c1⟩ := k1 t h hd
    have g5 := g1.inPlace i5
    exact ⟨⟨g5.nodup, g5.lt, fun s r' h' => g5.sep s r' (by rw [← h', rf5])⟩, by
      rw [i5.read fun x hx => g1.sep (.data p) (.dense e) he1 x hx, c1]⟩

/-- views of different columns are disjoint -/
theorem disjoint_view_cols {d : Mat ℕ} (h : (locM d).Nodup) {r0 r1 c0 c1 r0' r1' c0' c1' : ℕ} (hr : c1 ≤ c0') :
    ∀ x ∈ locM (view d r0' r1' c0' c1'), x ∉ locM (view d r0 r1 c0 c1) := by
  rw [nodup_locM] at h
  intro a ha hb
  obtain ⟨i, j, _, _, hi, _, _, hj, e⟩ := locM_view ha
  obtain ⟨i', j', _, _, hi', _, _, hj', e'⟩ := locM_view hb
  have := h i hi j hj i' hi' j' hj' (e.trans e'.symm)
  omega
theorem Temp.view {hw : HWorld α} {d : Mat ℕ} (t : Temp hw (.dense d)) (r0 r1 c0 c1 : ℕ) : Temp hw (.dense (view d r0 r1 c0 c1)) :=
  ⟨nodup_view t.nodup _ _ _ _, fun x hx => t.lt x (locM_view_sub hx), fun s r h x hx => t.sep s r h x (locM_view_sub hx)⟩
theorem asShape_ok {m : Mem α} {d : Mat ℕ} {r c : ℕ} {X : Mat α} (h : World.asShape (m.readM d) r c = .ok X) : asShape d r c = .ok d ∧ X = m.readM d := by
  unfold World.asShape at h
  split at h
  · rename_i hs
    cases h
    exact ⟨if_pos hs, rfl⟩
  · cases h

theorem applyNat_spec {hw : HWorld α} (o : Owned hw) {m : Layer} {N : Mat ℕ} {w' : World α} (ht : Temp hw (.dense N))
    (ev : World.applyNat m (hw.mem.readM N) hw.abs = (.ok (), w')) : ∃ hw', applyNat m N hw = (.ok (), hw') ∧ Owned hw' ∧ hw'.abs = w' := by
  rw [World.applyNat, Py.get_bind_run] at ev
  rw [applyNat, Py.get_bind_run]
  rcases hb : m.bias with _ | b
  · simp only [hb] at ev ⊢
    obtain ⟨nw, _, e1, ev⟩ := Py.bind_eq_ok.1 ev
    obtain ⟨e1', rfl⟩ := lift_ok e1
    obtain ⟨s1, rfl⟩ := asShape_ok e1'
    obtain ⟨h, _, e2, ev⟩ := Py.bind_eq_ok.1 ev
    obtain ⟨e2', rfl⟩ := lift_ok e2
    change hw.base.opt.hyperOf m = .ok h at e2'
    rw [lift_bind s1, lift_bind e2']
    obtain ⟨hw', f, o', a, _⟩ := paramStep_spec o ht ev
    exact ⟨hw', f, o', a⟩
  · simp only [hb] at ev ⊢
    have vr : (hw.mem.readM N).rows = N.rows := rfl
    have vc : (hw.mem.readM N).cols = N.cols := rfl
    rw [vr, vc, ← readM_view, ← readM_view] at ev
    obtain ⟨nw, _, e1, ev⟩ := Py.bind_eq_ok.1 ev
    obtain ⟨e1', rfl⟩ := lift_ok e1
    obtain ⟨s1, rfl⟩ := asShape_ok e1'
    obtain ⟨nb, _, e3, ev⟩ := Py.bind_eq_ok.1 ev
    obtain ⟨e3', rfl⟩ := lift_ok e3
    obtain ⟨s3, rfl⟩ := asShape_ok e3'
    obtain ⟨h, _, e2, ev⟩ := Py.bind_eq_ok.1 ev
    obtain ⟨e2', rfl⟩ := lift_ok e2
    obtain ⟨_, w1, e4, ev⟩ := Py.bind_eq_ok.1 ev
    change hw.base.opt.hyperOf m = .ok h at e2'
    rw [lift_bind s1, lift_bind s3, lift_bind e2']
    obtain ⟨hw1, f1, o1, a1, k1⟩ := paramStep_spec o (ht.view _ _ _ _) e4
    obtain ⟨t2, q2⟩ := k1 _ (ht.view 0 N.rows (N.cols - 1) N.cols) (disjoint_view_cols ht.nodup le_rfl)
    rw [read_dense, read_dense, SM.dense.injEq] at q2
    obtain ⟨hw2, f2, o2, a2, _⟩ := paramStep_spec o1 t2 (by rw [q2, a1]; exact ev)
    exact ⟨hw2, by rw [Py.bind_ok f1, f2], o2, a2⟩

theorem layerStep_sim (m : Layer) : Sim (α := α) (layerStep m) (World.layerStep m) := by
  refine (updatePreconditioner_sim m).bind fun hw o w' ev => ?_
  rw [Py.get_bind_run] at ev ⊢
  obtain ⟨N, _, e1, ev⟩ := Py.bind_eq_ok.1 ev
  obtain ⟨e1', rfl⟩ := lift_ok e1
  rw [lift_bind e1']
  obtain ⟨d, m1, f1, x1, r1, _, _, fr⟩ := newM_spec N hw.mem
  rw [Py.bind_ok (onMem_run f1)]
  have o1 := o.ext x1
  refine applyNat_spec o1 ⟨fr.nodup, fun x hx => (fr.mem x hx).2, fun s r' h x hx hy => ?_⟩ ?_
  · have := o.lt s r' h x hy; have := fr.mem x hx; omega
  · simp only [r1]
    rw [abs, o.val_ext x1]
    exact ev

theorem innerStep_sim : Sim (α := α) innerStep World.innerStep :=
  Sim.get fun hw => Sim.forM layerStep_sim hw.base.opt.layers

theorem dropStats_sim : Sim (α := α) dropStats World.dropStats :=
  Sim.get fun hw => Sim.forM (fun m hw o w' ev => by
    cases ev
    have o1 := o.clear (s := .HK m.name) (by simp)
    have o2 := o1.clear (s := .HC m.name) (by simp)
    refine ⟨_, rfl, o2, ?_⟩
    rw [abs, val_clear, val_clear, build_HC, build_HK]
    rfl) hw.base.opt.layers

theorem setScale_sim (s : α) : Sim (setScale s) (Opt.setScale s) := by
  refine Sim.bind (Sim.setOpt (f := fun o => { o with scales := Dict.set o.scales o.steps s })
    (g := fun o => { o with scales := Dict.set o.scales o.steps s }) fun b v => rfl) (Sim.get fun hw => ?_)
  change Sim (if hw.base.opt.steps = 0 then _ else _) (if hw.base.opt.steps = 0 then _ else _)
  split
  · exact Sim.lift (hw.base.opt.scale (-1)) fun _ => Sim.lift (hw.base.opt.scale 0) fun _ => Sim.pure
  · exact Sim.pure

theorem ensureScale_sim (a : Option α) : Sim (ensureScale a) (World.ensureScale a) :=
  Sim.get fun hw => by
    change Sim (match hw.base.opt.scales hw.base.opt.steps with | some _ => _ | none => _) (match hw.base.opt.scales hw.base.opt.steps with | some _ => _ | none => _)
    rcases hw.base.opt.scales hw.base.opt.steps with _ | _
    · exact setScale_sim _
    · exact Sim.pure

theorem step_sim (c : Bool) (a : Option α) (f : Bool) : Sim (step c a f) (World.step c a f) := by
  cases c
  · refine (ensureScale_sim a).bind (Sim.bind ?_ (Sim.bind (Sim.setOpt fun b v => rfl) (Sim.setOpt fun b v => rfl)))
    cases f
    · exact innerStep_sim
    · exact dropStats_sim
  · exact Sim.raise _ _

/-- a plain tensor that is new -/
theorem assign_new {hw : HWorld α} (o : Owned hw) {s : Slot} (G : Mat α) : ∃ r m', newM G hw.mem = (.ok r, m') ∧
    Owned { hw with mem := m', ref := Function.update hw.ref s (some (.dense r)) } ∧
    ({ hw with mem := m', ref := Function.update hw.ref s (some (.dense r)) } : HWorld α).val = Function.update hw.val s (some (.dense G)) := by
  obtain ⟨d, m1, f1, x1, r1, _, _, fr⟩ := newM_spec G hw.mem
  refine ⟨d, m1, f1, (o.ext x1).assign (r := .dense d) fr.nodup (fun x hx => (fr.mem x hx).2) (fun t r' _ h x hx hy => ?_) fun _ _ => ⟨d, rfl⟩, ?_⟩
  · have := o.lt t r' h x hy; have := fr.mem x hx; omega
  · rw [← r1]
    exact (val_assign (hw := { hw with mem := m1 }) s (.dense d)).trans (by rw [o.val_ext x1]; rfl)

theorem exec_sim : ∀ op : Op α, Sim (hexec op) (exec op)
  | .forward i x ge => Sim.get fun hw => by
    change Sim (match hw.base.opt.layers[i]? with | some m => _ | none => _) (match hw.base.opt.layers[i]? with | some m => _ | none => _)
    rcases hw.base.opt.layers[i]? with _ | m
    · exact Sim.pure
    · exact forwardHook_sim m x ge
  | .backward k g => Sim.get fun hw => by
    change Sim (match hw.base.hooks[k]? with | some mx => _ | none => _) (match hw.base.hooks[k]? with | some mx => _ | none => _)
    rcases hw.base.hooks[k]? with _ | mx
    · exact Sim.pure
    · exact accumulateH_sim _ _ _
  | .setGrad p none => fun hw o w' ev => by
    cases ev
    exact ⟨_, rfl, o.clear (by simp), by rw [abs, val_clear, build_grad]; rfl⟩
  | .setGrad p (some G) => fun hw o w' ev => by
    cases ev
    obtain ⟨r, m', f, o', v⟩ := assign_new o (s := .grad p) G
    refine ⟨_, ?_, o', by rw [abs, v, build_grad]; rfl⟩
    simp only [hexec]
    rw [Py.bind_ok (onMem_run f)]; rfl
  | .setParam p M => fun hw o w' ev => by
    cases ev
    obtain ⟨d, hd⟩ := o.data p
    simp only [hexec]
    rw [Py.get_bind_run]
    simp only [hd]
    split
    · rename_i hs
      obtain ⟨i, r⟩ := copyAt_spec (o.nodup _ _ hd) hs.1 hs.2 hw.mem
      refine ⟨{ hw with mem := copyAt d M hw.mem }, rfl, o.inPlace i, ?_⟩
      rw [abs, o.val_inPlace hd i, build_data, read_dense, r]
      rfl
    · obtain ⟨r, m', f, o', v⟩ := assign_new o (s := .data p) M
      refine ⟨_, by rw [Py.bind_ok (onMem_run f)]; rfl, o', by rw [abs, v, build_data]; rfl⟩
  | .setHyper i h => Sim.setOpt (f := fun o => { o with groups := o.groups.modify i fun g => { g with h := h } })
    (g := fun o => { o with groups := o.groups.modify i fun g => { g with h := h } }) fun b v => rfl
  | .setScale s => setScale_sim s
  | .step c a f => step_sim c a f

theorem runOk_sim : ∀ (ops : List (Op α)) (hw : HWorld α), Owned hw → ∀ w', runOk ops hw.abs = some w' →
    ∃ hw', hrunOk ops hw = some hw' ∧ Owned hw' ∧ hw'.abs = w'
  | [], hw, o, w', h => by cases h; exact ⟨hw, rfl, o, rfl⟩
  | op :: ops, hw, o, w', h => by
    rw [runOk] at h
    rcases e : exec op hw.abs with ⟨_ | _, w1⟩
    · simp only [e] at h; cases h
    · simp only [e] at h
      obtain ⟨hw1, f1, o1, a1⟩ := exec_sim op hw o w1 e
      subst a1
      obtain ⟨hw2, f2, o2, a2⟩ := runOk_sim ops hw1 o1 w' h
      exact ⟨hw2, by rw [hrunOk, f1]; exact f2, o2, a2⟩

end HWorld
