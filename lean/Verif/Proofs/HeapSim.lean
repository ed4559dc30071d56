import Verif.Proofs.Heap

set_option linter.unusedSectionVars false

/-! Every method of the optimizer, at the level of memory, does what it does at the level of values. -/

variable {α : Type} [Field α] [LinearOrder α] [HasSqrt α]

namespace HWorld
open Mem

theorem momentumDir_spec {K H KtK : SM ℕ} {dim : ℕ} {a b s : α} {m : Mem α} {X : SM α} (hH : ∀ x ∈ loc H, x < m.next)
    (hk : ∀ x ∈ loc KtK, x < m.next) (h : _root_.momentumDir (m.read K) (m.read H) (m.read KtK) dim a b s = .ok X) :
    ∃ r m', momentumDir K H KtK dim a b s m = (.ok r, m') ∧ New m m' r X := by
  obtain ⟨X0, e0, h⟩ := IOProof.Except.bind_eq_ok h
  obtain ⟨X1, e1, h⟩ := IOProof.Except.bind_eq_ok h
  obtain ⟨X2, e2, h⟩ := IOProof.Except.bind_eq_ok h
  obtain ⟨X3, e3, h⟩ := IOProof.Except.bind_eq_ok h
  cases h
  obtain ⟨r, m1, f1, N⟩ := zeros_spec m e0
  have dH : ∀ x ∈ loc r, x ∉ loc H := fun x hx hy => by have := N.fresh.mem x hx; have := hH x hy; omega
  have dk : ∀ x ∈ loc r, x ∉ loc KtK := fun x hx hy => by have := N.fresh.mem x hx; have := hk x hy; omega
  rw [← N.read, ← N.ext.read hH] at e1
  obtain ⟨m2, f2, i2, r2⟩ := add_spec r H a m1 X1 N.fresh.nodup (.inr dH) e1
  rw [← r2, ← N.ext.read hk, ← i2.read (K := KtK) fun x hx hy => dk x hy hx] at e2
  obtain ⟨m3, f3, i3, r3⟩ := add_spec r KtK b m2 X2 N.fresh.nodup (.inr dk) e2
  rw [← r3] at e3
  have n3 : m3.next = m1.next := i3.next.trans i2.next
  obtain ⟨r', m4, f4, R⟩ := diagAdd_spec r (-1) m3 X3 N.fresh.nodup (fun x hx => by rw [n3]; exact (N.fresh.mem x hx).2) e3
  obtain ⟨m5, f5, i5, r5⟩ := mul_spec r' s m4 R.nodup
  have hr : ∀ x ∈ loc r', m.next ≤ x ∧ x < m4.next := fun x hx => by
    have := R.upd.le; have := N.ext.le
    rcases R.mem x hx with h | h
    · have := N.fresh.mem x h; omega
    · omega
  have x4 : Ext m m4 := ((N.ext.upd_new i2.upd fun x hx => (N.fresh.mem x hx).1).upd_new i3.upd fun x hx =>
    (N.fresh.mem x hx).1).upd_new R.upd fun x hx => (N.fresh.mem x hx).1
  refine ⟨r', m5, ?_, x4.upd_new i5.upd fun x hx => (hr x hx).1, by rw [r5, R.read], R.nodup, fun x hx => by rw [i5.next]; exact hr x hx⟩
  simp only [momentumDir]
  rw [Py.get_bind_run, Py.bind_ok f1, Py.bind_ok f2, Py.bind_ok f3, Py.bind_ok f4, Py.bind_ok f5]; rfl

theorem _root_.Mem.New.lt {m m' : Mem α} {r : SM ℕ} {X : SM α} (h : New m m' r X) : ∀ x ∈ loc r, x < m'.next := fun x hx => (h.fresh.mem x hx).2

theorem newMomenta_spec {h : Hyper α} {dK dC : ℕ} {u : α} {K C HK HC : SM ℕ} {m : Mem α} {X : SM α × SM α}
    (lK : ∀ x ∈ loc K, x < m.next) (lC : ∀ x ∈ loc C, x < m.next) (lHK : ∀ x ∈ loc HK, x < m.next) (lHC : ∀ x ∈ loc HC, x < m.next)
    (e : _root_.newMomenta h dK dC u (m.read K) (m.read C) (m.read HK) (m.read HC) = .ok X) :
    ∃ r m', newMomenta h dK dC u K C HK HC m = (.ok r, m') ∧ Ext m m' ∧ m'.read r.1 = X.1 ∧ m'.read r.2 = X.2 ∧
      Fresh m.next m'.next (loc r.1) ∧ Fresh m.next m'.next (loc r.2) ∧ (∀ a ∈ loc r.1, a ∉ loc r.2) := by
  obtain ⟨KtK, eK, e⟩ := IOProof.Except.bind_eq_ok e
  obtain ⟨CtC, eC, e⟩ := IOProof.Except.bind_eq_ok e
  obtain ⟨tHC, e1, e⟩ := IOProof.Except.bind_eq_ok e
  obtain ⟨tCC, e2, e⟩ := IOProof.Except.bind_eq_ok e
  obtain ⟨mK, e3, e⟩ := IOProof.Except.bind_eq_ok e
  obtain ⟨tHK, e4, e⟩ := IOProof.Except.bind_eq_ok e
  obtain ⟨tKK, e5, e⟩ := IOProof.Except.bind_eq_ok e
  obtain ⟨mC, e6, e⟩ := IOProof.Except.bind_eq_ok e
  cases e
  obtain ⟨rKK, m1, f1, N1⟩ := fromInner_spec eK
  rw [← N1.ext.read lC] at eC
  obtain ⟨rCC, m2, f2, N2⟩ := fromInner_spec eC
  have x2 := N1.ext.trans N2.ext
  have gKK : m2.read rKK = KtK := by rw [N2.ext.read N1.lt, N1.read]
  rw [← x2.read lHC] at e1
  rw [← N2.read] at e2
  rw [← x2.read lK, ← x2.read lHK, ← gKK] at e3
  obtain ⟨r1, m3, f3, N3⟩ := momentumDir_spec (fun x hx => lt_of_lt_of_le (lHK x hx) x2.le)
    (fun x hx => lt_of_lt_of_le (N1.lt x hx) N2.ext.le) e3
  have x3 := x2.trans N3.ext
  have gKK3 : m3.read rKK = KtK := by rw [N3.ext.read (fun x hx => lt_of_lt_of_le (N1.lt x hx) N2.ext.le), gKK]
  have gCC3 : m3.read rCC = CtC := by rw [N3.ext.read N2.lt, N2.read]
  rw [← x3.read lHK] at e4
  rw [← gKK3] at e5
  rw [← x3.read lC, ← x3.read lHC, ← gCC3] at e6
  obtain ⟨r2, m4, f4, N4⟩ := momentumDir_spec (fun x hx => lt_of_lt_of_le (lHC x hx) x3.le)
    (fun x hx => lt_of_lt_of_le (N2.lt x hx) N3.ext.le) e6
  refine ⟨(r1, r2), m4, ?_, x3.trans N4.ext, by simp only [N4.ext.read N3.lt, N3.read], N4.read,
    ⟨N3.fresh.nodup, fun x hx => ?_⟩, ⟨N4.fresh.nodup, fun x hx => ?_⟩, fun x hx hy => ?_⟩
  · simp only [newMomenta]
    rw [Py.bind_ok f1, Py.bind_ok f2, Py.get_bind_run, lift_bind e1, lift_bind e2, Py.bind_ok f3, Py.get_bind_run, lift_bind e4,
      lift_bind e5, Py.bind_ok f4]
    rfl
  · have := N3.fresh.mem x hx; have := x2.le; have := N4.ext.le; omega
  · have := N4.fresh.mem x hx; have := x3.le; omega
  · have := N3.fresh.mem x hx; have := N4.fresh.mem x hy; omega

theorem factorStep_spec {K t : SM ℕ} {b : α} {m : Mem α} {X : SM α} (nK : (loc K).Nodup) (lK : ∀ x ∈ loc K, x < m.next)
    (h : _root_.factorStep (m.read K) (m.read t) b = .ok X) :
    ∃ m', factorStep K t b m = (.ok (), m') ∧ Upd (loc K) m m' ∧ m'.read K = X := by
  obtain ⟨Y, eY, h⟩ := IOProof.Except.bind_eq_ok h
  obtain ⟨r, m1, f1, N⟩ := matmulS_spec eY
  rw [← N.ext.read lK, ← N.read] at h
  obtain ⟨m2, f2, i2, r2⟩ := add_spec K r (-b) m1 X nK (.inr fun x hx hy => by
    have := lK x hx; have := N.fresh.mem x hy; omega) h
  exact ⟨m2, by simp only [factorStep]; rw [Py.bind_ok f1, f2], (N.ext.upd _).trans i2.upd, r2⟩

theorem Owned.upd {hw : HWorld α} {m' : Mem α} (o : Owned hw) {l : List ℕ} (i : Upd l hw.mem m') : Owned { hw with mem := m' } :=
  ⟨o.nodup, fun s r h a ha => lt_of_lt_of_le (o.lt s r h a ha) i.le, o.sep, o.data, o.mom⟩
theorem Owned.val_upd {hw : HWorld α} {m' : Mem α} (o : Owned hw) {s : Slot} {r : SM ℕ} (hr : hw.ref s = some r)
    (i : Upd (loc r) hw.mem m') : ({ hw with mem := m' } : HWorld α).val = Function.update hw.val s (some (m'.read r)) := by
  funext t
  by_cases e : t = s
  · subst e; simp [val, hr]
  · rw [Function.update_of_ne e]
    simp only [val]
    rcases h : hw.ref t with _ | r'
    · rfl
    · simp only [Option.map_some, i.read (o.lt t r' h) (o.sep t s r' r e h hr)]

/-- the end of `updateOn`: both factors are moved -/
theorem factors_spec {hw : HWorld α} (o : Owned hw) {n : String} {rK rC a b : SM ℕ} {bK bC : α} {XK XC : SM α}
    (hK : hw.ref (.K n) = some rK) (hC : hw.ref (.C n) = some rC) (lb : ∀ x ∈ loc b, x < hw.mem.next)
    (db : ∀ x ∈ loc b, x ∉ loc rK)
    (eK : _root_.factorStep (hw.mem.read rK) (hw.mem.read a) bK = .ok XK)
    (eC : _root_.factorStep (hw.mem.read rC) (hw.mem.read b) bC = .ok XC) :
    ∃ hw', (do onMem (factorStep rK a bK); onMem (factorStep rC b bC) : Py (HWorld α) Unit) hw = (.ok (), hw') ∧ Owned hw' ∧
      hw'.base = hw.base ∧ hw'.val = Function.update (Function.update hw.val (.K n) (some XK)) (.C n) (some XC) := by
  obtain ⟨m1, f1, u1, r1⟩ := factorStep_spec (o.nodup _ _ hK) (o.lt _ _ hK) eK
  have o1 := o.upd u1
  have v1 := o.val_upd hK u1
  rw [← u1.read (o.lt _ _ hC) (o.sep _ _ _ _ (by simp) hC hK), ← u1.read lb db] at eC
  obtain ⟨m2, f2, u2, r2⟩ := factorStep_spec (o1.nodup _ _ hC) (o1.lt _ _ hC) eC
  refine ⟨_, by rw [Py.bind_ok (onMem_run f1), onMem_run (hw := { hw with mem := m1 }) f2], o1.upd u2, rfl, ?_⟩
  rw [← r1, ← r2, ← v1]
  exact o1.val_upd (s := .C n) hC u2

theorem lift_ok {σ β : Type} {x : Except PyErr β} {b : β} {s t : σ} (h : Py.lift x s = (.ok b, t)) : x = .ok b ∧ t = s := by
  cases h; exact ⟨rfl, rfl⟩
theorem lookup_ok {κ v : Type} {d : κ → Option v} {k : κ} {x : v} (h : lookup d k = .ok x) : d k = some x := by
  unfold lookup at h
  split at h
  · cases h; assumption
  · cases h

/-- the state of `updateOn` before the factors are moved -/
theorem dirs_spec {hw : HWorld α} (o : Owned hw) {h : Hyper α} {m : Layer} {rK rC rHK rHC : SM ℕ} {X : SM α × SM α}
    (hK : hw.ref (.K m.name) = some rK) (hC : hw.ref (.C m.name) = some rC)
    (lHK : ∀ x ∈ loc rHK, x < hw.mem.next) (lHC : ∀ x ∈ loc rHC, x < hw.mem.next)
    (e : World.updateDirs hw.abs.opt h m (hw.mem.read rK) (hw.mem.read rC) (hw.mem.read rHK) (hw.mem.read rHC) = .ok X) :
    ∃ a b m', (∀ f : SM ℕ × SM ℕ → Py (HWorld α) Unit, (do
        let u ← Py.lift (World.gradUnscaling hw.base.opt)
        let d ← Py.lift m.dims
        let ms ← onMem (newMomenta h d.1 d.2 u rK rC rHK rHC)
        addMomentum h (.mC m.name) ms.2
        addMomentum h (.mK m.name) ms.1
        f ms : Py (HWorld α) Unit) hw = f (a, b) { hw with mem := m' }) ∧
      Ext hw.mem m' ∧ m'.read a = X.1 ∧ m'.read b = X.2 ∧ Fresh hw.mem.next m'.next (loc a) ∧ Fresh hw.mem.next m'.next (loc b) ∧
      (∀ x ∈ loc a, x ∉ loc b) := by
  obtain ⟨u, eu, e⟩ := IOProof.Except.bind_eq_ok e
  obtain ⟨d, ed, e⟩ := IOProof.Except.bind_eq_ok e
  obtain ⟨ms, ems, e⟩ := IOProof.Except.bind_eq_ok e
  obtain ⟨mC, eC, e⟩ := IOProof.Except.bind_eq_ok e
  obtain ⟨mK, eK, e⟩ := IOProof.Except.bind_eq_ok e
  cases e
  change World.gradUnscaling hw.base.opt = .ok u at eu
  obtain ⟨⟨a, b⟩, m1, f1, x1, ra, rb, fa, fb, ab⟩ := newMomenta_spec (o.lt _ _ hK) (o.lt _ _ hC) lHK lHC ems
  simp only at ra rb fa fb ab
  by_cases hα : h.alpha1 ≠ 0
  · rw [World.addMomentum, if_pos hα] at eC eK
    obtain ⟨oC, eoC, eC⟩ := IOProof.Except.bind_eq_ok eC
    obtain ⟨oK, eoK, eK⟩ := IOProof.Except.bind_eq_ok eK
    obtain ⟨rmC, hmC, vmC⟩ := ref_of_val (hw := hw) (lookup_ok eoC)
    obtain ⟨rmK, hmK, vmK⟩ := ref_of_val (hw := hw) (lookup_ok eoK)
    have dC : ∀ x ∈ loc b, x ∉ loc rmC := fun x hx hy => by have := fb.mem x hx; have := o.lt _ _ hmC x hy; omega
    have dK : ∀ x ∈ loc a, x ∉ loc rmK := fun x hx hy => by have := fa.mem x hx; have := o.lt _ _ hmK x hy; omega
    rw [← rb, ← vmC, ← x1.read (o.lt _ _ hmC)] at eC
    obtain ⟨m2, f2, i2, r2⟩ := add_spec b rmC h.alpha1 m1 mC fb.nodup (.inr dC) eC
    have x2 : Ext hw.mem m2 := x1.upd_new i2.upd fun x hx => (fb.mem x hx).1
    rw [← ra, ← vmK, ← i2.read (K := a) ab, ← x2.read (o.lt _ _ hmK)] at eK
    obtain ⟨m3, f3, i3, r3⟩ := add_spec a rmK h.alpha1 m2 mK fa.nodup (.inr dK) eK
    have n3 : m3.next = m1.next := i3.next.trans i2.next
    refine ⟨a, b, m3, fun f => ?_, x2.upd_new i3.upd fun x hx => (fa.mem x hx).1, r3, by
      rw [i3.read fun x hx hy => ab x hy hx, r2], ⟨fa.nodup, by rw [n3]; exact fa.mem⟩, ⟨fb.nodup, by rw [n3]; exact fb.mem⟩, ab⟩
    rw [lift_bind eu, lift_bind ed, Py.bind_ok (onMem_run f1)]
    simp only [addMomentum, if_pos hα]
    rw [Py.bind_ok (b := ()) (s' := { hw with mem := m2 }), Py.bind_ok (b := ()) (s' := { hw with mem := m3 })]
    · rw [Py.bind_ok (deref_run (hw := { hw with mem := m2 }) hmK)]
      exact onMem_run (hw := { hw with mem := m2 }) f3
    · rw [Py.bind_ok (deref_run (hw := { hw with mem := m1 }) hmC)]
      exact onMem_run (hw := { hw with mem := m1 }) f2
  · rw [World.addMomentum, if_neg hα] at eC eK
    cases eC; cases eK
    refine ⟨a, b, m1, fun f => ?_, x1, ra, rb, fa, fb, ab⟩
    rw [lift_bind eu, lift_bind ed, Py.bind_ok (onMem_run f1)]
    simp only [addMomentum, if_neg hα]
    rfl

/-- storing the new momenta -/
theorem store_spec {hw3 : HWorld α} (o3 : Owned hw3) {h : Hyper α} {n : String} {a b rK rC : SM ℕ} {A B : SM α}
    (la : ∀ x ∈ loc a, x < hw3.mem.next) (lb : ∀ x ∈ loc b, x < hw3.mem.next) (na : (loc a).Nodup) (nb : (loc b).Nodup)
    (ab : ∀ x ∈ loc a, x ∉ loc b)
    (da : ∀ t r, hw3.ref t = some r → ∀ x ∈ loc a, x ∉ loc r) (db : ∀ t r, hw3.ref t = some r → ∀ x ∈ loc b, x ∉ loc r)
    (ra : hw3.mem.read a = A) (rb : hw3.mem.read b = B)
    (hK : hw3.ref (.K n) = some rK) (hC : hw3.ref (.C n) = some rC) :
    ∃ hw4, storeMomenta h n a b hw3 = (.ok (), hw4) ∧ Owned hw4 ∧ hw4.base = hw3.base ∧
      hw4.mem = hw3.mem ∧ hw4.ref (.K n) = some rK ∧ hw4.ref (.C n) = some rC ∧
      hw4.abs = { hw3.abs with opt := World.storeMomenta h n A B hw3.abs.opt } := by
  by_cases hα : h.alpha1 ≠ 0
  · set hw4 : HWorld α := { hw3 with ref := Function.update hw3.ref (.mC n) (some b) } with e4
    have o4 : Owned hw4 := o3.assign nb lb (fun t r _ hr => db t r hr) (by simp)
    set hw5 : HWorld α := { hw4 with ref := Function.update hw4.ref (.mK n) (some a) } with e5
    have o5 : Owned hw5 := o4.assign na la (fun t r _ hr => by
      by_cases et : t = .mC n
      · subst et; rw [e4] at hr; simp at hr; subst hr; exact ab
      · rw [e4] at hr; simp only [Function.update_of_ne et] at hr; exact da t r hr) (by simp)
    refine ⟨hw5, ?_, o5, rfl, rfl, ?_, ?_, ?_⟩
    · unfold storeMomenta
      rw [if_pos hα, assign, Py.modify_bind_run, ← e4]; rfl
    · rw [e5, e4]; simpa using hK
    · rw [e5, e4]; simpa using hC
    · have v5 : hw5.val = Function.update (Function.update hw3.val (.mC n) (some B)) (.mK n) (some A) := by
        rw [e5, val_assign, e4, val_assign, ← ra, ← rb]
      rw [HWorld.abs, v5, build_mK, build_mC, World.storeMomenta, if_pos hα]
      rfl
  · refine ⟨hw3, by unfold storeMomenta; rw [if_neg hα]; rfl, o3, rfl, rfl, hK, hC, ?_⟩
    rw [World.storeMomenta, if_neg hα]

theorem updateOn_inv {h : Hyper α} {m : Layer} {w w' : World α} (e : World.updateOn h m w = (.ok (), w')) :
    ∃ K C HK HC ms bK bC XK XC, w.opt.Ks m.name = some K ∧ w.opt.Cs m.name = some C ∧ w.opt.HKs m.name = some HK ∧
      w.opt.HCs m.name = some HC ∧ World.updateDirs w.opt h m K C HK HC = .ok ms ∧ factorRate h w.opt.steps ms.1 = .ok bK ∧
      factorRate h w.opt.steps ms.2 = .ok bC ∧ _root_.factorStep K ms.1 bK = .ok XK ∧ _root_.factorStep C ms.2 bC = .ok XC ∧
      ∃ o, o = World.storeMomenta h m.name ms.1 ms.2 { w.opt with
        HKs := Function.update w.opt.HKs m.name none, HCs := Function.update w.opt.HCs m.name none } ∧
      w' = { w with opt := { o with Ks := Function.update o.Ks m.name (some XK), Cs := Function.update o.Cs m.name (some XC) } } := by
  rw [World.updateOn, Py.get_bind_run] at e
  obtain ⟨K, _, e1, e⟩ := Py.bind_eq_ok.1 e
  obtain ⟨eK, rfl⟩ := lift_ok e1
  obtain ⟨C, _, e1, e⟩ := Py.bind_eq_ok.1 e
  obtain ⟨eC, rfl⟩ := lift_ok e1
  obtain ⟨HK, _, e1, e⟩ := Py.bind_eq_ok.1 e
  obtain ⟨eHK, rfl⟩ := lift_ok e1
  rw [World.setOpt, Py.modify_bind_run] at e
  obtain ⟨HC, _, e1, e⟩ := Py.bind_eq_ok.1 e
  obtain ⟨eHC, rfl⟩ := lift_ok e1
  rw [World.setOpt, Py.modify_bind_run] at e
  obtain ⟨ms, _, e1, e⟩ := Py.bind_eq_ok.1 e
  obtain ⟨ems, rfl⟩ := lift_ok e1
  rw [World.setOpt, Py.modify_bind_run] at e
  obtain ⟨bK, _, e1, e⟩ := Py.bind_eq_ok.1 e
  obtain ⟨ebK, rfl⟩ := lift_ok e1
  obtain ⟨bC, _, e1, e⟩ := Py.bind_eq_ok.1 e
  obtain ⟨ebC, rfl⟩ := lift_ok e1
  obtain ⟨XK, _, e1, e⟩ := Py.bind_eq_ok.1 e
  obtain ⟨eXK, rfl⟩ := lift_ok e1
  rw [World.setOpt, Py.modify_bind_run] at e
  obtain ⟨XC, _, e1, e⟩ := Py.bind_eq_ok.1 e
  obtain ⟨eXC, rfl⟩ := lift_ok e1
  cases e
  exact ⟨K, C, HK, HC, ms, bK, bC, XK, XC, lookup_ok eK, lookup_ok eC, lookup_ok eHK, lookup_ok eHC, ems, ebK, ebC, eXK, eXC,
    _, rfl, rfl⟩

theorem updateOn_sim (h : Hyper α) (m : Layer) : Sim (updateOn h m) (World.updateOn h m) := by
  intro hw o w' e
  obtain ⟨K, C, HK, HC, ms, bK, bC, XK, XC, eK, eC, eHK, eHC, ems, ebK, ebC, eXK, eXC, oo, eo, rfl⟩ := updateOn_inv e
  obtain ⟨rK, hK, vK⟩ := ref_of_val (hw := hw) eK
  obtain ⟨rC, hC, vC⟩ := ref_of_val (hw := hw) eC
  obtain ⟨rHK, hHK, vHK⟩ := ref_of_val (hw := hw) eHK
  obtain ⟨rHC, hHC, vHC⟩ := ref_of_val (hw := hw) eHC
  set hw1 : HWorld α := { hw with ref := Function.update hw.ref (.HK m.name) none } with d1
  have o1 : Owned hw1 := o.clear (by simp)
  set hw2 : HWorld α := { hw1 with ref := Function.update hw1.ref (.HC m.name) none } with d2
  have o2 : Owned hw2 := o1.clear (by simp)
  have v2 : hw2.val = Function.update (Function.update hw.val (.HK m.name) none) (.HC m.name) none := by
    rw [d2, val_clear, d1, val_clear]
  have hK2 : hw2.ref (.K m.name) = some rK := by simp [d2, d1, hK]
  have hC2 : hw2.ref (.C m.name) = some rC := by simp [d2, d1, hC]
  have hHC1 : hw1.ref (.HC m.name) = some rHC := by simp [d1, hHC]
  have ems' : World.updateDirs hw2.abs.opt h m (hw2.mem.read rK) (hw2.mem.read rC) (hw2.mem.read rHK) (hw2.mem.read rHC) = .ok ms := by
    rw [show hw2.mem = hw.mem from rfl, vK, vC, vHK, vHC, HWorld.abs, v2, build_HC, build_HK]
    exact ems
  obtain ⟨a, b, m3, run, x3, ra, rb, fa, fb, ab⟩ := dirs_spec o2 hK2 hC2 (o.lt _ _ hHK) (o.lt _ _ hHC) ems'
  have o3 := o2.ext x3
  have v3 := o2.val_ext x3
  set hw3 : HWorld α := { hw2 with mem := m3 } with d3
  have old : ∀ t r, hw3.ref t = some r → ∀ x ∈ loc r, x < hw2.mem.next := fun t r hr => o2.lt t r hr
  have da : ∀ t r, hw3.ref t = some r → ∀ x ∈ loc a, x ∉ loc r := fun t r hr x hx hy => by
    have := old t r hr x hy; have := fa.mem x hx; omega
  have db : ∀ t r, hw3.ref t = some r → ∀ x ∈ loc b, x ∉ loc r := fun t r hr x hx hy => by
    have := old t r hr x hy; have := fb.mem x hx; omega
  -- the start of the program
  have start : updateOn h m hw = (do
      storeMomenta h m.name a b
      let hw ← Py.get
      let bK ← Py.lift (factorRate h hw.base.opt.steps (hw.mem.read a))
      let bC ← Py.lift (factorRate h hw.base.opt.steps (hw.mem.read b))
      onMem (factorStep rK a bK)
      onMem (factorStep rC b bC) : Py (HWorld α) Unit) hw3 := by
    unfold updateOn
    rw [Py.bind_ok (deref_run hK), Py.bind_ok (deref_run hC), Py.bind_ok (deref_run hHK), assign, Py.modify_bind_run, ← d1,
      Py.bind_ok (deref_run hHC1), assign, Py.modify_bind_run, ← d2, Py.get_bind_run]
    exact run fun ms => do
      storeMomenta h m.name ms.1 ms.2
      let hw ← Py.get
      let bK ← Py.lift (factorRate h hw.base.opt.steps (hw.mem.read ms.1))
      let bC ← Py.lift (factorRate h hw.base.opt.steps (hw.mem.read ms.2))
      onMem (factorStep rK ms.1 bK)
      onMem (factorStep rC ms.2 bC)
  obtain ⟨hw4, s4, o4, b4, m4, hK4, hC4, v4⟩ := store_spec (h := h) (n := m.name) o3 (fun x hx => (fa.mem x hx).2)
    (fun x hx => (fb.mem x hx).2) fa.nodup fb.nodup ab da db ra rb hK2 hC2
  change hw4.mem = m3 at m4
  have keep : ∀ r, (∀ x ∈ loc r, x < hw2.mem.next) → hw4.mem.read r = hw.mem.read r := fun r hr => by
    rw [m4, x3.read hr]
  rw [← vK, ← keep rK (o.lt _ _ hK), ← ra, ← m4] at eXK
  rw [← vC, ← keep rC (o.lt _ _ hC), ← rb, ← m4] at eXC
  rw [← ra, ← m4] at ebK
  rw [← rb, ← m4] at ebC
  have st : hw4.base.opt.steps = hw.abs.opt.steps := by rw [b4]; rfl
  rw [← st] at ebK ebC
  obtain ⟨hw5, run5, o5, b5, v5⟩ := factors_spec o4 hK4 hC4 (fun x hx => by rw [m4]; exact (fb.mem x hx).2)
    (db (.K m.name) rK hK2) eXK eXC
  refine ⟨hw5, ?_, o5, ?_⟩
  · rw [start, Py.bind_ok s4, Py.get_bind_run, lift_bind ebK, lift_bind ebC, run5]
  · have a3 : hw3.abs = { hw.abs with opt := { hw.abs.opt with
        HKs := Function.update hw.abs.opt.HKs m.name none, HCs := Function.update hw.abs.opt.HCs m.name none } } := by
      rw [HWorld.abs, v3, v2, build_HC, build_HK]
      rfl
    have a5 : hw5.abs = { hw4.abs with opt := { hw4.abs.opt with
        Ks := Function.update hw4.abs.opt.Ks m.name (some XK), Cs := Function.update hw4.abs.opt.Cs m.name (some XC) } } := by
      rw [HWorld.abs, v5, b5, build_C, build_K]
      rfl
    rw [a5, v4, a3]
    simp only
    rw [← eo]

end HWorld
