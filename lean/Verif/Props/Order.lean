import Verif.Props.Decouple

/-! C35: the order of backward passes does not matter. -/

set_option linter.unusedSectionVars false
open Construct Matrix
variable {α : Type} [Field α] [LinearOrder α] [IsStrictOrderedRing α] [LawfulSqrt α]

theorem Frame.ext {S S' : String → Prop} {w w1 w2 : World α} (f1 : Frame World.none' S World.none' w w1) (f2 : Frame World.none' S' World.none' w w2)
    (hK : ∀ n, w1.opt.HKs n = w2.opt.HKs n) (hC : ∀ n, w1.opt.HCs n = w2.opt.HCs n) : w1 = w2 := by
  obtain ⟨⟨a1, a2, a3, a4, a5, a6, a7, a8, a9, a10, a11, a12, a13⟩, a14, a15, a16⟩ := w1
  obtain ⟨⟨b1, b2, b3, b4, b5, b6, b7, b8, b9, b10, b11, b12, b13⟩, b14, b15, b16⟩ := w2
  have e1 : a1 = b1 := f1.structs.trans f2.structs.symm
  have e2 : a2 = b2 := f1.layers.trans f2.layers.symm
  have e3 : a3 = b3 := f1.ptrGroup.trans f2.ptrGroup.symm
  have e4 : a4 = b4 := f1.groups.trans f2.groups.symm
  have e5 : a5 = b5 := f1.steps.trans f2.steps.symm
  have e6 : a6 = b6 := f1.scales.trans f2.scales.symm
  have e7 : a7 = b7 := funext fun n => (f1.Ks n id).trans (f2.Ks n id).symm
  have e8 : a8 = b8 := funext fun n => (f1.Cs n id).trans (f2.Cs n id).symm
  have e9 : a9 = b9 := funext fun n => (f1.mKs n id).trans (f2.mKs n id).symm
  have e10 : a10 = b10 := funext fun n => (f1.mCs n id).trans (f2.mCs n id).symm
  have e11 : a11 = b11 := funext hK
  have e12 : a12 = b12 := funext hC
  have e13 : a13 = b13 := funext fun n => (f1.mom n id).trans (f2.mom n id).symm
  have e14 : a14 = b14 := funext fun n => (f1.data n id).trans (f2.data n id).symm
  have e15 : a15 = b15 := f1.grad.trans f2.grad.symm
  have e16 : a16 = b16 := f1.hooks.trans f2.hooks.symm
  subst e1 e2 e3 e4 e5 e6 e7 e8 e9 e10 e11 e12 e13 e14 e15 e16
  rfl

theorem FitsOp.back {w w' : World α} {k : ℕ} {g : ND α} (h : FitsOp w (.backward k g)) (e : w'.hooks = w.hooks) : FitsOp w' (.backward k g) := by
  intro mx hmx; rw [e] at hmx; exact h mx hmx

/-- two backward passes commute -/
theorem World.Live.swap {cl : String → Cls × Cls} {w : World α} (h : w.Live cl) {k l : ℕ} {g f : ND α} (hk : FitsOp w (.backward k g))
    (hl : FitsOp w (.backward l f)) : (_root_.exec (.backward l f) (_root_.exec (.backward k g) w).2).2 = (_root_.exec (.backward k g) (_root_.exec (.backward l f) w).2).2 := by
  rcases ek : w.hooks[k]? with _ | x
  · have e : (_root_.exec (.backward l f) w).2.hooks[k]? = none := by rw [(exec_backward l f w).hooks]; exact ek
    rw [exec_backward_none ek, exec_backward_none e]
  rcases el : w.hooks[l]? with _ | y
  · have e : (_root_.exec (.backward k g) w).2.hooks[l]? = none := by rw [(exec_backward k g w).hooks]; exact el
    rw [exec_backward_none el, exec_backward_none e]
  obtain ⟨w1, e1, l1⟩ := h.exec hk
  obtain ⟨w2, e2, l2⟩ := h.exec hl
  obtain ⟨mx, hx, p, hhx, hp, p0, b1⟩ := h.back ek hk
  obtain ⟨my, hy, p', hhy, hp', _, b2⟩ := h.back el hl
  rw [hp] at hp'; cases hp'
  rw [e1] at b1 ⊢
  rw [e2] at b2 ⊢
  have f1 := b1.frame
  have f2 := b2.frame
  obtain ⟨_, hy', p', hhy', hp', _, b12⟩ := l1.back (k := l) (g := f) (by rw [f1.hooks]; exact el) (hl.back f1.hooks)
  obtain ⟨_, hx', p'', hhx', hp'', _, b21⟩ := l2.back (k := k) (g := g) (by rw [f2.hooks]; exact ek) (hk.back f2.hooks)
  rw [f1.hyperOf, hhy] at hhy'; cases hhy'
  rw [f2.hyperOf, hhx] at hhx'; cases hhx'
  rw [f1.scales, f1.steps, hp] at hp'; cases hp'
  rw [f2.scales, f2.steps, hp] at hp''; cases hp''
  generalize (_root_.exec (.backward l f) w1).2 = w12 at b12 ⊢
  generalize (_root_.exec (.backward k g) w2).2 = w21 at b21 ⊢
  have f12 := b12.frame
  have f21 := b21.frame
  have frA : Frame World.none' (fun n => n = x.1.name ∨ n = y.1.name) World.none' w w12 :=
    (f1.mono (fun _ => id) (fun _ => Or.inl) fun _ => id).trans _ _ _ (f12.mono (fun _ => id) (fun _ => Or.inr) fun _ => id)
  have frB : Frame World.none' (fun n => n = x.1.name ∨ n = y.1.name) World.none' w w21 :=
    (f2.mono (fun _ => id) (fun _ => Or.inr) fun _ => id).trans _ _ _ (f21.mono (fun _ => id) (fun _ => Or.inl) fun _ => id)
  have key : ∀ n, w12.opt.HKs n = w21.opt.HKs n ∧ w12.opt.HCs n = w21.opt.HCs n := by
    intro n
    by_cases nx : n = x.1.name
    · subst nx
      by_cases ny : x.1.name = y.1.name
      · have e := h.sound.untied.name_inj mx my ny
        rw [← e] at hhy b12 b2
        rw [hhx] at hhy; cases hhy
        constructor
        · refine optWF_ext b12.wf.HK b21.wf.HK (by simp [b12.someK, b21.someK]) ?_
          rw [b12.HK, b21.HK, b1.HK, b2.HK, f1.Ks _ id, f2.Ks _ id, add_assoc, add_assoc]
          congr 1; exact add_comm _ _
        · refine optWF_ext b12.wf.HC b21.wf.HC (by simp [b12.someC, b21.someC]) ?_
          rw [b12.HC, b21.HC, b1.HC, b2.HC, f1.Cs _ id, f2.Cs _ id, add_assoc, add_assoc]
          congr 1; exact add_comm _ _
      · rw [f12.HKs _ ny, f12.HCs _ ny]
        constructor
        · refine optWF_ext b1.wf.HK b21.wf.HK (by simp [b1.someK, b21.someK]) ?_
          rw [b1.HK, b21.HK, f2.HKs _ ny, f2.Ks _ id]
        · refine optWF_ext b1.wf.HC b21.wf.HC (by simp [b1.someC, b21.someC]) ?_
          rw [b1.HC, b21.HC, f2.HCs _ ny, f2.Cs _ id]
    · rw [f21.HKs _ nx, f21.HCs _ nx]
      by_cases ny : n = y.1.name
      · subst ny
        constructor
        · refine optWF_ext b12.wf.HK b2.wf.HK (by simp [b12.someK, b2.someK]) ?_
          rw [b12.HK, b2.HK, f1.HKs _ nx, f1.Ks _ id]
        · refine optWF_ext b12.wf.HC b2.wf.HC (by simp [b12.someC, b2.someC]) ?_
          rw [b12.HC, b2.HC, f1.HCs _ nx, f1.Cs _ id]
      · rw [f12.HKs _ ny, f12.HCs _ ny, f1.HKs _ nx, f1.HCs _ nx, f2.HKs _ ny, f2.HCs _ ny]
        exact ⟨rfl, rfl⟩
  exact frA.ext frB (fun n => (key n).1) fun n => (key n).2

/-- **C35.** The order in which backward passes arrive is irrelevant: any two orders of the same backward passes (over hooks registered
before, any number per layer, gradients that fit) lead to the same state. -/
theorem C35_order_irrelevant {cl : String → Cls × Cls} {bs bs' : List (ℕ × ND α)} (hp : bs.Perm bs') : ∀ {w : World α}, w.Live cl →
    (∀ b ∈ bs, FitsOp w (.backward b.1 b.2)) →
    run (bs.map fun b => .backward b.1 b.2) w = run (bs'.map fun b => .backward b.1 b.2) w := by
  induction hp with
  | nil => intros; rfl
  | cons b hp ih =>
    intro w h hf
    rw [List.map_cons, List.map_cons, run_cons, run_cons]
    obtain ⟨w1, e1, l1⟩ := h.exec (hf b (by simp))
    have hh : w1.hooks = w.hooks := by have := (exec_backward b.1 b.2 w).hooks; rw [e1] at this; exact this
    rw [e1]
    exact ih l1 fun b' hb => (hf b' (by simp [hb])).back hh
  | swap a b l =>
    intro w h hf
    rw [List.map_cons, List.map_cons, List.map_cons, List.map_cons, run_cons, run_cons, run_cons, run_cons, h.swap (hf b (by simp)) (hf a (by simp))]
  | trans hp _ ih1 ih2 =>
    intro w h hf
    rw [ih1 h hf, ih2 h fun b hb => hf b (hp.mem_iff.2 hb)]

example : ∃ (cl : String → Cls × Cls) (w : World ℝ) (bs bs' : List (ℕ × ND ℝ)), bs.Perm bs' ∧ w.Live cl ∧
    (∀ b ∈ bs, FitsOp w (.backward b.1 b.2)) ∧ bs.length = 3 ∧ w.hooks.length = 2 := by
  obtain ⟨cl, w, a, b, c, d, e, f⟩ := Sample.glike (α := ℝ)
  refine ⟨cl, w, [(0, Sample.grow 1), (1, Sample.grow 1), (0, ⟨[1, 1], fun _ => 7⟩)], _, (List.reverse_perm _).symm, a, ?_, rfl, by rw [f]; rfl⟩
  intro b hb mx hmx
  rw [f] at hmx
  simp only [List.mem_cons, List.not_mem_nil, or_false] at hb
  rcases hb with rfl | rfl | rfl <;> cases hmx <;> exact ⟨1, [], rfl, by decide⟩
