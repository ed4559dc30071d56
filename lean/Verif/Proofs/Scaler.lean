import Verif.Model.Scaler
import Verif.Props.Scaling

/-! Training with a gradient scaler and plain training side by side. -/

set_option linter.unusedSectionVars false
open Construct Matrix

namespace Amp

section
variable {α : Type} [Field α] [LinearOrder α] [HasSqrt α]

/-- conditions on an operation of plain training: backward passes of a layer happen in steps that update its factors, `T` is not changed while statistics are waiting, no scale is set explicitly -/
def Plain (w : World α) : Op α → Prop
  | .backward k _ => ∀ mx, w.hooks[k]? = some mx → OnStep w mx.1
  | .setHyper i h => ∀ m ∈ w.opt.layers, w.opt.ptrGroup m.weight.ptr = some i → w.opt.HCs m.name ≠ none → h.T ∣ w.opt.steps
  | .setScale _ => False
  | _ => True

/-- no step -/
def NotStep : Op α → Prop
  | .step _ _ _ => False
  | _ => True

/-- an iteration of training: forward and backward passes and whatever else the user does, given for the loss without scaling, and whether the gradients contain infs -/
structure Iter (α : Type) [Zero α] where
  body : List (Op α)
  inf : Bool

/-- the gradients of these parameters are set to `None` -/
def zeroGrad (ps : List ℕ) : List (Op α) := ps.map fun p => .setGrad p none

/-- an iteration without scaler: `zero_grad()`, `loss.backward()`, and `optimizer.step()`, skipped if infs were found -/
def Iter.plain (ps : List ℕ) (it : Iter α) : List (Op α) := zeroGrad ps ++ it.body ++ [.step false none it.inf]

/-- the same iteration with a scaler: `zero_grad()`, `scaler.scale(loss).backward()`, `scaler.step(optimizer)`, `scaler.update()` -/
def Iter.amp (ps : List ℕ) (it : Iter α) : List (AOp α) := (zeroGrad ps).map .user ++ it.body.map .scaled ++ [.step it.inf, .update]

/-- the scaler after an iteration -/
def Scaler.next (sc : Scaler α) (inf : Bool) : Scaler α := { sc.adjust inf with stage := .ready, found := none }

/-- the scaler after iterations -/
def Scaler.after (sc : Scaler α) (infs : List Bool) : Scaler α := infs.foldl Scaler.next sc

theorem arun_append (as bs : List (AOp α)) (s : State α) : arun (as ++ bs) s = arun bs (arun as s) := by
  unfold arun; rw [List.foldl_append]

theorem arunOk_append {as bs : List (AOp α)} : ∀ {s : State α}, arunOk as s → arunOk bs (arun as s) → arunOk (as ++ bs) s := by
  induction as with
  | nil => intro s _ h; exact h
  | cons a as ih => intro s h1 h2; exact ⟨h1.1, ih h1.2 h2⟩

theorem along_append {P : World α → Op α → Prop} {as bs : List (Op α)} : ∀ {w : World α}, Along P w (as ++ bs) → Along P w as ∧ Along P (run as w) bs := by
  induction as with
  | nil => intro w h; exact ⟨trivial, h⟩
  | cons a as ih => intro w h; exact ⟨⟨h.1, (ih h.2).1⟩, (ih h.2).2⟩

end

variable {α : Type} [Field α] [LinearOrder α] [IsStrictOrderedRing α] [LawfulSqrt α]

/-- scaled and plain training side by side, before a step -/
structure Side (cl : String → Cls × Cls) (sA : ℕ → α) (A B : World α) : Prop where
  lA : A.Live cl
  lB : B.Live cl
  sc : Scaled sA (fun _ => 1) A B
  qA : ∀ t : ℤ, A.opt.steps ≤ t → A.opt.scales t = none
  qB : ∀ t : ℤ, B.opt.steps ≤ t → B.opt.scales t = none

/-- gradients of the layers are scaled by `s` -/
def Grads (s : α) (A B : World α) : Prop := ∀ m ∈ A.opt.layers, ∀ p, World.Owns m p → A.grad p = (B.grad p).map (·.smul s)

theorem nd_smul_one (g : ND α) : g = g.smul 1 := by
  cases g; simp [ND.smul]

theorem mat_smul_shape (G : Mat α) (s : α) {r c : ℕ} (h : G.OfShape r c) : (G.smul s).OfShape r c := h

/-- an operation other than a step -/
theorem Side.op {cl : String → Cls × Cls} {sA : ℕ → α} (pA : ∀ t, 0 < sA t) {A B : World α} (r : Side cl sA A B) {op : Op α} (hn : NotStep op) (hf : FitsOp B op) (hp : Plain B op) :
    ∃ A' B', exec (scaleOp (sA A.opt.steps) op) A = (.ok (), A') ∧ exec op B = (.ok (), B') ∧ Side cl sA A' B' ∧ A'.opt.steps = A.opt.steps ∧ A'.opt.layers = A.opt.layers ∧
      (Grads (sA A.opt.steps) A B → Grads (sA A.opt.steps) A' B') := by
  have c := r.sc.conf
  have hfA : FitsOp A (scaleOp (sA A.opt.steps) op) := by
    cases op with
    | forward i x ge =>
      intro m hm h hh
      rw [c.layers] at hm; rw [c.hyperOf] at hh
      exact hf m hm h hh
    | backward k g =>
      intro mx hmx
      rw [r.sc.hooks] at hmx
      have := hf mx hmx
      unfold GradFits at this ⊢
      exact this
    | setGrad p G => trivial
    | setParam p M => show M.OfShape _ _; rw [r.sc.data]; exact hf
    | setHyper i h =>
      refine ⟨hf.1, fun m hm hg => ?_⟩
      have hm' := hm
      rw [c.layers] at hm'; rw [c.ptrGroup] at hg
      obtain ⟨h1, h2⟩ := hf.2 m hm' hg
      refine ⟨fun h' e => h1 h' (by rw [← c.hyperOf]; exact e), fun ha => ?_⟩
      rw [(r.sc.lay m hm).mKs, (r.sc.lay m hm).mCs]; exact h2 ha
    | setScale s => exact hp.elim
    | step c a f => exact hn.elim
  have ho : ScaleOps sA (fun _ => 1) A B (scaleOp (sA A.opt.steps) op) op := by
    cases op with
    | forward i x ge => exact ⟨rfl, rfl, rfl⟩
    | backward k g =>
      refine ⟨rfl, ⟨g, rfl, nd_smul_one g⟩, fun mx hmx => ?_⟩
      rw [r.sc.hooks] at hmx
      exact (c.updates _).2 (onStep_iff.2 (hp mx hmx))
    | setGrad p G => trivial
    | setParam p M => exact ⟨rfl, rfl⟩
    | setHyper i h =>
      refine ⟨rfl, rfl, fun m hm hg h0 => ?_⟩
      have hm' := hm
      rw [c.layers] at hm'; rw [c.ptrGroup] at hg
      rw [c.steps]
      exact Nat.mod_eq_zero_of_dvd (hp m hm' hg fun e => h0 ((r.sc.HC0 m hm).2 e))
    | setScale s => exact hp.elim
    | step c a f => exact hn.elim
  obtain ⟨A', eA, lA⟩ := r.lA.exec hfA
  obtain ⟨B', eB, lB⟩ := r.lB.exec hf
  have sc := r.sc.exec pA (fun _ => one_pos) r.lA r.lB hfA hf ho
  rw [eA, eB] at sc
  -- what does not change
  have fr : ∀ {w w' : World α} {o : Op α}, w.Live cl → NotStep o → (∀ s, o ≠ .setScale s) → FitsOp w o → exec o w = (.ok (), w') →
      w'.opt.scales = w.opt.scales ∧ w'.opt.steps = w.opt.steps ∧ w'.opt.layers = w.opt.layers ∧ ((∀ p G, o ≠ .setGrad p G) → w'.grad = w.grad) := by
    intro w w' o l n ns f e
    have e2 : w' = (exec o w).2 := by rw [e]
    cases o with
    | forward i x ge => rw [e2, exec_forward_state]; exact ⟨rfl, rfl, rfl, fun _ => rfl⟩
    | backward k g =>
      rcases e1 : w.hooks[k]? with _ | x
      · rw [e2, exec_backward_none e1]; exact ⟨rfl, rfl, rfl, fun _ => rfl⟩
      · obtain ⟨_, _, _, _, _, _, b⟩ := l.back e1 f
        rw [← e2] at b
        have := b.frame
        exact ⟨this.scales, this.steps, this.layers, fun _ => this.grad⟩
    | setGrad p G => rw [e2]; exact ⟨rfl, rfl, rfl, fun h => absurd rfl (h p G)⟩
    | setParam p M => rw [e2]; exact ⟨rfl, rfl, rfl, fun _ => rfl⟩
    | setHyper i h => rw [e2, exec_setHyper]; exact ⟨rfl, rfl, rfl, fun _ => rfl⟩
    | setScale s => exact absurd rfl (ns s)
    | step c a f => exact n.elim
  have nA : NotStep (scaleOp (sA A.opt.steps) op) := by cases op <;> first | exact hn | trivial
  have sA1 : ∀ s, op ≠ .setScale s := by rintro s rfl; exact hp
  have sA2 : ∀ s, scaleOp (sA A.opt.steps) op ≠ .setScale s := by
    intro s h; cases op <;> first | cases h | skip
    exact hp
  obtain ⟨a1, a2, a3, a4⟩ := fr r.lA nA sA2 hfA eA
  obtain ⟨b1, b2, b3, b4⟩ := fr r.lB hn sA1 hf eB
  refine ⟨A', B', eA, eB, ⟨lA, lB, sc, ?_, ?_⟩, a2, a3, ?_⟩
  · rw [a1, a2]; exact r.qA
  · rw [b1, b2]; exact r.qB
  · intro g m hm p hpo
    rw [a3] at hm
    by_cases hs : ∃ q G, op = .setGrad q G
    · obtain ⟨q, G, rfl⟩ := hs
      have eA' : A' = { A with grad := Function.update A.grad q (G.map (·.smul (sA A.opt.steps))) } := by
        have := congrArg Prod.snd eA; exact this.symm
      have eB' : B' = { B with grad := Function.update B.grad q G } := by
        have := congrArg Prod.snd eB; exact this.symm
      rw [eA', eB']
      show Function.update A.grad q _ p = (Function.update B.grad q G p).map _
      by_cases e : p = q
      · subst e; simp
      · rw [Function.update_of_ne e, Function.update_of_ne e]; exact g m hm p hpo
    · rw [a4 (by intro p' G' h; cases op <;> first | exact hs ⟨_, _, rfl⟩ | cases h), b4 (fun p' G' h => hs ⟨p', G', h⟩)]
      exact g m hm p hpo

/-- a list of operations other than steps -/
theorem Side.body {cl : String → Cls × Cls} {sA : ℕ → α} (pA : ∀ t, 0 < sA t) : ∀ {ops : List (Op α)} {s : State α} {B : World α}, Side cl sA s.w B → sA s.w.opt.steps = s.sc.scale →
    (∀ op ∈ ops, NotStep op) → FitsRun B ops → Along Plain B ops → ∃ A', arun (ops.map .scaled) s = { s with w := A' } ∧ arunOk (ops.map .scaled) s ∧
      Side cl sA A' (run ops B) ∧ A'.opt.steps = s.w.opt.steps ∧ A'.opt.layers = s.w.opt.layers ∧ (Grads s.sc.scale s.w B → Grads s.sc.scale A' (run ops B))
  | [], s, B, r, _, _, _, _ => ⟨s.w, rfl, trivial, r, rfl, rfl, id⟩
  | op :: ops, s, B, r, hs, hn, hf, hp => by
    obtain ⟨A', B', eA, eB, r', e1, e2, g⟩ := r.op pA (hn op (by simp)) hf.1 hp.1
    have f2 := hf.2
    have p2 := hp.2
    rw [eB] at f2 p2
    rw [hs] at eA g
    have ex : aexec (.scaled op) s = (.ok (), { s with w := A' }) := by
      show onWorld (exec (scaleOp s.sc.scale op)) s = _
      rw [onWorld, eA]
    obtain ⟨A2, x1, x2, x3, x4, x5, x6⟩ := Side.body pA (s := { s with w := A' }) (B := B') r' (by rw [← hs]; show sA A'.opt.steps = _; rw [e1]) (fun o ho => hn o (by simp [ho])) f2 p2
    refine ⟨A2, ?_, ⟨by rw [ex], by rw [ex]; exact x2⟩, ?_, x4.trans e1, x5.trans e2, ?_⟩
    · show arun (ops.map .scaled) (aexec (.scaled op) s).2 = _
      rw [ex, x1]
    · rw [run_cons, eB]; exact x3
    · rw [run_cons, eB]; exact fun h => x6 (g h)

theorem run_zeroGrad (ps : List ℕ) : ∀ w : World α, run (zeroGrad ps) w = { w with grad := fun p => if p ∈ ps then none else w.grad p } := by
  induction ps with
  | nil => intro w; simp [zeroGrad, run]
  | cons q ps ih =>
    intro w
    rw [zeroGrad, List.map_cons, run_cons]
    show run (zeroGrad ps) { w with grad := Function.update w.grad q none } = _
    rw [ih]
    congr 1
    funext p
    simp only [List.mem_cons, Function.update_apply]
    by_cases h : p = q <;> by_cases h' : p ∈ ps <;> simp [h, h']

theorem user_setGrad (p : ℕ) (s : State α) : aexec (.user (.setGrad p none)) s = aexec (.scaled (.setGrad p none)) s := rfl

theorem arun_zero (ps : List ℕ) : ∀ s : State α, arun ((zeroGrad ps).map .user) s = arun ((zeroGrad ps).map .scaled) s ∧
    (arunOk ((zeroGrad ps).map .scaled) s → arunOk ((zeroGrad ps).map .user) s) := by
  induction ps with
  | nil => intro s; exact ⟨rfl, id⟩
  | cons p ps ih =>
    intro s
    exact ⟨(ih (aexec (.user (.setGrad p none)) s).2).1, fun h => ⟨h.1, (ih _).2 h.2⟩⟩

/-- an iteration -/
theorem Side.iter {cl : String → Cls × Cls} {sA : ℕ → α} (pA : ∀ t, 0 < sA t) {s : State α} {B : World α} {ps : List ℕ} {it : Iter α} (r : Side cl sA s.w B)
    (hs : sA s.w.opt.steps = s.sc.scale) (hst : s.sc.stage = .ready) (hps : ∀ m ∈ B.opt.layers, ∀ p, World.Owns m p → p ∈ ps) (hn : ∀ op ∈ it.body, NotStep op)
    (hf : FitsRun B (it.plain ps)) (hp : Along Plain B (it.plain ps)) :
    ∃ A', arun (it.amp ps) s = ⟨A', s.sc.next it.inf, .absent, false⟩ ∧ arunOk (it.amp ps) s ∧ Side cl sA A' (run (it.plain ps) B) ∧ A'.opt.steps = s.w.opt.steps + 1 ∧
      A'.opt.layers = s.w.opt.layers := by
  obtain ⟨f1, f3⟩ := along_append hf
  obtain ⟨f1, f2⟩ := along_append f1
  obtain ⟨p1, p3⟩ := along_append hp
  obtain ⟨p1, p2⟩ := along_append p1
  have n0 : ∀ op ∈ (zeroGrad ps : List (Op α)), NotStep op := by
    intro op ho
    obtain ⟨p, _, rfl⟩ := List.mem_map.1 ho
    trivial
  obtain ⟨A1, x1, x2, x3, x4, x5, _⟩ := r.body pA hs n0 f1 p1
  have g0 : Grads s.sc.scale A1 (run (zeroGrad ps) B) := by
    have ez : A1 = run (zeroGrad ps) s.w := by
      have : ∀ (qs : List ℕ) (s : State α), (arun ((zeroGrad qs).map .scaled) s).w = run (zeroGrad qs) s.w := by
        intro qs
        induction qs with
        | nil => intro s; rfl
        | cons q qs ih => intro s; exact ih _
      rw [← this, x1]
    intro m hm p ho
    rw [x5, r.sc.conf.layers] at hm
    rw [ez, run_zeroGrad, run_zeroGrad]
    simp [hps m hm p ho]
  obtain ⟨A2, y1, y2, y3, y4, y5, y6⟩ := x3.body pA (s := { s with w := A1 }) (by show sA A1.opt.steps = _; rw [x4, hs]) hn f2 p2
  have g2 := y6 g0
  replace y4 : A2.opt.steps = A1.opt.steps := y4
  replace y5 : A2.opt.layers = A1.opt.layers := y5
  rw [run_append] at f3 p3
  generalize hB2 : run it.body (run (zeroGrad ps) B) = B2 at *
  have fS : FitsOp B2 (.step false none it.inf) := f3.1
  have c := y3.sc.conf
  have eB : A2.opt.layers = B2.opt.layers := c.layers
  have s2 : sA A2.opt.steps = s.sc.scale := by rw [y4, x4, hs]
  have pos : 0 < s.sc.scale := by rw [← hs]; exact pA _
  have fA : FitsOp A2 (.step false (some s.sc.scale) it.inf) := by
    refine ⟨rfl, fun _ h => by cases h; exact pos, fun h m hm => ?_⟩
    have hm' := hm
    rw [eB] at hm'
    obtain ⟨⟨gw, gb⟩, st⟩ := fS.2.2 h m hm'
    refine ⟨⟨?_, fun b hb => ?_⟩, fun hy hh h0 => ?_⟩
    · obtain ⟨G, e, sh⟩ := gw
      exact ⟨_, by rw [g2 m hm _ (Or.inl rfl), e]; rfl, mat_smul_shape G _ sh⟩
    · obtain ⟨G, e, sh⟩ := gb b hb
      exact ⟨_, by rw [g2 m hm _ (Or.inr ⟨b, hb, rfl⟩), e]; rfl, mat_smul_shape G _ sh⟩
    · rw [c.hyperOf] at hh; rw [c.steps] at h0
      obtain ⟨a1, a2, a3⟩ := st hy hh h0
      rw [y3.sc.HK m hm, (y3.sc.lay m hm).mKs, (y3.sc.lay m hm).mCs]
      exact ⟨a1, fun e => a2 ((y3.sc.HC0 m hm).1 e), a3⟩
  have cA : A2.curScale (some s.sc.scale) = s.sc.scale := by rw [World.curScale, y3.qA _ le_rfl]; rfl
  have cB : B2.curScale none = 1 := by rw [World.curScale, y3.qB _ le_rfl]; rfl
  have ho : ScaleOps sA (fun _ => 1) A2 B2 (.step false (some s.sc.scale) it.inf) (.step false none it.inf) := by
    refine ⟨rfl, fun h => ⟨by rw [cA, s2], cB, fun m hm p hpo => ?_⟩⟩
    have hm' := hm
    rw [eB] at hm'
    obtain ⟨⟨gw, gb⟩, _⟩ := fS.2.2 h m hm'
    have : ∃ G, B2.grad p = some G := by
      rcases hpo with rfl | ⟨b, hb, rfl⟩
      · obtain ⟨G, e, _⟩ := gw; exact ⟨G, e⟩
      · obtain ⟨G, e, _⟩ := gb b hb; exact ⟨G, e⟩
    obtain ⟨G, e⟩ := this
    refine ⟨G, by rw [g2 m hm p hpo, e, s2]; rfl, ?_⟩
    rw [e]
    congr 1
    exact Mat.ext' rfl rfl fun i hi j hj => by simp [Mat.smul, hi, hj]
  obtain ⟨A3, eA, lA⟩ := y3.lA.exec fA
  obtain ⟨B3, eB3, lB⟩ := y3.lB.exec fS
  have sc := y3.sc.exec pA (fun _ => one_pos) y3.lA y3.lB fA fS ho
  rw [eA, eB3] at sc
  have after : ∀ {w w' : World α} {a : Option α}, w.Live cl → FitsOp w (.step false a it.inf) → exec (.step false a it.inf) w = (.ok (), w') → (∀ t : ℤ, w.opt.steps ≤ t → w.opt.scales t = none) →
      w'.opt.steps = w.opt.steps + 1 ∧ w'.opt.layers = w.opt.layers ∧ ∀ t : ℤ, w'.opt.steps ≤ t → w'.opt.scales t = none := by
    intro w w' a l f e q
    rcases hi : it.inf with _ | _
    · rw [hi] at f e
      obtain ⟨v, ev, sp, _⟩ := l.step f
      rw [ev] at e; cases e
      refine ⟨sp.steps, sp.layers, fun t ht => ?_⟩
      rw [sp.steps] at ht; push_cast at ht
      rw [sp.scales, if_neg (by omega), if_neg (by omega)]
      exact q t (by omega)
    · rw [hi] at e
      obtain ⟨v, ev, a1, _, _, a4, _, _, _, _, _, _, _, _, a13, _⟩ := l.skip a
      rw [ev] at e; cases e
      refine ⟨a4, a1, fun t ht => ?_⟩
      rw [a4] at ht; push_cast at ht
      rw [a13, if_neg (by omega), if_neg (by omega)]
      exact q t (by omega)
  obtain ⟨u1, u2, u3⟩ := after y3.lA fA eA y3.qA
  obtain ⟨v1, v2, v3⟩ := after y3.lB fS eB3 y3.qB
  have ex : aexec (.step it.inf) { s with w := A2 } = (.ok (), ⟨A3, { s.sc with stage := .stepped, found := some it.inf }, .absent, false⟩) := by
    have e1 : singdStep false (.val s.sc.scale) it.inf A2 = (.ok (), A3) := eA
    rw [aexec]
    simp only [hst]
    rw [if_neg (by simp), if_pos trivial, if_neg (by simp)]
    simp only [Option.getD_some, e1]
  have eu : aexec .update (⟨A3, { s.sc with stage := .stepped, found := some it.inf }, .absent, false⟩ : State α) = (.ok (), ⟨A3, s.sc.next it.inf, .absent, false⟩) := by
    rw [aexec, Scaler.next]
    have : ∀ b : Bool, ({ Scaler.adjust { s.sc with stage := Stage.stepped, found := some b } it.inf with stage := Stage.ready, found := none } : Scaler α) =
        { s.sc.adjust it.inf with stage := .ready, found := none } := by
      intro b
      unfold Scaler.adjust
      split
      · rfl
      · split <;> rfl
    simp only [this]
  have hrun : arun ((zeroGrad ps).map .user ++ it.body.map .scaled) s = { s with w := A2 } := by
    rw [arun_append, (arun_zero ps s).1, x1, y1]
  refine ⟨A3, ?_, ?_, ?_, by rw [u1, y4, x4], by rw [u2, y5, x5]⟩
  · rw [Iter.amp, arun_append, hrun]
    show (aexec .update (aexec (.step it.inf) { s with w := A2 }).2).2 = _
    rw [ex, eu]
  · rw [Iter.amp]
    refine arunOk_append (arunOk_append ((arun_zero ps s).2 x2) ?_) ?_
    · rw [(arun_zero ps s).1, x1]; exact y2
    · rw [hrun]
      refine ⟨by rw [ex], ?_⟩
      rw [ex]
      exact ⟨by rw [eu], trivial⟩
  · rw [Iter.plain, run_append, run_append, hB2, run_cons, eB3]
    exact ⟨lA, lB, sc, u3, v3⟩

end Amp
