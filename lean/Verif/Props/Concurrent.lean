import Verif.Model.Concurrent
import Verif.Proofs.Opt.Frame
import Verif.Proofs.Opt.Dist
import Verif.Props.OptSamples

/-! C81: processes of a data-parallel training under every schedule. -/

set_option linter.unusedSectionVars false

namespace Cc
variable {M A : Type} {R : ℕ}

/-! ### Schedules -/

theorem sched_eq {c d : Config M A R} {r : Fin R} : sched c r = some d ↔ ∃ x, act c r = some x ∧ d = Function.update c r x := by
  unfold sched
  rcases act c r with _ | x
  · simp
  · simp [eq_comm]

/-- what a rank can do is not affected by what another one does -/
theorem act_stable {c d : Config M A R} {r s : Fin R} {x : Rank M A R} (hrs : r ≠ s) (hx : act c r = some x) (hs : sched c s = some d) : act d r = some x := by
  obtain ⟨y, hy, rfl⟩ := sched_eq.1 hs
  have er : Function.update c s y r = c r := Function.update_of_ne hrs _ _
  -- messages are only appended
  have hpre : ∀ t n (h : n < (c t).sent.length), ∃ h' : n < (Function.update c s y t).sent.length, (Function.update c s y t).sent[n] = (c t).sent[n] := by
    intro t n h
    by_cases e : t = s
    · subst e
      rw [Function.update_self]
      revert hy
      unfold act
      rcases (c t).prog with a | ⟨e, a⟩ | p | ⟨m, k⟩
      · simp
      · simp
      · intro hy; simp only [Option.some.injEq] at hy; subst hy; exact ⟨h, rfl⟩
      · simp only
        split
        · intro hy; simp only [Option.some.injEq] at hy; subst hy
          exact ⟨by simp only [List.length_append]; omega, List.getElem_append_left h⟩
        · split
          · intro hy; simp only [Option.some.injEq] at hy; subst hy; exact ⟨h, rfl⟩
          · simp
    · rw [Function.update_of_ne e]; exact ⟨h, rfl⟩
  unfold act at hx ⊢
  rw [er]
  rcases hp : (c r).prog with a | ⟨e, a⟩ | p | ⟨m, k⟩
  · rw [hp] at hx; simp at hx
  · rw [hp] at hx; simp at hx
  · rw [hp] at hx; exact hx
  · rw [hp] at hx
    simp only at hx ⊢
    split at hx
    · next h => rw [if_pos h]; exact hx
    · next h =>
      rw [if_neg h]
      split at hx
      · next h1 =>
        rw [dif_pos fun t => (hpre t _ (h1 t)).1, ← hx]
        congr 3
        funext t
        exact (hpre t _ (h1 t)).2
      · cases hx

/-- two ranks that can both do something can do it in either order -/
theorem sched_comm {c c₁ c₂ : Config M A R} {r s : Fin R} (hrs : r ≠ s) (h₁ : sched c r = some c₁) (h₂ : sched c s = some c₂) :
    ∃ d, sched c₁ s = some d ∧ sched c₂ r = some d := by
  obtain ⟨x, hx, e₁⟩ := sched_eq.1 h₁
  obtain ⟨y, hy, e₂⟩ := sched_eq.1 h₂
  refine ⟨Function.update (Function.update c r x) s y, ?_, ?_⟩
  · rw [sched_eq]; exact ⟨y, act_stable hrs.symm hy h₁, by rw [e₁]⟩
  · rw [sched_eq]; exact ⟨x, act_stable hrs hx h₂, by rw [e₂, Function.update_comm hrs]⟩

theorem exec_cons {c t : Config M A R} {r : Fin R} {σ : List (Fin R)} : exec (r :: σ) c = some t ↔ ∃ d, sched c r = some d ∧ exec σ d = some t := by
  show (sched c r).bind _ = _ ↔ _
  rcases sched c r with _ | d <;> simp

theorem exec_append {σ₁ σ₂ : List (Fin R)} {c t : Config M A R} : exec (σ₁ ++ σ₂) c = some t ↔ ∃ d, exec σ₁ c = some d ∧ exec σ₂ d = some t := by
  induction σ₁ generalizing c with
  | nil => simp [exec]
  | cons r σ ih =>
    rw [List.cons_append, exec_cons]
    constructor
    · rintro ⟨d, h, h'⟩
      obtain ⟨e, h1, h2⟩ := ih.1 h'
      exact ⟨e, exec_cons.2 ⟨d, h, h1⟩, h2⟩
    · rintro ⟨e, h1, h2⟩
      obtain ⟨d, h, h'⟩ := exec_cons.1 h1
      exact ⟨d, h, ih.2 ⟨e, h', h2⟩⟩

/-- a step that is possible can come first in every schedule that runs to the end -/
theorem exec_first {t : Config M A R} (ht : Final t) : ∀ {σ : List (Fin R)} {c d : Config M A R} {r : Fin R}, exec σ c = some t → sched c r = some d →
    ∃ σ', exec σ' d = some t ∧ List.Perm σ (r :: σ')
  | [], c, d, r, h, hd => by
    simp only [exec, Option.some.injEq] at h
    subst h
    obtain ⟨x, hx, -⟩ := sched_eq.1 hd
    rw [ht r] at hx; cases hx
  | s :: σ, c, d, r, h, hd => by
    obtain ⟨c₁, h1, h2⟩ := exec_cons.1 h
    by_cases e : r = s
    · subst e
      rw [h1] at hd; cases hd
      exact ⟨σ, h2, List.Perm.refl _⟩
    · obtain ⟨d', h3, h4⟩ := sched_comm e hd h1
      obtain ⟨σ', h5, h6⟩ := exec_first ht h2 h4
      exact ⟨s :: σ', exec_cons.2 ⟨d', h3, h5⟩, (h6.cons s).trans (List.Perm.swap r s σ')⟩

/-- **Every schedule leads to the same end.** If some schedule of the ranks ends in `t`, where nobody can do anything any more (all have finished, or raised, or wait forever),
then every schedule can be continued to end in `t`, and in the end every rank has been scheduled equally often. -/
theorem C81_same_end {c t : Config M A R} (ht : Final t) {σ : List (Fin R)} (h : exec σ c = some t) : ∀ {σ' : List (Fin R)} {d : Config M A R}, exec σ' c = some d →
    ∃ σ'', exec (σ' ++ σ'') c = some t ∧ exec σ'' d = some t ∧ List.Perm σ (σ' ++ σ'') := by
  intro σ'
  induction σ' generalizing c σ with
  | nil => intro d hd; simp only [exec, Option.some.injEq] at hd; subst hd; exact ⟨σ, h, h, List.Perm.refl _⟩
  | cons r σ' ih =>
    intro d hd
    obtain ⟨c₁, h1, h2⟩ := exec_cons.1 hd
    obtain ⟨τ, h3, h4⟩ := exec_first ht h h1
    obtain ⟨σ'', h5, h6, h7⟩ := ih h3 h2
    exact ⟨σ'', exec_cons.2 ⟨c₁, h1, h5⟩, h6, h4.trans (h7.cons r)⟩

/-- **No schedule runs on forever, and none ends elsewhere.** -/
theorem C81_unique_end {c t d : Config M A R} (ht : Final t) {σ σ' : List (Fin R)} (h : exec σ c = some t) (h' : exec σ' c = some d) :
    σ'.length ≤ σ.length ∧ (Final d → d = t) := by
  obtain ⟨σ'', h1, h2, h3⟩ := C81_same_end ht h h'
  refine ⟨by rw [h3.length_eq]; simp, fun hd => ?_⟩
  rcases σ'' with _ | ⟨r, σ''⟩
  · simpa [exec] using h2
  · obtain ⟨e, h4, -⟩ := exec_cons.1 h2
    obtain ⟨x, hx, -⟩ := sched_eq.1 h4
    rw [hd r] at hx; cases hx

/-! ### Lock-step execution is one of the schedules -/

/-- all ranks act once -/
theorem phase {c : Config M A R} (u : Fin R → Rank M A R)
    (h : ∀ (l : List (Fin R)) (r : Fin R), r ∉ l → act (fun s => if s ∈ l then u s else c s) r = some (u r)) : exec (List.finRange R) c = some u := by
  have H : ∀ (l l₀ : List (Fin R)), (l₀ ++ l).Nodup → exec l (fun s => if s ∈ l₀ then u s else c s) = some fun s => if s ∈ l₀ ++ l then u s else c s := by
    intro l
    induction l with
    | nil => intro l₀ _; simp [exec]
    | cons r l ih =>
      intro l₀ hn
      have hr : r ∉ l₀ := by
        intro hm
        exact (List.nodup_append.1 hn).2.2 r hm r (by simp) rfl
      rw [exec_cons]
      refine ⟨fun s => if s ∈ l₀ ++ [r] then u s else c s, ?_, ?_⟩
      · rw [sched_eq]
        refine ⟨u r, h l₀ r hr, ?_⟩
        funext s
        by_cases e : s = r
        · subst e; simp
        · rw [Function.update_of_ne e]; simp [e]
      · have := ih (l₀ ++ [r]) (by simpa using hn)
        rw [this]
        simp
  have := H (List.finRange R) [] (by simpa using List.nodup_finRange R)
  simpa using this

/-- all ranks are about to execute `p` and have communicated equally often -/
def Synced (c : Config M A R) (p : Fin R → Prog M A R) : Prop := (∀ r, (c r).prog = p r) ∧ ∃ n, ∀ r, (c r).got = n ∧ (c r).sent.length = n

/-- some schedule leads from `p` to `q` -/
def Runs (p q : Fin R → Prog M A R) : Prop := ∀ c, Synced c p → ∃ σ d, exec σ c = some d ∧ Synced d q

theorem Runs.refl (p : Fin R → Prog M A R) : Runs p p := fun c h => ⟨[], c, rfl, h⟩
theorem Runs.trans {p q s : Fin R → Prog M A R} (h : Runs p q) (h' : Runs q s) : Runs p s := fun c hc => by
  obtain ⟨σ, d, h1, h2⟩ := h c hc
  obtain ⟨τ, e, h3, h4⟩ := h' d h2
  exact ⟨σ ++ τ, e, exec_append.2 ⟨d, h1, h3⟩, h4⟩

theorem Runs.tau (p : Fin R → Prog M A R) : Runs (fun r => .tau (p r)) p := fun c ⟨hp, n, hn⟩ => by
  refine ⟨List.finRange R, fun r => { c r with prog := p r }, phase _ fun l r hr => ?_, fun r => rfl, n, hn⟩
  simp only [act, hr, if_false, hp r]

theorem Runs.sync (m : Fin R → M) (k : Fin R → (Fin R → M) → Prog M A R) : Runs (fun r => .sync (m r) (k r)) (fun r => k r m) := fun c ⟨hp, n, hn⟩ => by
  let u : Config M A R := fun r => ⟨.sync (m r) (k r), (c r).sent ++ [m r], n⟩
  let v : Config M A R := fun r => ⟨k r m, (u r).sent, n + 1⟩
  have lu : ∀ r, (u r).sent.length = n + 1 := fun r => by simp [u, (hn r).2]
  have h1 : exec (List.finRange R) c = some u := phase _ fun l r hr => by
    simp only [act, hr, if_false, hp r, (hn r).1, (hn r).2, if_true]
    rfl
  have h2 : exec (List.finRange R) u = some v := phase _ fun l r hr => by
    have hs : ∀ s, (if s ∈ l then v s else u s).sent = (u s).sent := fun s => by split <;> rfl
    have e1 : (u r).prog = .sync (m r) (k r) := rfl
    have e2 : (u r).got = n := rfl
    simp only [act, hr, if_false, e1, e2, lu r]
    rw [if_neg (by omega), dif_pos (fun s => by rw [hs, lu]; omega)]
    simp only [v, Option.some.injEq, Rank.mk.injEq, and_true]
    congr 1
    funext s
    have : ∀ (x : Rank M A R) (hx : n < x.sent.length), x.sent = (c s).sent ++ [m s] → x.sent[n] = m s := by
      rintro ⟨p, q, g⟩ hx rfl
      simp [← (hn s).2]
    exact this _ _ (hs s)
  exact ⟨List.finRange R ++ List.finRange R, v, exec_append.2 ⟨u, h1, h2⟩, fun r => rfl, n + 1, fun r => ⟨rfl, lu r⟩⟩

section
variable {α : Type} [Field α] [LinearOrder α] [HasSqrt α]

/-- code without communication that succeeds on all ranks -/
theorem Runs.loc {x : Fin R → Py (World α) Unit} {W W' : Fin R → World α} (h : ∀ r, x r (W r) = (.ok (), W' r)) (k : Fin R → World α → Proc α R) :
    Runs (fun r => loc (x r) (W r) (k r)) (fun r => k r (W' r)) := by
  have := Runs.tau fun r => k r (W' r)
  convert this using 2 with r
  unfold Cc.loc
  rw [h r]

theorem gather_inv {β : Type} : ∀ {R : ℕ} {f : Fin R → Except PyErr β} {b : Fin R → β}, Dist.gather f = .ok b → ∀ r, f r = .ok (b r)
  | 0, f, b, _, r => r.elim0
  | R + 1, f, b, h, r => by
    rw [Dist.gather] at h
    rcases h0 : f 0 with e | b0
    · rw [h0] at h; cases h
    · rcases h1 : Dist.gather (fun r : Fin R => f r.succ) with e | bs
      · rw [h0, h1] at h; cases h
      · rw [h0, h1] at h
        simp only [Except.bind_ok', pure, Except.pure, Except.ok.injEq] at h
        subst h
        refine Fin.cases ?_ (fun r => ?_) r
        · exact h0
        · exact gather_inv h1 r

theorem each_inv {f : Fin R → Py (World α) Unit} {W W' : Fin R → World α} (h : Dist.each f W = (.ok (), W')) (r : Fin R) : f r (W r) = (.ok (), W' r) := by
  simp only [Dist.each, Prod.mk.injEq] at h
  obtain ⟨h1, rfl⟩ := h
  rcases hg : Dist.gather fun r => (f r (W r)).1 with e | b
  · rw [hg] at h1; cases h1
  · have := gather_inv hg r
    exact Prod.ext this rfl

theorem bind_inv {σ β γ : Type} {x : Py σ β} {f : β → Py σ γ} {c : γ} {w w' : σ} (h : (x >>= f) w = (.ok c, w')) : ∃ b v, x w = (.ok b, v) ∧ f b v = (.ok c, w') := by
  rw [Py.bind_run] at h
  rcases hx : x w with ⟨e | b, v⟩
  · rw [hx] at h; cases h
  · rw [hx] at h; exact ⟨b, v, rfl, h⟩

theorem lift_bind_inv {σ β γ : Type} {x : Except PyErr β} {f : β → Py σ γ} {c : γ} {w w' : σ} (h : (Py.lift x >>= f) w = (.ok c, w')) :
    ∃ b, x = .ok b ∧ f b w = (.ok c, w') := by
  obtain ⟨b, v, h1, h2⟩ := bind_inv h
  simp only [Py.lift, Prod.mk.injEq] at h1
  obtain ⟨h1, rfl⟩ := h1
  exact ⟨b, h1, h2⟩

theorem mats_ok (Hs : Fin R → SM α) : mats (fun r => .mat (Hs r)) = .ok Hs := Dist.gather_ok fun _ => rfl
theorem tensors_ok (Ns : Fin R → Mat α) : tensors (fun r => .tensor (Ns r)) = .ok Ns := Dist.gather_ok fun _ => rfl

theorem Runs.reduce {op : Fin R → ReduceOp} {Hs Ss : Fin R → SM α} (h : Dist.reduceStat op Hs = .ok Ss) (W : Fin R → World α) (k : Fin R → SM α → Proc α R) :
    Runs (fun r => reduce r (op r) (Hs r) (W r) (k r)) (fun r => k r (Ss r)) := by
  have := Runs.sync (fun r => Msg.mat (Hs r)) fun (r : Fin R) v => Cc.get (R := R) (do
    let Hs ← mats v
    let S ← SM.allReduce (op r) (fun r => Dist.statContig (Hs r)) Hs
    return S r) (W r) (k r)
  refine this.trans ?_
  have e : ∀ r, Cc.get (R := R) (do
      let Hs ← mats fun r => Msg.mat (Hs r)
      let S ← SM.allReduce (op r) (fun r => Dist.statContig (Hs r)) Hs
      return S r) (W r) (k r) = k r (Ss r) := fun r => by
    rw [mats_ok]
    show Cc.get (R := R) (do
      let S ← SM.allReduce (op r) (fun r => Dist.statContig (Hs r)) Hs
      return S r) (W r) (k r) = k r (Ss r)
    rw [gather_inv h r]; rfl
  simp only [e]
  exact Runs.refl _

theorem Runs.accumulateH {mx : Fin R → Layer × ND α} {g : Fin R → ND α} {W W' : Fin R → World α} (h : Dist.accumulateH mx g W = (.ok (), W'))
    (k : Fin R → World α → Proc α R) : Runs (fun r => accumulateH r (mx r).1 (mx r).2 (g r) (W r) (k r)) (fun r => k r (W' r)) := by
  unfold Dist.accumulateH at h
  rw [Py.get_bind_run] at h
  obtain ⟨H, h1, h⟩ := lift_bind_inv h
  obtain ⟨hy, h2, h⟩ := lift_bind_inv h
  obtain ⟨HK, h3, h⟩ := lift_bind_inv h
  obtain ⟨HC, h4, h⟩ := lift_bind_inv h
  have h5 := each_inv h
  refine (Runs.tau _).trans ?_
  have e : ∀ r, (Cc.get (R := R) (do return (← World.localH (W r).opt (mx r).1 (mx r).2 (g r), ← (W r).opt.hyperOf (mx r).1)) (W r) fun Hh =>
      Cc.reduce r (Dist.reduceOp Hh.2) Hh.1.1 (W r) fun HK => Cc.reduce r (Dist.reduceOp Hh.2) Hh.1.2 (W r) fun HC =>
      Cc.loc (World.commitH (mx r).1 HK HC) (W r) (k r)) =
      Cc.reduce r (Dist.reduceOp (hy r)) (H r).1 (W r) fun HK => Cc.reduce r (Dist.reduceOp (hy r)) (H r).2 (W r) fun HC =>
      Cc.loc (World.commitH (mx r).1 HK HC) (W r) (k r) := fun r => by
    rw [gather_inv h1 r, gather_inv h2 r]; rfl
  simp only [e]
  exact ((Runs.reduce h3 W _).trans (Runs.reduce h4 W _)).trans (Runs.loc h5 k)

theorem Runs.layerStep {m : Layer} {W W' : Fin R → World α} (h : Dist.layerStep m W = (.ok (), W')) (k : Fin R → World α → Proc α R) :
    Runs (fun r => layerStep m (W r) (k r)) (fun r => k r (W' r)) := by
  unfold Dist.layerStep at h
  obtain ⟨_, V, h0, h⟩ := bind_inv h
  rw [Py.get_bind_run] at h
  obtain ⟨Ns, h1, h⟩ := lift_bind_inv h
  obtain ⟨hy, h2, h⟩ := lift_bind_inv h
  obtain ⟨N, h3, h⟩ := lift_bind_inv h
  have h5 := each_inv h
  refine (Runs.loc (each_inv h0) _).trans ((Runs.tau _).trans ?_)
  have e : ∀ r, (Cc.get (R := R) (do return (← (V r).natGradMat m, ← (V r).opt.hyperOf m)) (V r) fun Nh =>
      .sync (.tensor Nh.1) fun v => Cc.get (do Dist.reduceMat (Dist.reduceOp Nh.2) (← tensors v)) (V r) fun N => Cc.loc (World.applyNat m N) (V r) (k r)) =
      .sync (.tensor (Ns r)) fun v => Cc.get (do Dist.reduceMat (Dist.reduceOp (hy r)) (← tensors v)) (V r) fun N => Cc.loc (World.applyNat m N) (V r) (k r) := fun r => by
    rw [gather_inv h1 r, gather_inv h2 r]; rfl
  simp only [e]
  refine (Runs.sync (fun r => Msg.tensor (Ns r)) _).trans ?_
  have e' : ∀ r, (Cc.get (R := R) (do Dist.reduceMat (Dist.reduceOp (hy r)) (← tensors fun r => Msg.tensor (Ns r))) (V r) fun N =>
      Cc.loc (World.applyNat m N) (V r) (k r)) = Cc.loc (World.applyNat m (N r)) (V r) (k r) := fun r => by
    rw [tensors_ok]
    show (Cc.get (R := R) (Dist.reduceMat (Dist.reduceOp (hy r)) Ns) (V r) fun N => Cc.loc (World.applyNat m N) (V r) (k r)) = _
    rw [gather_inv h3 r]; rfl
  simp only [e']
  exact Runs.loc h5 k

theorem Runs.layerSteps : ∀ (ms : List Layer) {W W' : Fin R → World α}, Py.forM ms Dist.layerStep W = (.ok (), W') → ∀ k : Fin R → World α → Proc α R,
    Runs (fun r => layerSteps ms (W r) (k r)) (fun r => k r (W' r))
  | [], W, W', h, k => by
    cases h
    exact Runs.refl _
  | m :: ms, W, W', h, k => by
    obtain ⟨_, V, h1, h2⟩ := bind_inv (show (Dist.layerStep m >>= fun _ => Py.forM ms Dist.layerStep) W = (.ok (), W') from h)
    exact (Runs.layerStep h1 _).trans (Runs.layerSteps ms h2 k)

/-- what decides which collective operations follow: the layers, the groups, the step counter and the number of hooks -/
def shape (w : World α) : List Layer × (ℕ → Option ℕ) × List (PGroup α) × ℕ × ℕ := (w.opt.layers, w.opt.ptrGroup, w.opt.groups, w.opt.steps, w.hooks.length)

theorem _root_.Frame.shape {N S : String → Prop} {P : ℕ → Prop} {w w' : World α} (h : Frame N S P w w') : shape w' = shape w := by
  unfold Cc.shape; rw [h.layers, h.ptrGroup, h.groups, h.steps, h.hooks]

theorem setScale_shape (a : α) (w : World α) : shape (Opt.setScale a w).2 = shape w := by
  unfold Opt.setScale
  rw [Py.bind_run]
  simp only [Py.modify, Py.get_bind_run]
  split
  · rw [Py.bind_run]
    rcases Opt.scale _ _ with e | b
    · rfl
    · simp only [Py.lift]
      rw [Py.bind_run]
      rcases Opt.scale _ _ with e | b <;> rfl
  · rfl

theorem ensureScale_shape (attr : Option α) (w : World α) : shape (World.ensureScale attr w).2 = shape w := by rw [World.ensureScale_state]; rfl

theorem layerStep_shape {m : Layer} {W W' : Fin R → World α} (h : Dist.layerStep m W = (.ok (), W')) (r : Fin R) : shape (W' r) = shape (W r) := by
  unfold Dist.layerStep at h
  obtain ⟨_, V, h0, h⟩ := bind_inv h
  rw [Py.get_bind_run] at h
  obtain ⟨Ns, h1, h⟩ := lift_bind_inv h
  obtain ⟨hy, h2, h⟩ := lift_bind_inv h
  obtain ⟨N, h3, h⟩ := lift_bind_inv h
  have e1 := World.updatePreconditioner_frame m (W r)
  rw [each_inv h0 r] at e1
  have e2 := World.applyNat_frame m (N r) (V r)
  rw [each_inv h r] at e2
  exact (Frame.shape e2).trans (Frame.shape e1)

theorem layerSteps_shape : ∀ (ms : List Layer) {W W' : Fin R → World α}, Py.forM ms Dist.layerStep W = (.ok (), W') → ∀ r, shape (W' r) = shape (W r)
  | [], W, W', h, r => by cases h; rfl
  | m :: ms, W, W', h, r => by
    obtain ⟨_, V, h1, h2⟩ := bind_inv (show (Dist.layerStep m >>= fun _ => Py.forM ms Dist.layerStep) W = (.ok (), W') from h)
    exact (layerSteps_shape ms h2 r).trans (layerStep_shape h1 r)

theorem accumulateH_shape {mx : Fin R → Layer × ND α} {g : Fin R → ND α} {W W' : Fin R → World α} (h : Dist.accumulateH mx g W = (.ok (), W')) (r : Fin R) :
    shape (W' r) = shape (W r) := by
  unfold Dist.accumulateH at h
  rw [Py.get_bind_run] at h
  obtain ⟨H, h1, h⟩ := lift_bind_inv h
  obtain ⟨hy, h2, h⟩ := lift_bind_inv h
  obtain ⟨HK, h3, h⟩ := lift_bind_inv h
  obtain ⟨HC, h4, h⟩ := lift_bind_inv h
  have e := World.commitH_frame (mx r).1 (HK r) (HC r) (W r)
  rw [each_inv h r] at e
  exact Frame.shape e

theorem Runs.step [NeZero R] {c f : Bool} {attr : Option α} {W W' : Fin R → World α} (hW : ∀ r, (W r).opt.layers = (W 0).opt.layers)
    (h : Dist.step c attr f W = (.ok (), W')) (k : Fin R → World α → Proc α R) : Runs (fun r => step c attr f (W r) (k r)) (fun r => k r (W' r)) := by
  unfold Dist.step at h
  unfold Cc.step
  cases c with
  | true => cases h
  | false =>
    simp only [Bool.false_eq_true, if_false] at h ⊢
    obtain ⟨_, V, h1, h⟩ := bind_inv h
    obtain ⟨_, V2, h2, h⟩ := bind_inv h
    obtain ⟨_, V3, h3, h4⟩ := bind_inv h
    have h1' := each_inv h1
    refine (Runs.loc h1' _).trans ?_
    have rest : Runs (fun r => Cc.loc (World.setOpt fun o => { o with steps := o.steps + 1 }) (V2 r) fun w => Cc.loc (World.setOpt Opt.removeUsedScales) w (k r))
        (fun r => k r (W' r)) := (Runs.loc (each_inv h3) _).trans (Runs.loc (each_inv h4) k)
    unfold Dist.stepBody at h2
    cases f with
    | true =>
      simp only [if_true] at h2 ⊢
      exact (Runs.loc (each_inv h2) _).trans rest
    | false =>
      simp only [Bool.false_eq_true, if_false] at h2 ⊢
      unfold Dist.innerStep at h2
      rw [Py.get_bind_run] at h2
      have hl : ∀ r, (V r).opt.layers = (V 0).opt.layers := by
        have : ∀ r, (V r).opt.layers = (W r).opt.layers := fun r => by
          have := ensureScale_shape attr (W r)
          rw [h1' r] at this
          exact congrArg Prod.fst this
        intro r; rw [this, this, hW]
      simp only [hl]
      exact (Runs.layerSteps _ h2 _).trans rest

theorem step_shape [NeZero R] {c f : Bool} {attr : Option α} {W W' : Fin R → World α} (h : Dist.step c attr f W = (.ok (), W')) (r : Fin R) :
    shape (W' r) = ((shape (W r)).1, (shape (W r)).2.1, (shape (W r)).2.2.1, (shape (W r)).2.2.2.1 + 1, (shape (W r)).2.2.2.2) := by
  unfold Dist.step at h
  cases c with
  | true => cases h
  | false =>
    simp only [Bool.false_eq_true, if_false] at h
    obtain ⟨_, V, h1, h⟩ := bind_inv h
    obtain ⟨_, V2, h2, h⟩ := bind_inv h
    obtain ⟨_, V3, h3, h4⟩ := bind_inv h
    have e1 := ensureScale_shape attr (W r)
    rw [each_inv h1 r] at e1
    have e2 : shape (V2 r) = shape (V r) := by
      unfold Dist.stepBody at h2
      cases f with
      | true =>
        have := World.dropStats_frame (V r)
        simp only [if_true] at h2
        rw [each_inv h2 r] at this
        exact Frame.shape this
      | false =>
        simp only [Bool.false_eq_true, if_false] at h2
        unfold Dist.innerStep at h2
        rw [Py.get_bind_run] at h2
        exact layerSteps_shape _ h2 r
    have e3 := each_inv h3 r
    have e4 := each_inv h4 r
    simp only [World.setOpt, Py.modify, Prod.mk.injEq, true_and] at e3 e4
    rw [← e1, ← e2, ← e4, ← e3]
    rfl

theorem hyperOf_shape {w v : World α} (h : shape w = shape v) (m : Layer) : w.opt.hyperOf m = v.opt.hyperOf m := by
  simp only [shape, Prod.mk.injEq] at h
  unfold Opt.hyperOf
  rw [h.2.1, h.2.2.1]

theorem forward_shape {i : ℕ} {x y : ND α} {ge : Bool} {w v w' v' : World α} (h : shape w = shape v) (hw : _root_.exec (.forward i x ge) w = (.ok (), w'))
    (hv : _root_.exec (.forward i y ge) v = (.ok (), v')) : shape w' = shape v' := by
  have hl : w.opt.layers = v.opt.layers := congrArg Prod.fst h
  have hs : w.opt.steps = v.opt.steps := congrArg (fun p => p.2.2.2.1) h
  simp only [_root_.exec, Py.get_bind_run] at hw hv
  rw [hl] at hw
  rcases hi : v.opt.layers[i]? with _ | m
  · rw [hi] at hw hv; cases hw; cases hv; exact h
  · rw [hi] at hw hv
    simp only [World.forwardHook, Py.get_bind_run] at hw hv
    rw [hyperOf_shape h, hs] at hw
    rcases hh : v.opt.hyperOf m with e | hy
    · rw [hh] at hv; cases hv
    · rw [hh] at hw hv
      simp only [Py.lift_ok_bind_run] at hw hv
      split at hw
      · next hg =>
        rw [if_pos hg] at hv
        split at hw
        · cases hw
        · next hT =>
          rw [if_neg hT] at hv
          split at hw
          · next h0 =>
            rw [if_pos h0] at hv
            cases hw; cases hv
            simp only [shape, Prod.mk.injEq] at h ⊢
            simp [h]
          · next h0 =>
            rw [if_neg h0] at hv
            cases hw; cases hv; exact h
      · next hg =>
        rw [if_neg hg] at hv
        cases hw; cases hv; exact h

/-- all ranks have the same layers, groups, step counter and number of hooks -/
def Agree [NeZero R] (W : Fin R → World α) : Prop := ∀ r, shape (W r) = shape (W 0)

/-- one operation in lock-step is a schedule of the ranks' processes -/
theorem Runs.op [NeZero R] {op : DOp α R} {W W' : Fin R → World α} (hW : Agree W) (h : dexec op W = (.ok (), W')) (k : Fin R → World α → Proc α R) :
    Runs (fun r => progOp r (op.at r) (W r) (k r)) (fun r => k r (W' r)) ∧ Agree W' := by
  cases op with
  | forward i x ge =>
    have e := each_inv (show Dist.each (fun r => _root_.exec (.forward i (x r) ge)) W = (.ok (), W') from h)
    exact ⟨Runs.loc e k, fun r => forward_shape (hW r) (e r) (e 0)⟩
  | backward j g =>
    simp only [dexec, Py.get_bind_run] at h
    rcases h0 : (W 0).hooks[j]? with _ | mx0
    · rw [h0] at h
      cases h
      have : ∀ r, (W r).hooks[j]? = none := fun r => by
        have e : (W r).hooks.length = (W 0).hooks.length := congrArg (fun p => p.2.2.2.2) (hW r)
        rw [List.getElem?_eq_none_iff] at h0 ⊢
        omega
      simp only [DOp.at, progOp, this]
      exact ⟨Runs.tau _, hW⟩
    · rw [h0] at h
      obtain ⟨mx, h1, h2⟩ := lift_bind_inv h
      have : ∀ r, (W r).hooks[j]? = some (mx r) := fun r => by
        have := gather_inv h1 r
        unfold hookOf at this
        rcases hx : (W r).hooks[j]? with _ | y
        · rw [hx] at this; cases this
        · rw [hx] at this; cases this; rfl
      simp only [DOp.at, progOp, this]
      exact ⟨Runs.accumulateH h2 k, fun r => by rw [accumulateH_shape h2, accumulateH_shape h2, hW]⟩
  | setGrad p G =>
    have e := each_inv (show Dist.each (fun r => _root_.exec (.setGrad p (G r))) W = (.ok (), W') from h)
    refine ⟨Runs.loc e k, fun r => ?_⟩
    have := e r; have := e 0
    simp only [_root_.exec, Py.modify, Prod.mk.injEq, true_and] at e
    rw [← e r, ← e 0]; exact hW r
  | setParam p M =>
    have e := each_inv (show Dist.each (fun r => _root_.exec (.setParam p M)) W = (.ok (), W') from h)
    refine ⟨Runs.loc e k, fun r => ?_⟩
    simp only [_root_.exec, Py.modify, Prod.mk.injEq, true_and] at e
    rw [← e r, ← e 0]; exact hW r
  | setHyper i hy =>
    have e := each_inv (show Dist.each (fun r => _root_.exec (.setHyper i hy)) W = (.ok (), W') from h)
    refine ⟨Runs.loc e k, fun r => ?_⟩
    simp only [_root_.exec, World.setOpt, Py.modify, Prod.mk.injEq, true_and] at e
    have := hW r
    rw [← e r, ← e 0]
    simp only [shape, Prod.mk.injEq] at this ⊢
    simp [this]
  | setScale a =>
    have e := each_inv (show Dist.each (fun r => _root_.exec (.setScale a)) W = (.ok (), W') from h)
    refine ⟨Runs.loc e k, fun r => ?_⟩
    have e1 := setScale_shape a (W r)
    have e2 := setScale_shape a (W 0)
    rw [show Opt.setScale a (W r) = _ from e r] at e1
    rw [show Opt.setScale a (W 0) = _ from e 0] at e2
    rw [e1, e2, hW]
  | step c a f =>
    refine ⟨Runs.step (fun r => congrArg Prod.fst (hW r)) h k, fun r => ?_⟩
    rw [step_shape h r, step_shape h 0, hW r]

theorem Runs.run [NeZero R] : ∀ (ops : List (DOp α R)) {W W' : Fin R → World α}, Agree W → drunOk ops W = some W' →
    Runs (fun r => prog r (ops.map (DOp.at r)) (W r)) (fun r => .ret (W' r))
  | [], W, W', _, h => by cases h; exact Runs.refl _
  | op :: ops, W, W', hW, h => by
    simp only [drunOk] at h
    rcases he : dexec op W with ⟨e | u, V⟩
    · rw [he] at h; cases h
    · rw [he] at h
      obtain ⟨h1, h2⟩ := Runs.op hW he fun r => prog r (ops.map (DOp.at r))
      exact h1.trans (Runs.run ops h2 h)

/-- all ranks have finished, rank `r` in the state `W r` -/
def Done (c : Config (Msg α) (World α) R) (W : Fin R → World α) : Prop := ∀ r, (c r).prog = .ret (W r)

theorem Done.final {c : Config (Msg α) (World α) R} {W : Fin R → World α} (h : Done c W) : Final c := fun r => by simp [act, h r]

/-- **Lock-step execution is all there is.** If a history succeeds in lock-step (`drunOk`, the model all statements about data-parallel training are about), then under every schedule
of the ranks' processes the history succeeds with the same result: no schedule runs forever, none gets stuck, and whenever no rank can go on, every rank has finished, in the state
of the lock-step execution. -/
theorem C81_lockstep [NeZero R] {ops : List (DOp α R)} {W W' : Fin R → World α} (hW : Agree W) (h : drunOk ops W = some W') :
    ∃ n, ∀ (σ : List (Fin R)) (d : Config (Msg α) (World α) R), exec σ (start (fun r => ops.map (DOp.at r)) W) = some d →
      σ.length ≤ n ∧ (Final d → Done d W') ∧ ∃ σ' e, exec (σ ++ σ') (start (fun r => ops.map (DOp.at r)) W) = some e ∧ Done e W' := by
  obtain ⟨τ, t, h1, h2⟩ := Runs.run ops hW h (start (fun r => ops.map (DOp.at r)) W) ⟨fun r => rfl, 0, fun r => ⟨rfl, rfl⟩⟩
  have ht : Done t W' := h2.1
  refine ⟨τ.length, fun σ d hd => ?_⟩
  obtain ⟨h3, h4⟩ := C81_unique_end ht.final h1 hd
  obtain ⟨σ', h5, -, -⟩ := C81_same_end ht.final h1 hd
  exact ⟨h3, fun hf => h4 hf ▸ ht, σ', t, h5, ht⟩

/-! ### The converse: what fails in lock-step fails under every schedule -/

/-- some schedule leads from `p` to an exception on some rank -/
def Fails (p : Fin R → Prog M A R) : Prop := ∀ c, Synced c p → ∃ σ d r e a, exec σ c = some d ∧ (d r).prog = .fail e a

theorem Runs.fails {p q : Fin R → Prog M A R} (h : Runs p q) (h' : Fails q) : Fails p := fun c hc => by
  obtain ⟨σ, d, h1, h2⟩ := h c hc
  obtain ⟨τ, t, r, e, a, h3, h4⟩ := h' d h2
  exact ⟨σ ++ τ, t, r, e, a, exec_append.2 ⟨d, h1, h3⟩, h4⟩

theorem fails_now {p : Fin R → Prog M A R} {r : Fin R} {e : PyErr} {a : A} (h : p r = .fail e a) : Fails p := fun c hc => ⟨[], c, r, e, a, rfl, (hc.1 r).trans h⟩

theorem fails_loc {x : Fin R → Py (World α) Unit} {W W' : Fin R → World α} {k : Fin R → World α → Proc α R} {e : PyErr} (h : Dist.each x W = (.error e, W')) :
    Fails (fun r => loc (x r) (W r) (k r)) := by
  have : ∃ r e', (x r (W r)).1 = .error e' := by
    by_contra hc
    have ok : ∀ r, (x r (W r)).1 = .ok () := fun r => by
      rcases hx : (x r (W r)).1 with e' | u
      · exact absurd ⟨r, e', hx⟩ hc
      · rfl
    simp only [Dist.each, Dist.gather_ok ok, Prod.mk.injEq] at h
    cases h.1
  obtain ⟨r, e', hx⟩ := this
  refine (Runs.tau _).fails (fails_now (r := r) (e := e') (a := (x r (W r)).2) ?_)
  rcases hxr : x r (W r) with ⟨e1 | u, w'⟩
  · rw [hxr] at hx; cases hx; rfl
  · rw [hxr] at hx; cases hx

theorem gather_err {β : Type} {f : Fin R → Except PyErr β} {e : PyErr} (h : Dist.gather f = .error e) : ∃ r e', f r = .error e' := by
  by_contra hc
  have : ∀ r, ∃ b, f r = .ok b := fun r => by
    rcases hx : f r with e' | u
    · exact absurd ⟨r, e', hx⟩ hc
    · exact ⟨u, rfl⟩
  choose b hb using this
  rw [Dist.gather_ok hb] at h
  cases h

theorem bind_err {σ β γ : Type} {x : Py σ β} {f : β → Py σ γ} {e : PyErr} {w w' : σ} (h : (x >>= f) w = (.error e, w')) :
    x w = (.error e, w') ∨ ∃ b v, x w = (.ok b, v) ∧ f b v = (.error e, w') := by
  rw [Py.bind_run] at h
  rcases hx : x w with ⟨e' | b, v⟩
  · rw [hx] at h; cases h; exact .inl rfl
  · rw [hx] at h; exact .inr ⟨b, v, rfl, h⟩

theorem lift_bind_err {σ β γ : Type} {x : Except PyErr β} {f : β → Py σ γ} {e : PyErr} {w w' : σ} (h : (Py.lift x >>= f) w = (.error e, w')) :
    x = .error e ∨ ∃ b, x = .ok b ∧ f b w = (.error e, w') := by
  rcases bind_err h with h | ⟨b, v, h1, h2⟩
  · simp only [Py.lift, Prod.mk.injEq] at h; exact .inl h.1
  · simp only [Py.lift, Prod.mk.injEq] at h1; obtain ⟨h1, rfl⟩ := h1; exact .inr ⟨b, h1, h2⟩

theorem fails_reduce {op : Fin R → ReduceOp} {Hs : Fin R → SM α} {e : PyErr} (h : Dist.reduceStat op Hs = .error e) (W : Fin R → World α) (k : Fin R → SM α → Proc α R) :
    Fails (fun r => reduce r (op r) (Hs r) (W r) (k r)) := by
  obtain ⟨r, e', hr⟩ := gather_err h
  refine (Runs.sync (fun r => Msg.mat (Hs r)) fun (r : Fin R) v => Cc.get (R := R) (do
    let Hs ← mats v
    let S ← SM.allReduce (op r) (fun r => Dist.statContig (Hs r)) Hs
    return S r) (W r) (k r)).fails (fails_now (r := r) (e := e') (a := W r) ?_)
  rw [mats_ok]
  show Cc.get (R := R) (do
    let S ← SM.allReduce (op r) (fun r => Dist.statContig (Hs r)) Hs
    return S r) (W r) (k r) = _
  rw [hr]; rfl

/-- two computations that do not change the state, one of which raises on some rank -/
theorem fails_get {β γ : Type} {x : Fin R → Except PyErr β} {y : Fin R → Except PyErr γ} {W : Fin R → World α} {k : Fin R → β × γ → Proc α R}
    (h : (∃ e, Dist.gather x = .error e) ∨ ∃ e, Dist.gather y = .error e) : Fails (fun r => .tau (get (do return (← x r, ← y r)) (W r) (k r))) := by
  have : ∃ r e, (do return (← x r, ← y r) : Except PyErr (β × γ)) = .error e := by
    rcases h with ⟨e, h⟩ | ⟨e, h⟩
    · obtain ⟨r, e', hr⟩ := gather_err h
      exact ⟨r, e', by rw [hr]; rfl⟩
    · obtain ⟨r, e', hr⟩ := gather_err h
      rcases hx : x r with e1 | b
      · exact ⟨r, e1, by rw [hx]; rfl⟩
      · exact ⟨r, e', by rw [hx, hr]; rfl⟩
  obtain ⟨r, e, hr⟩ := this
  exact (Runs.tau _).fails (fails_now (r := r) (e := e) (a := W r) (by rw [hr]; rfl))

theorem fails_accumulateH {mx : Fin R → Layer × ND α} {g : Fin R → ND α} {W W' : Fin R → World α} {e : PyErr} (h : Dist.accumulateH mx g W = (.error e, W'))
    (k : Fin R → World α → Proc α R) : Fails (fun r => accumulateH r (mx r).1 (mx r).2 (g r) (W r) (k r)) := by
  unfold Dist.accumulateH at h
  rw [Py.get_bind_run] at h
  rcases lift_bind_err h with h1 | ⟨H, h1, h⟩
  · exact fails_get (.inl ⟨e, h1⟩)
  rcases lift_bind_err h with h2 | ⟨hy, h2, h⟩
  · exact fails_get (.inr ⟨e, h2⟩)
  refine (Runs.tau _).fails ?_
  have e' : ∀ r, (Cc.get (R := R) (do return (← World.localH (W r).opt (mx r).1 (mx r).2 (g r), ← (W r).opt.hyperOf (mx r).1)) (W r) fun Hh =>
      Cc.reduce r (Dist.reduceOp Hh.2) Hh.1.1 (W r) fun HK => Cc.reduce r (Dist.reduceOp Hh.2) Hh.1.2 (W r) fun HC =>
      Cc.loc (World.commitH (mx r).1 HK HC) (W r) (k r)) =
      Cc.reduce r (Dist.reduceOp (hy r)) (H r).1 (W r) fun HK => Cc.reduce r (Dist.reduceOp (hy r)) (H r).2 (W r) fun HC =>
      Cc.loc (World.commitH (mx r).1 HK HC) (W r) (k r) := fun r => by
    rw [gather_inv h1 r, gather_inv h2 r]; rfl
  simp only [e']
  rcases lift_bind_err h with h3 | ⟨HK, h3, h⟩
  · exact fails_reduce h3 W _
  refine (Runs.reduce h3 W _).fails ?_
  rcases lift_bind_err h with h4 | ⟨HC, h4, h⟩
  · exact fails_reduce h4 W _
  exact (Runs.reduce h4 W _).fails (fails_loc h)

theorem fails_layerStep {m : Layer} {W W' : Fin R → World α} {e : PyErr} (h : Dist.layerStep m W = (.error e, W')) (k : Fin R → World α → Proc α R) :
    Fails (fun r => layerStep m (W r) (k r)) := by
  unfold Dist.layerStep at h
  rcases bind_err h with h0 | ⟨_, V, h0, h⟩
  · exact fails_loc h0
  refine (Runs.loc (each_inv h0) _).fails ?_
  rw [Py.get_bind_run] at h
  rcases lift_bind_err h with h1 | ⟨Ns, h1, h⟩
  · exact fails_get (.inl ⟨e, h1⟩)
  rcases lift_bind_err h with h2 | ⟨hy, h2, h⟩
  · exact fails_get (.inr ⟨e, h2⟩)
  refine (Runs.tau _).fails ?_
  have e1 : ∀ r, (Cc.get (R := R) (do return (← (V r).natGradMat m, ← (V r).opt.hyperOf m)) (V r) fun Nh =>
      .sync (.tensor Nh.1) fun v => Cc.get (do Dist.reduceMat (Dist.reduceOp Nh.2) (← tensors v)) (V r) fun N => Cc.loc (World.applyNat m N) (V r) (k r)) =
      .sync (.tensor (Ns r)) fun v => Cc.get (do Dist.reduceMat (Dist.reduceOp (hy r)) (← tensors v)) (V r) fun N => Cc.loc (World.applyNat m N) (V r) (k r) := fun r => by
    rw [gather_inv h1 r, gather_inv h2 r]; rfl
  simp only [e1]
  refine (Runs.sync (fun r => Msg.tensor (Ns r)) _).fails ?_
  have e2 : ∀ r, (Cc.get (R := R) (do Dist.reduceMat (Dist.reduceOp (hy r)) (← tensors fun r => Msg.tensor (Ns r))) (V r) fun N =>
      Cc.loc (World.applyNat m N) (V r) (k r)) = Cc.get (R := R) (Dist.reduceMat (Dist.reduceOp (hy r)) Ns) (V r) fun N => Cc.loc (World.applyNat m N) (V r) (k r) :=
    fun r => by rw [tensors_ok]; rfl
  simp only [e2]
  rcases lift_bind_err h with h3 | ⟨N, h3, h⟩
  · obtain ⟨r, e', hr⟩ := gather_err h3
    exact fails_now (r := r) (e := e') (a := V r) (by rw [hr]; rfl)
  · have e3 : ∀ r, (Cc.get (R := R) (Dist.reduceMat (Dist.reduceOp (hy r)) Ns) (V r) fun N => Cc.loc (World.applyNat m N) (V r) (k r)) =
      Cc.loc (World.applyNat m (N r)) (V r) (k r) := fun r => by rw [gather_inv h3 r]; rfl
    simp only [e3]
    exact fails_loc h

theorem fails_layerSteps : ∀ (ms : List Layer) {W W' : Fin R → World α} {e : PyErr}, Py.forM ms Dist.layerStep W = (.error e, W') → ∀ k : Fin R → World α → Proc α R,
    Fails (fun r => layerSteps ms (W r) (k r))
  | [], W, W', e, h, k => by cases h
  | m :: ms, W, W', e, h, k => by
    rcases bind_err (show (Dist.layerStep m >>= fun _ => Py.forM ms Dist.layerStep) W = (.error e, W') from h) with h | ⟨_, V, h1, h2⟩
    · exact fails_layerStep h _
    · exact (Runs.layerStep h1 _).fails (fails_layerSteps ms h2 k)

theorem fails_step [NeZero R] {c f : Bool} {attr : Option α} {W W' : Fin R → World α} {e : PyErr} (hW : ∀ r, (W r).opt.layers = (W 0).opt.layers)
    (h : Dist.step c attr f W = (.error e, W')) (k : Fin R → World α → Proc α R) : Fails (fun r => step c attr f (W r) (k r)) := by
  unfold Dist.step at h
  unfold Cc.step
  cases c with
  | true => exact fails_now (r := 0) rfl
  | false =>
    simp only [Bool.false_eq_true, if_false] at h ⊢
    rcases bind_err h with h1 | ⟨_, V, h1, h⟩
    · exact fails_loc h1
    have h1' := each_inv h1
    refine (Runs.loc h1' _).fails ?_
    have rest : ∀ V2 : Fin R → World α, (do
        Dist.each fun _ => World.setOpt fun o => { o with steps := o.steps + 1 }
        Dist.each fun _ => World.setOpt Opt.removeUsedScales : Py (Fin R → World α) Unit) V2 = (.error e, W') →
        Fails (fun r => Cc.loc (World.setOpt fun o => { o with steps := o.steps + 1 }) (V2 r) fun w => Cc.loc (World.setOpt Opt.removeUsedScales) w (k r)) := by
      intro V2 h
      rcases bind_err h with h3 | ⟨_, V3, h3, h⟩
      · exact fails_loc h3
      · exact (Runs.loc (each_inv h3) _).fails (fails_loc h)
    have hl : ∀ r, (V r).opt.layers = (V 0).opt.layers := by
      have : ∀ r, (V r).opt.layers = (W r).opt.layers := fun r => by
        have := ensureScale_shape attr (W r)
        rw [h1' r] at this
        exact congrArg Prod.fst this
      intro r; rw [this, this, hW]
    rcases bind_err h with h2 | ⟨_, V2, h2, hr⟩
    · unfold Dist.stepBody at h2
      cases f with
      | true =>
        simp only [if_true] at h2 ⊢
        exact fails_loc h2
      | false =>
        simp only [Bool.false_eq_true, if_false] at h2 ⊢
        unfold Dist.innerStep at h2
        rw [Py.get_bind_run] at h2
        simp only [hl]
        exact fails_layerSteps _ h2 _
    · unfold Dist.stepBody at h2
      cases f with
      | true =>
        simp only [if_true] at h2 ⊢
        exact (Runs.loc (each_inv h2) _).fails (rest V2 hr)
      | false =>
        simp only [Bool.false_eq_true, if_false] at h2 ⊢
        unfold Dist.innerStep at h2
        rw [Py.get_bind_run] at h2
        simp only [hl]
        exact (Runs.layerSteps _ h2 _).fails (rest V2 hr)

theorem fails_op [NeZero R] {op : DOp α R} {W W' : Fin R → World α} {e : PyErr} (hW : Agree W) (h : dexec op W = (.error e, W')) (k : Fin R → World α → Proc α R) :
    Fails (fun r => progOp r (op.at r) (W r) (k r)) := by
  cases op with
  | backward j g =>
    simp only [dexec, Py.get_bind_run] at h
    have hlen : ∀ r, (W r).hooks.length = (W 0).hooks.length := fun r => congrArg (fun p => p.2.2.2.2) (hW r)
    rcases h0 : (W 0).hooks[j]? with _ | mx0
    · rw [h0] at h; cases h
    · rw [h0] at h
      have hj : j < (W 0).hooks.length := (List.getElem?_eq_some_iff.1 h0).1
      have hk : ∀ r, ∃ mx, (W r).hooks[j]? = some mx := fun r => ⟨_, List.getElem?_eq_getElem (by rw [hlen r]; exact hj)⟩
      choose mx hmx using hk
      have : Dist.gather (fun r => hookOf (W r) j) = .ok mx := Dist.gather_ok fun r => by simp only [hookOf, hmx]
      rw [this] at h
      simp only [DOp.at, progOp, hmx]
      exact fails_accumulateH h k
  | step c a f => exact fails_step (fun r => congrArg Prod.fst (hW r)) h k
  | forward i x ge => exact fails_loc (x := fun r => _root_.exec (.forward i (x r) ge)) h
  | setGrad p G => exact fails_loc (x := fun r => _root_.exec (.setGrad p (G r))) h
  | setParam p M => exact fails_loc (x := fun _ => _root_.exec (.setParam p M)) h
  | setHyper i hy => exact fails_loc (x := fun _ => _root_.exec (.setHyper i hy)) h
  | setScale a => exact fails_loc (x := fun _ => _root_.exec (.setScale a)) h

theorem fails_run [NeZero R] : ∀ (ops : List (DOp α R)) {W : Fin R → World α}, Agree W → drunOk ops W = none → Fails (fun r => prog r (ops.map (DOp.at r)) (W r))
  | [], W, _, h => by cases h
  | op :: ops, W, hW, h => by
    simp only [drunOk] at h
    rcases he : dexec op W with ⟨e | u, V⟩
    · exact fails_op hW he _
    · rw [he] at h
      obtain ⟨h1, h2⟩ := Runs.op hW he fun r => prog r (ops.map (DOp.at r))
      exact h1.fails (fails_run ops h2 h)

/-- a process that has raised stays so -/
theorem fail_stays {r : Fin R} {e : PyErr} {a : A} : ∀ {σ : List (Fin R)} {c d : Config M A R}, (c r).prog = .fail e a → exec σ c = some d → (d r).prog = .fail e a
  | [], c, d, h, hd => by cases hd; exact h
  | s :: σ, c, d, h, hd => by
    obtain ⟨c', h1, h2⟩ := exec_cons.1 hd
    obtain ⟨x, hx, rfl⟩ := sched_eq.1 h1
    refine fail_stays ?_ h2
    by_cases er : r = s
    · subst er; simp [act, h] at hx
    · rw [Function.update_of_ne er]; exact h

/-- **Exactness.** A history succeeds in lock-step with result `W'` if and only if under some schedule (equivalently, by `C81_lockstep`, under every one) all ranks' processes finish, with
the result `W'`. -/
theorem C81_exact [NeZero R] {ops : List (DOp α R)} {W W' : Fin R → World α} (hW : Agree W) :
    drunOk ops W = some W' ↔ ∃ σ d, exec σ (start (fun r => ops.map (DOp.at r)) W) = some d ∧ Done d W' := by
  have sync : Synced (start (fun r => ops.map (DOp.at r)) W) fun r => prog r (ops.map (DOp.at r)) (W r) := ⟨fun r => rfl, 0, fun r => ⟨rfl, rfl⟩⟩
  constructor
  · intro h
    obtain ⟨σ, d, h1, h2⟩ := Runs.run ops hW h _ sync
    exact ⟨σ, d, h1, h2.1⟩
  · rintro ⟨σ, d, h1, h2⟩
    rcases h : drunOk ops W with _ | V
    · obtain ⟨τ, t, r, e, a, h3, h4⟩ := fails_run ops hW h _ sync
      obtain ⟨ρ, -, h5, -⟩ := C81_same_end h2.final h1 h3
      have := fail_stays h4 h5
      rw [h2 r] at this; cases this
    · obtain ⟨τ, t, h3, h4⟩ := Runs.run ops hW h _ sync
      have ht : Done t V := h4.1
      have : d = t := (C81_unique_end ht.final h3 h1).2 h2.final
      subst this
      congr 1
      funext r
      have := (ht r).symm.trans (h2 r)
      injection this

end

/-! ### Ranks that communicate differently often -/

/-- the process finishes only after at least `n` collective operations, whatever it receives -/
def Prog.Needs : Prog M A R → ℕ → Prop
  | .ret _, n => n = 0
  | .fail _ _, _ => True
  | .tau p, n => p.Needs n
  | .sync _ k, n => ∀ v, (k v).Needs (n - 1)

/-- the process takes part in at most `n` collective operations, whatever it receives -/
def Prog.AtMost : Prog M A R → ℕ → Prop
  | .ret _, _ => True
  | .fail _ _, _ => True
  | .tau p, n => p.AtMost n
  | .sync _ k, n => 0 < n ∧ ∀ v, (k v).AtMost (n - 1)

/-- what holds under every schedule, if rank `r₀` needs and rank `s₀` allows a number of collective operations -/
structure Inv (r₀ s₀ : Fin R) (need most : ℕ) (c : Config M A R) : Prop where
  lower : ∀ r, (c r).got ≤ (c r).sent.length
  upper : ∀ r, (c r).sent.length ≤ (c r).got + 1
  pending : ∀ r, r = s₀ → (c r).sent.length = (c r).got + 1 → (c r).got < most
  others : ∀ r s, (c r).got ≤ (c s).sent.length
  got : ∀ r, r = s₀ → (c r).got ≤ most
  needs : ∀ r, r = r₀ → (c r).prog.Needs (need - (c r).got)
  atMost : ∀ r, r = s₀ → (c r).prog.AtMost (most - (c r).got)

theorem Inv.sched {r₀ s₀ : Fin R} {need most : ℕ} {c d : Config M A R} {r : Fin R} (h : Inv r₀ s₀ need most c) (hd : sched c r = some d) : Inv r₀ s₀ need most d := by
  obtain ⟨x, hx, rfl⟩ := sched_eq.1 hd
  have key : x.got ≤ x.sent.length ∧ x.sent.length ≤ x.got + 1 ∧ (r = s₀ → x.sent.length = x.got + 1 → x.got < most) ∧ (∀ s, x.got ≤ (c s).sent.length) ∧
      x.got ≤ x.sent.length ∧ (c r).sent.length ≤ x.sent.length ∧ (r = s₀ → x.got ≤ most) ∧ (r = r₀ → x.prog.Needs (need - x.got)) ∧
      (r = s₀ → x.prog.AtMost (most - x.got)) := by
    have h1 := h.lower r
    have h2 := h.upper r
    have h3 := h.pending r
    have h4 := h.others r
    have h5 := h.got r
    have h6 := h.needs r
    have h7 := h.atMost r
    unfold act at hx
    rcases hp : (c r).prog with a | ⟨e, a⟩ | p | ⟨m, k⟩
    · rw [hp] at hx; cases hx
    · rw [hp] at hx; cases hx
    · rw [hp] at hx h6 h7
      cases hx
      exact ⟨h1, h2, h3, h4, h1, le_refl _, h5, h6, h7⟩
    · rw [hp] at hx h6 h7
      simp only at hx
      split at hx
      · next hl =>
        cases hx
        simp only [List.length_append, List.length_singleton]
        refine ⟨by omega, by omega, fun e _ => ?_, h4, by omega, by omega, h5, by rw [hp]; exact h6, by rw [hp]; exact h7⟩
        have := (h7 e).1
        omega
      · next hl =>
        split at hx
        · next ha =>
          cases hx
          refine ⟨by simp only; omega, by simp only; omega, fun _ e => ?_, fun s => ha s, by simp only; omega, le_refl _, fun e => ?_, fun e => ?_, fun e => ?_⟩
          · simp only at e; omega
          · have := h3 e (by omega); simp only; omega
          · rw [show need - ((c r).got + 1) = need - (c r).got - 1 by omega]; exact h6 e _
          · rw [show most - ((c r).got + 1) = most - (c r).got - 1 by omega]; exact (h7 e).2 _
        · cases hx
  obtain ⟨k1, k2, k3, k4, k5, k6, k7, k8, k9⟩ := key
  constructor
  case others =>
    intro s t
    by_cases e : s = r <;> by_cases e' : t = r
    · subst e; subst e'; rw [Function.update_self]; exact k5
    · subst e; rw [Function.update_self, Function.update_of_ne e']; exact k4 t
    · subst e'; rw [Function.update_self, Function.update_of_ne e]; exact (h.others s t).trans k6
    · rw [Function.update_of_ne e, Function.update_of_ne e']; exact h.others s t
  all_goals
    intro s
    by_cases e : s = r
    · subst e; rw [Function.update_self]; assumption
    · rw [Function.update_of_ne e]
      first | exact h.lower s | exact h.upper s | exact h.pending s | exact h.got s | exact h.needs s | exact h.atMost s

theorem Inv.exec {r₀ s₀ : Fin R} {need most : ℕ} : ∀ {σ : List (Fin R)} {c d : Config M A R}, Inv r₀ s₀ need most c → exec σ c = some d → Inv r₀ s₀ need most d
  | [], c, d, h, hd => by cases hd; exact h
  | r :: σ, c, d, h, hd => by
    obtain ⟨e, h1, h2⟩ := exec_cons.1 hd
    exact Inv.exec (h.sched h1) h2

/-- **A rank that communicates more often than another one never finishes**, under no schedule: it raises, or waits forever. -/
theorem C81_waits {p : Fin R → Prog M A R} {need most : ℕ} {r s : Fin R} (hr : (p r).Needs need) (hs : (p s).AtMost most) (hlt : most < need) {σ : List (Fin R)}
    {d : Config M A R} (h : exec σ (fun r => Rank.start (p r)) = some d) (a : A) : (d r).prog ≠ .ret a := by
  have i0 : Inv r s need most (fun r => Rank.start (p r)) := ⟨fun _ => le_refl _, fun _ => Nat.zero_le _, fun _ _ e => (by cases e), fun _ _ => le_refl _, fun _ _ => Nat.zero_le _,
    fun _ e => (by subst e; exact hr), fun _ e => (by subst e; exact hs)⟩
  have i := i0.exec h
  intro e
  have h1 := i.needs r rfl
  rw [e] at h1
  have h1 : need - (d r).got = 0 := h1
  have h2 := i.others r s
  have h3 := i.upper s
  have h4 := i.got s rfl
  have h5 := i.pending s rfl
  omega

section
variable {α : Type} [Field α] [LinearOrder α] [HasSqrt α]

/-- layers, group of each parameter, groups, step counter, number of hooks -/
abbrev Shape (α : Type) [Field α] : Type := List Layer × (ℕ → Option ℕ) × List (PGroup α) × ℕ × ℕ

/-- the hyper-parameters of a layer (`optimizer.py:268-280`) -/
def Shape.hyper (s : Shape α) (m : Layer) : Option (Hyper α) := do
  let i ← s.2.1 m.weight.ptr
  let g ← s.2.2.1[i]?
  return g.h

/-- layers, groups, step counter and number of hooks after an operation -/
def Shape.next (s : Shape α) : Op α → Shape α
  | .forward i _ ge => match s.1[i]? with
    | none => s
    | some m => match s.hyper m with
      | none => s
      | some h => if ge = true ∧ s.2.2.2.1 % h.T = 0 then (s.1, s.2.1, s.2.2.1, s.2.2.2.1, s.2.2.2.2 + 1) else s
  | .setHyper i h => (s.1, s.2.1, s.2.2.1.modify i fun g => { g with h := h }, s.2.2.2.1, s.2.2.2.2)
  | .step _ _ _ => (s.1, s.2.1, s.2.2.1, s.2.2.2.1 + 1, s.2.2.2.2)
  | _ => s

/-- the number of collective operations of an operation: two for a tensor hook (`H_K` and `H_C`), one for every layer in a step that is not skipped -/
def Shape.calls (s : Shape α) : Op α → ℕ
  | .backward j _ => if j < s.2.2.2.2 then 2 else 0
  | .step _ _ f => if f then 0 else s.1.length
  | _ => 0

/-- the number of collective operations of a history without exceptions -/
def calls : List (Op α) → Shape α → ℕ
  | [], _ => 0
  | op :: ops, s => s.calls op + calls ops (s.next op)

/-- the process takes part in exactly `n` collective operations, unless it raises -/
def Prog.Exactly (p : Prog M A R) (n : ℕ) : Prop := p.Needs n ∧ p.AtMost n

theorem exactly_fail (e : PyErr) (a : A) (n : ℕ) : (Prog.fail e a : Prog M A R).Exactly n := ⟨trivial, trivial⟩
theorem exactly_tau {p : Prog M A R} {n : ℕ} (h : p.Exactly n) : (Prog.tau p).Exactly n := h
theorem exactly_sync {m : M} {k : (Fin R → M) → Prog M A R} {n : ℕ} (h : ∀ v, (k v).Exactly n) : (Prog.sync m k).Exactly (n + 1) :=
  ⟨fun v => (h v).1, Nat.succ_pos _, fun v => (h v).2⟩
theorem exactly_get {β : Type} (x : Except PyErr β) (w : World α) {k : β → Proc α R} {n : ℕ} (h : ∀ b, x = .ok b → (k b).Exactly n) : (get x w k).Exactly n := by
  rcases x with e | b
  · exact exactly_fail _ _ _
  · exact h b rfl
theorem exactly_loc {x : Py (World α) Unit} {w : World α} {k : World α → Proc α R} {n : ℕ} (h : ∀ w', x w = (.ok (), w') → (k w').Exactly n) : (loc x w k).Exactly n := by
  unfold loc
  refine exactly_tau ?_
  rcases hx : x w with ⟨e | b, w'⟩
  · exact exactly_fail _ _ _
  · exact h w' hx

theorem exactly_reduce {r : Fin R} {op : ReduceOp} {H : SM α} {w : World α} {k : SM α → Proc α R} {n : ℕ} (h : ∀ S, (k S).Exactly n) : (reduce r op H w k).Exactly (n + 1) :=
  exactly_sync fun _ => exactly_get _ _ fun S _ => h S

theorem exactly_accumulateH {r : Fin R} {m : Layer} {x g : ND α} {w : World α} {k : World α → Proc α R} {n : ℕ} (h : ∀ w', shape w' = shape w → (k w').Exactly n) :
    (accumulateH r m x g w k).Exactly (n + 2) := by
  refine exactly_tau (exactly_get _ _ fun Hh _ => exactly_reduce fun HK => exactly_reduce fun HC => exactly_loc fun w' e => h w' ?_)
  have := World.commitH_frame m HK HC w
  rw [e] at this
  exact Frame.shape this

theorem exactly_layerStep {m : Layer} {w : World α} {k : World α → Proc α R} {n : ℕ} (h : ∀ w', shape w' = shape w → (k w').Exactly n) :
    (layerStep m w k).Exactly (n + 1) := by
  refine exactly_loc fun v e => exactly_tau (exactly_get _ _ fun Nh _ => exactly_sync fun _ => exactly_get _ _ fun N _ => exactly_loc fun w' e' => h w' ?_)
  have f1 := World.updatePreconditioner_frame m w
  rw [e] at f1
  have f2 := World.applyNat_frame m N v
  rw [e'] at f2
  exact (Frame.shape f2).trans (Frame.shape f1)

theorem exactly_layerSteps : ∀ (ms : List Layer) {w : World α} {k : World α → Proc α R} {n : ℕ}, (∀ w', shape w' = shape w → (k w').Exactly n) →
    (layerSteps ms w k).Exactly (n + ms.length)
  | [], w, k, n, h => h w rfl
  | m :: ms, w, k, n, h => by
    rw [List.length_cons, ← Nat.add_assoc]
    exact exactly_layerStep fun w' e => exactly_layerSteps ms fun w'' e' => h w'' (e'.trans e)

theorem shape_hyper {w : World α} {m : Layer} {h : Hyper α} (e : w.opt.hyperOf m = .ok h) : Shape.hyper (shape w) m = some h := by
  unfold Opt.hyperOf at e
  split at e
  · rcases h1 : w.opt.ptrGroup m.weight.ptr with _ | i
    · rw [lookup, h1] at e; cases e
    · rw [lookup, h1] at e
      simp only [Except.bind_ok'] at e
      rcases h2 : w.opt.groups[i]? with _ | g
      · rw [h2] at e; cases e
      · rw [h2] at e
        cases e
        simp [Shape.hyper, shape, h1, h2]
  · cases e

theorem exactly_step {c f : Bool} {a : Option α} {w : World α} {k : World α → Proc α R} {n : ℕ}
    (h : ∀ w', shape w' = Shape.next (shape w) (.step c a f) → (k w').Exactly n) : (step c a f w k).Exactly ((if f then 0 else w.opt.layers.length) + n) := by
  unfold step
  split
  · exact exactly_fail _ _ _
  · refine exactly_loc fun v e => ?_
    have ev := ensureScale_shape a w
    rw [e] at ev
    have rest : ∀ v', shape v' = shape w → (loc (World.setOpt fun o => { o with steps := o.steps + 1 }) v' fun w => loc (World.setOpt Opt.removeUsedScales) w k).Exactly n := by
      refine fun v' e1 => exactly_loc fun v2 e2 => exactly_loc fun v3 e3 => h v3 ?_
      simp only [World.setOpt, Py.modify, Prod.mk.injEq, true_and] at e2 e3
      rw [Shape.next, ← e1, ← e3, ← e2]
      rfl
    cases f with
    | true =>
      simp only [if_true, Nat.zero_add]
      refine exactly_loc fun v' e' => rest v' ?_
      have := World.dropStats_frame v
      rw [e'] at this
      exact (Frame.shape this).trans ev
    | false =>
      simp only [Bool.false_eq_true, if_false]
      rw [show w.opt.layers = v.opt.layers from (congrArg Prod.fst ev).symm, Nat.add_comm]
      exact exactly_layerSteps _ fun w' e' => rest w' (e'.trans ev)

theorem exactly_op {r : Fin R} {op : Op α} {w : World α} {k : World α → Proc α R} {n : ℕ} (h : ∀ w', shape w' = Shape.next (shape w) op → (k w').Exactly n) :
    (progOp r op w k).Exactly (Shape.calls (shape w) op + n) := by
  cases op with
  | forward i x ge =>
    simp only [Shape.calls, Nat.zero_add]
    refine exactly_loc fun w' e => h w' ?_
    simp only [_root_.exec, Py.get_bind_run] at e
    simp only [Shape.next]
    rw [show (shape w).1 = w.opt.layers from rfl]
    rcases hi : w.opt.layers[i]? with _ | m
    · rw [hi] at e; cases e; rfl
    · rw [hi] at e
      simp only [World.forwardHook, Py.get_bind_run] at e
      rcases hh : w.opt.hyperOf m with e' | hy
      · rw [hh] at e; cases e
      · rw [hh] at e
        simp only [Py.lift_ok_bind_run] at e
        simp only [shape_hyper hh]
        rw [show (shape w).2.2.2.1 = w.opt.steps from rfl]
        split at e
        · next hg =>
          split at e
          · cases e
          · split at e
            · next h0 =>
              rw [if_pos ⟨hg, h0⟩]
              cases e
              simp [shape]
            · next h0 =>
              rw [if_neg (fun c => h0 c.2)]
              cases e; rfl
        · next hg =>
          rw [if_neg (fun c => hg c.1)]
          cases e; rfl
  | backward j g =>
    simp only [progOp, Shape.calls]
    rw [show (shape w).2.2.2.2 = w.hooks.length from rfl]
    rcases hj : w.hooks[j]? with _ | mx
    · rw [if_neg (by rw [List.getElem?_eq_none_iff] at hj; omega), Nat.zero_add]
      exact exactly_tau (h w rfl)
    · have : j < w.hooks.length := (List.getElem?_eq_some_iff.1 hj).1
      rw [if_pos this, Nat.add_comm]
      exact exactly_accumulateH h
  | setGrad p G =>
    simp only [Shape.calls, Nat.zero_add]
    refine exactly_loc (x := _root_.exec (.setGrad p G)) (w := w) fun w' e => h w' ?_
    cases e; rfl
  | setParam p G =>
    simp only [Shape.calls, Nat.zero_add]
    refine exactly_loc (x := _root_.exec (.setParam p G)) (w := w) fun w' e => h w' ?_
    cases e; rfl
  | setHyper i hy =>
    simp only [Shape.calls, Nat.zero_add]
    refine exactly_loc (x := _root_.exec (.setHyper i hy)) (w := w) fun w' e => h w' ?_
    cases e; rfl
  | setScale a =>
    simp only [Shape.calls, Nat.zero_add]
    refine exactly_loc fun w' e => h w' ?_
    have := setScale_shape a w
    rw [show Opt.setScale a w = _ from e] at this
    exact this
  | step c a f => exact exactly_step h

/-- **How often a rank communicates.** -/
theorem C81_calls (r : Fin R) : ∀ (ops : List (Op α)) (w : World α), (prog r ops w).Exactly (calls ops (shape w))
  | [], w => ⟨rfl, trivial⟩
  | op :: ops, w => exactly_op fun w' e => by rw [← e]; exact C81_calls r ops w'

/-- **Who waits forever.** If rank `r` has more collective operations in its history than rank `s` in its own (for instance because a layer was not used on rank `s`, or because `s` skips a
step for infinite gradients and `r` does not), rank `r` never finishes its history, under no schedule. In particular all ranks finish only if all have equally many. -/
theorem C81_deadlock (ops : Fin R → List (Op α)) (W : Fin R → World α) (r s : Fin R) (h : calls (ops s) (shape (W s)) < calls (ops r) (shape (W r)))
    {σ : List (Fin R)} {d : Config (Msg α) (World α) R} (hd : exec σ (start ops W) = some d) (w : World α) : (d r).prog ≠ .ret w :=
  C81_waits (p := fun r => prog r (ops r) (W r)) (C81_calls r _ _).1 (C81_calls s _ _).2 h hd w

end

/-! ### Samples -/

end Cc

namespace Sample

/-- two layers of the same shape -/
def twins : Model := ⟨false, [la, ⟨"c", true, .linear, ⟨3, true⟩, some ⟨4, true⟩, 1, 1, []⟩]⟩
/-- the same optimizer and parameters on two ranks -/
def ranks (m : Model) : Fin 2 → World ℚ := fun _ => world m .default args
/-- forward passes through both layers, and backward passes in the given order -/
def both (a b c d : ℚ) (flip : Bool) : List (Op ℚ) := [.forward 0 (row [a]) true, .forward 1 (row [b]) true] ++
  if flip then [.backward 0 (row [d]), .backward 1 (row [c])] else [.backward 1 (row [c]), .backward 0 (row [d])]

end Sample

namespace Cc

-- lock-step succeeds for the sample; the ranks agree
example : Agree (Sample.ranks Sample.model) := fun _ => rfl
example : (drunOk [.forward 0 (fun r => Sample.row [r + 1]) true, .forward 1 (fun r => Sample.row [r, 3]) true, .backward 1 (fun r => Sample.row [r + 2]),
    .backward 0 fun r => Sample.row [2 - r], .step false none false] (Sample.ranks Sample.model)).isSome = true := by decide +kernel

/-- the state in which a process has finished -/
def Prog.result {M A : Type} {R : ℕ} : Prog M A R → Option A
  | .ret a => some a
  | _ => none
theorem Prog.result_eq {M A : Type} {R : ℕ} {p : Prog M A R} {a : A} (h : p.result = some a) : p = .ret a := by
  cases p <;> simp_all [Prog.result]

/-- both ranks use the layers `a` and `c`; rank 1 executes the backward passes in the other order -/
def _root_.Sample.crossed : Fin 2 → List (Op ℚ) := fun r => Sample.both (2 + r) 3 1 5 (r = 1)
/-- the ranks take turns -/
def _root_.Sample.turns : List (Fin 2) := (List.replicate 14 [0, 1]).flatten

/-- **C81 (false: collective operations are matched by layer).** Two ranks with the same optimizer execute forward and backward passes of the same layers, but the backward passes in different orders.
Under every schedule both finish without an exception, and hold different statistics for the same layer: `H_K` of one layer has been averaged with `H_K` of the other one. -/
theorem C81_mispaired_false : ∃ (W W' : Fin 2 → World ℚ) (ops : Fin 2 → List (Op ℚ)), Agree W ∧ (∀ r, Reachable supportedStructures (W r)) ∧ W 0 = W 1 ∧
    (∃ x y x' g h : ND ℚ, ops 0 = [.forward 0 x true, .forward 1 y true, .backward 1 g, .backward 0 h] ∧
      ops 1 = [.forward 0 x' true, .forward 1 y true, .backward 0 h, .backward 1 g]) ∧ (∃ σ d, exec σ (start ops W) = some d ∧ Done d W') ∧
    (∀ σ d, exec σ (start ops W) = some d → Final d → Done d W') ∧
    Sample.fac ((W' 0).opt.HKs "a") ≠ Sample.fac ((W' 1).opt.HKs "a") := by
  obtain ⟨d, hd⟩ := Option.isSome_iff_exists.1 (show (exec Sample.turns (start Sample.crossed (Sample.ranks Sample.twins))).isSome = true by decide +kernel)
  have key : ∀ r, ((exec Sample.turns (start Sample.crossed (Sample.ranks Sample.twins))).map fun d => ((d r).prog.result.isSome)) = some true := by decide +kernel
  have key' : (exec Sample.turns (start Sample.crossed (Sample.ranks Sample.twins))).map (fun d => decide (((d 0).prog.result.bind fun w => Sample.fac (w.opt.HKs "a")) =
    ((d 1).prog.result.bind fun w => Sample.fac (w.opt.HKs "a")))) = some false := by decide +kernel
  rw [hd] at key key'
  simp only [Option.map_some, Option.some.injEq] at key key'
  choose W' hW' using fun r => Option.isSome_iff_exists.1 (key r)
  have done : Done d W' := fun r => Prog.result_eq (hW' r)
  refine ⟨Sample.ranks Sample.twins, W', Sample.crossed, fun _ => rfl, fun r => Sample.reachable (by decide +kernel) (by decide +kernel) [], rfl,
    ⟨_, _, _, _, _, rfl, rfl⟩, ⟨Sample.turns, d, hd, done⟩, fun σ e he hf => (C81_unique_end done.final hd he).2 hf ▸ done, fun e => ?_⟩
  simp only [hW', Option.bind_some, e, decide_eq_false_iff_not, not_true_eq_false] at key'


-- one rank skips a step
example : ∃ ops : Fin 2 → List (Op ℚ), ops 0 = [.step false none true] ∧ ops 1 = [.step false none false] ∧
    calls (ops 0) (shape (Sample.ranks Sample.model 0)) < calls (ops 1) (shape (Sample.ranks Sample.model 1)) :=
  ⟨fun r => [.step false none (r = 0)], rfl, rfl, by decide +kernel⟩
-- one rank does not use a layer
example : calls [.forward 0 (Sample.row [2]) true, .backward 0 (Sample.row [1]), .step false none false] (shape (Sample.ranks Sample.model 0)) <
    calls (Sample.pass ++ [.step false none false]) (shape (Sample.ranks Sample.model 1)) := by decide +kernel

end Cc
