import Verif.Model.Optimizer

set_option linter.unusedSectionVars false

/-! What each optimizer method can change, whatever happens (also when it raises). -/

namespace Py
variable {σ β γ : Type}

/-- every run of `x`, successful or not, relates the state before to the state after -/
def Rel (R : σ → σ → Prop) (x : Py σ β) : Prop := ∀ s, R s (x s).2

variable {R : σ → σ → Prop}

theorem Rel.pure (hr : ∀ s, R s s) (b : β) : Rel R (Pure.pure b : Py σ β) := fun s => hr s
theorem Rel.raise (hr : ∀ s, R s s) (e : PyErr) : Rel R (Py.raise e : Py σ β) := fun s => hr s
theorem Rel.lift (hr : ∀ s, R s s) (x : Except PyErr β) : Rel R (Py.lift x : Py σ β) := fun s => hr s
theorem Rel.modify {f : σ → σ} (h : ∀ s, R s (f s)) : Rel R (Py.modify f) := h
theorem Rel.bind (ht : ∀ a b c, R a b → R b c → R a c) {x : Py σ β} {f : β → Py σ γ} (hx : Rel R x)
    (hf : ∀ b, Rel R (f b)) : Rel R (x >>= f) := fun s => by
  have h := hx s
  rw [bind_run]
  rcases hxs : x s with ⟨r, s'⟩
  rw [hxs] at h
  rcases r with e | b
  · exact h
  · exact ht _ _ _ h (hf b s')
/-- reading the state does not change it, and the rest may rely on it -/
theorem Rel.get_bind {f : σ → Py σ γ} (hf : ∀ s, R s (f s s).2) : Rel R (Py.get >>= f) := hf
theorem Rel.forM (hr : ∀ s, R s s) (ht : ∀ a b c, R a b → R b c → R a c) {f : β → Py σ Unit} :
    ∀ {xs : List β}, (∀ x ∈ xs, Rel R (f x)) → Rel R (Py.forM xs f)
  | [], _ => Rel.pure hr ()
  | x :: xs, h => Rel.bind ht (h x (by simp)) fun _ => Rel.forM hr ht fun y hy => h y (by simp [hy])

/-- a `forM` that succeeds runs every body successfully -/
theorem forM_cons_ok {f : β → Py σ Unit} {x : β} {xs : List β} {s s' : σ} :
    Py.forM (x :: xs) f s = (.ok (), s') ↔ ∃ t, f x s = (.ok (), t) ∧ Py.forM xs f t = (.ok (), s') := by
  rw [Py.forM, bind_run]
  rcases f x s with ⟨e | b, t⟩
  · simp
  · simp

theorem bind_eq_ok {x : Py σ β} {f : β → Py σ γ} {s s' : σ} {c : γ} :
    (x >>= f) s = (.ok c, s') ↔ ∃ b t, x s = (.ok b, t) ∧ f b t = (.ok c, s') := by
  rw [bind_run]
  rcases x s with ⟨e | b, t⟩ <;> simp

theorem get_bind_run (f : σ → Py σ γ) (s : σ) : (Py.get >>= f) s = f s s := rfl
theorem modify_bind_run (g : σ → σ) (f : Unit → Py σ γ) (s : σ) : (Py.modify g >>= f) s = f () (g s) := rfl
theorem lift_ok_bind_run (b : β) (f : β → Py σ γ) (s : σ) : (Py.lift (.ok b) >>= f) s = f b s := rfl
theorem lift_error_bind_run (e : PyErr) (f : β → Py σ γ) (s : σ) : ((Py.lift (.error e) : Py σ β) >>= f) s = (.error e, s) := rfl
end Py

variable {α : Type} [Field α] [LinearOrder α] [HasSqrt α]

/-- Only factors and momenta of layers with a name in `N`, statistics of layers with a name in `S`, and values and
momentum buffers of parameters in `P` may differ. -/
structure Frame (N S : String → Prop) (P : ℕ → Prop) (w w' : World α) : Prop where
  structs : w'.opt.structs = w.opt.structs
  layers : w'.opt.layers = w.opt.layers
  ptrGroup : w'.opt.ptrGroup = w.opt.ptrGroup
  groups : w'.opt.groups = w.opt.groups
  steps : w'.opt.steps = w.opt.steps
  scales : w'.opt.scales = w.opt.scales
  Ks : ∀ n, ¬ N n → w'.opt.Ks n = w.opt.Ks n
  Cs : ∀ n, ¬ N n → w'.opt.Cs n = w.opt.Cs n
  mKs : ∀ n, ¬ N n → w'.opt.mKs n = w.opt.mKs n
  mCs : ∀ n, ¬ N n → w'.opt.mCs n = w.opt.mCs n
  HKs : ∀ n, ¬ S n → w'.opt.HKs n = w.opt.HKs n
  HCs : ∀ n, ¬ S n → w'.opt.HCs n = w.opt.HCs n
  mom : ∀ p, ¬ P p → w'.opt.mom p = w.opt.mom p
  data : ∀ p, ¬ P p → w'.data p = w.data p
  grad : w'.grad = w.grad
  hooks : w'.hooks = w.hooks

namespace Frame
variable {N S N' S' : String → Prop} {P P' : ℕ → Prop} {w w' w'' : World α}

theorem refl (w : World α) : Frame N S P w w := by constructor <;> intros <;> rfl
theorem trans (w w' w'' : World α) (h : Frame N S P w w') (h' : Frame N S P w' w'') : Frame N S P w w'' := by
  constructor
  · rw [h'.structs, h.structs]
  · rw [h'.layers, h.layers]
  · rw [h'.ptrGroup, h.ptrGroup]
  · rw [h'.groups, h.groups]
  · rw [h'.steps, h.steps]
  · rw [h'.scales, h.scales]
  · intro n hn; rw [h'.Ks n hn, h.Ks n hn]
  · intro n hn; rw [h'.Cs n hn, h.Cs n hn]
  · intro n hn; rw [h'.mKs n hn, h.mKs n hn]
  · intro n hn; rw [h'.mCs n hn, h.mCs n hn]
  · intro n hn; rw [h'.HKs n hn, h.HKs n hn]
  · intro n hn; rw [h'.HCs n hn, h.HCs n hn]
  · intro n hn; rw [h'.mom n hn, h.mom n hn]
  · intro n hn; rw [h'.data n hn, h.data n hn]
  · rw [h'.grad, h.grad]
  · rw [h'.hooks, h.hooks]
theorem mono (hN : ∀ n, N n → N' n) (hS : ∀ n, S n → S' n) (hP : ∀ p, P p → P' p) (h : Frame N S P w w') :
    Frame N' S' P' w w' where
  structs := h.structs
  layers := h.layers
  ptrGroup := h.ptrGroup
  groups := h.groups
  steps := h.steps
  scales := h.scales
  Ks n hn := h.Ks n fun x => hn (hN n x)
  Cs n hn := h.Cs n fun x => hn (hN n x)
  mKs n hn := h.mKs n fun x => hn (hN n x)
  mCs n hn := h.mCs n fun x => hn (hN n x)
  HKs n hn := h.HKs n fun x => hn (hS n x)
  HCs n hn := h.HCs n fun x => hn (hS n x)
  mom n hn := h.mom n fun x => hn (hP n x)
  data n hn := h.data n fun x => hn (hP n x)
  grad := h.grad
  hooks := h.hooks

theorem hyperOf (h : Frame N S P w w') (m : Layer) : w'.opt.hyperOf m = w.opt.hyperOf m := by
  unfold Opt.hyperOf; rw [h.ptrGroup, h.groups]
theorem scale (h : Frame N S P w w') (t : ℤ) : w'.opt.scale t = w.opt.scale t := by
  unfold Opt.scale; rw [h.scales]
end Frame

theorem Function.update_ne' {κ v : Type} [DecidableEq κ] {d : κ → v} {k n : κ} {x : v} (h : n ≠ k) :
    Function.update d k x n = d n := Function.update_of_ne h _ _

namespace World

/-- nothing -/
def none' {β : Type} : β → Prop := fun _ => False

open Py in
theorem setOpt_frame {N S : String → Prop} {P : ℕ → Prop} {f : Opt α → Opt α}
    (h : ∀ w : World α, Frame N S P w { w with opt := f w.opt }) : Rel (Frame N S P) (setOpt f) := h

/-- proves `Frame` facts about single attribute updates -/
macro "frame1" : tactic => `(tactic| (intro w; constructor <;> intros <;> first
  | rfl
  | (simp only [Dict.set, Dict.erase]; exact Function.update_ne' (by rintro rfl; contradiction))
  | (exact Function.update_ne' (by rintro rfl; contradiction))))

/-- a layer update touches factors, momenta and statistics of that layer only -/
theorem updateOn_frame (h : Hyper α) (m : Layer) :
    Py.Rel (Frame (· = m.name) (· = m.name) none') (updateOn h m : Py (World α) Unit) := by
  refine Py.Rel.get_bind fun w => ?_
  refine Py.Rel.bind Frame.trans (Py.Rel.lift Frame.refl _) (fun K => ?_) w
  refine Py.Rel.bind Frame.trans (Py.Rel.lift Frame.refl _) (fun C => ?_)
  refine Py.Rel.bind Frame.trans (Py.Rel.lift Frame.refl _) (fun HK => ?_)
  refine Py.Rel.bind Frame.trans (setOpt_frame ?_) (fun _ => ?_)
  · frame1
  refine Py.Rel.bind Frame.trans (Py.Rel.lift Frame.refl _) (fun HC => ?_)
  refine Py.Rel.bind Frame.trans (setOpt_frame ?_) (fun _ => ?_)
  · frame1
  refine Py.Rel.bind Frame.trans (Py.Rel.lift Frame.refl _) (fun ms => ?_)
  refine Py.Rel.bind Frame.trans (setOpt_frame ?_) (fun _ => ?_)
  · intro w
    unfold storeMomenta
    split
    · revert w; frame1
    · exact Frame.refl _
  refine Py.Rel.bind Frame.trans (Py.Rel.lift Frame.refl _) (fun bK => ?_)
  refine Py.Rel.bind Frame.trans (Py.Rel.lift Frame.refl _) (fun bC => ?_)
  refine Py.Rel.bind Frame.trans (Py.Rel.lift Frame.refl _) (fun K' => ?_)
  refine Py.Rel.bind Frame.trans (setOpt_frame ?_) (fun _ => ?_)
  · frame1
  refine Py.Rel.bind Frame.trans (Py.Rel.lift Frame.refl _) (fun C' => setOpt_frame ?_)
  frame1


/-- the step matters for the layer's factors iff `T` divides the step counter -/
def Updates (o : Opt α) (m : Layer) : Prop := ∃ h, o.hyperOf m = .ok h ∧ h.T ≠ 0 ∧ o.steps % h.T = 0

theorem updatePreconditioner_on {w : World α} {m : Layer} {h : Hyper α} (hh : w.opt.hyperOf m = .ok h) (hT : h.T ≠ 0)
    (hs : w.opt.steps % h.T = 0) : updatePreconditioner m w = updateOn h m w := by
  rw [updatePreconditioner, Py.get_bind_run, hh, Py.lift_ok_bind_run, if_neg hT, if_neg (by simpa using hs)]
theorem updatePreconditioner_off {w : World α} {m : Layer} {h : Hyper α} (hh : w.opt.hyperOf m = .ok h) (hT : h.T ≠ 0)
    (hs : w.opt.steps % h.T ≠ 0) : updatePreconditioner m w = (.ok (), w) := by
  rw [updatePreconditioner, Py.get_bind_run, hh, Py.lift_ok_bind_run, if_neg hT, if_pos (by simpa using hs)]; rfl
theorem updatePreconditioner_not {w : World α} {m : Layer} (h : ¬ Updates w.opt m) : (updatePreconditioner m w).2 = w := by
  rw [updatePreconditioner, Py.get_bind_run]
  rcases hh : w.opt.hyperOf m with e | h'
  · rfl
  · rw [Py.lift_ok_bind_run]
    split
    · rfl
    · rename_i hT
      split
      · rfl
      · rename_i hs
        exact absurd ⟨h', hh, hT, by simpa using hs⟩ h

theorem updatePreconditioner_frame (m : Layer) (w : World α) :
    Frame (fun n => n = m.name ∧ Updates w.opt m) (fun n => n = m.name ∧ Updates w.opt m) none' w (updatePreconditioner m w).2 := by
  by_cases h : Updates w.opt m
  · obtain ⟨h', hh, hT, hs⟩ := id h
    rw [updatePreconditioner_on hh hT hs]
    exact (updateOn_frame h' m w).mono (fun n hn => ⟨hn, h⟩) (fun n hn => ⟨hn, h⟩) fun _ => id
  · rw [updatePreconditioner_not h]; exact Frame.refl _

theorem commitH_frame (m : Layer) (HK HC : SM α) :
    Py.Rel (Frame none' (· = m.name) none') (commitH m HK HC : Py (World α) Unit) := by
  refine Py.Rel.get_bind fun w => ?_
  refine Py.Rel.bind Frame.trans (Py.Rel.lift Frame.refl _) (fun _ => ?_) w
  refine Py.Rel.bind Frame.trans (setOpt_frame (by frame1)) (fun _ => ?_)
  exact Py.Rel.bind Frame.trans (Py.Rel.lift Frame.refl _) (fun _ => setOpt_frame (by frame1))

theorem accumulateH_frame (m : Layer) (x g : ND α) :
    Py.Rel (Frame none' (· = m.name) none') (accumulateH m x g : Py (World α) Unit) := by
  refine Py.Rel.get_bind fun w => ?_
  exact Py.Rel.bind Frame.trans (Py.Rel.lift Frame.refl _) (fun _ => commitH_frame m _ _) w

theorem moveParam_frame (h : Hyper α) (p : ℕ) (step : Mat α) :
    Py.Rel (Frame none' none' (· = p)) (moveParam h p step : Py (World α) Unit) := by
  refine Py.Rel.get_bind fun w => ?_
  exact Py.Rel.bind Frame.trans (Py.Rel.lift Frame.refl _) (fun _ => Py.Rel.modify (by frame1)) w

theorem paramStep_frame (h : Hyper α) (p : ℕ) (step : Mat α) :
    Py.Rel (Frame none' none' (· = p)) (paramStep h p step : Py (World α) Unit) := by
  refine Py.Rel.get_bind fun w => ?_
  refine Py.Rel.bind Frame.trans (Py.Rel.lift Frame.refl _) (fun _ => ?_) w
  split
  · refine Py.Rel.bind Frame.trans (Py.Rel.lift Frame.refl _) (fun _ => ?_)
    exact Py.Rel.bind Frame.trans (setOpt_frame (by frame1)) (fun _ => moveParam_frame h p _)
  · exact moveParam_frame h p _

/-- `p` is the weight or the bias of the layer -/
def Owns (m : Layer) (p : ℕ) : Prop := p = m.weight.ptr ∨ ∃ b, m.bias = some b ∧ p = b.ptr

theorem applyNat_frame (m : Layer) (N : Mat α) :
    Py.Rel (Frame none' none' (Owns m)) (applyNat m N : Py (World α) Unit) := by
  refine Py.Rel.get_bind fun w => ?_
  have hw : ∀ h step, Py.Rel (Frame none' none' (Owns m)) (paramStep h m.weight.ptr step : Py (World α) Unit) :=
    fun h step s => (paramStep_frame h _ step s).mono (fun _ => id) (fun _ => id) fun p hp => Or.inl hp
  rcases hb : m.bias with _ | b
  · refine Py.Rel.bind Frame.trans (Py.Rel.lift Frame.refl _) (fun _ => ?_) w
    exact Py.Rel.bind Frame.trans (Py.Rel.lift Frame.refl _) (fun _ => hw _ _)
  · have hb : ∀ h step, Py.Rel (Frame none' none' (Owns m)) (paramStep h b.ptr step : Py (World α) Unit) :=
      fun h step s => (paramStep_frame h _ step s).mono (fun _ => id) (fun _ => id) fun p hp => Or.inr ⟨b, hb, hp⟩
    refine Py.Rel.bind Frame.trans (Py.Rel.lift Frame.refl _) (fun _ => ?_) w
    refine Py.Rel.bind Frame.trans (Py.Rel.lift Frame.refl _) (fun _ => ?_)
    refine Py.Rel.bind Frame.trans (Py.Rel.lift Frame.refl _) (fun _ => ?_)
    exact Py.Rel.bind Frame.trans (hw _ _) (fun _ => hb _ _)

theorem Updates_frame {N S : String → Prop} {P : ℕ → Prop} {w w' : World α} (h : Frame N S P w w') {m : Layer} :
    Updates w'.opt m ↔ Updates w.opt m := by
  unfold Updates; rw [h.hyperOf, h.steps]

theorem layerStep_frame (m : Layer) (w : World α) :
    Frame (fun n => n = m.name ∧ Updates w.opt m) (fun n => n = m.name ∧ Updates w.opt m) (Owns m) w (layerStep m w).2 := by
  have h1 := updatePreconditioner_frame m w
  rw [layerStep, Py.bind_run]
  rcases hu : updatePreconditioner m w with ⟨e | b, w'⟩ <;> rw [hu] at h1
  · exact h1.mono (fun _ => id) (fun _ => id) fun _ => False.elim
  · refine Frame.trans _ _ _ (h1.mono (fun _ => id) (fun _ => id) fun _ => False.elim) ?_
    refine Py.Rel.bind Frame.trans (Py.Rel.lift Frame.refl _) (fun N => ?_) w'
    intro s
    exact (applyNat_frame m N s).mono (fun _ => False.elim) (fun _ => False.elim) fun _ => id

theorem innerStep_frame_aux (w0 : World α) : ∀ (ms : List Layer) (w : World α),
    Frame (fun _ => True) (fun _ => True) (fun _ => True) w0 w →
    Frame (fun n => ∃ m ∈ ms, n = m.name ∧ Updates w0.opt m) (fun n => ∃ m ∈ ms, n = m.name ∧ Updates w0.opt m)
      (fun p => ∃ m ∈ ms, Owns m p) w (Py.forM ms layerStep w).2
  | [], w, _ => Frame.refl _
  | m :: ms, w, h0 => by
    have h1 := (layerStep_frame m w)
    rw [Py.forM, Py.bind_run]
    have hm : Frame (fun n => ∃ m' ∈ m :: ms, n = m'.name ∧ Updates w0.opt m')
        (fun n => ∃ m' ∈ m :: ms, n = m'.name ∧ Updates w0.opt m')
        (fun p => ∃ m' ∈ m :: ms, Owns m' p) w (layerStep m w).2 :=
      h1.mono (fun n hn => ⟨m, by simp, hn.1, (Updates_frame h0).1 hn.2⟩)
        (fun n hn => ⟨m, by simp, hn.1, (Updates_frame h0).1 hn.2⟩) (fun p hp => ⟨m, by simp, hp⟩)
    rcases hu : layerStep m w with ⟨e | b, w'⟩ <;> rw [hu] at hm
    · exact hm
    · have h2 := innerStep_frame_aux w0 ms w' (Frame.trans _ _ _ h0 (hm.mono (fun _ _ => trivial) (fun _ _ => trivial) fun _ _ => trivial))
      refine Frame.trans _ _ _ hm (h2.mono ?_ ?_ ?_)
      · rintro n ⟨m', h, h'⟩; exact ⟨m', by simp [h], h'⟩
      · rintro n ⟨m', h, h'⟩; exact ⟨m', by simp [h], h'⟩
      · rintro n ⟨m', h, h'⟩; exact ⟨m', by simp [h], h'⟩

/-- `_step` touches factors, momenta and statistics of layers whose `T` divides the step counter, and values and momentum
buffers of the layers' weights and biases; nothing else -/
theorem innerStep_frame (w : World α) :
    Frame (fun n => ∃ m ∈ w.opt.layers, n = m.name ∧ Updates w.opt m) (fun n => ∃ m ∈ w.opt.layers, n = m.name ∧ Updates w.opt m)
      (fun p => ∃ m ∈ w.opt.layers, Owns m p) w (innerStep w).2 :=
  innerStep_frame_aux w w.opt.layers w (Frame.refl _)

theorem dropStats_frame (w : World α) :
    Frame none' (fun n => ∃ m ∈ w.opt.layers, n = m.name) none' w (dropStats w).2 := by
  have h : Py.Rel (Frame none' (fun n => ∃ m ∈ w.opt.layers, n = m.name) none')
      (Py.forM w.opt.layers fun m => setOpt fun o : Opt α =>
        { o with HKs := Dict.erase o.HKs m.name, HCs := Dict.erase o.HCs m.name }) := by
    refine Py.Rel.forM Frame.refl Frame.trans fun m hm => ?_
    intro v
    have : Frame none' (· = m.name) none' v ((setOpt fun o : Opt α =>
        { o with HKs := Dict.erase o.HKs m.name, HCs := Dict.erase o.HCs m.name }) v).2 := by
      revert v
      exact setOpt_frame (by frame1)
    exact this.mono (fun _ => id) (fun n hn => ⟨m, hm, hn⟩) fun _ => id
  exact h w

/-- after `dropStats` no layer has statistics -/
theorem dropStats_run (w : World α) : dropStats w = (.ok (), { w with opt := { w.opt with
    HKs := fun n => if ∃ m ∈ w.opt.layers, m.name = n then none else w.opt.HKs n,
    HCs := fun n => if ∃ m ∈ w.opt.layers, m.name = n then none else w.opt.HCs n } }) := by
  rw [dropStats, Py.get_bind_run]
  generalize w.opt.layers = ms
  induction ms generalizing w with
  | nil => simp [Py.forM]; rfl
  | cons m ms ih =>
    have e : ∀ (d : String → Option (SM α)), (fun n => if ∃ m' ∈ ms, m'.name = n then none else Dict.erase d m.name n) =
        (fun n => if ∃ m' ∈ m :: ms, m'.name = n then none else d n) := by
      intro d; funext n
      by_cases h1 : ∃ m' ∈ ms, m'.name = n
      · have : ∃ m' ∈ m :: ms, m'.name = n := by obtain ⟨m', h, h'⟩ := h1; exact ⟨m', by simp [h], h'⟩
        rw [if_pos h1, if_pos this]
      · rw [if_neg h1]
        by_cases h2 : m.name = n
        · have : ∃ m' ∈ m :: ms, m'.name = n := ⟨m, by simp, h2⟩
          rw [if_pos this, Dict.erase, ← h2, Function.update_self]
        · have : ¬ ∃ m' ∈ m :: ms, m'.name = n := by
            rintro ⟨m', h, h'⟩
            rcases List.mem_cons.1 h with rfl | h
            · exact h2 h'
            · exact h1 ⟨m', h, h'⟩
          rw [if_neg this, Dict.erase, Function.update_of_ne (Ne.symm h2)]
    rw [Py.forM, setOpt, Py.modify_bind_run, ih]
    simp only [e]

/-! ### the scale book-keeping -/

theorem setScale_run (s : α) (w : World α) (h : w.opt.steps = 0 → w.opt.scales (-1) ≠ none) :
    Opt.setScale s w = (.ok (), { w with opt := { w.opt with scales := Dict.set w.opt.scales w.opt.steps s } }) := by
  rw [Opt.setScale, Py.modify_bind_run, Py.get_bind_run]
  simp only
  split
  · rename_i h0
    have h1 := h h0
    rcases hx : w.opt.scales (-1) with _ | v
    · exact absurd hx h1
    · simp only [Opt.scale, lookup]
      have e1 : Dict.set w.opt.scales (↑w.opt.steps) s (-1) = some v := by
        rw [Dict.set, Function.update_of_ne (by omega), hx]
      have e2 : Dict.set w.opt.scales (↑w.opt.steps) s 0 = some s := by
        rw [Dict.set, h0]; simp
      rw [e1, e2]; rfl
  · rfl

/-- no change -/
def Same (a b : World α) : Prop := b = a

/-- storing the scale always happens, even if the warning code raises -/
theorem setScale_state (s : α) (w : World α) :
    (Opt.setScale s w).2 = { w with opt := { w.opt with scales := Dict.set w.opt.scales w.opt.steps s } } := by
  rw [Opt.setScale, Py.modify_bind_run]
  have h : Py.Rel Same (Py.get >>= fun w : World α =>
      if w.opt.steps = 0 then do
        let _ ← Py.lift (w.opt.scale (-1))
        let _ ← Py.lift (w.opt.scale 0)
        pure ()
      else pure ()) := by
    have ht : ∀ a b c : World α, Same a b → Same b c → Same a c := fun a b c h h' => h'.trans h
    have hr : ∀ a : World α, Same a a := fun _ => rfl
    refine Py.Rel.get_bind fun v => ?_
    split
    · refine Py.Rel.bind ht (Py.Rel.lift hr _) (fun _ => ?_) v
      exact Py.Rel.bind ht (Py.Rel.lift hr _) (fun _ => Py.Rel.pure hr _)
    · rfl
  exact h _

/-- the world after the scale of the current step has been settled -/
def withScale (attr : Option α) (w : World α) : World α :=
  { w with opt := { w.opt with scales := Dict.set w.opt.scales w.opt.steps ((w.opt.scales w.opt.steps).getD (attr.getD 1)) } }

theorem ensureScale_state (attr : Option α) (w : World α) : (ensureScale attr w).2 = withScale attr w := by
  rw [ensureScale, Py.get_bind_run]
  rcases h : w.opt.scales w.opt.steps with _ | v
  · rw [setScale_state, withScale, h]; rfl
  · have : withScale attr w = w := by
      rw [withScale, h, Option.getD_some, Dict.set, ← h, Function.update_eq_self]
    rw [this]; rfl

theorem ensureScale_run (attr : Option α) (w : World α) (h : w.opt.steps = 0 → w.opt.scales (-1) ≠ none) :
    ensureScale attr w = (.ok (), withScale attr w) := by
  have e : (ensureScale attr w).1 = .ok () := by
    rw [ensureScale, Py.get_bind_run]
    rcases hh : w.opt.scales w.opt.steps with _ | v
    · exact congrArg Prod.fst (setScale_run _ _ h)
    · rfl
  rw [← ensureScale_state attr w, ← e]

/-- `step` after the scale has been settled -/
theorem step_ok_iff {attr : Option α} {f : Bool} {w w' : World α} : step false attr f w = (.ok (), w') ↔
    (ensureScale attr w).1 = .ok () ∧ ∃ w1, stepBody f (withScale attr w) = (.ok (), w1) ∧
      w' = { w1 with opt := Opt.removeUsedScales { w1.opt with steps := w1.opt.steps + 1 } } := by
  have e := ensureScale_state attr w
  rw [step, if_neg (by simp), Py.bind_eq_ok]
  constructor
  · rintro ⟨_, t, h1, h2⟩
    rw [h1] at e
    simp only at e
    subst e
    refine ⟨by rw [h1], ?_⟩
    obtain ⟨_, w1, h3, h4⟩ := Py.bind_eq_ok.1 h2
    refine ⟨w1, h3, ?_⟩
    have := congrArg Prod.snd h4
    exact this.symm
  · rintro ⟨h1, w1, h2, rfl⟩
    refine ⟨(), withScale attr w, ?_, ?_⟩
    · rw [← e, ← h1]
    · rw [Py.bind_ok h2]; rfl

/-- a skipped step -/
theorem skip_run {attr : Option α} {w : World α} (h : w.opt.steps = 0 → w.opt.scales (-1) ≠ none) :
    step false attr true w = (.ok (), { w with opt := Opt.removeUsedScales { w.opt with
      scales := Dict.set w.opt.scales w.opt.steps ((w.opt.scales w.opt.steps).getD (attr.getD 1)),
      HKs := fun n => if ∃ m ∈ w.opt.layers, m.name = n then none else w.opt.HKs n,
      HCs := fun n => if ∃ m ∈ w.opt.layers, m.name = n then none else w.opt.HCs n,
      steps := w.opt.steps + 1 } }) := by
  refine step_ok_iff.2 ⟨by rw [ensureScale_run attr w h], (dropStats (withScale attr w)).2, ?_, ?_⟩
  · rw [stepBody, if_pos rfl, dropStats_run]
  · rw [dropStats_run]; rfl

end World
