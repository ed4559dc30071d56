import Verif.Proofs.Opt.Step

/-! Facts about single operations and arbitrary histories, including histories with exceptions. -/

set_option linter.unusedSectionVars false
variable {α : Type} [Field α] [LinearOrder α] [HasSqrt α]

/-- a forward pass changes nothing, or registers one hook (gradients enabled, `T` divides the step counter) -/
theorem exec_forward (i : ℕ) (x : ND α) (ge : Bool) (w : World α) : (exec (.forward i x ge) w).2 = w ∨
    (ge = true ∧ ∃ m, w.opt.layers[i]? = some m ∧ World.Updates w.opt m ∧
      exec (.forward i x ge) w = (.ok (), { w with hooks := w.hooks ++ [(m, x)] })) := by
  rw [exec, Py.get_bind_run]
  rcases hm : w.opt.layers[i]? with _ | m
  · exact Or.inl rfl
  · simp only [World.forwardHook, Py.get_bind_run]
    rcases hh : w.opt.hyperOf m with e | h
    · exact Or.inl rfl
    · rw [Py.lift_ok_bind_run]
      cases ge
      · exact Or.inl rfl
      · rw [if_pos rfl]
        split
        · exact Or.inl rfl
        · rename_i hT
          split
          · rename_i hs
            exact Or.inr ⟨rfl, m, rfl, ⟨h, hh, hT, hs⟩, rfl⟩
          · exact Or.inl rfl

/-- a backward pass changes nothing but statistics of the hook's layer -/
theorem exec_backward (k : ℕ) (g : ND α) (w : World α) :
    Frame World.none' (fun n => ∃ mx, w.hooks[k]? = some mx ∧ n = mx.1.name) World.none' w (exec (.backward k g) w).2 := by
  rw [exec, Py.get_bind_run]
  rcases hm : w.hooks[k]? with _ | mx
  · exact Frame.refl _
  · exact (World.accumulateH_frame mx.1 mx.2 g w).mono (fun _ => id) (fun n hn => ⟨mx, rfl, hn⟩) fun _ => id

/-- the state after `step` (not refused because of a closure): after `_step` or dropping the statistics, with the counters
advanced iff that succeeded -/
theorem step_state (attr : Option α) (f : Bool) (w : World α) :
    (World.step false attr f w).2 = World.withScale attr w ∨
    ((∃ e, World.step false attr f w = (.error e, (World.stepBody f (World.withScale attr w)).2)) ∨
    ∃ w1, World.stepBody f (World.withScale attr w) = (.ok (), w1) ∧ World.step false attr f w =
      (.ok (), { w1 with opt := Opt.removeUsedScales { w1.opt with steps := w1.opt.steps + 1 } })) := by
  have e := World.ensureScale_state attr w
  rw [World.step, if_neg (by simp), Py.bind_run]
  rcases hx : World.ensureScale attr w with ⟨r, v⟩
  rw [hx] at e
  simp only at e
  subst e
  rcases r with e | u
  · exact Or.inl rfl
  · right
    dsimp only
    rw [Py.bind_run]
    rcases hb : World.stepBody f (World.withScale attr w) with ⟨r, v⟩
    rcases r with e | u'
    · exact Or.inl ⟨e, rfl⟩
    · exact Or.inr ⟨v, rfl, rfl⟩

theorem step_closure (attr : Option α) (f : Bool) (w : World α) :
    World.step true attr f w = (.error .notImplementedError, w) := rfl

/-- `stepBody` touches only ... -/
theorem stepBody_frame (f : Bool) (w : World α) :
    Frame (fun n => f = false ∧ ∃ m ∈ w.opt.layers, n = m.name ∧ World.Updates w.opt m)
      (fun n => ∃ m ∈ w.opt.layers, n = m.name ∧ (f = true ∨ World.Updates w.opt m))
      (fun p => f = false ∧ ∃ m ∈ w.opt.layers, World.Owns m p) w (World.stepBody f w).2 := by
  cases f
  · refine (World.innerStep_frame w).mono ?_ ?_ ?_
    · exact fun n hn => ⟨rfl, hn⟩
    · rintro n ⟨m, h1, h2, h3⟩; exact ⟨m, h1, h2, Or.inr h3⟩
    · exact fun p hp => ⟨rfl, hp⟩
  · refine (World.dropStats_frame w).mono ?_ ?_ ?_
    · exact fun n hn => hn.elim
    · rintro n ⟨m, h1, h2⟩; exact ⟨m, h1, h2, Or.inl rfl⟩
    · exact fun p hp => hp.elim

/-- scale book-keeping is in order: the previous step's scale is stored, and none but the previous and the current one -/
def ScaleInv (o : Opt α) : Prop :=
  o.scales ((o.steps : ℤ) - 1) ≠ none ∧ ∀ t, o.scales t ≠ none → t = (o.steps : ℤ) - 1 ∨ t = o.steps

theorem ScaleInv.congr {o o' : Opt α} (h : ScaleInv o) (h1 : o'.steps = o.steps) (h2 : o'.scales = o.scales) : ScaleInv o' := by
  unfold ScaleInv; rw [h1, h2]; exact h

theorem ScaleInv.set {o : Opt α} (h : ScaleInv o) (s : α) : ScaleInv { o with scales := Dict.set o.scales o.steps s } := by
  constructor
  · show Dict.set o.scales o.steps s ((o.steps : ℤ) - 1) ≠ none
    rw [Dict.set, Function.update_of_ne (by omega)]; exact h.1
  · intro t ht
    change Dict.set o.scales o.steps s t ≠ none at ht
    rw [Dict.set, Function.update_apply] at ht
    split at ht
    · exact Or.inr ‹_›
    · exact h.2 t ht

theorem ScaleInv.advance {o : Opt α} (h : ScaleInv o) (h0 : o.scales o.steps ≠ none) :
    ScaleInv (Opt.removeUsedScales { o with steps := o.steps + 1 }) := by
  constructor
  · show (if (((o.steps + 1 : ℕ) : ℤ) - 1) < (((o.steps + 1 : ℕ) : ℤ) - 1) then none else o.scales (((o.steps + 1 : ℕ) : ℤ) - 1)) ≠ none
    rw [if_neg (lt_irrefl _)]
    have : ((o.steps + 1 : ℕ) : ℤ) - 1 = o.steps := by push_cast; ring
    rw [this]; exact h0
  · intro t ht
    change (if t < (((o.steps + 1 : ℕ) : ℤ) - 1) then none else o.scales t) ≠ none at ht
    show t = ((o.steps + 1 : ℕ) : ℤ) - 1 ∨ t = ((o.steps + 1 : ℕ) : ℤ)
    split at ht
    · exact absurd rfl ht
    · rename_i h1
      rcases h.2 t ht with h2 | h2 <;> push_cast at * <;> omega

theorem exec_scaleInv (op : Op α) (w : World α) (h : ScaleInv w.opt) : ScaleInv (exec op w).2.opt := by
  cases op with
  | forward i x ge =>
    rcases exec_forward i x ge w with e | ⟨_, m, _, _, e⟩
    · rw [e]; exact h
    · rw [e]; exact h.congr rfl rfl
  | backward k g => have f := exec_backward k g w; exact h.congr f.steps f.scales
  | setGrad p G => exact h.congr rfl rfl
  | setParam p M => exact h.congr rfl rfl
  | setHyper i h' => exact h.congr rfl rfl
  | setScale s =>
    show ScaleInv (Opt.setScale s w).2.opt
    rw [World.setScale_state]; exact h.set s
  | step c attr f =>
    cases c
    · show ScaleInv (World.step false attr f w).2.opt
      have h1 : ScaleInv (World.withScale attr w).opt := h.set _
      have h2 : (World.withScale attr w).opt.scales (World.withScale attr w).opt.steps ≠ none := by
        simp [World.withScale, Dict.set]
      have fr := stepBody_frame f (World.withScale attr w)
      rcases step_state attr f w with e | ⟨e', e⟩ | ⟨w1, e1, e⟩
      · rw [e]; exact h1
      · rw [e]; exact h1.congr fr.steps fr.scales
      · rw [e]
        rw [e1] at fr
        exact (h1.congr fr.steps fr.scales).advance (by rw [fr.scales, fr.steps]; exact h2)
    · rw [exec, step_closure]; exact h

theorem run_append (xs ys : List (Op α)) (w : World α) : run (xs ++ ys) w = run ys (run xs w) := by
  simp [run]
theorem run_cons (x : Op α) (ys : List (Op α)) (w : World α) : run (x :: ys) w = run ys (exec x w).2 := rfl

/-- induction principle: an invariant of every operation holds after every history -/
theorem run_inv {P : World α → Prop} (h : ∀ op w, P w → P (exec op w).2) (ops : List (Op α)) (w : World α) (hw : P w) : P (run ops w) := by
  induction ops generalizing w with
  | nil => exact hw
  | cons op ops ih => exact ih _ (h op w hw)

/-- the static part of the optimizer never changes -/
theorem exec_static (op : Op α) (w : World α) : (exec op w).2.opt.layers = w.opt.layers ∧ (exec op w).2.opt.ptrGroup = w.opt.ptrGroup ∧
    (exec op w).2.opt.structs = w.opt.structs ∧ (exec op w).2.opt.groups.map (·.params) = w.opt.groups.map (·.params) := by
  cases op with
  | forward i x ge =>
    rcases exec_forward i x ge w with e | ⟨_, m, _, _, e⟩ <;> rw [e] <;> simp
  | backward k g => have f := exec_backward k g w; rw [f.layers, f.ptrGroup, f.structs, f.groups]; simp
  | setGrad p G => exact ⟨rfl, rfl, rfl, rfl⟩
  | setParam p M => exact ⟨rfl, rfl, rfl, rfl⟩
  | setHyper i h' =>
    refine ⟨rfl, rfl, rfl, ?_⟩
    show List.map _ (w.opt.groups.modify i _) = _
    apply List.ext_getElem
    · simp
    · intro n h1 h2
      simp [List.getElem_modify]; split <;> rfl
  | setScale s =>
    rw [exec, World.setScale_state]; exact ⟨rfl, rfl, rfl, rfl⟩
  | step c attr f =>
    cases c
    · rw [exec]
      have fr := stepBody_frame f (World.withScale attr w)
      rcases step_state attr f w with e | ⟨e', e⟩ | ⟨w1, e1, e⟩
      · rw [e]; exact ⟨rfl, rfl, rfl, rfl⟩
      · rw [e]; rw [fr.layers, fr.ptrGroup, fr.structs, fr.groups]; exact ⟨rfl, rfl, rfl, rfl⟩
      · rw [e]
        rw [e1] at fr
        refine ⟨fr.layers, fr.ptrGroup, fr.structs, ?_⟩
        show w1.opt.groups.map (·.params) = _
        rw [fr.groups]; rfl
    · rw [exec, step_closure]; exact ⟨rfl, rfl, rfl, rfl⟩
