import Verif.Proofs.HeapInit

set_option linter.unusedSectionVars false

/-! Which memory the optimizer writes to, for runs of any outcome. -/

variable {α : Type} [Field α]

namespace Mem

/-- Started when the first unused address is at least `n`, `x` changes only addresses in `P`, and results satisfy `Q`. -/
def Safe {β : Type} (n : ℕ) (P : ℕ → Prop) (x : Py (Mem α) β) (Q : β → Prop) : Prop :=
  ∀ m : Mem α, n ≤ m.next → n ≤ (x m).2.next ∧ (∀ a, ¬ P a → (x m).2.val a = m.val a) ∧ ∀ b, (x m).1 = .ok b → Q b

namespace Safe
variable {n : ℕ} {P : ℕ → Prop} {β γ : Type}

theorem pure {b : β} {Q : β → Prop} (h : Q b) : Safe (α := α) n P (Pure.pure b) Q := fun m hm => ⟨hm, fun _ _ => rfl, fun b' e => by cases e; exact h⟩
theorem raise (e : PyErr) {Q : β → Prop} : Safe (α := α) n P (Py.raise e) Q := fun m hm => ⟨hm, fun _ _ => rfl, fun b' e => by cases e⟩
theorem lift (x : Except PyErr β) {Q : β → Prop} (h : ∀ b, x = .ok b → Q b) : Safe (α := α) n P (Py.lift x) Q := fun m hm =>
  ⟨hm, fun _ _ => rfl, fun b' e => h b' e⟩
theorem bind {x : Py (Mem α) β} {f : β → Py (Mem α) γ} {Q : β → Prop} {R : γ → Prop} (hx : Safe n P x Q) (hf : ∀ b, Q b → Safe n P (f b) R) :
    Safe n P (x >>= f) R := fun m hm => by
  obtain ⟨h1, h2, h3⟩ := hx m hm
  rw [Py.bind_run]
  rcases e : x m with ⟨e' | b, m1⟩
  · rw [e] at h1 h2; exact ⟨h1, h2, fun b h => by cases h⟩
  · rw [e] at h1 h2 h3
    obtain ⟨g1, g2, g3⟩ := hf b (h3 b rfl) m1 h1
    exact ⟨g1, fun a ha => (g2 a ha).trans (h2 a ha), g3⟩
theorem get {f : Mem α → Py (Mem α) γ} {R : γ → Prop} (hf : ∀ m, Safe n P (f m) R) : Safe n P (Py.get >>= f) R := fun m hm => hf m m hm
theorem mono {x : Py (Mem α) β} {Q R : β → Prop} (hx : Safe n P x Q) (h : ∀ b, Q b → R b) : Safe n P x R := fun m hm =>
  ⟨(hx m hm).1, (hx m hm).2.1, fun b e => h b ((hx m hm).2.2 b e)⟩
/-- both branches -/
theorem ite {c : Prop} [Decidable c] {x y : Py (Mem α) β} {Q : β → Prop} (hx : Safe n P x Q) (hy : Safe n P y Q) :
    Safe n P (if c then x else y) Q := by split <;> assumption
theorem of_writes {l : List ℕ} {x : Py (Mem α) β} (h : Writes l x) (hl : ∀ a ∈ l, P a) : Safe n P x fun _ => True := fun m hm =>
  ⟨by rw [(h m).next]; exact hm, fun a ha => (h m).val a fun hb => ha (hl a hb), fun _ _ => trivial⟩
theorem incAt {l : List ℕ} (s : α) (hl : ∀ a ∈ l, P a) : Safe n P (Py.modify (incAt l s)) fun _ => True := of_writes (.incAt s fun _ => id) hl

variable (hP : ∀ a, n ≤ a → P a)
include hP

theorem newV (v : Vec α) : Safe n P (newV v) fun d => ∀ a ∈ locV d, P a := fun m hm => by
  obtain ⟨d, m', e, x, _, f⟩ := newV_spec v m
  rw [e]
  exact ⟨hm.trans x.le, fun a ha => x.val a (by by_contra h; exact ha (hP a (by omega))), fun b hb a ha => by
    cases hb; exact hP a (hm.trans (f.mem a ha).1)⟩
theorem newM (v : Mat α) : Safe n P (newM v) fun d => ∀ a ∈ locM d, P a := fun m hm => by
  obtain ⟨d, m', e, x, _, _, _, f⟩ := newM_spec v m
  rw [e]
  exact ⟨hm.trans x.le, fun a ha => x.val a (by by_contra h; exact ha (hP a (by omega))), fun b hb a ha => by
    cases hb; exact hP a (hm.trans (f.mem a ha).1)⟩
theorem newT (v : T3 α) : Safe n P (newT v) fun d => ∀ a ∈ locT d, P a := fun m hm => by
  obtain ⟨d, m', e, x, _, f⟩ := newT_spec v m
  rw [e]
  exact ⟨hm.trans x.le, fun a ha => x.val a (by by_contra h; exact ha (hP a (by omega))), fun b hb a ha => by
    cases hb; exact hP a (hm.trans (f.mem a ha).1)⟩
theorem new (X : SM α) : Safe n P (new X) fun d => ∀ a ∈ loc d, P a := fun m hm => by
  obtain ⟨d, m', e, x, _, f⟩ := new_spec X m
  rw [e]
  exact ⟨hm.trans x.le, fun a ha => x.val a (by by_contra h; exact ha (hP a (by omega))), fun b hb a ha => by
    cases hb; exact hP a (hm.trans (f.mem a ha).1)⟩

theorem fromDense : ∀ (c : Cls) (d : Mat ℕ), (∀ a ∈ locM d, P a) → Safe (α := α) n P (fromDense c d) fun r => ∀ a ∈ loc r, P a
  | .dense, d, h => pure h
  | .diagonal, d, h => get fun m => bind (lift _ fun _ _ => trivial) fun v _ => bind (newV hP v) fun r hr => pure hr
  | .block D, d, h => get fun m => bind (lift _ fun _ _ => trivial) fun b _ => bind (newT hP _) fun r hr => pure fun a ha => by
      rcases List.mem_append.1 ha with ha | ha
      · exact hr a ha
      · exact h a (locM_view_sub ha)
  | .hier p q, d, h => get fun m => bind (lift _ fun _ _ => trivial) fun b _ => bind (newM hP _) fun B hB => bind (newV hP _) fun C hC =>
      bind (newM hP _) fun D hD => pure fun a ha => by
        simp only [loc, List.mem_append] at ha
        rcases ha with (((ha | ha) | ha) | ha) | ha
        · exact h a (locM_view_sub ha)
        · exact hB a ha
        · exact hC a ha
        · exact hD a ha
        · exact h a (locM_view_sub ha)
  | .tril, d, h => get fun m => bind (lift _ fun _ _ => trivial) fun v _ => bind (newV hP v) fun r hr => pure hr
  | .triu, d, h => get fun m => bind (lift _ fun _ _ => trivial) fun v _ => bind (newV hP v) fun r hr => pure hr
  | .topRight _ _ cA cC, d, h => ite (raise _) (bind (lift _ fun _ _ => trivial) fun b _ =>
      bind (fromDense cA _ fun a ha => h a (locM_view_sub ha)) fun A hA => get fun m => bind (lift _ fun _ _ => trivial) fun x _ =>
      bind (newM hP x) fun B hB => bind (fromDense cC _ fun a ha => h a (locM_view_sub ha)) fun C hC => get fun m =>
      bind (lift _ fun _ _ => trivial) fun _ _ => pure fun a ha => by
        simp only [loc, List.mem_append] at ha
        rcases ha with (ha | ha) | ha
        · exact hB a ha
        · exact hA a ha
        · exact hC a ha)
  | .bottomLeft _ _ cA cC, d, h => ite (raise _) (bind (lift _ fun _ _ => trivial) fun b _ =>
      bind (fromDense cA _ fun a ha => h a (locM_view_sub ha)) fun A hA => get fun m => bind (lift _ fun _ _ => trivial) fun x _ =>
      bind (newM hP x) fun B hB => bind (fromDense cC _ fun a ha => h a (locM_view_sub ha)) fun C hC => get fun m =>
      bind (lift _ fun _ _ => trivial) fun _ _ => pure fun a ha => by
        simp only [loc, List.mem_append] at ha
        rcases ha with (ha | ha) | ha
        · exact hB a ha
        · exact hA a ha
        · exact hC a ha)

theorem result (c : Cls) (x : Except PyErr (SM α)) (d : Except PyErr (Mat α)) : Safe n P (result c x d) fun r => ∀ a ∈ loc r, P a :=
  ite (bind (lift _ fun _ _ => trivial) fun d _ => bind (newM hP d) fun r hr => fromDense hP c r hr)
    (bind (lift _ fun _ _ => trivial) fun x _ => new hP x)
theorem matmulS (K L : SM ℕ) : Safe (α := α) n P (matmulS K L) fun r => ∀ a ∈ loc r, P a := get fun _ => result hP _ _ _
theorem fromInner (K : SM ℕ) (X : Option (Mat α)) : Safe (α := α) n P (fromInner K X) fun r => ∀ a ∈ loc r, P a := get fun _ => result hP _ _ _
theorem zeros (c : Cls) (k : ℕ) : Safe (α := α) n P (zeros c k) fun r => ∀ a ∈ loc r, P a := result hP _ _ _
theorem eye (c : Cls) (k : ℕ) : Safe (α := α) n P (eye c k) fun r => ∀ a ∈ loc r, P a := result hP _ _ _

theorem diagAddM {d : Mat ℕ} (s : α) (h : ∀ a ∈ locM d, P a) : Safe n P (diagAddM d s) fun _ => True :=
  ite (raise _) (incAt s fun a ha => h a (diagLoc_sub ha))
theorem toDense (K : SM ℕ) (h : ∀ a ∈ loc K, P a) : Safe (α := α) n P (toDense K) fun d => ∀ a ∈ locM d, P a := by
  cases K with
  | dense d => exact pure h
  | _ => exact get fun m => newM hP _
theorem diagAdd (K : SM ℕ) (s : α) (h : ∀ a ∈ loc K, P a) : Safe n P (diagAdd K s) fun r => ∀ a ∈ loc r, P a := by
  cases K with
  | diagonal d => exact bind (incAt s h) fun _ _ => pure h
  | block b =>
    exact bind (incAt s fun a ha => h a (List.mem_append_left _ (blockDiagLoc_sub ha))) fun _ _ =>
      bind (incAt s fun a ha => h a (List.mem_append_right _ (diagLoc_sub ha))) fun _ _ => pure h
  | hier b =>
    exact bind (diagAddM hP s fun a ha => h a (by simp [loc, ha])) fun _ _ => bind (incAt s fun a ha => h a (by simp [loc, ha])) fun _ _ =>
      bind (diagAddM hP s fun a ha => h a (by simp [loc, ha])) fun _ _ => pure h
  | tril d =>
    change Safe n P (if d.len = 0 then Py.raise .indexError else Py.modify (Mem.incAt [d.get 0] s) >>= fun _ => Pure.pure (SM.tril d)) _
    split
    · exact raise _
    · exact bind (incAt s fun a ha => h a (mem_locV.2 ⟨0, by omega, (List.mem_singleton.1 ha).symm⟩)) fun _ _ => pure h
  | triu d =>
    change Safe n P (if d.len = 0 then Py.raise .indexError else Py.modify (Mem.incAt [d.get 0] s) >>= fun _ => Pure.pure (SM.triu d)) _
    split
    · exact raise _
    · exact bind (incAt s fun a ha => h a (mem_locV.2 ⟨0, by omega, (List.mem_singleton.1 ha).symm⟩)) fun _ _ => pure h
  | dense d => exact get fun m => bind (toDense hP _ h) fun d hd => bind (diagAddM hP s hd) fun _ _ => fromDense hP _ d hd
  | topRight => exact get fun m => bind (toDense hP _ h) fun d hd => bind (diagAddM hP s hd) fun _ _ => fromDense hP _ d hd
  | bottomLeft => exact get fun m => bind (toDense hP _ h) fun d hd => bind (diagAddM hP s hd) fun _ _ => fromDense hP _ d hd

end Safe
end Mem

variable [LinearOrder α] [HasSqrt α]

namespace HWorld
open Mem

/-- Memory that may be written: addresses in `P`, among them all addresses from `n` on. `W`: places whose tensors lie in `P`.
`A`: places that may get a new reference. -/
structure Zone where
  n : ℕ
  P : ℕ → Prop
  W : Slot → Prop
  A : Slot → Prop
  up : ∀ a, n ≤ a → P a

/-- the tensors in `W` lie in the zone -/
structure Zone.Inv (z : Zone) (hw : HWorld α) : Prop where
  le : z.n ≤ hw.mem.next
  sub : ∀ s r, z.W s → hw.ref s = some r → ∀ a ∈ loc r, z.P a

/-- nothing outside of the zone differs -/
structure Zone.Frame (z : Zone) (hw hw' : HWorld α) : Prop where
  inv : z.Inv hw'
  val : ∀ a, ¬ z.P a → hw'.mem.val a = hw.mem.val a
  ref : ∀ s, ¬ z.A s → hw'.ref s = hw.ref s

/-- whatever its outcome, `x` changes nothing outside of the zone; results satisfy `Q` -/
def Keeps {β : Type} (z : Zone) (x : Py (HWorld α) β) (Q : β → Prop) : Prop :=
  ∀ hw, z.Inv hw → z.Frame hw (x hw).2 ∧ ∀ b, (x hw).1 = .ok b → Q b

namespace Keeps
variable {z : Zone} {β γ : Type}

theorem pure {b : β} {Q : β → Prop} (h : Q b) : Keeps (α := α) z (Pure.pure b) Q := fun hw hi =>
  ⟨⟨hi, fun _ _ => rfl, fun _ _ => rfl⟩, fun b' e => by cases e; exact h⟩
theorem raise (e : PyErr) {Q : β → Prop} : Keeps (α := α) z (Py.raise e) Q := fun hw hi =>
  ⟨⟨hi, fun _ _ => rfl, fun _ _ => rfl⟩, fun b' e => by cases e⟩
theorem lift (x : Except PyErr β) : Keeps (α := α) z (Py.lift x) fun _ => True := fun hw hi =>
  ⟨⟨hi, fun _ _ => rfl, fun _ _ => rfl⟩, fun _ _ => trivial⟩
theorem bind {x : Py (HWorld α) β} {f : β → Py (HWorld α) γ} {Q : β → Prop} {R : γ → Prop} (hx : Keeps z x Q) (hf : ∀ b, Q b → Keeps z (f b) R) :
    Keeps z (x >>= f) R := fun hw hi => by
  obtain ⟨h1, h2⟩ := hx hw hi
  rw [Py.bind_run]
  rcases e : x hw with ⟨e' | b, hw1⟩
  · rw [e] at h1; exact ⟨h1, fun b h => by cases h⟩
  · rw [e] at h1 h2
    obtain ⟨g1, g2⟩ := hf b (h2 b rfl) hw1 h1.inv
    exact ⟨⟨g1.inv, fun a ha => (g1.val a ha).trans (h1.val a ha), fun s hs => (g1.ref s hs).trans (h1.ref s hs)⟩, g2⟩
theorem get {f : HWorld α → Py (HWorld α) γ} {R : γ → Prop} (hf : ∀ hw, Keeps z (f hw) R) : Keeps z (Py.get >>= f) R := fun hw hi => hf hw hw hi
theorem mono {x : Py (HWorld α) β} {Q R : β → Prop} (hx : Keeps z x Q) (h : ∀ b, Q b → R b) : Keeps z x R := fun hw hi =>
  ⟨(hx hw hi).1, fun b e => h b ((hx hw hi).2 b e)⟩
theorem ite {c : Prop} [Decidable c] {x y : Py (HWorld α) β} {Q : β → Prop} (hx : Keeps z x Q) (hy : Keeps z y Q) :
    Keeps z (if c then x else y) Q := by split <;> assumption
theorem onMem {x : Py (Mem α) β} {Q : β → Prop} (h : Mem.Safe z.n z.P x Q) : Keeps z (onMem x) Q := fun hw hi => by
  obtain ⟨h1, h2, h3⟩ := h hw.mem hi.le
  exact ⟨⟨⟨h1, hi.sub⟩, h2, fun _ _ => rfl⟩, h3⟩
theorem assign {s : Slot} {r : Option (SM ℕ)} (ha : z.A s) (h : z.W s → ∀ r', r = some r' → ∀ a ∈ loc r', z.P a) :
    Keeps (α := α) z (assign s r) fun _ => True := fun hw hi => by
  refine ⟨⟨⟨hi.le, fun s' r' hw' h' => ?_⟩, fun _ _ => rfl, fun s' hs' => Function.update_of_ne (fun e : s' = s => hs' (by rw [e]; exact ha)) _ _⟩, fun _ _ => trivial⟩
  by_cases e : s' = s
  · subst e
    have h' : Function.update hw.ref s' r s' = some r' := h'
    rw [Function.update_self] at h'
    exact h hw' r' h'
  · have h' : Function.update hw.ref s r s' = some r' := h'
    rw [Function.update_of_ne e] at h'
    exact hi.sub s' r' hw' h'
theorem deref (s : Slot) : Keeps (α := α) z (deref s) fun r => z.W s → ∀ a ∈ loc r, z.P a := fun hw hi => by
  refine ⟨⟨hi, fun _ _ => rfl, fun _ _ => rfl⟩, fun r e hs => ?_⟩
  have e : lookup hw.ref s = .ok r := e
  exact hi.sub s r hs (lookup_ok e)
theorem setOpt (f : Opt α → Opt α) : Keeps z (setOpt f) fun _ => True := fun hw hi =>
  ⟨⟨⟨hi.le, hi.sub⟩, fun _ _ => rfl, fun _ _ => rfl⟩, fun _ _ => trivial⟩
theorem forM {f : β → Py (HWorld α) Unit} (h : ∀ b, Keeps z (f b) fun _ => True) : ∀ xs, Keeps z (Py.forM xs f) fun _ => True
  | [] => pure trivial
  | b :: xs => bind (h b) fun _ _ => forM h xs
theorem add_ (K L : SM ℕ) (s : α) (h : ∀ a ∈ loc K, z.P a) : Keeps z (HWorld.onMem (Mem.add_ K L s)) fun _ => True :=
  onMem (.of_writes (add_writes K L s) h)
theorem mul_ (K : SM ℕ) (s : α) (h : ∀ a ∈ loc K, z.P a) : Keeps z (HWorld.onMem (Mem.mul_ K s)) fun _ => True :=
  onMem (.of_writes (mul_writes K s) h)

theorem momentumDir (K H L : SM ℕ) (dim : ℕ) (a b s : α) : Mem.Safe z.n z.P (momentumDir K H L dim a b s) fun r => ∀ a ∈ loc r, z.P a :=
  .get fun _ => .bind (.zeros z.up _ _) fun m hm => .bind (.of_writes (add_writes m H a) hm) fun _ _ =>
    .bind (.of_writes (add_writes m L b) hm) fun _ _ => .bind (.diagAdd z.up m (-1) hm) fun m hm =>
    .bind (.of_writes (mul_writes m s) hm) fun _ _ => .pure hm
theorem newMomenta (h : Hyper α) (dK dC : ℕ) (u : α) (K C HK HC : SM ℕ) :
    Mem.Safe z.n z.P (newMomenta h dK dC u K C HK HC) fun r => (∀ a ∈ loc r.1, z.P a) ∧ ∀ a ∈ loc r.2, z.P a :=
  .bind (.fromInner z.up _ _) fun KtK _ => .bind (.fromInner z.up _ _) fun CtC _ => .get fun _ =>
    .bind (.lift _ fun _ _ => trivial) fun tHC _ => .bind (.lift _ fun _ _ => trivial) fun tCC _ =>
    .bind (momentumDir _ _ _ _ _ _ _) fun mK hK => .get fun _ => .bind (.lift _ fun _ _ => trivial) fun tHK _ =>
    .bind (.lift _ fun _ _ => trivial) fun tKK _ => .bind (momentumDir _ _ _ _ _ _ _) fun mC hC => .pure ⟨hK, hC⟩
theorem factorStep (K m : SM ℕ) (b : α) (h : ∀ a ∈ loc K, z.P a) : Mem.Safe z.n z.P (factorStep K m b) fun _ => True :=
  .bind (.matmulS z.up _ _) fun t _ => .of_writes (add_writes K t _) h

theorem updateOn (h : Hyper α) (m : Layer) (w : z.W (.K m.name) ∧ z.W (.C m.name))
    (a : z.A (.HK m.name) ∧ z.A (.HC m.name) ∧ z.A (.mK m.name) ∧ z.A (.mC m.name)) : Keeps z (updateOn h m) fun _ => True :=
  .bind (deref _) fun K hK => .bind (deref _) fun C hC => .bind (deref _) fun HK _ => .bind (assign a.1 (by simp)) fun _ _ =>
    .bind (deref _) fun HC _ => .bind (assign a.2.1 (by simp)) fun _ _ => .get fun hw => .bind (lift _) fun u _ => .bind (lift _) fun d _ =>
    .bind (onMem (newMomenta _ _ _ _ _ _ _ _)) fun ms hms =>
    .bind (.ite (.bind (deref _) fun old _ => add_ _ _ _ hms.2) (pure trivial)) fun _ _ =>
    .bind (.ite (.bind (deref _) fun old _ => add_ _ _ _ hms.1) (pure trivial)) fun _ _ =>
    .bind (.ite (.bind (assign a.2.2.2 fun _ r e => by cases e; exact hms.2) fun _ _ => assign a.2.2.1 fun _ r e => by cases e; exact hms.1)
      (pure trivial)) fun _ _ =>
    .get fun hw => .bind (lift _) fun bK _ => .bind (lift _) fun bC _ => .bind (onMem (factorStep _ _ _ (hK w.1))) fun _ _ =>
    onMem (factorStep _ _ _ (hC w.2))

theorem updatePreconditioner (m : Layer) (w : z.W (.K m.name) ∧ z.W (.C m.name))
    (a : z.A (.HK m.name) ∧ z.A (.HC m.name) ∧ z.A (.mK m.name) ∧ z.A (.mC m.name)) : Keeps (α := α) z (updatePreconditioner m) fun _ => True :=
  .get fun hw => .bind (lift _) fun h _ => .ite (raise _) (.ite (pure trivial) (updateOn h m w a))

theorem forwardHook (m : Layer) (x : ND α) (ge : Bool) : Keeps z (forwardHook m x ge) fun _ => True :=
  .get fun hw => .bind (lift _) fun h _ => .ite (.ite (raise _) (.ite (fun hw hi => ⟨⟨⟨hi.le, hi.sub⟩, fun _ _ => rfl, fun _ _ => rfl⟩, fun _ _ => trivial⟩)
    (pure trivial))) (pure trivial)

theorem accum (s : Slot) (H : SM ℕ) (hH : ∀ a ∈ loc H, z.P a) (w : z.W s) (a : z.A s) : Keeps (α := α) z (accum s H) fun _ => True := fun hw hi => by
  simp only [HWorld.accum]
  rw [Py.get_bind_run]
  rcases e : hw.ref s with _ | H0
  · exact assign a (fun _ r e => by cases e; exact hH) hw hi
  · exact add_ _ _ _ (hi.sub s H0 w e) hw hi

theorem accumulateH (m : Layer) (x g : ND α) (w : z.W (.HK m.name) ∧ z.W (.HC m.name)) (a : z.A (.HK m.name) ∧ z.A (.HC m.name)) :
    Keeps z (accumulateH m x g) fun _ => True :=
  .bind (Q := fun H => (∀ a ∈ loc H.1, z.P a) ∧ ∀ a ∈ loc H.2, z.P a)
    (.get fun hw => .bind (lift _) fun h _ => .bind (lift _) fun y _ => .bind (lift _) fun g _ => .bind (deref _) fun K _ => .bind (deref _) fun C _ =>
      .bind (onMem (.fromInner z.up _ _)) fun HK hK => .bind (lift _) fun prev _ => .bind (lift _) fun g _ =>
      .bind (onMem (.fromInner z.up _ _)) fun HC hC => pure ⟨hK, hC⟩)
    fun H hH => .bind (accum _ _ hH.1 w.1 a.1) fun _ _ => accum _ _ hH.2 w.2 a.2

theorem buffer (p r c : ℕ) (w : z.W (.mom p)) (a : z.A (.mom p)) : Keeps (α := α) z (buffer p r c) fun b => ∀ a ∈ loc b, z.P a := fun hw hi => by
  simp only [HWorld.buffer]
  rw [Py.get_bind_run]
  rcases e : hw.ref (.mom p) with _ | b
  · exact bind (onMem (.newM z.up _)) (fun d hd => bind (assign a fun _ r e => by cases e; exact hd) fun _ _ => pure hd) hw hi
  · exact pure (hi.sub _ b w e) hw hi

theorem paramStep (h : Hyper α) (p : ℕ) (st : SM ℕ) (hs : ∀ a ∈ loc st, z.P a) (w : z.W (.data p) ∧ z.W (.mom p)) (a : z.A (.mom p)) :
    Keeps z (paramStep h p st) fun _ => True :=
  .bind (deref _) fun d hd => .bind (.ite (add_ _ _ _ hs) (pure trivial)) fun _ _ =>
    .ite (.get fun hw => .bind (buffer p _ _ w.2 a) fun b hb => .bind (mul_ _ _ hb) fun _ _ => .bind (add_ _ _ _ hb) fun _ _ => add_ _ _ _ (hd w.1))
      (add_ _ _ _ (hd w.1))

theorem asShape_eq {x y : Mat ℕ} {r c : ℕ} (h : asShape x r c = .ok y) : y = x := by
  unfold asShape at h; split at h <;> cases h; rfl

theorem applyNat (m : Layer) (N : Mat ℕ) (hN : ∀ a ∈ locM N, z.P a) (w : ∀ p, z.W (.data p) ∧ z.W (.mom p)) (a : ∀ p, z.A (.mom p)) :
    Keeps (α := α) z (applyNat m N) fun _ => True := by
  have sh : ∀ (x : Mat ℕ) (r c : ℕ), (∀ a ∈ locM x, z.P a) → Keeps (α := α) z (Py.lift (asShape x r c)) fun y => ∀ a ∈ locM y, z.P a :=
    fun x r c hx hw hi => ⟨⟨hi, fun _ _ => rfl, fun _ _ => rfl⟩, fun y e => by
      have e : asShape x r c = .ok y := e
      rw [asShape_eq e]; exact hx⟩
  refine .get fun hw => ?_
  rcases hb : m.bias with _ | b
  · exact .bind (sh _ _ _ hN) fun nw h1 => .bind (lift _) fun h _ => paramStep _ _ _ h1 (w _) (a _)
  · exact .bind (sh _ _ _ fun a ha => hN a (locM_view_sub ha)) fun nw h1 => .bind (sh _ _ _ fun a ha => hN a (locM_view_sub ha)) fun nb h2 =>
      .bind (lift _) fun h _ => .bind (paramStep _ _ _ h1 (w _) (a _)) fun _ _ => paramStep _ _ _ h2 (w _) (a _)

theorem layerStep (m : Layer) (w : z.W (.K m.name) ∧ z.W (.C m.name))
    (a : z.A (.HK m.name) ∧ z.A (.HC m.name) ∧ z.A (.mK m.name) ∧ z.A (.mC m.name)) (w' : ∀ p, z.W (.data p) ∧ z.W (.mom p)) (a' : ∀ p, z.A (.mom p)) :
    Keeps (α := α) z (layerStep m) fun _ => True :=
  .bind (updatePreconditioner m w a) fun _ _ => .get fun hw => .bind (lift _) fun N _ => .bind (onMem (.newM z.up N)) fun d hd => applyNat m d hd w' a'

theorem setScale (s : α) : Keeps z (setScale s) fun _ => True :=
  .bind (setOpt _) fun _ _ => .get fun hw => .ite (.bind (lift _) fun _ _ => .bind (lift _) fun _ _ => pure trivial) (pure trivial)

theorem step (c : Bool) (s : Option α) (f : Bool) (w : ∀ n, z.W (.K n) ∧ z.W (.C n)) (a : ∀ n, z.A (.HK n) ∧ z.A (.HC n) ∧ z.A (.mK n) ∧ z.A (.mC n))
    (w' : ∀ p, z.W (.data p) ∧ z.W (.mom p)) (a' : ∀ p, z.A (.mom p)) : Keeps z (step c s f) fun _ => True := by
  refine .ite (raise _) (.bind (Q := fun _ => True) (.get fun hw => ?_) fun _ _ => .bind (.ite (.get fun hw => forM (fun m => .bind (assign (a _).1 (by simp)) fun _ _ =>
    assign (a _).2.1 (by simp)) _) (.get fun hw => forM (fun m => layerStep m (w _) (a _) w' a') _)) fun _ _ =>
    .bind (setOpt _) fun _ _ => setOpt _)
  rcases hw.base.opt.scales hw.base.opt.steps with _ | _
  · exact setScale _
  · exact pure trivial

theorem exec (op : Op α) (w : ∀ s, z.W s) (a : ∀ s, z.A s) : Keeps z (hexec op) fun _ => True := by
  cases op with
  | forward i x ge =>
    refine .get fun hw => ?_
    rcases hw.base.opt.layers[i]? with _ | m
    · exact pure trivial
    · exact forwardHook m x ge
  | backward k g =>
    refine .get fun hw => ?_
    rcases hw.base.hooks[k]? with _ | m
    · exact pure trivial
    · exact accumulateH _ _ _ ⟨w _, w _⟩ ⟨a _, a _⟩
  | setGrad p G =>
    cases G with
    | none => exact assign (a _) (by simp)
    | some G => exact .bind (onMem (.newM z.up G)) fun d hd => assign (a _) fun _ r e => by cases e; exact hd
  | setParam p M =>
    have new : Keeps (α := α) z (HWorld.onMem (Mem.newM M) >>= fun r => HWorld.assign (.data p) (some (.dense r))) fun _ => True :=
      .bind (onMem (.newM z.up M)) fun d hd => assign (a _) fun _ r e => by cases e; exact hd
    intro hw hi
    simp only [hexec]
    rw [Py.get_bind_run]
    rcases e : hw.ref (.data p) with _ | r
    · exact new hw hi
    · cases r with
      | dense d =>
        dsimp only
        split
        · refine onMem (.of_writes (l := locM d) (fun m => ?_) (hi.sub _ _ (w _) e)) hw hi
          exact ⟨rfl, fun a ha => by simp only [Py.modify, copyAt, lookup_zip_none ha]⟩
        · exact new hw hi
      | _ => exact new hw hi
  | setHyper i h => exact setOpt _
  | setScale s => exact setScale s
  | step c s f => exact step c s f (fun _ => ⟨w _, w _⟩) (fun _ => ⟨a _, a _, a _, a _⟩) (fun _ => ⟨w _, w _⟩) fun _ => a _

theorem run (w : ∀ s, z.W s) (a : ∀ s, z.A s) : ∀ (ops : List (Op α)) (hw : HWorld α), z.Inv hw → z.Frame hw (hrun ops hw)
  | [], hw, hi => ⟨hi, fun _ _ => rfl, fun _ _ => rfl⟩
  | op :: ops, hw, hi => by
    have h1 := (exec op w a hw hi).1
    have h2 := run w a ops _ h1.inv
    exact ⟨h2.inv, fun x hx => (h2.val x hx).trans (h1.val x hx), fun s hs => (h2.ref s hs).trans (h1.ref s hs)⟩

end Keeps

/-- the zone of the places in `W` -/
def Zone.of (hw : HWorld α) (W A : Slot → Prop) : Zone :=
  ⟨hw.mem.next, fun a => hw.mem.next ≤ a ∨ ∃ s r, W s ∧ hw.ref s = some r ∧ a ∈ loc r, W, A, fun _ => .inl⟩
theorem Zone.of_inv (hw : HWorld α) (W A : Slot → Prop) : (Zone.of hw W A).Inv hw := ⟨le_rfl, fun s r hs h a ha => .inr ⟨s, r, hs, h, ha⟩⟩
/-- a tensor that shares no memory with the places in `W` -/
theorem Zone.Frame.read {hw hw' : HWorld α} {W A : Slot → Prop} (f : (Zone.of hw W A).Frame hw hw') {t : SM ℕ} (ht : ∀ a ∈ loc t, a < hw.mem.next)
    (hs : ∀ s r, W s → hw.ref s = some r → ∀ a ∈ loc t, a ∉ loc r) : hw'.mem.read t = hw.mem.read t :=
  read_congr fun a ha => f.val a (by
    rintro (h | ⟨s, r, hW, hr, h⟩)
    · have := ht a ha; omega
    · exact hs s r hW hr a ha h)

end HWorld
