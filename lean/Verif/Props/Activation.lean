import Verif.Model.Activation
import Verif.Proofs.AliasOps
import Verif.Proofs.Opt.Frame
import Verif.Props.History
import Verif.Props.OptSamples

/-!
# C82: hooks only read activations, and read them in the backward pass

The functions of `optim/utils.py` work on views of the layer's input and of the output gradient, and one of them divides in place. Whatever is copied and whatever is a view: nothing that existed before
is changed, and the results are those of `Model/ProcessIO.lean`. The input is read in the backward pass: a history in which nobody overwrites it until then is the history of the other
models, and otherwise the statistics silently are those of another input.
-/

open Mem

namespace Act
variable {α : Type} [Field α]

/-- `x` extends the memory, and its result reads as `v` (or it raises the exception `v`) -/
def Spec (x : Py (Mem α) (Mat ℕ)) (m : Mem α) (v : Except PyErr (Mat α)) : Prop :=
  Ext m (x m).2 ∧ match v with
    | .ok X => ∃ r, (x m).1 = .ok r ∧ (x m).2.readM r = X ∧ ∀ a ∈ locM r, a < (x m).2.next
    | .error e => (x m).1 = .error e

theorem spec_new (v : Mat α) (m : Mem α) : Spec (newM v) m (.ok v) := by
  obtain ⟨d, m', e, h1, h2, -, -, h3⟩ := newM_spec v m
  simp only [Spec, e]
  exact ⟨h1, d, rfl, h2, fun a ha => (h3.2 a ha).2⟩

theorem spec_pure {v : Mat ℕ} {m : Mem α} (h : ∀ a ∈ locM v, a < m.next) : Spec (pure v) m (.ok (m.readM v)) :=
  ⟨.refl m, v, rfl, rfl, h⟩

theorem spec_raise (e : PyErr) (m : Mem α) : Spec (Py.raise e) m (.error e) := ⟨.refl m, rfl⟩

theorem Spec.bind {x : Py (Mem α) (Mat ℕ)} {m : Mem α} {v : Except PyErr (Mat α)} {f : Mat ℕ → Py (Mem α) (Mat ℕ)} {V : Mat α → Except PyErr (Mat α)} (h : Spec x m v)
    (h' : ∀ r m', Ext m m' → (∀ a ∈ locM r, a < m'.next) → (x m).1 = .ok r → m' = (x m).2 → Spec (f r) m' (V (m'.readM r))) : Spec (x >>= f) m (v >>= V) := by
  obtain ⟨h1, h2⟩ := h
  rcases v with e | X
  · unfold Spec
    rw [Py.bind_run]
    rcases hx : x m with ⟨e' | r, m'⟩
    · rw [hx] at h1 h2; exact ⟨h1, h2⟩
    · rw [hx] at h2; cases h2
  · obtain ⟨r, hr, hX, hl⟩ := h2
    have := h' r _ h1 hl hr rfl
    rw [hX] at this
    unfold Spec
    rw [Py.bind_run]
    rcases hx : x m with ⟨e' | r', m'⟩
    · rw [hx] at hr; cases hr
    · rw [hx] at hr this h1; cases hr
      exact ⟨h1.trans this.1, this.2⟩

theorem Spec.lift {m : Mem α} {β : Type} {x : Except PyErr β} {f : β → Py (Mem α) (Mat ℕ)} {V : β → Except PyErr (Mat α)} (h : ∀ b, x = .ok b → Spec (f b) m (V b)) :
    Spec (Py.lift x >>= f) m (x >>= V) := by
  rcases x with e | b
  · exact ⟨.refl m, rfl⟩
  · exact h b rfl

theorem Spec.get {m : Mem α} {f : Mem α → Py (Mem α) (Mat ℕ)} {v : Except PyErr (Mat α)} (h : Spec (f m) m v) : Spec (Py.get >>= f) m v := h

theorem spec_merge (copy : Bool) {v : Mat ℕ} {m : Mem α} (h : ∀ a ∈ locM v, a < m.next) : Spec (merge copy v) m (.ok (m.readM v)) := by
  refine Spec.get ?_
  cases copy with
  | true => exact spec_new _ m
  | false => exact spec_pure h

theorem spec_withOnes (bias : Bool) {v : Mat ℕ} {m : Mem α} (h : ∀ a ∈ locM v, a < m.next) :
    Spec (withOnes bias v) m (.ok (if bias then PIO.appendOnes (m.readM v) else m.readM v)) := by
  refine Spec.get ?_
  cases bias with
  | true => exact spec_new _ m
  | false => exact spec_pure h

theorem split3_prod {shape : List ℕ} {b s d : ℕ} (h : PIO.split3 shape = some (b, s, d)) : shape.prod = b * s * d := by
  match shape, h with
  | b' :: c :: rest, h =>
    simp only [PIO.split3, Option.some.injEq, Prod.mk.injEq] at h
    obtain ⟨rfl, rfl, rfl⟩ := h
    rw [List.prod_cons, Nat.mul_assoc]
    congr 1
    conv_lhs => rw [← List.dropLast_append_getLast (l := c :: rest) (by simp)]
    rw [List.prod_append, List.prod_singleton]

theorem mul_add_lt {i j n d : ℕ} (hi : i < n) (hj : j < d) : i * d + j < n * d :=
  calc i * d + j < i * d + d := by omega
    _ = (i + 1) * d := by ring
    _ ≤ n * d := Nat.mul_le_mul_right _ hi

theorem spec_leading (copy : Bool) {x : ND ℕ} {m : Mem α} (h : ∀ a ∈ locN x, a < m.next) :
    Spec (Py.lift (leadingView x) >>= merge copy) m (PIO.mergeLeading (readN m x)) := by
  unfold leadingView PIO.mergeLeading
  rw [show (readN m x).shape = x.shape from rfl]
  rcases hs : PIO.split3 x.shape with _ | ⟨b, s, d⟩
  · exact ⟨.refl m, rfl⟩
  · have hp := split3_prod hs
    have key : ∀ i < b * s, ∀ j < d, i * d + j < x.shape.prod := fun i hi j hj => by rw [hp]; exact mul_add_lt hi hj
    have := spec_merge copy (m := m) (v := Mat.ofFn (b * s) d fun i j => x.flat (i * d + j)) fun a ha => by
      obtain ⟨i, hi, j, hj, e⟩ := mem_locM.1 ha
      simp only [Mat.rows_ofFn, Mat.cols_ofFn] at hi hj
      simp only [Mat.get_ofFn, hi, hj, and_self, if_true] at e
      exact h a (List.mem_map.2 ⟨_, List.mem_range.2 (key i hi j hj), e⟩)
    have e : (Mat.ofFn (b * s) d fun i j => (readN m x).flat (i * d + j)) = m.readM (Mat.ofFn (b * s) d fun i j => x.flat (i * d + j)) := by
      refine Mat.ext' rfl rfl fun i hi j hj => ?_
      simp only [Mat.rows_ofFn, Mat.cols_ofFn] at hi hj
      simp [readM, readN, hi, hj, key i hi j hj]
    simp only [e]
    exact this

/-- with two axes nothing is merged or reduced -/
theorem split3_two {shape : List ℕ} (h : shape.length = 2) : ∃ b d, PIO.split3 shape = some (b, 1, d) := by
  match shape, h with
  | [b, d], _ => exact ⟨b, d, by simp [PIO.split3]⟩

theorem mean_two {x : ND α} (h : x.shape.length = 2) : PIO.meanMiddle x = PIO.mergeLeading x := by
  obtain ⟨b, d, hs⟩ := split3_two h
  simp [PIO.meanMiddle, PIO.mergeLeading, hs]

theorem sum_two {x : ND α} (h : x.shape.length = 2) : PIO.sumMiddle x = PIO.mergeLeading x := by
  obtain ⟨b, d, hs⟩ := split3_two h
  simp [PIO.sumMiddle, PIO.mergeLeading, hs]

theorem bind_okE {β : Type} (x : Except PyErr β) : (x >>= Except.ok) = x := by cases x <;> rfl

/-- a computed value in a new tensor -/
theorem spec_computed (x : Except PyErr (Mat α)) (m : Mem α) : Spec (Py.lift x >>= newM) m x := by
  have := Spec.lift (m := m) (x := x) (f := newM) (V := .ok) fun b _ => spec_new b m
  rwa [bind_okE] at this

theorem spec_linearRows (copy : Bool) {red : ND α → Except PyErr (Mat α)} (hred : ∀ x : ND α, x.shape.length = 2 → red x = PIO.mergeLeading x) {x : ND ℕ} {m : Mem α}
    (h : ∀ a ∈ locN x, a < m.next) (ap : String) :
    Spec (linearRows copy red x ap) m (if ap = "expand" then PIO.mergeLeading (readN m x) else red (readN m x)) := by
  unfold linearRows
  by_cases ha : ap = "expand"
  · simp only [ha, true_or, if_true]; exact spec_leading _ h
  · by_cases h2 : x.shape.length = 2
    · simp only [ha, h2, or_true, if_true, if_false]
      rw [hred (readN m x) h2]; exact spec_leading _ h
    · simp only [ha, h2, or_self, if_false]
      exact Spec.get (spec_computed _ m)

/-- transposed twice -/
theorem readM_patchView {m : Mem α} {p : T3 α} {u : T3 ℕ} (h : m.readT u = T3.ofFn p.d0 p.d2 p.d1 fun b c o => p.get b o c) :
    m.readM (patchView u) = PIO.flattenPatches p := by
  have h0 : u.d0 = p.d0 := congrArg T3.d0 h
  have h1 : u.d1 = p.d2 := congrArg T3.d1 h
  have h2 : u.d2 = p.d1 := congrArg T3.d2 h
  refine Mat.ext' (by simp [readM, patchView, PIO.flattenPatches, h0, h2]) (by simp [readM, patchView, PIO.flattenPatches, h1]) fun i hi j hj => ?_
  simp only [readM, patchView, Mat.rows_ofFn, Mat.cols_ofFn] at hi hj
  have hi' := hi; have hj' := hj
  rw [h0, h2] at hi'
  rw [h1] at hj'
  have hp : 0 < u.d2 := Nat.pos_of_ne_zero fun e => by rw [e] at hi; simp at hi
  have a1 : i / u.d2 < u.d0 := Nat.div_lt_of_lt_mul (by rwa [Nat.mul_comm])
  have a2 : i % u.d2 < u.d2 := Nat.mod_lt _ hp
  have := congrArg (fun t => t.get (i / u.d2) j (i % u.d2)) h
  simp only [readT, T3.get_ofFn, a1, hj, a2, and_self, if_true] at this
  rw [if_pos (by rw [← h0, ← h1, ← h2]; exact ⟨a1, hj, a2⟩)] at this
  simp only [readM, patchView, PIO.flattenPatches, Mat.get_ofFn, Mat.rows_ofFn, Mat.cols_ofFn, hi, hj, hi', hj', and_self, if_true]
  rw [this, h2]

/-- the result lies in memory that is not older than `n` -/
def Young (n : ℕ) (x : Py (Mem α) (Mat ℕ)) (m : Mem α) : Prop := ∀ r, (x m).1 = .ok r → ∀ a ∈ locM r, n ≤ a

theorem young_new {n : ℕ} (v : Mat α) {m : Mem α} (h : n ≤ m.next) : Young n (newM v) m := fun r hr a ha => by
  obtain ⟨d, m', e, -, -, -, -, h3⟩ := newM_spec v m
  rw [e] at hr; cases hr
  exact h.trans (h3.2 a ha).1

theorem young_pure {n : ℕ} {v : Mat ℕ} {m : Mem α} (h : ∀ a ∈ locM v, n ≤ a) : Young n (pure v) m := fun r hr => by cases hr; exact h

theorem Young.bind {β : Type} {n : ℕ} {x : Py (Mem α) β} {f : β → Py (Mem α) (Mat ℕ)} {m : Mem α} (h : ∀ b, (x m).1 = .ok b → Young n (f b) (x m).2) : Young n (x >>= f) m := by
  intro r hr
  rw [Py.bind_run] at hr
  rcases hx : x m with ⟨e | b, m'⟩
  · rw [hx] at hr; cases hr
  · have := h b (by rw [hx]) r
    rw [hx] at hr this
    exact this hr

theorem Young.get {n : ℕ} {m : Mem α} {f : Mem α → Py (Mem α) (Mat ℕ)} (h : Young n (f m) m) : Young n (Py.get >>= f) m := h

theorem young_merge {n : ℕ} (copy : Bool) {v : Mat ℕ} {m : Mem α} (h : ∀ a ∈ locM v, n ≤ a) (hn : n ≤ m.next) : Young n (merge copy v) m := by
  refine Young.get ?_
  cases copy with
  | true => exact young_new _ hn
  | false => exact young_pure h

theorem young_withOnes {n : ℕ} (bias : Bool) {v : Mat ℕ} {m : Mem α} (h : ∀ a ∈ locM v, n ≤ a) (hn : n ≤ m.next) : Young n (withOnes bias v) m := by
  refine Young.get ?_
  cases bias with
  | true => exact young_new _ hn
  | false => exact young_pure h

theorem locM_patchView {u : T3 ℕ} {a : ℕ} (h : a ∈ locM (patchView u)) : a ∈ locT u := by
  obtain ⟨i, hi, j, hj, e⟩ := mem_locM.1 h
  simp only [patchView, Mat.rows_ofFn, Mat.cols_ofFn] at hi hj
  have hp : 0 < u.d2 := Nat.pos_of_ne_zero fun e => by rw [e] at hi; simp at hi
  simp only [patchView, Mat.get_ofFn, hi, hj, and_self, if_true] at e
  exact mem_locT.2 ⟨_, Nat.div_lt_of_lt_mul (by rwa [Nat.mul_comm]), _, hj, _, Nat.mod_lt _ hp, e⟩

/-- the patches are new -/
theorem spec_convRows (copy : Bool) (x : ND ℕ) (m : Mem α) (cfg : ConvCfg) (ap : String) :
    Spec (convRows copy x cfg ap) m (if ap = "expand" then PIO.flattenPatches <$> PIO.extractPatches (readN m x) cfg else PIO.extractAveragedPatches (readN m x) cfg) ∧
    Young m.next (convRows copy x cfg ap) m := by
  unfold convRows
  by_cases ha : ap = "expand"
  · simp only [ha, if_true]
    have key : ∀ p : T3 α, Spec (Mem.newT (T3.ofFn p.d0 p.d2 p.d1 fun b c o => p.get b o c) >>= fun u => merge copy (patchView u)) m (.ok (PIO.flattenPatches p)) ∧
        Young m.next (Mem.newT (T3.ofFn p.d0 p.d2 p.d1 fun b c o => p.get b o c) >>= fun u => merge copy (patchView u)) m := fun p => by
      obtain ⟨u, m', e, h1, h2, h3⟩ := newT_spec (T3.ofFn p.d0 p.d2 p.d1 fun b c o => p.get b o c) m
      have hs := spec_merge copy (v := patchView u) (m := m') fun a ha => (h3.2 a (locM_patchView ha)).2
      rw [readM_patchView h2] at hs
      constructor
      · unfold Spec
        rw [Py.bind_run, e]
        exact ⟨h1.trans hs.1, hs.2⟩
      · exact Young.bind fun b hb => by
          rw [e] at hb ⊢; cases hb
          exact young_merge copy (fun a ha => (h3.2 a (locM_patchView ha)).1) h1.le
    rcases he : PIO.extractPatches (readN m x) cfg with e | p
    · constructor
      · exact Spec.get (by rw [he]; exact ⟨.refl m, rfl⟩)
      · exact Young.get (by rw [he]; intro r hr; cases hr)
    · exact ⟨Spec.get (by rw [he]; exact (key p).1), Young.get (by rw [he]; exact (key p).2)⟩
  · simp only [ha, if_false]
    refine ⟨Spec.get (spec_computed _ m), Young.get (Young.bind fun b hb => ?_)⟩
    exact young_new b le_rfl

theorem readM_divAt (d : Mat ℕ) (s : α) (m : Mem α) : (divAt (locM d) s m).readM d = Mat.ofFn d.rows d.cols fun i j => (m.readM d).get i j / s := by
  refine Mat.ext' rfl rfl fun i hi j hj => ?_
  simp only [readM, Mat.rows_ofFn, Mat.cols_ofFn] at hi hj
  simp [readM, divAt, hi, hj, mem_locM.2 ⟨i, hi, j, hj, rfl⟩]

section
variable [HasSqrt α]

theorem linearProcessInput_eq (x : ND α) (bias : Bool) (ap : String) : PIO.linearProcessInput x bias ap =
    ((if ap = "expand" then PIO.mergeLeading x else PIO.meanMiddle x) >>= fun X => .ok (PIO.divSqrtRows (if bias then PIO.appendOnes X else X))) := by
  unfold PIO.linearProcessInput
  by_cases h : ap = "expand" <;> simp only [h, if_true, if_false] <;> rfl

theorem convProcessInput_eq (x : ND α) (cfg : ConvCfg) (bias : Bool) (ap : String) : PIO.convProcessInput x cfg bias ap =
    ((if ap = "expand" then PIO.flattenPatches <$> PIO.extractPatches x cfg else PIO.extractAveragedPatches x cfg) >>=
      fun X => .ok (PIO.divSqrtRows (if bias then PIO.appendOnes X else X))) := by
  unfold PIO.convProcessInput
  by_cases h : ap = "expand" <;> simp only [h, if_true, if_false] <;> rfl

theorem spec_linearInput (cp : Copies) {x : ND ℕ} {m : Mem α} (h : ∀ a ∈ locN x, a < m.next) (bias : Bool) (ap : String) :
    Spec (linearInput cp x bias ap) m (PIO.linearProcessInput (readN m x) bias ap) := by
  rw [linearProcessInput_eq]
  refine (spec_linearRows cp.mergeIn (fun _ => mean_two) h ap).bind fun r m' _ hr _ _ => ?_
  exact (spec_withOnes bias hr).bind (V := fun X => .ok (PIO.divSqrtRows X)) fun r' m'' _ hr' _ _ => Spec.get (spec_new _ m'')

theorem spec_convInput (cp : Copies) (x : ND ℕ) (m : Mem α) (cfg : ConvCfg) (bias : Bool) (ap : String) :
    Spec (convInput cp x cfg bias ap) m (PIO.convProcessInput (readN m x) cfg bias ap) := by
  rw [convProcessInput_eq]
  obtain ⟨h1, h2⟩ := spec_convRows cp.mergeIn x m cfg ap
  have key : ∀ r m', Ext m m' → (∀ a ∈ locM r, a < m'.next) → (∀ a ∈ locM r, m.next ≤ a) →
      Ext m (divAt (locM r) (HasSqrt.sqrt (r.rows : α)) m') ∧ (divAt (locM r) (HasSqrt.sqrt (r.rows : α)) m').readM r = PIO.divSqrtRows (m'.readM r) := fun r m' h3 h4 h5 =>
    ⟨⟨h3.le, fun a ha => (if_neg fun hm => absurd (h5 a hm) (by omega)).trans (h3.val a ha)⟩, readM_divAt ..⟩
  unfold convInput
  unfold Spec
  rw [Py.bind_run]
  rcases hx : convRows cp.mergeIn x cfg ap m with ⟨e | r, m'⟩
  · rcases hv : (if ap = "expand" then PIO.flattenPatches <$> PIO.extractPatches (readN m x) cfg else PIO.extractAveragedPatches (readN m x) cfg) with e' | X
    · rw [hv] at h1; simp only [Spec, hx] at h1; exact h1
    · rw [hv] at h1; simp only [Spec, hx] at h1; obtain ⟨_, _, h, _⟩ := h1; cases h
  · rcases hv : (if ap = "expand" then PIO.flattenPatches <$> PIO.extractPatches (readN m x) cfg else PIO.extractAveragedPatches (readN m x) cfg) with e' | X
    · rw [hv] at h1; simp only [Spec, hx] at h1; cases h1.2
    · rw [hv] at h1; simp only [Spec, hx] at h1
      obtain ⟨h3, r0, e0, hX, hl⟩ := h1
      cases e0
      have hy := h2 r (by rw [hx])
      have hw := spec_withOnes bias hl
      have hwy := young_withOnes bias hy h3.le
      simp only [Spec] at hw
      obtain ⟨h6, r', e', hX', hl'⟩ := hw
      obtain ⟨k1, k2⟩ := key r' _ (h3.trans h6) hl' (hwy r' e')
      dsimp only
      rw [Py.bind_run]
      rcases hb : withOnes bias r m' with ⟨e'' | r'', m''⟩
      · rw [hb] at e'; cases e'
      · rw [hb] at e' k1 k2 hX' hl'
        cases e'
        refine ⟨k1, r', rfl, k2.trans ?_, hl'⟩
        rw [hX', hX]

/-- **C82 (process_input).** -/
theorem spec_processInput (cp : Copies) {x : ND ℕ} {m : Mem α} (h : ∀ a ∈ locN x, a < m.next) (kind : LayerKind) (bias : Bool) (ap : String) :
    Spec (processInput cp x kind bias ap) m (PIO.processInput (readN m x) kind bias ap) := by
  unfold processInput PIO.processInput
  by_cases ha : ¬(ap = "expand" ∨ ap = "reduce")
  · rw [if_pos ha, if_pos ha]; exact spec_raise _ m
  · rw [if_neg ha, if_neg ha]
    cases kind with
    | linear => exact spec_linearInput cp h bias ap
    | conv2d cfg => exact spec_convInput cp x m cfg bias ap
    | other => exact spec_raise _ m

theorem linearProcessGrad_eq (g : ND α) (la : Option String) (ap : String) : PIO.linearProcessGrad g la ap =
    (PIO.linearScaling (α := α) g.shape la >>= fun s => (if ap = "expand" then PIO.mergeLeading g else PIO.sumMiddle g) >>= fun X => .ok (X.smul s)) := by
  unfold PIO.linearProcessGrad
  by_cases h : ap = "expand" <;> simp only [h, if_true, if_false] <;> rfl

theorem convProcessGrad_eq (g : ND α) (la : Option String) (ap : String) : PIO.convProcessGrad g la ap =
    (PIO.convScaling (α := α) g.shape la >>= fun s => (if ap = "expand" then PIO.mergeSpatial g else PIO.sumSpatial g) >>= fun X => .ok (X.smul s)) := by
  unfold PIO.convProcessGrad
  by_cases h : ap = "expand" <;> simp only [h, if_true, if_false] <;> rfl

theorem spec_linearGrad (cp : Copies) {g : ND ℕ} {m : Mem α} (h : ∀ a ∈ locN g, a < m.next) (la : Option String) (ap : String) :
    Spec (linearGrad cp g la ap) m (PIO.linearProcessGrad (readN m g) la ap) := by
  rw [linearProcessGrad_eq]
  exact Spec.lift fun s _ => (spec_linearRows cp.mergeOut (fun _ => sum_two) h ap).bind fun r m' _ hr _ _ => Spec.get (spec_new _ m')

theorem spec_spatialRows (copy : Bool) {g : ND ℕ} {m : Mem α} (h : ∀ a ∈ locN g, a < m.next) (ap : String) :
    Spec (spatialRows copy g ap) m (if ap = "expand" then PIO.mergeSpatial (readN m g) else PIO.sumSpatial (readN m g)) := by
  unfold spatialRows
  by_cases ha : ap = "expand"
  · simp only [ha, if_true]
    unfold spatialView PIO.mergeSpatial PIO.shape4
    rw [show (readN m g).shape = g.shape from rfl]
    split
    · rename_i B C O1 O2 hs
      have hp : g.shape.prod = B * C * O1 * O2 := by rw [hs]; simp [Nat.mul_assoc]
      have key : ∀ r < B * O1 * O2, ∀ c < C, ((r / (O1 * O2) * C + c) * O1 + r / O2 % O1) * O2 + r % O2 < g.shape.prod := fun r hr c hc => by
        rw [hp]
        have h2 : 0 < O2 := Nat.pos_of_ne_zero fun e => by rw [e] at hr; simp at hr
        have h1 : 0 < O1 := Nat.pos_of_ne_zero fun e => by rw [e] at hr; simp at hr
        refine mul_add_lt (mul_add_lt (mul_add_lt (Nat.div_lt_of_lt_mul ?_) hc) (Nat.mod_lt _ h1)) (Nat.mod_lt _ h2)
        calc r < B * O1 * O2 := hr
          _ = O1 * O2 * B := by ring
      have := spec_merge copy (m := m) (v := Mat.ofFn (B * O1 * O2) C fun r c => g.flat (((r / (O1 * O2) * C + c) * O1 + r / O2 % O1) * O2 + r % O2)) fun a ha => by
        obtain ⟨i, hi, j, hj, e⟩ := mem_locM.1 ha
        simp only [Mat.rows_ofFn, Mat.cols_ofFn] at hi hj
        simp only [Mat.get_ofFn, hi, hj, and_self, if_true] at e
        exact h a (List.mem_map.2 ⟨_, List.mem_range.2 (key i hi j hj), e⟩)
      have e : (Mat.ofFn (B * O1 * O2) C fun r c => PIO.at4 (readN m g) C O1 O2 (r / (O1 * O2)) c (r / O2 % O1) (r % O2)) =
          m.readM (Mat.ofFn (B * O1 * O2) C fun r c => g.flat (((r / (O1 * O2) * C + c) * O1 + r / O2 % O1) * O2 + r % O2)) := by
        refine Mat.ext' rfl rfl fun i hi j hj => ?_
        simp only [Mat.rows_ofFn, Mat.cols_ofFn] at hi hj
        simp [readM, readN, PIO.at4, hi, hj, key i hi j hj]
      rw [hs]
      show Spec _ m (.ok _)
      rw [e]
      exact this
    · rename_i hs
      split
      · rename_i B C O1 O2 h'
        exact absurd h' (hs B C O1 O2)
      · exact ⟨.refl m, rfl⟩
  · simp only [ha, if_false]
    exact Spec.get (spec_computed _ m)

theorem spec_convGrad (cp : Copies) {g : ND ℕ} {m : Mem α} (h : ∀ a ∈ locN g, a < m.next) (la : Option String) (ap : String) :
    Spec (convGrad cp g la ap) m (PIO.convProcessGrad (readN m g) la ap) := by
  rw [convProcessGrad_eq]
  exact Spec.lift fun s _ => (spec_spatialRows cp.mergeOut h ap).bind fun r m' _ hr _ _ => Spec.get (spec_new _ m')

theorem spec_processGrad (cp : Copies) {g : ND ℕ} {m : Mem α} (h : ∀ a ∈ locN g, a < m.next) (kind : LayerKind) (la : Option String) (ap : String) :
    Spec (processGrad cp g kind la ap) m (PIO.processGradOutput (readN m g) kind la ap) := by
  unfold processGrad PIO.processGradOutput
  by_cases hl : ¬(la = none ∨ la = some "batch" ∨ la = some "batch+sequence")
  · rw [if_pos hl, if_pos hl]; exact spec_raise _ m
  · rw [if_neg hl, if_neg hl]
    by_cases ha : ¬(ap = "expand" ∨ ap = "reduce")
    · rw [if_pos ha, if_pos ha]; exact spec_raise _ m
    · rw [if_neg ha, if_neg ha]
      cases kind with
      | linear => exact spec_linearGrad cp h la ap
      | conv2d cfg => exact spec_convGrad cp h la ap
      | other => exact spec_raise _ m

end

theorem newN_spec (v : ND α) (m : Mem α) : ∃ t m', newN v m = (.ok t, m') ∧ Ext m m' ∧ (∀ a ∈ locN t, a < m'.next) ∧ readN m' t = readN ⟨v.flat, 0⟩ ⟨v.shape, id⟩ := by
  refine ⟨_, _, rfl, ⟨Nat.le_add_right _ _, fun a ha => if_neg (by omega)⟩, fun a ha => ?_, ?_⟩
  · obtain ⟨i, hi, rfl⟩ := List.mem_map.1 ha
    have := List.mem_range.1 hi
    dsimp only at this ⊢; omega
  · simp only [readN, ND.mk.injEq, true_and, id]
    funext i
    by_cases hi : i < v.shape.prod
    · simp [hi]
    · simp [hi]

theorem toType_spec (copy : Bool) {x : ND ℕ} {m : Mem α} (h : ∀ a ∈ locN x, a < m.next) : ∃ t m', toType copy x m = (.ok t, m') ∧ Ext m m' ∧ (∀ a ∈ locN t, a < m'.next) ∧
    readN m' t = readN m x := by
  cases copy with
  | false => exact ⟨x, m, rfl, .refl m, h, rfl⟩
  | true =>
    obtain ⟨t, m', e, h1, h2, h3⟩ := newN_spec (readN m x) m
    refine ⟨t, m', e, h1, h2, h3.trans ?_⟩
    simp only [readN, ND.mk.injEq, true_and, id]
    funext i
    by_cases hi : i < x.shape.prod <;> simp [hi]

theorem Ext.readN {m m' : Mem α} (h : Ext m m') {t : ND ℕ} (ht : ∀ a ∈ locN t, a < m.next) : Act.readN m' t = Act.readN m t := by
  simp only [Act.readN, ND.mk.injEq, true_and]
  funext i
  by_cases hi : i < t.shape.prod
  · simp only [hi, if_true]; exact h.val _ (ht _ (List.mem_map.2 ⟨i, List.mem_range.2 hi, rfl⟩))
  · simp [hi]

end Act

namespace ActWorld
variable {α : Type} [Field α] [LinearOrder α] [HasSqrt α]

theorem onAct_bind {β γ : Type} {x : Py (Mem α) β} {f : β → Py (ActWorld α) γ} (aw : ActWorld α) :
    (onAct x >>= f) aw = match x aw.act with
      | (.ok b, m) => f b { aw with act := m }
      | (.error e, m) => (.error e, { aw with act := m }) := by
  rw [Py.bind_run]
  unfold onAct
  rcases hx : x aw.act with ⟨e | b, m⟩ <;> rfl

theorem okb {β γ : Type} (b : β) (f : β → Except PyErr γ) : ((Except.ok b : Except PyErr β) >>= f) = f b := rfl
theorem erb {β γ : Type} (e : PyErr) (f : β → Except PyErr γ) : ((Except.error e : Except PyErr β) >>= f) = .error e := rfl

/-- the statistics are those of the contents at this moment -/
theorem localH_run (cp : Copies) (m : Layer) {x g : ND ℕ} (aw : ActWorld α) (hx : ∀ a ∈ Act.locN x, a < aw.act.next) (hg : ∀ a ∈ Act.locN g, a < aw.act.next) :
    ∃ M, Ext aw.act M ∧ localH cp m x g aw = (World.localH aw.w.opt m (Act.readN aw.act x) (Act.readN aw.act g), { aw with act := M }) := by
  unfold localH World.localH
  rw [Py.get_bind_run]
  rcases hh : aw.w.opt.hyperOf m with e | h
  · exact ⟨aw.act, .refl _, rfl⟩
  rw [Py.lift_ok_bind_run, okb]
  obtain ⟨x', m1, e1, x1, x2, x3⟩ := Act.toType_spec cp.toIn hx
  rw [onAct_bind, e1]
  dsimp only
  have s1 := Act.spec_processInput cp x2 m.kind m.bias.isSome h.kfacApprox
  rw [x3] at s1
  rw [onAct_bind]
  dsimp only
  rcases p1 : Act.processInput cp x' m.kind m.bias.isSome h.kfacApprox m1 with ⟨e | a, m2⟩
  · rcases hv : PIO.processInput (Act.readN aw.act x) m.kind m.bias.isSome h.kfacApprox with e' | X
    · rw [hv] at s1; simp only [Act.Spec, p1] at s1
      obtain ⟨s2, s3⟩ := s1
      cases s3
      exact ⟨m2, x1.trans s2, by rw [erb]⟩
    · rw [hv] at s1; simp only [Act.Spec, p1] at s1
      obtain ⟨_, _, h, _⟩ := s1; cases h
  rcases hv : PIO.processInput (Act.readN aw.act x) m.kind m.bias.isSome h.kfacApprox with e' | A
  · rw [hv] at s1; simp only [Act.Spec, p1] at s1; cases s1.2
  rw [hv] at s1; simp only [Act.Spec, p1] at s1
  obtain ⟨s2, a', e, s3, s4⟩ := s1
  cases e
  dsimp only
  rw [okb]
  have hg2 : ∀ a ∈ Act.locN g, a < m2.next := fun a ha => (hg a ha).trans_le (x1.le.trans s2.le)
  obtain ⟨g', m3, e3, g1, g2, g3⟩ := Act.toType_spec cp.toOut hg2
  rw [onAct_bind]
  dsimp only
  rw [e3]
  dsimp only
  have t1 := Act.spec_processGrad cp g2 m.kind h.lossAverage h.kfacApprox
  rw [g3, Act.Ext.readN (x1.trans s2) hg] at t1
  rw [onAct_bind]
  dsimp only
  rcases p2 : Act.processGrad cp g' m.kind h.lossAverage h.kfacApprox m3 with ⟨e | b, m4⟩
  · rcases hw : PIO.processGradOutput (Act.readN aw.act g) m.kind h.lossAverage h.kfacApprox with e' | X
    · rw [hw] at t1; simp only [Act.Spec, p2] at t1
      obtain ⟨t2, t3⟩ := t1
      cases t3
      exact ⟨m4, ((x1.trans s2).trans g1).trans t2, by rw [erb]⟩
    · rw [hw] at t1; simp only [Act.Spec, p2] at t1
      obtain ⟨_, _, h, _⟩ := t1; cases h
  rcases hw : PIO.processGradOutput (Act.readN aw.act g) m.kind h.lossAverage h.kfacApprox with e' | G
  · rw [hw] at t1; simp only [Act.Spec, p2] at t1; cases t1.2
  rw [hw] at t1; simp only [Act.Spec, p2] at t1
  obtain ⟨t2, b', e, t3, t4⟩ := t1
  cases e
  dsimp only
  rw [okb]
  refine ⟨m4, ((x1.trans s2).trans g1).trans t2, ?_⟩
  have ra : m4.readM a = A := ((g1.trans t2).readM s4).trans s3
  rcases hK : lookup aw.w.opt.Ks m.name with e | K
  · rw [erb]; rfl
  rw [Py.lift_ok_bind_run, okb]
  rcases hC : lookup aw.w.opt.Cs m.name with e | C
  · rw [erb]; rfl
  rw [Py.lift_ok_bind_run, Py.get_bind_run, okb]
  dsimp only
  rw [ra, t3]
  rcases K.fromInner (some A.T) with e | HK
  · rw [erb]; rfl
  rw [Py.lift_ok_bind_run, okb]
  rcases aw.w.opt.scale ((aw.w.opt.steps : ℤ) - 1) with e | prev
  · rw [erb]; rfl
  rw [Py.lift_ok_bind_run, okb]
  rcases hu : World.unscaleGrad prev G with e | gv
  · rw [erb]; rfl
  rw [Py.lift_ok_bind_run, okb]
  rcases C.fromInner (some gv.T) with e | HC
  · rw [erb]; rfl
  · rfl

theorem accumulateH_run (cp : Copies) (m : Layer) {x g : ND ℕ} (aw : ActWorld α) (hx : ∀ a ∈ Act.locN x, a < aw.act.next) (hg : ∀ a ∈ Act.locN g, a < aw.act.next) :
    ∃ M, Ext aw.act M ∧ accumulateH cp m x g aw = ((World.accumulateH m (Act.readN aw.act x) (Act.readN aw.act g) aw.w).1,
      ⟨(World.accumulateH m (Act.readN aw.act x) (Act.readN aw.act g) aw.w).2, M, aw.held⟩) := by
  obtain ⟨M, h1, h2⟩ := localH_run cp m aw hx hg
  refine ⟨M, h1, ?_⟩
  unfold accumulateH World.accumulateH
  rw [Py.bind_run, h2, Py.get_bind_run]
  rcases World.localH aw.w.opt m (Act.readN aw.act x) (Act.readN aw.act g) with e | H
  · rfl
  · rw [Py.lift_ok_bind_run]; rfl

end ActWorld

variable {α : Type} [Field α] [LinearOrder α] [HasSqrt α]

/-- **C82 (inputs are only read).** For every layer, every tensor in memory, and whatever the conversions and reshapes copy or share: `process_input` changes nothing that was in memory before, in particular not
the layer's input (the in-place division never hits it), and its result is that of `Model/ProcessIO.lean`, including exceptions. -/
theorem C82_process_input (cp : Copies) (x : ND ℕ) (m : Mem α) (h : ∀ a ∈ Act.locN x, a < m.next) (kind : LayerKind) (bias : Bool) (ap : String) :
    let r := Act.processInput cp x kind bias ap m
    (∀ a < m.next, r.2.val a = m.val a) ∧ r.1.map r.2.readM = PIO.processInput (Act.readN m x) kind bias ap := by
  intro r
  obtain ⟨h1, h2⟩ := Act.spec_processInput cp h kind bias ap
  refine ⟨h1.val, ?_⟩
  rcases hv : PIO.processInput (Act.readN m x) kind bias ap with e | X
  · rw [hv] at h2; rw [show r.1 = _ from h2]; rfl
  · rw [hv] at h2
    obtain ⟨d, e, h3, -⟩ := h2
    rw [show r.1 = _ from e]
    exact congrArg _ h3

/-- **C82 (output gradients are only read).** -/
theorem C82_process_grad (cp : Copies) (g : ND ℕ) (m : Mem α) (h : ∀ a ∈ Act.locN g, a < m.next) (kind : LayerKind) (la : Option String) (ap : String) :
    let r := Act.processGrad cp g kind la ap m
    (∀ a < m.next, r.2.val a = m.val a) ∧ r.1.map r.2.readM = PIO.processGradOutput (Act.readN m g) kind la ap := by
  intro r
  obtain ⟨h1, h2⟩ := Act.spec_processGrad cp h kind la ap
  refine ⟨h1.val, ?_⟩
  rcases hv : PIO.processGradOutput (Act.readN m g) kind la ap with e | X
  · rw [hv] at h2; rw [show r.1 = _ from h2]; rfl
  · rw [hv] at h2
    obtain ⟨d, e, h3, -⟩ := h2
    rw [show r.1 = _ from e]
    exact congrArg _ h3

/-- references refer to memory that exists, and hooks belong to the layers that registered them -/
structure ActWorld.Good (aw : ActWorld α) : Prop where
  held : ∀ mx ∈ aw.held, ∀ a ∈ Act.locN mx.2, a < aw.act.next
  same : aw.held.map (·.1) = aw.w.hooks.map (·.1)

/-- the tensors of a forward or backward pass exist -/
def ActOp.Exists (aw : ActWorld α) : ActOp α → Prop
  | .forward _ x _ => ∀ a ∈ Act.locN x, a < aw.act.next
  | .backward _ g => ∀ a ∈ Act.locN g, a < aw.act.next
  | _ => True

theorem ActWorld.Good.get {aw : ActWorld α} (h : aw.Good) {k : ℕ} {mx : Layer × ND ℕ} (hk : aw.held[k]? = some mx) :
    (∀ a ∈ Act.locN mx.2, a < aw.act.next) ∧ ∃ x, aw.w.hooks[k]? = some (mx.1, x) := by
  refine ⟨h.held mx (List.mem_of_getElem? hk), ?_⟩
  have := congrArg (fun l => l[k]?) h.same
  simp only [List.getElem?_map, hk, Option.map_some] at this
  rcases hw : aw.w.hooks[k]? with _ | my
  · rw [hw] at this; cases this
  · rw [hw] at this
    simp only [Option.map_some, Option.some.injEq] at this
    exact ⟨my.2, by rw [this]⟩

/-- **C82 (what a backward pass sees).** The statistics of a backward pass are those of the contents of the layer's input *now*, not of what the layer saw in the forward pass; activations
and gradients are not changed. -/
theorem C82_backward (cp : Copies) {aw : ActWorld α} (good : aw.Good) {k : ℕ} {g : ND ℕ} (hg : ∀ a ∈ Act.locN g, a < aw.act.next) {m : Layer} {t : ND ℕ}
    (hk : aw.held[k]? = some (m, t)) :
    (actExec cp (.backward k g) aw).1 = (World.accumulateH m (Act.readN aw.act t) (Act.readN aw.act g) aw.w).1 ∧
    (actExec cp (.backward k g) aw).2.w = (World.accumulateH m (Act.readN aw.act t) (Act.readN aw.act g) aw.w).2 ∧
    (actExec cp (.backward k g) aw).2.held = aw.held ∧ ∀ a < aw.act.next, (actExec cp (.backward k g) aw).2.act.val a = aw.act.val a := by
  obtain ⟨M, h1, h2⟩ := ActWorld.accumulateH_run cp m aw (good.get hk).1 hg
  have : actExec cp (.backward k g) aw = ActWorld.accumulateH cp m t g aw := by rw [actExec, Py.get_bind_run, hk]
  rw [this, h2]
  exact ⟨rfl, rfl, rfl, h1.val⟩

theorem ActWorld.forward_run (i : ℕ) (x : ND ℕ) (ge : Bool) (cp : Copies) (aw : ActWorld α) :
    (actExec cp (.forward i x ge) aw).1 = (exec (.forward i (Act.readN aw.act x) ge) aw.w).1 ∧ (actExec cp (.forward i x ge) aw).2.w = (exec (.forward i (Act.readN aw.act x) ge) aw.w).2 ∧
    (actExec cp (.forward i x ge) aw).2.act = aw.act ∧ ((actExec cp (.forward i x ge) aw).2.held = aw.held ∧ (actExec cp (.forward i x ge) aw).2.w.hooks = aw.w.hooks ∨
      ∃ m, (actExec cp (.forward i x ge) aw).2.held = aw.held ++ [(m, x)] ∧ (actExec cp (.forward i x ge) aw).2.w.hooks = aw.w.hooks ++ [(m, Act.readN aw.act x)]) := by
  rw [actExec, Py.get_bind_run, exec, Py.get_bind_run]
  rcases hm : aw.w.opt.layers[i]? with _ | m
  · exact ⟨rfl, rfl, rfl, .inl ⟨rfl, rfl⟩⟩
  · simp only [ActWorld.forwardHook, World.forwardHook, Py.get_bind_run]
    rcases hh : aw.w.opt.hyperOf m with e | h
    · exact ⟨rfl, rfl, rfl, .inl ⟨rfl, rfl⟩⟩
    · rw [Py.lift_ok_bind_run, Py.lift_ok_bind_run]
      cases ge
      · exact ⟨rfl, rfl, rfl, .inl ⟨rfl, rfl⟩⟩
      · simp only [if_true]
        split
        · exact ⟨rfl, rfl, rfl, .inl ⟨rfl, rfl⟩⟩
        · split
          · exact ⟨rfl, rfl, rfl, .inr ⟨m, rfl, rfl⟩⟩
          · exact ⟨rfl, rfl, rfl, .inl ⟨rfl, rfl⟩⟩

theorem ActWorld.onW_exec {op : Op α} (hop : ∀ i x e, op ≠ .forward i x e) (aw : ActWorld α) (good : aw.Good) : (ActWorld.onW (exec op) aw).2.Good := by
  refine ⟨good.held, good.same.trans ?_⟩
  by_contra hc
  have : (exec op aw.w).2.hooks ≠ aw.w.hooks := fun h => hc (by rw [show (ActWorld.onW (exec op) aw).2.w = (exec op aw.w).2 from rfl, h])
  obtain ⟨i, x, m, rfl, -⟩ := C29_hooks_change op aw.w this
  exact hop _ _ _ rfl

/-- goodness is kept -/
theorem ActWorld.Good.exec {aw : ActWorld α} (good : aw.Good) (cp : Copies) {op : ActOp α} (ho : op.Exists aw) : (actExec cp op aw).2.Good := by
  cases op with
  | alloc x =>
    obtain ⟨t, m', e, h1, -, -⟩ := Act.newN_spec x aw.act
    have : (actExec cp (.alloc x) aw).2 = { aw with act := m' } := by
      show ((ActWorld.onAct (Act.newN x) >>= fun _ => pure ()) aw).2 = _
      rw [ActWorld.onAct_bind, e]; rfl
    rw [this]
    exact ⟨fun mx hm a ha => (good.held mx hm a ha).trans_le h1.le, good.same⟩
  | write a v => exact ⟨good.held, good.same⟩
  | forward i x ge =>
    obtain ⟨-, -, h3, h4⟩ := ActWorld.forward_run i x ge cp aw
    rcases h4 with ⟨h4, h5⟩ | ⟨m, h4, h5⟩
    · exact ⟨by rw [h4, h3]; exact good.held, by rw [h4, h5]; exact good.same⟩
    · refine ⟨?_, by rw [h4, h5, List.map_append, List.map_append, good.same]; rfl⟩
      rw [h4, h3]
      intro mx hm
      rcases List.mem_append.1 hm with hm | hm
      · exact good.held mx hm
      · rw [List.mem_singleton] at hm; subst hm; exact ho
  | backward k g =>
    rcases hk : aw.held[k]? with _ | ⟨m, t⟩
    · have : actExec cp (.backward k g) aw = (.ok (), aw) := by rw [actExec, Py.get_bind_run, hk]; rfl
      rw [this]; exact good
    · obtain ⟨M, h1, h2⟩ := ActWorld.accumulateH_run cp m aw (good.get hk).1 ho
      have : actExec cp (.backward k g) aw = ActWorld.accumulateH cp m t g aw := by rw [actExec, Py.get_bind_run, hk]
      rw [this, h2]
      exact ⟨fun mx hm a ha => (good.held mx hm a ha).trans_le h1.le, good.same.trans (by
        rw [(World.accumulateH_frame m _ _ aw.w).hooks])⟩
  | setGrad p G => exact aw.onW_exec (by simp) good
  | setParam p G => exact aw.onW_exec (by simp) good
  | setHyper i h => exact aw.onW_exec (by simp) good
  | setScale s => exact aw.onW_exec (by simp) good
  | step c a f => exact aw.onW_exec (by simp) good

/-- **C82 (writes are confined to the library's own tensors).** No operation of the optimizer changes an activation or a gradient; only other code (`write`) does. -/
theorem C82_read_only (cp : Copies) {aw : ActWorld α} (good : aw.Good) {op : ActOp α} (ho : op.Exists aw) (hw : ∀ a v, op ≠ .write a v) :
    ∀ a < aw.act.next, (actExec cp op aw).2.act.val a = aw.act.val a := by
  cases op with
  | alloc x =>
    obtain ⟨t, m', e, h1, -, -⟩ := Act.newN_spec x aw.act
    have : (actExec cp (.alloc x) aw).2 = { aw with act := m' } := by
      show ((ActWorld.onAct (Act.newN x) >>= fun _ => pure ()) aw).2 = _
      rw [ActWorld.onAct_bind, e]; rfl
    rw [this]; exact h1.val
  | write a v => exact absurd rfl (hw a v)
  | forward i x ge => intro a _; rw [(ActWorld.forward_run i x ge cp aw).2.2.1]
  | backward k g =>
    rcases hk : aw.held[k]? with _ | ⟨m, t⟩
    · have : actExec cp (.backward k g) aw = (.ok (), aw) := by rw [actExec, Py.get_bind_run, hk]; rfl
      rw [this]; exact fun _ _ => rfl
    · exact (C82_backward cp good ho hk).2.2.2
  | setGrad p G => exact fun _ _ => rfl
  | setParam p G => exact fun _ _ => rfl
  | setHyper i h => exact fun _ _ => rfl
  | setScale s => exact fun _ _ => rfl
  | step c a f => exact fun _ _ => rfl

/-- the operation on values: references are replaced by what they refer to at this moment -/
def ActOp.values (aw : ActWorld α) : ActOp α → List (Op α)
  | .alloc _ => []
  | .write _ _ => []
  | .forward i x ge => [.forward i (Act.readN aw.act x) ge]
  | .backward k g => [.backward k (Act.readN aw.act g)]
  | .setGrad p G => [.setGrad p G]
  | .setParam p M => [.setParam p M]
  | .setHyper i h => [.setHyper i h]
  | .setScale s => [.setScale s]
  | .step c a f => [.step c a f]

/-- the history on values -/
def actValues : List (Copies × ActOp α) → ActWorld α → List (Op α)
  | [], _ => []
  | op :: ops, aw => op.2.values aw ++ actValues ops (actExec op.1 op.2 aw).2

/-- all tensors of forward and backward passes exist -/
def ActExist : List (Copies × ActOp α) → ActWorld α → Prop
  | [], _ => True
  | op :: ops, aw => op.2.Exists aw ∧ ActExist ops (actExec op.1 op.2 aw).2

/-- whenever a tensor hook runs, the layer's input is what it was in the forward pass -/
def ActCalm : List (Copies × ActOp α) → ActWorld α → Prop
  | [], _ => True
  | op :: ops, aw => (∀ k g m t x, op.2 = .backward k g → aw.held[k]? = some (m, t) → aw.w.hooks[k]? = some (m, x) → Act.readN aw.act t = x) ∧
      ActCalm ops (actExec op.1 op.2 aw).2

theorem actExec_values (cp : Copies) {aw : ActWorld α} (good : aw.Good) {op : ActOp α} (ho : op.Exists aw)
    (calm : ∀ k g m t x, op = .backward k g → aw.held[k]? = some (m, t) → aw.w.hooks[k]? = some (m, x) → Act.readN aw.act t = x) :
    (actExec cp op aw).2.w = run (op.values aw) aw.w := by
  cases op with
  | alloc x =>
    show ((ActWorld.onAct (Act.newN x) >>= fun _ => pure ()) aw).2.w = aw.w
    rw [ActWorld.onAct_bind]; rfl
  | write a v => rfl
  | forward i x ge => exact (ActWorld.forward_run i x ge cp aw).2.1
  | backward k g =>
    rcases hk : aw.held[k]? with _ | ⟨m, t⟩
    · have : actExec cp (.backward k g) aw = (.ok (), aw) := by rw [actExec, Py.get_bind_run, hk]; rfl
      rw [this]
      have hh : aw.w.hooks[k]? = none := by
        have := congrArg List.length good.same
        simp only [List.length_map] at this
        rw [List.getElem?_eq_none_iff] at hk ⊢; omega
      show aw.w = (exec (.backward k (Act.readN aw.act g)) aw.w).2
      rw [exec, Py.get_bind_run, hh]; rfl
    · obtain ⟨-, x, hx⟩ := good.get hk
      have e := calm k g m t x rfl hk hx
      rw [(C82_backward cp good ho hk).2.1, e]
      show _ = (exec (.backward k (Act.readN aw.act g)) aw.w).2
      rw [exec, Py.get_bind_run, hx]
  | setGrad p G => rfl
  | setParam p G => rfl
  | setHyper i h => rfl
  | setScale s => rfl
  | step c a f => rfl

/-- **C82 (histories).** As long as every layer's input is at each of its backward passes what it was in the forward pass, whatever else is overwritten, and whatever copies or shares memory, the
history is that of the other models. -/
theorem C82_history : ∀ (ops : List (Copies × ActOp α)) {aw : ActWorld α}, aw.Good → ActExist ops aw → ActCalm ops aw → (actRun ops aw).w = run (actValues ops aw) aw.w
  | [], _, _, _, _ => rfl
  | op :: ops, aw, good, ho, calm => by
    show (actRun ops (actExec op.1 op.2 aw).2).w = run (op.2.values aw ++ actValues ops (actExec op.1 op.2 aw).2) aw.w
    rw [C82_history ops (good.exec op.1 ho.1) ho.2 calm.2, actExec_values op.1 good ho.1 calm.1]
    unfold run; rw [List.foldl_append]

/-- no code overwrites an input that a hook still holds -/
def ActSpared : List (Copies × ActOp α) → ActWorld α → Prop
  | [], _ => True
  | op :: ops, aw => (∀ a v, op.2 = .write a v → ∀ mx ∈ aw.held, a ∉ Act.locN mx.2) ∧ ActSpared ops (actExec op.1 op.2 aw).2

/-- every held input is what it was in the forward pass -/
def ActWorld.Fresh (aw : ActWorld α) : Prop := ∀ (k : ℕ) (m : Layer) (t : ND ℕ) (x : ND α), aw.held[k]? = some (m, t) → aw.w.hooks[k]? = some (m, x) → Act.readN aw.act t = x

theorem Act.readN_congr {m m' : Mem α} {t : ND ℕ} (h : ∀ a ∈ Act.locN t, m'.val a = m.val a) : Act.readN m' t = Act.readN m t := by
  simp only [Act.readN, ND.mk.injEq, true_and]
  funext i
  by_cases hi : i < t.shape.prod
  · simp only [hi, if_true]; exact h _ (List.mem_map.2 ⟨i, List.mem_range.2 hi, rfl⟩)
  · simp [hi]

theorem actExec_fresh (cp : Copies) {aw : ActWorld α} (good : aw.Good) {op : ActOp α} (ho : op.Exists aw) (fresh : aw.Fresh)
    (hw : ∀ a v, op = .write a v → ∀ mx ∈ aw.held, a ∉ Act.locN mx.2) : (actExec cp op aw).2.Fresh := by
  have keep : ∀ aw' : ActWorld α, aw'.held = aw.held → aw'.w.hooks = aw.w.hooks → (∀ mx ∈ aw.held, ∀ a ∈ Act.locN mx.2, aw'.act.val a = aw.act.val a) → aw'.Fresh := by
    intro aw' h1 h2 h3 k m t x hk hx
    rw [h1] at hk; rw [h2] at hx
    rw [Act.readN_congr (h3 _ (List.mem_of_getElem? hk)), fresh k m t x hk hx]
  by_cases hwr : ∃ a v, op = .write a v
  · obtain ⟨a, v, rfl⟩ := hwr
    refine keep _ rfl rfl fun mx hm b hb => ?_
    exact Function.update_of_ne (fun e : b = a => hw a v rfl mx hm (e ▸ hb)) _ _
  · push Not at hwr
    have ro := C82_read_only cp good ho hwr
    have good' := good.exec cp ho
    have same : ∀ mx ∈ aw.held, ∀ a ∈ Act.locN mx.2, (actExec cp op aw).2.act.val a = aw.act.val a := fun mx hm a ha => ro a (good.held mx hm a ha)
    have onW : ∀ o : Op α, (∀ i x e, o ≠ .forward i x e) → (ActWorld.onW (exec o) aw).2.Fresh := fun o h => by
      refine keep _ rfl ?_ fun _ _ _ _ => rfl
      by_contra hc
      obtain ⟨i, x, m, rfl, -⟩ := C29_hooks_change o aw.w hc
      exact h _ _ _ rfl
    cases op with
    | alloc x =>
      refine keep _ ?_ ?_ same
      · show ((ActWorld.onAct (Act.newN x) >>= fun _ => pure ()) aw).2.held = _
        rw [ActWorld.onAct_bind]; rfl
      · show ((ActWorld.onAct (Act.newN x) >>= fun _ => pure ()) aw).2.w.hooks = _
        rw [ActWorld.onAct_bind]; rfl
    | write a v => exact absurd rfl (hwr a v)
    | forward i x ge =>
      obtain ⟨-, -, h3, h4⟩ := ActWorld.forward_run i x ge cp aw
      rcases h4 with ⟨h4, h5⟩ | ⟨m, h4, h5⟩
      · exact keep _ h4 h5 same
      · intro k m' t y hk hy
        rw [h4] at hk; rw [h5] at hy; rw [h3]
        have hl : aw.held.length = aw.w.hooks.length := by simpa using congrArg List.length good.same
        by_cases hlt : k < aw.held.length
        · rw [List.getElem?_append_left hlt] at hk
          rw [List.getElem?_append_left (by omega)] at hy
          exact fresh k m' t y hk hy
        · rw [List.getElem?_append_right (by omega)] at hk hy
          rw [hl] at hk
          rcases h0 : k - aw.w.hooks.length with _ | n
          · rw [h0] at hk hy; cases hk; cases hy; rfl
          · rw [h0] at hk; cases hk
    | backward k g =>
      rcases hk : aw.held[k]? with _ | ⟨m, t⟩
      · have : actExec cp (.backward k g) aw = (.ok (), aw) := by rw [actExec, Py.get_bind_run, hk]; rfl
        rw [this]; exact fresh
      · refine keep _ (C82_backward cp good ho hk).2.2.1 ?_ same
        rw [(C82_backward cp good ho hk).2.1]
        exact (World.accumulateH_frame m _ _ aw.w).hooks
    | setGrad p G => exact onW _ (by simp)
    | setParam p G => exact onW _ (by simp)
    | setHyper i h => exact onW _ (by simp)
    | setScale s => exact onW _ (by simp)
    | step c a f => exact onW _ (by simp)

/-- **C82 (undisturbed histories).** If no code overwrites an input that a hook holds, the history is that of the other models; outputs, gradients and all other tensors may be overwritten at will (for
instance by activations with `inplace=True`). -/
theorem C82_undisturbed (ops : List (Copies × ActOp α)) {aw : ActWorld α} (good : aw.Good) (fresh : aw.Fresh) (ho : ActExist ops aw) (hs : ActSpared ops aw) :
    (actRun ops aw).w = run (actValues ops aw) aw.w := by
  refine C82_history ops good ho ?_
  induction ops generalizing aw with
  | nil => trivial
  | cons op ops ih =>
    exact ⟨fun k g m t x _ hk hx => fresh k m t x hk hx, ih (good.exec op.1 ho.1) (actExec_fresh op.1 good ho.1 fresh hs.1) ho.2 hs.2⟩

namespace Sample

/-- nothing is copied that need not be -/
def shared : Copies := ⟨false, false, false, false⟩
/-- the optimizer of `Sample.w0`, before any activation exists -/
def fresh0 : ActWorld ℚ := ⟨w0, ⟨fun _ => 0, 0⟩, []⟩
/-- the only entry of the first activation, and of the second one -/
def cell (a : ℕ) : ND ℕ := ⟨[1, 1], fun _ => a⟩
/-- forward and backward pass of the first layer with input 2 and output gradient 3; in between the second operation of the list -/
def between (op : ActOp ℚ) : List (Copies × ActOp ℚ) :=
  [(shared, .alloc (row [2])), (shared, .forward 0 (cell 0) true), (shared, .alloc (row [3])), (shared, op), (shared, .backward 0 (cell 1))]
/-- the statistics of the first layer's input -/
def statK (w : World ℚ) : Option (List (List ℚ)) := fac (w.opt.HKs "a")

end Sample

open Sample in
/-- **C82 is false without the condition.** Overwriting a layer's input between forward and backward pass (say, by an addition in place) changes the statistics silently: nothing is raised, and the statistics are
those of an input the layer never saw. -/
theorem C82_overwritten_false :
    ActExist (between (.write 0 5)) fresh0 ∧ fresh0.Good ∧ fresh0.Fresh ∧
    (actExec shared (.backward 0 (cell 1)) (actRun ((between (.write 0 5)).take 4) fresh0)).1.isOk = true ∧
    statK (actRun (between (.write 0 5)) fresh0).w = some [[25, 5], [5, 1]] ∧
    statK (run (actValues (between (.write 0 5)) fresh0) w0) = some [[4, 2], [2, 1]] := by
  refine ⟨?_, ⟨by simp [fresh0], by simp [fresh0, w0, world]⟩, by intro k; simp [fresh0], ?_, ?_, ?_⟩
  · refine ⟨trivial, ?_, trivial, trivial, ?_, trivial⟩
    · show ∀ a ∈ Act.locN (cell 0), a < (actExec shared (.alloc (row [2])) fresh0).2.act.next
      decide +kernel
    · show ∀ a ∈ Act.locN (cell 1), a < (actRun ((between (.write 0 5)).take 4) fresh0).act.next
      decide +kernel
  · decide +kernel
  · decide +kernel
  · decide +kernel

open Sample in
/-- overwriting another tensor, here the output gradient before its hook runs, is fine: the hypotheses of `C82_undisturbed` hold -/
example : statK (actRun (between (.write 1 7)) fresh0).w = some [[4, 2], [2, 1]] ∧
    (actRun (between (.write 1 7)) fresh0).w = run (actValues (between (.write 1 7)) fresh0) w0 := by
  refine ⟨by decide +kernel, C82_undisturbed _ ⟨by simp [fresh0], by simp [fresh0, w0, world]⟩ (by intro k; simp [fresh0]) ?_ ?_⟩
  · refine ⟨trivial, ?_, trivial, trivial, ?_, trivial⟩
    · show ∀ a ∈ Act.locN (cell 0), a < (actExec shared (.alloc (row [2])) fresh0).2.act.next
      decide +kernel
    · show ∀ a ∈ Act.locN (cell 1), a < (actRun ((between (.write 1 7)).take 4) fresh0).act.next
      decide +kernel
  · refine ⟨by simp, by simp, by simp, ?_, by simp, trivial⟩
    intro a v h mx hm
    cases h
    revert mx
    have : (actRun ((between (.write 1 7)).take 3) fresh0).held.all (fun mx => !(Act.locN mx.2).contains 1) = true := by decide +kernel
    rw [List.all_eq_true] at this
    intro mx hm hc
    have := this mx hm
    simp [hc] at this

namespace Sample
/-- a convolution with kernel 1 × 1 -/
def pointwise : LayerKind := .conv2d ⟨(1, 1), (1, 1), .ints (0, 0), (1, 1), 1⟩
/-- an image of 2 × 2 pixels in memory -/
def image : ND ℕ := ⟨[1, 1, 2, 2], fun i => i⟩
/-- its pixels -/
def pixels : Mem ℚ := ⟨fun a => if a < 4 then a else 0, 4⟩
end Sample

open Sample in
/-- `process_input` of a convolution, which divides by 4 in place, leaves the image as it was, and succeeds -/
example : let r := Act.processInput shared image pointwise false "reduce" pixels
    (∀ a < 4, r.2.val a = pixels.val a) ∧ r.1.map r.2.readM = PIO.processInput (Act.readN pixels image) pointwise false "reduce" ∧ r.1.isOk = true :=
  ⟨(C82_process_input _ image pixels (by decide) _ _ _).1, (C82_process_input _ image pixels (by decide) _ _ _).2, by decide +kernel⟩
