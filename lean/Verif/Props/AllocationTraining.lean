import Verif.Props.Allocation
import Mathlib.Order.Disjoint

/-!
# Memory over the course of training
-/

namespace Sto

/-- the storages of a layer -/
def Lay.sts (l : Lay) : Finset ℕ := l.objs.foldr (fun o F => o.sts ∪ F) ∅

/-- numbers that the factors, momenta and statistics of a layer keep in memory -/
def Lay.held (s : Heap) (l : Lay) : ℕ := ∑ i ∈ l.sts, s.getD i 0

/-! ### sequencing with postconditions and a bound on what is allocated -/

/-- `x` succeeds with a result and new storages as described by `Q`; they have at most `N` entries if `fr` -/
def Tri {β : Type} (fr : Prop) (x : Py Heap β) (s : Heap) (N : ℕ) (Q : β → List ℕ → Prop) : Prop := ∃ b l, Runs x s b l ∧ (fr → l.sum ≤ N) ∧ Q b l

theorem Tri.bind {β γ : Type} {fr : Prop} {x : Py Heap β} {f : β → Py Heap γ} {s : Heap} {N M : ℕ} {Q : β → List ℕ → Prop} {R : γ → List ℕ → Prop} (h : Tri fr x s N Q)
    (h' : ∀ b l, Q b l → Tri fr (f b) (s ++ l) M fun c l' => R c (l ++ l')) : Tri fr (x >>= f) s (N + M) R := by
  obtain ⟨b, l, r, hN, q⟩ := h
  obtain ⟨c, l', r', hM, q'⟩ := h' b l q
  refine ⟨c, l ++ l', r.bind r', fun h => ?_, q'⟩
  rw [List.sum_append]
  have := hN h
  have := hM h
  omega

theorem Tri.pure {β : Type} {fr : Prop} {b : β} {s : Heap} {Q : β → List ℕ → Prop} (h : Q b []) : Tri fr (Pure.pure b) s 0 Q := ⟨b, [], Runs.pure _ _, fun _ => le_refl _, h⟩

theorem Tri.weaken {β : Type} {fr : Prop} {x : Py Heap β} {s : Heap} {N M : ℕ} {Q R : β → List ℕ → Prop} (h : Tri fr x s N Q) (hN : N ≤ M) (hQ : ∀ b l, Q b l → R b l) : Tri fr x s M R := by
  obtain ⟨b, l, r, h1, q⟩ := h
  exact ⟨b, l, r, fun h => (h1 h).trans hN, hQ b l q⟩

theorem Tri.tmp {fr : Prop} {sh : List (List ℕ)} {s : Heap} {Q : Unit → List ℕ → Prop} (h : Q () (sh.map List.prod)) : Tri fr (tmp sh) s (sh.map List.prod).sum Q :=
  ⟨(), _, Runs.tmp _ _, fun _ => le_refl _, h⟩

theorem Runs.unmap {β γ : Type} {x : Py Heap β} {f : β → γ} {s : Heap} {b : γ} {l : List ℕ} (h : Runs (do return f (← x)) s b l) : ∃ q, b = f q ∧ Runs x s q l := by
  obtain ⟨q, s', h1, h2⟩ := Py.bind_eq_ok.1 h
  cases h2
  exact ⟨q, rfl, h1⟩

/-! ### methods -/

/-- bound for a method with `m` columns of the tensor argument -/
def cost (c : Cls) (n m : ℕ) : ℕ := 16 * (c.stored n + n * m + c.slack)

theorem call_tri {c : Cls} {n : ℕ} (hn : c.Supports n) {o : Obj} (ho : o.Ok c n) (p : Obj) (k : Call) (s : Heap) :
    Tri (c.frugal = true) (k.exec c n o p) s (cost c n k.cols) fun r l => ∀ q, r = some q → Made c n s q l ∨ k = .diagAdd ∧ q = o := by
  have : ∃ r l, Runs (k.exec c n o p) s r l ∧ ∀ q, r = some q → Made c n s q l ∨ k = .diagAdd ∧ q = o := by
    by_cases hc : c.isRec = true
    · obtain ⟨r, l, h, -, h2⟩ := node_runs hc hn ho p k s
      exact ⟨r, l, h, fun q e => .inl (h2 q e)⟩
    · obtain ⟨r, l, h, -, h2⟩ := leaf_runs (by simpa using hc) hn ho p k s
      exact ⟨r, l, h, fun q e => if hk : k = .diagAdd then .inr ⟨hk, (h2 q e).2 hk⟩ else .inl ((h2 q e).1 hk)⟩
  obtain ⟨r, l, h, h2⟩ := this
  refine ⟨r, l, h, fun hf => ?_, h2⟩
  obtain ⟨r', l', e, hl⟩ := C88_frugal hf hn ho p k s
  have := h.symm.trans e
  simp only [Prod.mk.injEq, Except.ok.injEq, List.append_cancel_left_eq] at this
  rw [this.2]
  exact hl

theorem obj_tri {c : Cls} {n : ℕ} (hn : c.Supports n) {o : Obj} (ho : o.Ok c n) (p : Obj) (k : Call) (s : Heap) {x : Py Heap Obj} (hx : k.exec c n o p = do return some (← x)) (hk : k ≠ .diagAdd) :
    Tri (c.frugal = true) x s (cost c n k.cols) fun q l => Made c n s q l := by
  obtain ⟨r, l, h, hN, hq⟩ := call_tri hn ho p k s
  rw [hx] at h
  obtain ⟨q, rfl, r⟩ := h.unmap
  exact ⟨q, l, r, hN, ((hq q rfl).resolve_right fun h => hk h.1)⟩

theorem unit_tri {β : Type} {c : Cls} {n : ℕ} (hn : c.Supports n) {o : Obj} (ho : o.Ok c n) (k : Call) (s : Heap) {x : Py Heap β} (hx : k.exec c n o o = do let _ ← x; return none) :
    Tri (c.frugal = true) x s (cost c n k.cols) fun _ _ => True := by
  obtain ⟨r, l, h, hN, hq⟩ := call_tri hn ho o k s
  rw [hx] at h
  obtain ⟨q, -, r⟩ := Runs.unmap (f := fun _ => none) h
  exact ⟨q, l, r, hN, trivial⟩

theorem diagAdd_tri {c : Cls} {n : ℕ} (hn : c.Supports n) {o : Obj} (ho : o.Ok c n) (s : Heap) :
    Tri (c.frugal = true) (diagAdd o) s (cost c n 0) fun q l => Made c n s q l ∨ q = o := by
  obtain ⟨r, l, h, hN, hq⟩ := call_tri hn ho o .diagAdd s
  obtain ⟨q, rfl, r⟩ := h.unmap
  exact ⟨q, l, r, hN, (hq q rfl).imp id And.right⟩

theorem innerX_tri {c : Cls} {n : ℕ} (hn : c.Supports n) {o : Obj} (ho : o.Ok c n) (m : ℕ) (s : Heap) :
    Tri (c.frugal = true) (innerX o m) s (cost c n m) fun q l => Made c n s q l ∧ (c.frugal = false → n * n ∈ l) := by
  obtain ⟨q, l, r, hN, hq⟩ := obj_tri hn ho o (.innerX m) s rfl (by simp)
  refine ⟨q, l, r, hN, hq, fun hf => ?_⟩
  obtain ⟨r', l', e, -, h, -⟩ := C88_objects hn ho o (.innerX m) s
  have := (r.map some).symm.trans e
  simp only [Prod.mk.injEq, Except.ok.injEq, List.append_cancel_left_eq] at this
  rw [this.2]
  exact h (.inr ⟨m, rfl⟩) hf

/-- some object of the class, to make the first ones -/
theorem exists_ok {c : Cls} {n : ℕ} (hn : c.Supports n) : ∃ o : Obj, o.Ok c n := by
  obtain ⟨o, l, -, p⟩ := fromDense_spec c hn (s := [n * n]) ⟨[n, n], 0⟩ (by simp) (by simp)
  exact ⟨o, p.ok⟩

/-! ### objects that stay -/

/-- an object with its memory, all of it below `s.length` -/
structure Lives (c : Cls) (n : ℕ) (s : Heap) (o : Obj) : Prop where
  ok : o.Ok c n
  lt : ∀ i ∈ o.sts, i < s.length
  held : o.held s = c.held n

theorem Lives.ext {c : Cls} {n : ℕ} {s : Heap} {o : Obj} (h : Lives c n s o) (l : List ℕ) : Lives c n (s ++ l) o :=
  ⟨h.ok, fun i hi => by have := h.lt i hi; simp; omega, by rw [Obj.held, sum_ext h.lt]; exact h.held⟩

theorem Made.lives {c : Cls} {n : ℕ} {s : Heap} {o : Obj} {l : List ℕ} (h : Made c n s o l) : Lives c n (s ++ l) o := ⟨h.ok, fun i hi => (h.new i hi).2, h.held⟩

theorem Made.ext {c : Cls} {n : ℕ} {s : Heap} {o : Obj} {l : List ℕ} (h : Made c n s o l) (l' : List ℕ) : Made c n s o (l ++ l') := by
  have := h.lives.ext l'
  rw [List.append_assoc] at this
  exact ⟨h.ok, fun i hi => ⟨(h.new i hi).1, this.lt i hi⟩, this.held⟩

/-- new storages are not among old ones -/
theorem Made.disjoint {c c' : Cls} {n n' : ℕ} {s : Heap} {o p : Obj} {l : List ℕ} (h : Made c n s o l) (h' : Lives c' n' s p) : Disjoint p.sts o.sts :=
  Finset.disjoint_left.2 fun i h1 h2 => absurd (h'.lt i h1) (not_lt.2 (h.new i h2).1)

/-- objects of a layer on the side of `K` -/
def Lay.kobjs (l : Lay) : List Obj := l.K :: (l.mK.toList ++ l.HK.toList)
/-- objects of a layer on the side of `C` -/
def Lay.cobjs (l : Lay) : List Obj := l.C :: (l.mC.toList ++ l.HC.toList)

/-- every object has the memory of its class, and no two share memory -/
structure Inv (cc : Cls × Cls) (n d : ℕ) (al : Bool) (s : Heap) (l : Lay) : Prop where
  k : ∀ o ∈ l.kobjs, Lives cc.1 n s o
  c : ∀ o ∈ l.cobjs, Lives cc.2 d s o
  dis : l.objs.Pairwise fun o p => Disjoint o.sts p.sts
  mK : l.mK.isSome = al
  mC : l.mC.isSome = al
  H : l.HK.isSome = l.HC.isSome

theorem Inv.ext {cc : Cls × Cls} {n d : ℕ} {al : Bool} {s : Heap} {l : Lay} (h : Inv cc n d al s l) (t : List ℕ) : Inv cc n d al (s ++ t) l :=
  ⟨fun o ho => (h.k o ho).ext t, fun o ho => (h.c o ho).ext t, h.dis, h.mK, h.mC, h.H⟩

theorem Inv.old {cc : Cls × Cls} {n d : ℕ} {al : Bool} {s : Heap} {l : Lay} (h : Inv cc n d al s l) {o : Obj} (ho : o ∈ l.objs) : ∃ c n, Lives c n s o := by
  have : o ∈ l.kobjs ∨ o ∈ l.cobjs := by
    simp only [Lay.objs, Lay.kobjs, Lay.cobjs, List.mem_append, List.mem_cons] at ho ⊢
    tauto
  rcases this with h' | h'
  · exact ⟨_, _, h.k o h'⟩
  · exact ⟨_, _, h.c o h'⟩

theorem Inv.K {cc : Cls × Cls} {n d : ℕ} {al : Bool} {s : Heap} {l : Lay} (h : Inv cc n d al s l) : Lives cc.1 n s l.K := h.k _ (by simp [Lay.kobjs])
theorem Inv.C {cc : Cls × Cls} {n d : ℕ} {al : Bool} {s : Heap} {l : Lay} (h : Inv cc n d al s l) : Lives cc.2 d s l.C := h.c _ (by simp [Lay.cobjs])

/-- total: no storage is counted twice -/
theorem Inv.held {cc : Cls × Cls} {n d : ℕ} {al : Bool} {s : Heap} {l : Lay} (h : Inv cc n d al s l) :
    l.held s = l.kobjs.length * cc.1.held n + l.cobjs.length * cc.2.held d := by
  have key : ∀ os : List Obj, os.Pairwise (fun o p => Disjoint o.sts p.sts) → ∑ i ∈ os.foldr (fun o F => o.sts ∪ F) ∅, s.getD i 0 = (os.map fun o => o.held s).sum := by
    intro os
    induction os with
    | nil => simp
    | cons o os ih =>
      intro hp
      rw [List.pairwise_cons] at hp
      have : Disjoint o.sts (os.foldr (fun o F => o.sts ∪ F) ∅) := by
        have h1 := hp.1
        clear ih hp
        induction os with
        | nil => simp
        | cons p os ih =>
          rw [List.foldr_cons, Finset.disjoint_union_right]
          exact ⟨h1 p (by simp), ih fun q hq => h1 q (by simp [hq])⟩
      rw [List.foldr_cons, Finset.sum_union this, ih hp.2]
      rfl
  rw [Lay.held, Lay.sts, key _ h.dis]
  have hk := fun o ho => (h.k o ho).held
  have hc := fun o ho => (h.c o ho).held
  obtain ⟨K, C, mK, mC, HK, HC⟩ := l
  rcases mK with - | mK <;> rcases mC with - | mC <;> rcases HK with - | HK <;> rcases HC with - | HC <;>
    simp [Lay.objs, Lay.kobjs, Lay.cobjs] at hk hc ⊢ <;> simp [hk, hc] <;> ring

theorem init_tri {cc : Cls × Cls} {n d : ℕ} (h1 : cc.1.Supports n) (h2 : cc.2.Supports d) (al : Bool) (s : Heap) :
    ∃ l s', init cc n d al s = (.ok l, s') ∧ Inv cc n d al s' l ∧ l.HK = none := by
  obtain ⟨o1, ho1⟩ := exists_ok h1
  obtain ⟨o2, ho2⟩ := exists_ok h2
  obtain ⟨K, l1, r1, -, m1⟩ := obj_tri h1 ho1 o1 .eye s rfl (by simp)
  obtain ⟨C, l2, r2, -, m2⟩ := obj_tri h2 ho2 o2 .eye (s ++ l1) rfl (by simp)
  cases al with
  | false =>
    refine ⟨⟨K, C, none, none, none, none⟩, _, r1.bind (r2.bind (Runs.pure _ _)), ?_, rfl⟩
    refine ⟨?_, ?_, ?_, rfl, rfl, rfl⟩
    · simp only [Lay.kobjs, Option.toList_none, List.append_nil, List.mem_singleton, forall_eq]
      simpa using m1.lives.ext l2
    · simp only [Lay.cobjs, Option.toList_none, List.append_nil, List.mem_singleton, forall_eq]
      simpa using m2.lives
    · simp [Lay.objs, m2.disjoint m1.lives]
  | true =>
    obtain ⟨mK, l3, r3, -, m3⟩ := obj_tri h1 ho1 o1 .zeros (s ++ l1 ++ l2) rfl (by simp)
    obtain ⟨mC, l4, r4, -, m4⟩ := obj_tri h2 ho2 o2 .zeros (s ++ l1 ++ l2 ++ l3) rfl (by simp)
    refine ⟨⟨K, C, some mK, some mC, none, none⟩, _, r1.bind (r2.bind (r3.bind (r4.bind (Runs.pure _ _)))), ?_, rfl⟩
    refine ⟨?_, ?_, ?_, rfl, rfl, rfl⟩
    · simp only [Lay.kobjs, Option.toList_some, Option.toList_none, List.append_nil, List.mem_cons, List.not_mem_nil, or_false, forall_eq_or_imp, forall_eq]
      exact ⟨by simpa using ((m1.lives.ext l2).ext l3).ext l4, by simpa using m3.lives.ext l4⟩
    · simp only [Lay.cobjs, Option.toList_some, Option.toList_none, List.append_nil, List.mem_cons, List.not_mem_nil, or_false, forall_eq_or_imp, forall_eq]
      exact ⟨by simpa using (m2.lives.ext l3).ext l4, by simpa using m4.lives⟩
    · simp [Lay.objs, m2.disjoint m1.lives, m3.disjoint (m1.lives.ext l2), m3.disjoint m2.lives, m4.disjoint ((m1.lives.ext l2).ext l3), m4.disjoint (m2.lives.ext l3), m4.disjoint m3.lives]

/-- `fr` for both factors -/
abbrev Frugal (cc : Cls × Cls) : Prop := cc.1.frugal = true ∧ cc.2.frugal = true

theorem Tri.imp {β : Type} {fr fr' : Prop} {x : Py Heap β} {s : Heap} {N : ℕ} {Q : β → List ℕ → Prop} (h : Tri fr x s N Q) (hf : fr' → fr) : Tri fr' x s N Q := by
  obtain ⟨b, l, r, h1, q⟩ := h
  exact ⟨b, l, r, fun h => h1 (hf h), q⟩

theorem backward_tri {cc : Cls × Cls} {n d : ℕ} (h1 : cc.1.Supports n) (h2 : cc.2.Supports d) {al : Bool} {s : Heap} {l : Lay} (h : Inv cc n d al s l) (a g : ℕ) :
    Tri (Frugal cc) (backward a g l) s (cost cc.1 n a + (g * d + cost cc.2 d g)) fun l' t =>
      (Inv cc n d al (s ++ t) l' ∧ l'.HK.isSome = true) ∧ (cc.1.frugal = false → n * n ∈ t) ∧ (cc.2.frugal = false → d * d ∈ t) := by
  have := ((innerX_tri h1 h.K.ok a s).imp (fr' := Frugal cc) And.left).bind
    (R := fun l' t => (Inv cc n d al (s ++ t) l' ∧ l'.HK.isSome = true) ∧ (cc.1.frugal = false → n * n ∈ t) ∧ (cc.2.frugal = false → d * d ∈ t))
    (f := fun HK => do
      tmp [[g, l.C.dim]]
      let HC ← innerX l.C g
      return { l with HK := l.HK.or (some HK), HC := l.HC.or (some HC) })
    (M := g * d + cost cc.2 d g) ?_
  · exact this
  rintro HK t1 ⟨m1, x1⟩
  have : g * d + cost cc.2 d g = ([[g, l.C.dim]].map List.prod).sum + (cost cc.2 d g + 0) := by simp [h.C.ok.dim]
  rw [this]
  refine Tri.bind (Q := fun _ t => t = [[g, l.C.dim]].map List.prod) (Tri.tmp rfl) ?_
  rintro - t2 rfl
  refine Tri.bind ((innerX_tri h2 h.C.ok g _).imp And.right) ?_
  rintro HC t3 ⟨m3, x3⟩
  refine Tri.pure ⟨?_, fun hf => by simp [x1 hf], fun hf => by simp [x3 hf]⟩
  rw [List.append_nil]
  generalize t2e : [[g, l.C.dim]].map List.prod = t2 at m3
  have L1 : Lives cc.1 n (s ++ (t1 ++ (t2 ++ t3))) HK := by simpa using (m1.lives.ext t2).ext t3
  have L3 : Lives cc.2 d (s ++ (t1 ++ (t2 ++ t3))) HC := by simpa using m3.lives
  have hI := h.ext (t1 ++ (t2 ++ t3))
  have d1 : ∀ o ∈ l.objs, Disjoint o.sts HK.sts := fun o ho => by
    obtain ⟨_, _, L⟩ := h.old ho
    exact m1.disjoint L
  have d3 : ∀ o ∈ l.objs, Disjoint o.sts HC.sts := fun o ho => by
    obtain ⟨_, _, L⟩ := h.old ho
    exact m3.disjoint ((L.ext t1).ext t2)
  have d13 : Disjoint HK.sts HC.sts := m3.disjoint (m1.lives.ext t2)
  have hH := h.H
  have hd := h.dis
  cases eK : l.HK with
  | some x =>
    obtain ⟨y, eC⟩ : ∃ y, l.HC = some y := by
      rw [eK] at hH
      exact Option.isSome_iff_exists.1 hH.symm
    have : ({ l with HK := (some x).or (some HK), HC := l.HC.or (some HC) } : Lay) = l := by
      cases l
      simp_all
    rw [this]
    exact ⟨hI, by simp [eK]⟩
  | none =>
    have eC : l.HC = none := by
      rw [eK] at hH
      simpa using hH.symm
    refine ⟨⟨?_, ?_, ?_, h.mK, h.mC, by simp [eC]⟩, by simp⟩
    · intro o ho
      have : o ∈ l.kobjs ∨ o = HK := by
        simp [Lay.kobjs] at ho ⊢
        tauto
      rcases this with h' | rfl
      · exact hI.k o h'
      · exact L1
    · intro o ho
      have : o ∈ l.cobjs ∨ o = HC := by
        simp [Lay.cobjs, eC] at ho ⊢
        tauto
      rcases this with h' | rfl
      · exact hI.c o h'
      · exact L3
    · have : ({ l with HK := (none : Option Obj).or (some HK), HC := l.HC.or (some HC) } : Lay).objs = l.objs ++ [HK, HC] := by simp [Lay.objs, eC, eK]
      rw [this, List.pairwise_append]
      refine ⟨hd, by simpa using d13, fun o ho p hp => ?_⟩
      simp at hp
      rcases hp with rfl | rfl
      · exact d1 o ho
      · exact d3 o ho

theorem traces_tri {fr : Prop} (kfac : Bool) {c : Cls} {n : ℕ} (hn : c.Supports n) {o p : Obj} (ho : o.Ok c n) (hp : p.Ok c n) (s : Heap) (hf : fr → c.frugal = true) :
    Tri fr (traces kfac o p) s (cost c n 0 + cost c n 0) fun _ _ => True := by
  cases kfac with
  | true => exact (Tri.pure (Q := fun _ _ => True) trivial).weaken (Nat.zero_le _) fun _ _ h => h
  | false => exact (Tri.bind (Q := fun _ _ => True) ((unit_tri hn ho .trace s rfl).imp hf) fun _ _ _ => (unit_tri hn hp .trace _ rfl).imp hf)

theorem norms_tri {cc : Cls × Cls} (norm : Bool) {n d : ℕ} (h1 : cc.1.Supports n) (h2 : cc.2.Supports d) {o p : Obj} (ho : o.Ok cc.1 n) (hp : p.Ok cc.2 d) (s : Heap) :
    Tri (Frugal cc) (norms norm o p) s (cost cc.1 n 0 + cost cc.2 d 0) fun _ _ => True := by
  cases norm with
  | false => exact (Tri.pure (Q := fun _ _ => True) trivial).weaken (Nat.zero_le _) fun _ _ h => h
  | true => exact (Tri.bind (Q := fun _ _ => True) ((unit_tri h1 ho .norm s rfl).imp And.left) fun _ _ _ => (unit_tri h2 hp .norm _ rfl).imp And.right)

/-- an update is possible: there are statistics, and momenta if they are used -/
def Lay.ready (al : Bool) (f : Flags) (l : Lay) : Prop := l.HK.isSome = true ∧ (f.al = true → al = true)

theorem update_tri {cc : Cls × Cls} {n d : ℕ} (h1 : cc.1.Supports n) (h2 : cc.2.Supports d) {al : Bool} {s : Heap} {l : Lay} (h : Inv cc n d al s l) (f : Flags) (hr : l.ready al f) :
    Tri (Frugal cc) (update f l) s (7 * (cost cc.1 n 0 + cost cc.2 d 0)) fun l' t => Inv cc n d al (s ++ t) l' ∧ l'.HK = none := by
  obtain ⟨HK, eK⟩ := Option.isSome_iff_exists.1 hr.1
  obtain ⟨HC, eC⟩ := Option.isSome_iff_exists.1 (h.H.symm.trans hr.1)
  have LK : Lives cc.1 n s HK := h.k _ (by simp [Lay.kobjs, eK])
  have LC : Lives cc.2 d s HC := h.c _ (by simp [Lay.cobjs, eC])
  have hm : ¬ (f.al = true ∧ (l.mC.isNone = true ∨ l.mK.isNone = true)) := by
    rintro ⟨h1, h2⟩
    have e1 := h.mK
    have e2 := h.mC
    rw [hr.2 h1] at e1 e2
    simp only [Option.isNone_iff_eq_none, Option.isSome_iff_ne_none] at *
    tauto
  have hN : 7 * (cost cc.1 n 0 + cost cc.2 d 0) = cost cc.1 n 0 + (cost cc.2 d 0 + (cost cc.1 n 0 + ((cost cc.2 d 0 + cost cc.2 d 0) + (cost cc.1 n 0 + (cost cc.2 d 0 +
      ((cost cc.1 n 0 + cost cc.1 n 0) + (cost cc.2 d 0 + ((cost cc.1 n 0 + cost cc.2 d 0) + (cost cc.1 n 0 + (cost cc.2 d 0 + 0)))))))))) := by ring
  simp only [update, eK, eC, hm, if_false, hN, h.K.ok.cls, h.K.ok.dim, h.C.ok.cls, h.C.ok.dim]
  refine Tri.bind ((obj_tri h1 h.K.ok l.K .inner s rfl (by simp)).imp And.left) fun KtK t1 m1 => ?_
  refine Tri.bind ((obj_tri h2 h.C.ok l.C .inner _ rfl (by simp)).imp And.right) fun CtC t2 m2 => ?_
  refine Tri.bind ((obj_tri h1 h.K.ok l.K .zeros _ rfl (by simp)).imp And.left) fun zK t3 m3 => ?_
  refine Tri.bind (traces_tri f.kfac h2 LC.ok m2.ok _ And.right) fun _ t4 _ => ?_
  refine Tri.bind ((diagAdd_tri h1 m3.ok _).imp And.left) fun nK t5 m5 => ?_
  have M5 : Made cc.1 n (s ++ t1 ++ t2) nK (t3 ++ t4 ++ t5) := by
    rcases m5 with m5 | rfl
    · have : Made cc.1 n (s ++ t1 ++ t2 ++ (t3 ++ t4)) nK t5 := by simpa using m5
      simpa using this.shift
    · exact (m3.ext t4).ext t5
  refine Tri.bind ((obj_tri h2 h.C.ok l.C .zeros _ rfl (by simp)).imp And.right) fun zC t6 m6 => ?_
  refine Tri.bind (traces_tri f.kfac h1 LK.ok m1.ok _ And.left) fun _ t7 _ => ?_
  refine Tri.bind ((diagAdd_tri h2 m6.ok _).imp And.right) fun nC t8 m8 => ?_
  have M8 : Made cc.2 d (s ++ t1 ++ t2 ++ (t3 ++ t4 ++ t5)) nC (t6 ++ t7 ++ t8) := by
    have m6' : Made cc.2 d (s ++ t1 ++ t2 ++ (t3 ++ t4 ++ t5)) zC t6 := by simpa using m6
    rcases m8 with m8 | rfl
    · have : Made cc.2 d (s ++ t1 ++ t2 ++ (t3 ++ t4 ++ t5) ++ (t6 ++ t7)) nC t8 := by simpa using m8
      simpa using this.shift
    · exact (m6'.ext t7).ext t8
  refine Tri.bind (norms_tri f.norm h1 h2 M5.ok M8.ok _) fun _ t9 _ => ?_
  refine Tri.bind ((obj_tri h1 h.K.ok nK .product _ rfl (by simp)).imp And.left) fun _ t10 _ => ?_
  refine Tri.bind ((obj_tri h2 h.C.ok nC .product _ rfl (by simp)).imp And.right) fun _ t11 _ => ?_
  refine Tri.pure ⟨?_, rfl⟩
  have e : s ++ (t1 ++ (t2 ++ (t3 ++ (t4 ++ (t5 ++ (t6 ++ (t7 ++ (t8 ++ (t9 ++ (t10 ++ (t11 ++ []))))))))))) =
      s ++ t1 ++ t2 ++ (t3 ++ t4 ++ t5) ++ (t6 ++ t7 ++ t8) ++ (t9 ++ t10 ++ t11) := by simp
  rw [e]
  have hI := ((((h.ext t1).ext t2).ext (t3 ++ t4 ++ t5)).ext (t6 ++ t7 ++ t8)).ext (t9 ++ t10 ++ t11)
  have L5 := (M5.lives.ext (t6 ++ t7 ++ t8)).ext (t9 ++ t10 ++ t11)
  have L8 := M8.lives.ext (t9 ++ t10 ++ t11)
  have d5 : ∀ o ∈ l.objs, Disjoint o.sts nK.sts := fun o ho => by
    obtain ⟨_, _, L⟩ := h.old ho
    exact M5.disjoint ((L.ext t1).ext t2)
  have d8 : ∀ o ∈ l.objs, Disjoint o.sts nC.sts := fun o ho => by
    obtain ⟨_, _, L⟩ := h.old ho
    exact M8.disjoint (((L.ext t1).ext t2).ext _)
  have d58 : Disjoint nK.sts nC.sts := M8.disjoint M5.lives
  have hd := h.dis
  generalize s ++ t1 ++ t2 ++ (t3 ++ t4 ++ t5) ++ (t6 ++ t7 ++ t8) ++ (t9 ++ t10 ++ t11) = S at hI L5 L8 ⊢
  cases hal : f.al with
  | false =>
    refine ⟨?_, ?_, ?_, h.mK, h.mC, rfl⟩
    · intro o ho
      exact hI.k o (by simp [Lay.kobjs] at ho ⊢; tauto)
    · intro o ho
      exact hI.c o (by simp [Lay.cobjs] at ho ⊢; tauto)
    · refine hd.sublist ?_
      simp only [Lay.objs, eK, eC, Bool.false_eq_true, if_false, Option.toList_none, List.append_nil, List.append_assoc]
      simp
  | true =>
    refine ⟨?_, ?_, ?_, by simp [hr.2 hal], by simp [hr.2 hal], rfl⟩
    · simp only [Lay.kobjs, if_true, Option.toList_some, Option.toList_none, List.append_nil, List.mem_cons, List.not_mem_nil, or_false, forall_eq_or_imp, forall_eq]
      exact ⟨hI.K, L5⟩
    · simp only [Lay.cobjs, if_true, Option.toList_some, Option.toList_none, List.append_nil, List.mem_cons, List.not_mem_nil, or_false, forall_eq_or_imp, forall_eq]
      exact ⟨hI.C, L8⟩
    · have hK : l.K ∈ l.objs := by simp [Lay.objs]
      have hC : l.C ∈ l.objs := by simp [Lay.objs]
      have : Disjoint l.K.sts l.C.sts := by
        simp only [Lay.objs, List.cons_append, List.pairwise_cons] at hd
        exact hd.1 _ (by simp)
      simp [Lay.objs, this, d5 _ hK, d8 _ hK, d5 _ hC, d8 _ hC, d58]

theorem natGrad_tri {cc : Cls × Cls} {n d : ℕ} (h1 : cc.1.Supports n) (h2 : cc.2.Supports d) {al : Bool} {s : Heap} {l : Lay} (h : Inv cc n d al s l) :
    Tri (Frugal cc) (natGrad l) s (2 * cost cc.1 n d + 2 * cost cc.2 d n + 5 * (n * d)) fun _ _ => True := by
  have hN : 2 * cost cc.1 n d + 2 * cost cc.2 d n + 5 * (n * d) = ([[d, n], [d, n], [n, d]].map List.prod).sum + (cost cc.1 n d + (cost cc.1 n d + (([[d, n]].map List.prod).sum +
      (cost cc.2 d n + (cost cc.2 d n + ([[d, n]].map List.prod).sum))))) := by
    simp only [List.map_cons, List.map_nil, List.prod_cons, List.prod_nil, List.sum_cons, List.sum_nil]
    ring
  simp only [natGrad, hN, h.K.ok.dim, h.C.ok.dim]
  refine Tri.bind (Q := fun _ _ => True) (Tri.tmp trivial) fun _ _ _ => ?_
  refine Tri.bind (Q := fun _ _ => True) ((unit_tri h1 h.K.ok (.rmatmat d) _ rfl).imp And.left) fun _ _ _ => ?_
  refine Tri.bind (Q := fun _ _ => True) ((unit_tri h1 h.K.ok (.matmul d) _ rfl).imp And.left) fun _ _ _ => ?_
  refine Tri.bind (Q := fun _ _ => True) (Tri.tmp trivial) fun _ _ _ => ?_
  refine Tri.bind (Q := fun _ _ => True) ((unit_tri h2 h.C.ok (.rmatmat n) _ rfl).imp And.right) fun _ _ _ => ?_
  refine Tri.bind (Q := fun _ _ => True) ((unit_tri h2 h.C.ok (.matmul n) _ rfl).imp And.right) fun _ _ _ => ?_
  exact Tri.tmp trivial

/-- one operation: it succeeds, or it is an update that is not possible -/
theorem step_spec {cc : Cls × Cls} {n d : ℕ} (h1 : cc.1.Supports n) (h2 : cc.2.Supports d) {al : Bool} {s : Heap} {l : Lay} (h : Inv cc n d al s l) (op : Op) :
    (∃ l' t, step l op s = (.ok l', s ++ t) ∧ Inv cc n d al (s ++ t) l') ∨ step l op s = (.error .keyError, s) := by
  cases op with
  | backward a g =>
    obtain ⟨l', t, r, -, hI, -⟩ := backward_tri h1 h2 h a g
    exact .inl ⟨l', t, r, hI.1⟩
  | natGrad =>
    obtain ⟨_, t, r, -, -⟩ := natGrad_tri h1 h2 h
    exact .inl ⟨l, t, r.drop l, h.ext t⟩
  | update f =>
    by_cases hr : l.ready al f
    · obtain ⟨l', t, r, -, hI⟩ := update_tri h1 h2 h f hr
      exact .inl ⟨l', t, r, hI.1⟩
    · right
      simp only [step, update]
      cases eK : l.HK with
      | none => rfl
      | some HK =>
        obtain ⟨HC, eC⟩ := Option.isSome_iff_exists.1 (h.H.symm.trans (by rw [eK]; rfl))
        have : f.al = true ∧ (l.mC.isNone = true ∨ l.mK.isNone = true) := by
          simp only [Lay.ready, eK, Option.isSome_some, true_and, Classical.not_imp] at hr
          refine ⟨hr.1, .inr ?_⟩
          have := h.mK
          rw [Bool.eq_false_iff.2 hr.2] at this
          simpa using this
        simp only [eC, this, and_self, if_true]
        rfl

theorem run_inv {cc : Cls × Cls} {n d : ℕ} (h1 : cc.1.Supports n) (h2 : cc.2.Supports d) {al : Bool} (ops : List Op) {s : Heap} {l : Lay} (h : Inv cc n d al s l) {l' : Lay} {s' : Heap}
    (hr : run ops l s = (.ok l', s')) : Inv cc n d al s' l' := by
  induction ops generalizing l s with
  | nil => cases hr; exact h
  | cons op ops ih =>
    obtain ⟨l₁, s₁, e1, e2⟩ := Py.bind_eq_ok.1 hr
    rcases step_spec h1 h2 h op with ⟨l₂, t, e, hI⟩ | e
    · rw [e1] at e
      cases e
      exact ih hI e2
    · rw [e1] at e
      cases e

/-- **C88 (memory over the course of training).** After construction and any operations that succeed, in any order and number, with inputs of any size, the factors, momenta and statistics of a
layer keep exactly this many numbers in memory: `Cls.held` of its class for every object there is. Momenta exist iff `alpha1 ≠ 0` at construction, statistics from the first backward pass after
an update to the next update. No two of them share memory, and nothing that the operations allocated besides stays. -/
theorem C88_training {cc : Cls × Cls} {n d : ℕ} (h1 : cc.1.Supports n) (h2 : cc.2.Supports d) (al : Bool) (ops : List Op) {s : Heap} {l : Lay}
    (hr : (do run ops (← init cc n d al)) [] = (.ok l, s)) :
    l.held s = (1 + al.toNat + l.HK.isSome.toNat) * (cc.1.held n + cc.2.held d) ∧ l.objs.Pairwise fun o p => Disjoint o.sts p.sts := by
  obtain ⟨l₀, s₀, e0, e1⟩ := Py.bind_eq_ok.1 hr
  obtain ⟨l₁, s₁, e, hI, -⟩ := init_tri h1 h2 al []
  rw [e0] at e
  cases e
  have h := run_inv h1 h2 ops hI e1
  refine ⟨?_, h.dis⟩
  have len : ∀ o : Option Obj, o.toList.length = o.isSome.toNat := by rintro (- | o) <;> rfl
  rw [h.held]
  simp only [Lay.kobjs, Lay.cobjs, List.length_cons, List.length_append, len, h.mK, h.mC, h.H]
  ring

/-- numbers held after operations, `none` if they fail -/
def heldAfter (cc : Cls × Cls) (n d : ℕ) (al : Bool) (ops : List Op) : Option ℕ := match (do run ops (← init cc n d al)) [] with
  | (.ok l, s) => some (l.held s)
  | _ => none

/-- Kernel evaluation: a layer with inputs of dimension 5 and outputs of dimension 3, a factor of class `TriuBottomRightDiagonalMatrix` for the inputs and a diagonal one for the outputs, with
momenta. Factors and momenta hold `2 * (33 + 3)` numbers, with statistics `3 * (33 + 3)`; with a dense factor for the inputs `2 * (25 + 3)`. An update without statistics fails. -/
example : heldAfter (.topRight (.int 1) .inf .dense .diagonal, .diagonal) 5 3 true [] = some 72 ∧
    heldAfter (.topRight (.int 1) .inf .dense .diagonal, .diagonal) 5 3 true [.backward 7 7, .backward 2 2] = some 108 ∧
    heldAfter (.topRight (.int 1) .inf .dense .diagonal, .diagonal) 5 3 true [.backward 7 7, .update ⟨false, true, true⟩, .natGrad, .backward 7 7, .update ⟨true, false, true⟩] = some 72 ∧
    heldAfter (.dense, .diagonal) 5 3 true [.backward 7 7, .update ⟨false, true, true⟩, .natGrad] = some 56 ∧
    heldAfter (.topRight (.int 1) .inf .tril .diagonal, .block 2) 5 3 false [.backward 7 7, .update ⟨false, true, false⟩, .natGrad] = some (9 + 5) ∧
    heldAfter (.dense, .diagonal) 5 3 true [.update ⟨false, true, true⟩] = none := by
  decide +kernel

/-- an iteration of training: backward pass with `a` and `g` rows, update, natural gradient -/
def iteration (al : Bool) (x : ℕ × ℕ × Bool × Bool) : List Op := [.backward x.1 x.2.1, .update ⟨x.2.2.1, x.2.2.2, al⟩, .natGrad]

theorem iteration_tri {cc : Cls × Cls} {n d : ℕ} (h1 : cc.1.Supports n) (h2 : cc.2.Supports d) {al : Bool} {s : Heap} {l : Lay} (h : Inv cc n d al s l) (x : ℕ × ℕ × Bool × Bool) :
    Tri (Frugal cc) (run (iteration al x) l) s (160 * (cc.1.stored n + cc.1.slack + (cc.2.stored d + cc.2.slack) + (n * x.1 + d * x.2.1 + n * d))) fun l' t =>
      Inv cc n d al (s ++ t) l' ∧ l'.HK = none ∧ (cc.1.frugal = false → n * n ∈ t) ∧ (cc.2.frugal = false → d * d ∈ t) := by
  obtain ⟨a, g, kf, no⟩ := x
  have hN : (cost cc.1 n a + (g * d + cost cc.2 d g)) + (7 * (cost cc.1 n 0 + cost cc.2 d 0) + ((2 * cost cc.1 n d + 2 * cost cc.2 d n + 5 * (n * d) + 0) + 0)) ≤
      160 * (cc.1.stored n + cc.1.slack + (cc.2.stored d + cc.2.slack) + (n * a + d * g + n * d)) := by
    simp only [cost]
    have z1 : 0 ≤ n * a := Nat.zero_le _
    have z2 : 0 ≤ d * g := Nat.zero_le _
    have z3 : 0 ≤ n * d := Nat.zero_le _
    have z4 : g * d = d * g := Nat.mul_comm _ _
    have z5 : d * n = n * d := Nat.mul_comm _ _
    rw [z4, z5]
    omega
  refine Tri.weaken ?_ hN fun _ _ h => h
  simp only [iteration, run]
  refine Tri.bind (backward_tri h1 h2 h a g) fun l₁ t₁ hI => ?_
  refine Tri.bind (update_tri h1 h2 hI.1.1 ⟨kf, no, al⟩ ⟨hI.1.2, fun h => h⟩) fun l₂ t₂ hJ => ?_
  refine Tri.bind (Q := fun l' _ => l' = l₂) (x := step l₂ .natGrad) ?_ fun l₃ t₃ e => ?_
  · exact Tri.bind (Q := fun _ _ => True) (natGrad_tri h1 h2 hJ.1) fun _ _ _ => Tri.pure rfl
  · refine Tri.pure ?_
    subst e
    exact ⟨by simpa using hJ.1.ext t₃, hJ.2, fun hf => by simp [hI.2.1 hf], fun hf => by simp [hI.2.2 hf]⟩

/-- **C88 (memory of an iteration).** Training of a layer never runs out of statistics or momenta if every update follows a backward pass: any number of iterations succeeds, and
whatever was done before, the next iteration

* allocates at most 160 times the numbers stored for the factors, in the inputs and output gradients, and in the weight, if both factors are diagonal, block-diagonal or hierarchical,
* allocates an `n × n` matrix if the factor for the inputs is of any other class, and a `d × d` matrix if that for the output gradients is. -/
theorem C88_iterations {cc : Cls × Cls} {n d : ℕ} (h1 : cc.1.Supports n) (h2 : cc.2.Supports d) (al : Bool) (xs : List (ℕ × ℕ × Bool × Bool)) (x : ℕ × ℕ × Bool × Bool) :
    ∃ l s, (do run (xs.flatMap (iteration al)) (← init cc n d al)) [] = (.ok l, s) ∧ l.held s = (1 + al.toNat) * (cc.1.held n + cc.2.held d) ∧
      ∃ l' t, run (iteration al x) l s = (.ok l', s ++ t) ∧
        (cc.1.frugal = true → cc.2.frugal = true → t.sum ≤ 160 * (cc.1.stored n + cc.1.slack + (cc.2.stored d + cc.2.slack) + (n * x.1 + d * x.2.1 + n * d))) ∧
        (cc.1.frugal = false → n * n ∈ t) ∧ (cc.2.frugal = false → d * d ∈ t) := by
  obtain ⟨l₀, s₀, e0, hI, hN⟩ := init_tri h1 h2 al []
  have runs : ∀ (xs : List (ℕ × ℕ × Bool × Bool)) {s : Heap} {l : Lay}, Inv cc n d al s l → l.HK = none → ∃ l' s', run (xs.flatMap (iteration al)) l s = (.ok l', s') ∧ Inv cc n d al s' l' ∧ l'.HK = none := by
    intro xs
    induction xs with
    | nil => exact fun h hN => ⟨_, _, rfl, h, hN⟩
    | cons x xs ih =>
      intro s l h _
      obtain ⟨l', t, r, -, hI, hN, -⟩ := iteration_tri h1 h2 h x
      obtain ⟨l'', s'', e, hI', hN'⟩ := ih hI hN
      refine ⟨l'', s'', ?_, hI', hN'⟩
      have app : ∀ (a b : List Op) {l l' : Lay} {s s' : Heap}, run a l s = (.ok l', s') → run (a ++ b) l s = run b l' s' := by
        intro a b
        induction a with
        | nil => intro l l' s s' e; cases e; rfl
        | cons o a ih =>
          intro l l' s s' e
          obtain ⟨l₁, s₁, e1, e2⟩ := Py.bind_eq_ok.1 e
          exact (Py.bind_ok e1).trans (ih e2)
      rw [List.flatMap_cons, app _ _ r]
      exact e
  obtain ⟨l, s, e, hI, hN⟩ := runs xs hI hN
  have hrun : (do run (xs.flatMap (iteration al)) (← init cc n d al)) [] = (.ok l, s) := by
    rw [Py.bind_ok e0]
    exact e
  refine ⟨l, s, hrun, ?_, ?_⟩
  · rw [(C88_training h1 h2 al _ hrun).1, hN]
    rfl
  · obtain ⟨l', t, r, hb, -, -, hd⟩ := iteration_tri h1 h2 hI x
    exact ⟨l', t, r, fun f1 f2 => hb ⟨f1, f2⟩, hd⟩

/-- the classes: an `n × n` matrix for the inputs (1200 × 1200 for a layer with 1200 inputs) is made in every iteration with Toeplitz classes, nothing of that size with hierarchical ones -/
example : Cls.tril.Supports 1200 ∧ (Cls.hier 15 15).Supports 40 ∧ Cls.tril.frugal = false ∧ (Cls.hier 15 15).frugal = true := ⟨by simp [Cls.Supports], by simp [Cls.Supports], rfl, rfl⟩

end Sto
