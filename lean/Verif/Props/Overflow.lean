import Mathlib.Analysis.Real.Sqrt
import Verif.Model.Overflow
import Verif.Props.NanTraining

/-! # C97: infinite values and overflow -/

namespace Ov

variable {α : Type} [Field α] [LinearOrder α]

/-! ## Arithmetic -/

theorem bad_add (x y : Fl α) : (x + y).Bad ↔ x.Bad ∨ y.Bad := by
  change (Fl.add x y).Bad ↔ _
  rcases x with x | s | _ <;> rcases y with y | s' | _ <;> simp only [Fl.add, Fl.Bad, or_false, or_true, true_or, false_or, or_self]
  split_ifs <;> simp only [Fl.Bad]

theorem bad_mul (x y : Fl α) : (x * y).Bad ↔ x.Bad ∨ y.Bad := by
  change (Fl.mul x y).Bad ↔ _
  rcases x with x | s | _ <;> rcases y with y | s' | _ <;> simp only [Fl.mul, Fl.infMul, Fl.Bad, or_false, or_true, true_or, false_or, or_self]
  all_goals split_ifs <;> simp only [Fl.Bad]

theorem bad_clip (Ω : α) (x : Fl α) (h : x.Bad) : (x.clip Ω).Bad := by
  rcases x with x | s | _
  · exact h.elim
  · trivial
  · trivial

/-! ## Sets of entries and values -/

/-- `R p x` relates propositions to values such that storing and arithmetic respect it -/
structure Tracks (st : Fl α → Fl α) (R : Prop → Fl α → Prop) : Prop where
  fin : ∀ x, R False (.fin x)
  add : ∀ {p q x y}, R p x → R q y → R (p ∨ q) (x + y)
  mul : ∀ {p q x y}, R p x → R q y → R (p ∨ q) (x * y)
  st : ∀ {p x}, R p x → R p (st x)
  self : ∀ x, R x.Bad x

/-- values that are infinite or NaN where `p` holds, and possibly elsewhere -/
theorem tracks_at_least {st : Fl α → Fl α} (h : ∀ x, x.Bad → (st x).Bad) : Tracks st fun p x => p → x.Bad where
  fin _ := False.elim
  add h h' a := (bad_add ..).2 (a.imp h h')
  mul h h' a := (bad_mul ..).2 (a.imp h h')
  st h' a := h _ (h' a)
  self _ := id

/-- values that are infinite or NaN exactly where `p` holds -/
theorem tracks_exactly {st : Fl α → Fl α} (h : ∀ x, (st x).Bad ↔ x.Bad) : Tracks st fun p x => p ↔ x.Bad where
  fin _ := Iff.rfl
  add h h' := ((or_congr h h')).trans (bad_add ..).symm
  mul h h' := ((or_congr h h')).trans (bad_mul ..).symm
  st h' := h'.trans (h _).symm
  self _ := Iff.rfl

/-- entries of a vector -/
def RelV (R : Prop → Fl α → Prop) (v : Nn.V) (v' : V α) : Prop := ∀ i, R (v i) (v' i)
/-- entries of a matrix -/
def RelM (R : Prop → Fl α → Prop) (A : Nn.M) (A' : M α) : Prop := ∀ i j, R (A i j) (A' i j)

/-- entries of a structured matrix -/
def RelO (R : Prop → Fl α → Prop) : Nn.Obj → Obj α → Prop
  | .dense d, .dense d' => RelM R d d'
  | .diagonal v, .diagonal v' => RelV R v v'
  | .block D b l, .block D' b' l' => D' = D ∧ (∀ k, RelM R (b k) (b' k)) ∧ RelM R l l'
  | .hier m1 m2 A B C D E, .hier m1' m2' A' B' C' D' E' => m1' = m1 ∧ m2' = m2 ∧ RelM R A A' ∧ RelM R B B' ∧ RelV R C C' ∧ RelM R D D' ∧ RelM R E E'
  | .tril v, .tril v' => RelV R v v'
  | .triu v, .triu v' => RelV R v v'
  | .topRight x y ca cc A B C, .topRight x' y' ca' cc' A' B' C' => (x' = x ∧ y' = y ∧ ca' = ca ∧ cc' = cc) ∧ RelO R A A' ∧ RelM R B B' ∧ RelO R C C'
  | .bottomLeft x y ca cc A B C, .bottomLeft x' y' ca' cc' A' B' C' => (x' = x ∧ y' = y ∧ ca' = ca ∧ cc' = cc) ∧ RelO R A A' ∧ RelM R B B' ∧ RelO R C C'
  | _, _ => False

/-- entries of all that is kept for a layer -/
structure RelL (R : Prop → Fl α → Prop) (l : Nn.Lay) (l' : Lay α) : Prop where
  K : RelO R l.K l'.K
  C : RelO R l.C l'.C
  mK : RelO R l.mK l'.mK
  mC : RelO R l.mC l'.mC
  H : (l.H = none ∧ l'.H = none) ∨ ∃ h h', l.H = some h ∧ l'.H = some h' ∧ RelO R h.1 h'.1 ∧ RelO R h.2 h'.2
  W : RelM R l.W l'.W
  P : RelM R l.P l'.P

/-- two objects of the same class -/
def Same : Nn.Obj → Nn.Obj → Prop := fun o p => ∃ c, Nn.Is c o ∧ Nn.Is c p

section
variable {st : Fl α → Fl α} {R : Prop → Fl α → Prop}

theorem Tracks.cast {p q : Prop} {x : Fl α} (h : R p x) (e : p ↔ q) : R q x := propext e ▸ h

theorem Tracks.times (T : Tracks st R) {p : Prop} {x : Fl α} (h : R p x) (c : α) : R p (.fin c * x) := Tracks.cast (T.mul (T.fin c) h) (by rw [false_or])

theorem Tracks.ite (T : Tracks st R) {p : Prop} {x : Fl α} {c : Prop} [Decidable c] (h : R p x) : R (c ∧ p) (if c then x else .fin 0) := by
  split_ifs with hc
  · exact Tracks.cast h (by simp [hc])
  · exact Tracks.cast (T.fin 0) (by simp [hc])

theorem Tracks.sum (T : Tracks st R) {p : ℕ → Prop} {f : ℕ → Fl α} : ∀ k : ℕ, (∀ t < k, R (p t) (f t)) → R (∃ t < k, p t) (Fl.sum k f)
  | 0, _ => Tracks.cast (T.fin 0) (by simp)
  | k + 1, h => Tracks.cast (T.add (T.sum k fun t ht => h t (by omega)) (h k (by omega))) ⟨fun a => a.elim (fun ⟨t, ht, a⟩ => ⟨t, by omega, a⟩) fun a => ⟨k, by omega, a⟩,
      fun ⟨t, ht, a⟩ => (Nat.lt_succ_iff_lt_or_eq.1 ht).elim (fun h => Or.inl ⟨t, h, a⟩) fun h => Or.inr (h ▸ a)⟩

theorem Tracks.mm (T : Tracks st R) {A B : Nn.M} {A' B' : M α} (k : ℕ) (hA : RelM R A A') (hB : RelM R B B') : RelM R (Nn.mm k A B) (mm st k A' B') :=
  fun i j => T.st (T.sum k fun t _ => T.mul (hA i t) (hB t j))

theorem rel_tr {A : Nn.M} {A' : M α} (h : RelM R A A') : RelM R (Nn.tr A) (tr A') := fun i j => h j i

theorem Tracks.toDense (T : Tracks st R) : ∀ {n : ℕ} {o : Nn.Obj} {o' : Obj α}, RelO R o o' → RelM R (Nn.toDense n o) (toDense n o')
  | n, .dense _, .dense _, h => h
  | n, .diagonal _, .diagonal _, h => fun i j => T.ite (h i)
  | n, .block D b l, .block D' b' l', h => by
    obtain ⟨rfl, h1, h2⟩ := h
    intro i j
    simp only [Nn.toDense, Ov.toDense]
    split_ifs with a c c
    · exact Tracks.cast (h1 _ _ _) (by simp [c])
    · exact Tracks.cast (T.fin 0) (by simp [c])
    · exact Tracks.cast (h2 _ _) (by simp [c])
    · exact Tracks.cast (T.fin 0) (by simp [c])
  | n, .hier m1 m2 A B C D E, .hier m1' m2' A' B' C' D' E', h => by
    obtain ⟨rfl, rfl, hA, hB, hC, hD, hE⟩ := h
    obtain ⟨k1, q, k2, e, -⟩ := Nn.dims m1' m2' n
    intro i j
    simp only [Nn.toDense, Ov.toDense, e]
    split_ifs with a c c d f g
    · exact hA _ _
    · exact hB _ _
    · exact Tracks.cast (hC _) (by simp [d])
    · exact Tracks.cast (T.fin 0) (by simp [d])
    · exact T.fin 0
    · exact hD _ _
    · exact hE _ _
  | n, .tril _, .tril _, h => fun i j => T.ite (h _)
  | n, .triu _, .triu _, h => fun i j => T.ite (h _)
  | n, .topRight .., .topRight .., h => by
    obtain ⟨⟨rfl, rfl, rfl, rfl⟩, hA, hB, hC⟩ := h
    intro i j
    simp only [Nn.toDense, Ov.toDense]
    split_ifs with a c c
    · exact T.toDense hA _ _
    · exact hB _ _
    · exact Tracks.cast (T.toDense hC _ _) (by simp [c])
    · exact Tracks.cast (T.fin 0) (by simp [c])
  | n, .bottomLeft .., .bottomLeft .., h => by
    obtain ⟨⟨rfl, rfl, rfl, rfl⟩, hA, hB, hC⟩ := h
    intro i j
    simp only [Nn.toDense, Ov.toDense]
    split_ifs with a c c
    · exact Tracks.cast (T.toDense hA _ _) (by simp [c])
    · exact Tracks.cast (T.fin 0) (by simp [c])
    · exact hB _ _
    · exact T.toDense hC _ _

theorem Tracks.coeff (T : Tracks st R) {d : Nn.M} {d' : M α} (n : ℕ) (h : RelM R d d') (t : ℕ) : R (∃ i < n, ∃ j < n, (i = j + t ∨ j = i + t) ∧ d i j) (coeff st n d' t) :=
  T.st (T.times (T.st (T.sum n fun i _ => T.sum n fun j _ => T.ite (h i j))) _)

theorem Tracks.fromDense (T : Tracks st R) : ∀ {c : Cls} {n : ℕ} {d : Nn.M} {d' : M α}, RelM R d d' → RelO R (Nn.fromDense c n d) (fromDense st c n d')
  | .dense, _, _, _, h => h
  | .diagonal, _, _, _, h => fun i => h i i
  | .block D, _, _, _, h => ⟨rfl, fun _ _ _ => h _ _, fun _ _ => h _ _⟩
  | .hier m1 m2, _, _, _, h => ⟨rfl, rfl, h, fun _ _ => T.st (T.times (h _ _) _), fun _ => h _ _, fun _ _ => T.st (T.times (h _ _) _), fun _ _ => h _ _⟩
  | .tril, _, _, _, h => T.coeff _ h
  | .triu, _, _, _, h => T.coeff _ h
  | .topRight x y ca cc, _, _, _, h => ⟨⟨rfl, rfl, rfl, rfl⟩, T.fromDense h, fun _ _ => T.st (T.add (h _ _) (h _ _)), T.fromDense fun _ _ => h _ _⟩
  | .bottomLeft x y ca cc, _, _, _, h => ⟨⟨rfl, rfl, rfl, rfl⟩, T.fromDense h, fun _ _ => T.st (T.add (h _ _) (h _ _)), T.fromDense fun _ _ => h _ _⟩

theorem rel_cls {o : Nn.Obj} {o' : Obj α} (h : RelO R o o') : o'.cls = o.cls := by
  cases o <;> cases o' <;> simp only [RelO] at h <;> simp only [Obj.cls, Nn.Obj.cls]
  · rw [h.1]
  · rw [h.1, h.2.1]
  · rw [h.1.1, h.1.2.1, h.1.2.2.1, h.1.2.2.2]
  · rw [h.1.1, h.1.2.1, h.1.2.2.1, h.1.2.2.2]

theorem Tracks.matmulT (T : Tracks st R) {n : ℕ} {o : Nn.Obj} {o' : Obj α} (h : RelO R o o') {X : Nn.M} {X' : M α} (hX : RelM R X X') : RelM R (Nn.matmulT n o X) (matmulT st n o' X') := by
  have base : RelM R (Nn.mm n (Nn.toDense n o) X) (Ov.mm st n (Ov.toDense n o') X') := T.mm n (T.toDense h) hX
  cases o <;> cases o' <;> first | exact h.elim | skip
  case diagonal.diagonal => exact fun i j => T.st (T.mul (h i) (hX i j))
  case block.block =>
    obtain ⟨rfl, h1, h2⟩ := h
    intro i j
    simp only [Nn.matmulT, Ov.matmulT]
    split_ifs
    · exact T.st (T.sum _ fun t _ => T.mul (h1 _ _ _) (hX _ _))
    · exact T.st (T.sum _ fun t _ => T.mul (h2 _ _) (hX _ _))
  case hier.hier m1 m2 A B C D E m1' m2' A' B' C' D' E' =>
    obtain ⟨rfl, rfl, hA, hB, hC, hD, hE⟩ := h
    obtain ⟨k1, q, k2, e, -⟩ := Nn.dims m1' m2' n
    intro i j
    simp only [Nn.matmulT, Ov.matmulT, e]
    split_ifs
    · rw [← or_assoc]
      exact T.st (T.add (T.st (T.add (T.mm _ hA hX _ _) (T.mm _ hB (fun _ _ => hX _ _) _ _))) (T.mm _ (fun _ _ => hB _ _) (fun _ _ => hX _ _) _ _))
    · exact T.st (T.mul (hC _) (hX _ _))
    · exact T.st (T.add (T.mm _ hD (fun _ _ => hX _ _) _ _) (T.mm _ hE (fun _ _ => hX _ _) _ _))
  all_goals exact base

theorem Tracks.rmatmat (T : Tracks st R) {n : ℕ} {o : Nn.Obj} {o' : Obj α} (h : RelO R o o') {X : Nn.M} {X' : M α} (hX : RelM R X X') : RelM R (Nn.rmatmat n o X) (rmatmat st n o' X') := by
  have base : RelM R (Nn.mm n (Nn.tr (Nn.toDense n o)) X) (Ov.mm st n (Ov.tr (Ov.toDense n o')) X') := T.mm n (rel_tr (T.toDense h)) hX
  cases o <;> cases o' <;> first | exact h.elim | skip
  case diagonal.diagonal => exact T.matmulT (n := n) h hX
  case block.block => exact T.matmulT (n := n) h hX
  case hier.hier m1 m2 A B C D E m1' m2' A' B' C' D' E' =>
    obtain ⟨rfl, rfl, hA, hB, hC, hD, hE⟩ := h
    obtain ⟨k1, q, k2, e, -⟩ := Nn.dims m1' m2' n
    intro i j
    simp only [Nn.rmatmat, Ov.rmatmat, e]
    split_ifs
    · exact T.mm _ (rel_tr hA) hX _ _
    · rw [← or_assoc]
      exact T.st (T.add (T.st (T.add (T.mm _ (rel_tr hB) hX _ _) (T.st (T.mul (hC _) (hX _ _))))) (T.mm _ (rel_tr hD) (fun _ _ => hX _ _) _ _))
    · exact T.st (T.add (T.mm _ (fun _ _ => hB _ _) hX _ _) (T.mm _ (rel_tr hE) (fun _ _ => hX _ _) _ _))
  all_goals exact base

theorem Tracks.conv (T : Tracks st R) {v w : Nn.V} {v' w' : V α} (n : ℕ) (hv : RelV R v v') (hw : RelV R w w') (t : ℕ) : R ((∃ k < n, v k) ∨ ∃ k ≤ t, w k) (conv st n v' w' t) := by
  refine T.st ?_
  split_ifs with ht
  · refine Tracks.cast (T.sum n fun k _ => T.mul (hv k) (T.ite (c := k ≤ t) (hw (t - k)))) ⟨?_, ?_⟩
    · rintro ⟨k, hk, a | ⟨b, a⟩⟩
      · exact Or.inl ⟨k, hk, a⟩
      · exact Or.inr ⟨t - k, by omega, a⟩
    · rintro (⟨k, hk, a⟩ | ⟨k, hk, a⟩)
      · exact ⟨k, hk, Or.inl a⟩
      · exact ⟨t - k, by omega, Or.inr ⟨by omega, by rwa [Nat.sub_sub_self hk]⟩⟩
  · exact Tracks.cast (T.add (T.sum n fun k _ => hv k) (T.sum (t + 1) fun k _ => hw k)) (or_congr Iff.rfl ⟨fun ⟨k, hk, a⟩ => ⟨k, by omega, a⟩, fun ⟨k, hk, a⟩ => ⟨k, by omega, a⟩⟩)

theorem Tracks.product (T : Tracks st R) {n : ℕ} {o p : Nn.Obj} {o' p' : Obj α} {c : Cls} (io : Nn.Is c o) (ip : Nn.Is c p) (h : RelO R o o') (g : RelO R p p') :
    RelO R (Nn.product n o p) (product st n o' p') := by
  have base : RelO R (Nn.fromDense o.cls n (Nn.mm n (Nn.toDense n o) (Nn.toDense n p))) (Ov.fromDense st o'.cls n (Ov.mm st n (Ov.toDense n o') (Ov.toDense n p'))) := by
    rw [rel_cls h]; exact T.fromDense (T.mm n (T.toDense h) (T.toDense g))
  cases c <;> cases o <;> first | exact io.elim | skip
  all_goals cases p <;> first | exact ip.elim | skip
  all_goals cases o' <;> first | exact h.elim | skip
  all_goals cases p' <;> first | exact g.elim | skip
  case diagonal => exact fun i => T.st (T.mul (h i) (g i))
  case block =>
    obtain ⟨rfl, h1, h2⟩ := h
    obtain ⟨rfl, g1, g2⟩ := g
    exact ⟨rfl, fun k => T.mm _ (h1 k) (g1 k), T.mm _ h2 g2⟩
  case hier a b m1 m2 A B C D E n1 n2 A₂ B₂ C₂ D₂ E₂ m1' m2' A' B' C' D' E' n1' n2' A₂' B₂' C₂' D₂' E₂' =>
    obtain ⟨rfl, rfl, hA, hB, hC, hD, hE⟩ := h
    obtain ⟨rfl, rfl, gA, gB, gC, gD, gE⟩ := g
    obtain ⟨k1, q, k2, e, -⟩ := Nn.dims m1' m2' n
    simp only [Nn.product, Ov.product, e]
    refine ⟨rfl, rfl, T.mm _ hA gA, fun i j => ?_, fun i => T.st (T.mul (hC i) (gC i)), fun i j => T.st (T.add (T.st (T.mul (hD i j) (gC j))) (T.mm _ hE gD i j)), T.mm _ hE gE⟩
    dsimp only
    split_ifs
    · rw [← or_assoc]
      exact T.st (T.add (T.st (T.add (T.mm _ hA gB _ _) (T.st (T.mul (hB _ _) (gC _))))) (T.mm _ (fun _ _ => hB _ _) gD _ _))
    · exact T.st (T.add (T.mm _ hA gB _ _) (T.mm _ (fun _ _ => hB _ _) gE _ _))
  case tril => exact T.conv n h g
  case triu => exact T.conv n h g
  all_goals exact base

theorem Tracks.timesM (T : Tracks st R) {A : Nn.M} {A' : M α} (h : RelM R A A') (c : α) : RelM R A (Ov.times st c A') := fun i j => T.st (T.times (h i j) c)

theorem Tracks.plusM (T : Tracks st R) {A B : Nn.M} {A' B' : M α} (h : RelM R A A') (g : RelM R B B') : RelM R (fun i j => A i j ∨ B i j) (Ov.plus st A' B') :=
  fun i j => T.st (T.add (h i j) (g i j))

theorem Tracks.sq (T : Tracks st R) {p : Prop} {x : Fl α} (h : R p x) : R p (x * x) := Tracks.cast (T.mul h h) (by rw [or_self])

theorem Tracks.inner (T : Tracks st R) {n : ℕ} {o : Nn.Obj} {o' : Obj α} (h : RelO R o o') : RelO R (Nn.inner n o) (inner st n o') := by
  have base : RelO R (Nn.fromDense o.cls n (Nn.mm n (Nn.tr (Nn.toDense n o)) (Nn.toDense n o))) (Ov.fromDense st o'.cls n (Ov.mm st n (Ov.tr (Ov.toDense n o')) (Ov.toDense n o'))) := by
    rw [rel_cls h]; exact T.fromDense (T.mm n (rel_tr (T.toDense h)) (T.toDense h))
  cases o <;> cases o' <;> first | exact h.elim | skip
  case diagonal.diagonal => exact fun i => T.st (T.sq (h i))
  case block.block =>
    obtain ⟨rfl, h1, h2⟩ := h
    exact ⟨rfl, fun k => T.mm _ (h1 k) (rel_tr (h1 k)), T.mm _ h2 (rel_tr h2)⟩
  case hier.hier m1 m2 A B C D E m1' m2' A' B' C' D' E' =>
    obtain ⟨rfl, rfl, hA, hB, hC, hD, hE⟩ := h
    obtain ⟨k1, q, k2, e, -⟩ := Nn.dims m1' m2' n
    simp only [Nn.inner, Ov.inner, e]
    refine ⟨rfl, rfl, T.mm _ (rel_tr hA) hA, T.mm _ (T.timesM (rel_tr hA) 2) hB, fun i => ?_, T.timesM (T.plusM (T.mm _ (fun _ _ => hB _ _) hB) (T.mm _ (rel_tr hE) hD)) 2,
      T.plusM (T.mm _ (rel_tr hE) hE) (T.mm _ (fun _ _ => hB _ _) fun _ _ => hB _ _)⟩
    dsimp only
    rw [← or_assoc]
    exact T.st (T.add (T.st (T.add (T.st (T.sq (hC i))) (T.st (T.sum _ fun t _ => T.sq (hB t i))))) (T.st (T.sum _ fun t _ => T.sq (hD t i))))
  all_goals exact base

theorem Tracks.innerX (T : Tracks st R) {n : ℕ} {o : Nn.Obj} {o' : Obj α} (h : RelO R o o') (m : ℕ) {X : Nn.M} {X' : M α} (hX : RelM R X X') :
    RelO R (Nn.innerX n o m X) (innerX st n o' m X') := by
  have S := T.rmatmat (n := n) h hX
  have base : RelO R (Nn.fromDense o.cls n (Nn.mm m (Nn.rmatmat n o X) (Nn.tr (Nn.rmatmat n o X))))
      (Ov.fromDense st o'.cls n (Ov.mm st m (Ov.rmatmat st n o' X') (Ov.tr (Ov.rmatmat st n o' X')))) := by
    rw [rel_cls h]; exact T.fromDense (T.mm m S (rel_tr S))
  cases o <;> cases o' <;> first | exact h.elim | skip
  case diagonal.diagonal => exact fun i => T.st (T.mul (T.st (T.sq (h i))) (T.st (T.sum _ fun j _ => T.sq (hX i j))))
  case hier.hier m1 m2 A B C D E m1' m2' A' B' C' D' E' =>
    obtain ⟨rfl, rfl, hA, hB, hC, hD, hE⟩ := h
    obtain ⟨k1, q, k2, e, -⟩ := Nn.dims m1' m2' n
    simp only [Nn.innerX, Ov.innerX, e]
    exact ⟨rfl, rfl, T.mm _ S (rel_tr S), T.timesM (T.mm _ S fun _ _ => S _ _) 2, fun i => T.st (T.sum _ fun j _ => T.sq (S _ _)), T.mm _ (T.timesM (fun _ _ => S _ _) 2) fun _ _ => S _ _,
      T.mm _ (fun _ _ => S _ _) fun _ _ => S _ _⟩
  all_goals exact base

theorem Tracks.averageTrace (T : Tracks st R) {n : ℕ} {o : Nn.Obj} {o' : Obj α} (h : RelO R o o') : R (Nn.averageTrace n o) (averageTrace st n o') := by
  have base : R (∃ i < n, Nn.toDense n o i i) (st (.fin (1 / n) * Fl.sum n fun i => Ov.toDense n o' i i)) := T.st (T.times (T.sum n fun i _ => T.toDense h i i) _)
  cases o <;> cases o' <;> first | exact h.elim | skip
  case diagonal.diagonal => exact T.st (T.times (T.sum n fun i _ => h i) _)
  case block.block =>
    obtain ⟨rfl, h1, h2⟩ := h
    exact T.st (T.add (T.st (T.sum _ fun k _ => T.sum _ fun i _ => T.st (T.times (h1 k i i) _))) (T.st (T.sum _ fun i _ => T.st (T.times (h2 i i) _))))
  case hier.hier m1 m2 A B C D E m1' m2' A' B' C' D' E' =>
    obtain ⟨rfl, rfl, hA, hB, hC, hD, hE⟩ := h
    obtain ⟨k1, q, k2, e, -⟩ := Nn.dims m1' m2' n
    simp only [Nn.averageTrace, Ov.averageTrace, e]
    rw [← or_assoc]
    exact T.st (T.add (T.st (T.add (T.st (T.sum _ fun i _ => T.st (T.times (hA i i) _))) (T.st (T.sum _ fun i _ => T.st (T.times (hC i) _))))) (T.st (T.sum _ fun i _ => T.st (T.times (hE i i) _))))
  case tril.tril => exact h 0
  case triu.triu => exact h 0
  all_goals exact base

theorem Tracks.axpy (T : Tracks st R) {p q r : Prop} {x y a : Fl α} (hx : R p x) (hy : R q y) (ha : R r a) : R (p ∨ q ∨ r) (st (x + a * y)) :=
  T.st (T.add hx (Tracks.cast (T.mul ha hy) or_comm))

theorem Tracks.addO (T : Tracks st R) {r : Prop} {a : Fl α} (ha : R r a) : ∀ {c : Cls} {o p : Nn.Obj} {o' p' : Obj α}, Nn.Is c o → Nn.Is c p → RelO R o o' → RelO R p p' →
    RelO R (Nn.add r o p) (Ov.add st a o' p') := by
  intro c
  induction c with
  | dense | diagonal | tril | triu =>
    intro o p o' p' io ip h g
    cases o <;> first | exact io.elim | skip
    cases p <;> first | exact ip.elim | skip
    cases o' <;> first | exact h.elim | skip
    cases p' <;> first | exact g.elim | skip
    first | exact fun i j => T.axpy (h i j) (g i j) ha | exact fun i => T.axpy (h i) (g i) ha
  | block =>
    intro o p o' p' io ip h g
    cases o <;> first | exact io.elim | skip
    cases p <;> first | exact ip.elim | skip
    cases o' <;> first | exact h.elim | skip
    cases p' <;> first | exact g.elim | skip
    exact ⟨h.1, fun k i j => T.axpy (h.2.1 k i j) (g.2.1 k i j) ha, fun i j => T.axpy (h.2.2 i j) (g.2.2 i j) ha⟩
  | hier =>
    intro o p o' p' io ip h g
    cases o <;> first | exact io.elim | skip
    cases p <;> first | exact ip.elim | skip
    cases o' <;> first | exact h.elim | skip
    cases p' <;> first | exact g.elim | skip
    obtain ⟨e1, e2, hA, hB, hC, hD, hE⟩ := h
    obtain ⟨-, -, gA, gB, gC, gD, gE⟩ := g
    exact ⟨e1, e2, fun i j => T.axpy (hA i j) (gA i j) ha, fun i j => T.axpy (hB i j) (gB i j) ha, fun i => T.axpy (hC i) (gC i) ha, fun i j => T.axpy (hD i j) (gD i j) ha,
      fun i j => T.axpy (hE i j) (gE i j) ha⟩
  | topRight x y ca cc iA iC | bottomLeft x y ca cc iA iC =>
    intro o p o' p' io ip h g
    cases o <;> first | exact io.elim | skip
    cases p <;> first | exact ip.elim | skip
    cases o' <;> first | exact h.elim | skip
    cases p' <;> first | exact g.elim | skip
    obtain ⟨e, hA, hB, hC⟩ := h
    obtain ⟨-, gA, gB, gC⟩ := g
    exact ⟨e, iA io.2.2.2.2.1 ip.2.2.2.2.1 hA gA, fun i j => T.axpy (hB i j) (gB i j) ha, iC io.2.2.2.2.2 ip.2.2.2.2.2 hC gC⟩

theorem Tracks.diagPlus (T : Tracks st R) {d : Nn.M} {d' : M α} (h : RelM R d d') (a : α) : RelM R d (diagPlus st a d') := by
  intro i j
  unfold Ov.diagPlus
  split_ifs
  · exact T.st (Tracks.cast (T.add (h i j) (T.fin a)) (by rw [or_false]))
  · exact h i j

theorem Tracks.shift (T : Tracks st R) {p : Prop} {x : Fl α} (h : R p x) (a : α) : R p (st (x + .fin a)) := T.st (Tracks.cast (T.add h (T.fin a)) (by rw [or_false]))

theorem Tracks.diagAdd (T : Tracks st R) {n : ℕ} {o : Nn.Obj} {o' : Obj α} (h : RelO R o o') (a : α) : RelO R (Nn.diagAdd n o) (diagAdd st n a o') := by
  have d := T.diagPlus (T.toDense (n := n) h) a
  cases o <;> cases o' <;> first | exact h.elim | skip
  case dense.dense => exact T.diagPlus h a
  case diagonal.diagonal => exact fun i => T.shift (h i) a
  case block.block => exact ⟨h.1, fun k => T.diagPlus (h.2.1 k) a, T.diagPlus h.2.2 a⟩
  case hier.hier =>
    obtain ⟨e1, e2, hA, hB, hC, hD, hE⟩ := h
    exact ⟨e1, e2, T.diagPlus hA a, hB, fun i => T.shift (hC i) a, hD, T.diagPlus hE a⟩
  case tril.tril =>
    intro t
    dsimp only
    split_ifs
    · exact T.shift (h t) a
    · exact h t
  case triu.triu =>
    intro t
    dsimp only
    split_ifs
    · exact T.shift (h t) a
    · exact h t
  case topRight.topRight =>
    obtain ⟨⟨rfl, rfl, rfl, rfl⟩, -⟩ := h
    exact T.fromDense d
  case bottomLeft.bottomLeft =>
    obtain ⟨⟨rfl, rfl, rfl, rfl⟩, -⟩ := h
    exact T.fromDense d

theorem Tracks.scale (T : Tracks st R) (c : α) : ∀ {o : Nn.Obj} {o' : Obj α}, RelO R o o' → RelO R o (scale st c o')
  | .dense _, .dense _, h => T.timesM h c
  | .diagonal _, .diagonal _, h => fun i => T.st (T.times (h i) c)
  | .block .., .block .., h => ⟨h.1, fun k => T.timesM (h.2.1 k) c, T.timesM h.2.2 c⟩
  | .hier .., .hier .., h => ⟨h.1, h.2.1, T.timesM h.2.2.1 c, T.timesM h.2.2.2.1 c, fun i => T.st (T.times (h.2.2.2.2.1 i) c), T.timesM h.2.2.2.2.2.1 c, T.timesM h.2.2.2.2.2.2 c⟩
  | .tril _, .tril _, h => fun i => T.st (T.times (h i) c)
  | .triu _, .triu _, h => fun i => T.st (T.times (h i) c)
  | .topRight .., .topRight .., h => ⟨h.1, T.scale c h.2.1, T.timesM h.2.2.1 c, T.scale c h.2.2.2⟩
  | .bottomLeft .., .bottomLeft .., h => ⟨h.1, T.scale c h.2.1, T.timesM h.2.2.1 c, T.scale c h.2.2.2⟩

/-! ## The optimizer -/

/-- options of a step without their numbers -/
def Hyp.flags (h : Hyp α) : Nn.Flags := ⟨h.kfac, decide (h.alpha1 ≠ 0), decide (h.momentum ≠ 0), decide (h.weightDecay ≠ 0)⟩

/-- infinite and NaN entries of a matrix -/
def badM (A : M α) : Nn.M := fun i j => (A i j).Bad

/-- an operation without its numbers: where it is given infinite values and NaN -/
def Op.bad : Op α → Nn.Op
  | .backward m X m' g _ => .backward m (badM X) m' (badM g)
  | .skip => .skip
  | .step h due G => .step h.flags due (badM G)
  | .setParam W => .setParam (badM W)

theorem Tracks.badM (T : Tracks st R) (A : M α) : RelM R (badM A) A := fun i j => T.self (A i j)

variable {cK cC : Cls} {n d : ℕ}

theorem Tracks.newMomentum (T : Tracks st R) {c : Cls} {n : ℕ} (h : Hyp α) {H I : Nn.Obj} {H' I' : Obj α} {p γ : Prop} {a g : Fl α} (iH : Nn.Is c H) (iI : Nn.Is c I) (hH : RelO R H H')
    (hI : RelO R I I') (ha : R p a) (hg : R γ g) : RelO R (Nn.newMomentum n c H p I γ) (newMomentum st n c h H' a I' g) :=
  T.scale _ (T.diagAdd (T.addO hg (Nn.is_add (Nn.is_zeros c n) iH) iI (T.addO ha (Nn.is_zeros c n) iH (T.fromDense fun _ _ => T.fin 0) hH) hI) _)

theorem Tracks.either {b : Bool} {p : Prop} {x y : Fl α} (h1 : R False x) (h2 : R p y) : R (if b = true then False else p) (if b = true then x else y) := by
  cases b
  · exact h2
  · exact h1

theorem Tracks.update (T : Tracks st R) (h : Hyp α) {l : Nn.Lay} {l' : Lay α} (s : Nn.Shape cK cC l) (r : RelL R l l') : RelL R (Nn.update n d h.flags l) (update st n d h l') := by
  rcases r.H with ⟨e, e'⟩ | ⟨⟨HK, HC⟩, ⟨HK', HC'⟩, e, e', rK, rC⟩
  · simp only [Nn.update, Ov.update, e, e']; exact r
  obtain ⟨iK, iC⟩ := s.H _ e
  have jK := Nn.is_inner (n := n) s.K
  have jC := Nn.is_inner (n := d) s.C
  have one : R False (.fin 1 : Fl α) := T.fin 1
  have fal : ∀ x : α, R False (.fin x) := T.fin
  have gK : RelO R (Nn.newMomentum n l.K.cls HK (if h.flags.kfac then False else Nn.averageTrace d HC) (Nn.inner n l.K) (if h.flags.kfac then False else Nn.averageTrace d (Nn.inner d l.C)))
      (Ov.newMomentum st n l'.K.cls h HK' (if h.kfac then .fin 1 else st (.fin h.unscale * Ov.averageTrace st d HC')) (Ov.inner st n l'.K)
        (if h.kfac then .fin h.damping else st (.fin h.damping * Ov.averageTrace st d (Ov.inner st d l'.C)))) := by
    rw [rel_cls r.K, s.K.cls]
    refine T.newMomentum h iK jK rK (T.inner r.K) ?_ ?_
    · exact Tracks.either (T.fin 1) (T.st (T.times (T.averageTrace rC) _))
    · exact Tracks.either (T.fin _) (T.st (T.times (T.averageTrace (T.inner r.C)) _))
  have gC : RelO R (Nn.newMomentum d l.C.cls HC (if h.flags.kfac then False else Nn.averageTrace n HK) (Nn.inner d l.C) (if h.flags.kfac then False else Nn.averageTrace n (Nn.inner n l.K)))
      (Ov.newMomentum st d l'.C.cls h HC' (if h.kfac then .fin h.unscale else st (.fin h.unscale * Ov.averageTrace st n HK')) (Ov.inner st d l'.C)
        (if h.kfac then .fin h.damping else st (.fin h.damping * Ov.averageTrace st n (Ov.inner st n l'.K)))) := by
    rw [rel_cls r.C, s.C.cls]
    refine T.newMomentum h iC jC rC (T.inner r.C) ?_ ?_
    · exact Tracks.either (T.fin _) (T.st (T.times (T.averageTrace rK) _))
    · exact Tracks.either (T.fin _) (T.st (T.times (T.averageTrace (T.inner r.K)) _))
  have kK : Nn.Is cK (Nn.newMomentum n l.K.cls HK (if h.flags.kfac then False else Nn.averageTrace d HC) (Nn.inner n l.K) (if h.flags.kfac then False else Nn.averageTrace d (Nn.inner d l.C))) := by
    rw [s.K.cls]; exact Nn.is_newMomentum iK jK
  have kC : Nn.Is cC (Nn.newMomentum d l.C.cls HC (if h.flags.kfac then False else Nn.averageTrace n HK) (Nn.inner d l.C) (if h.flags.kfac then False else Nn.averageTrace n (Nn.inner n l.K))) := by
    rw [s.C.cls]; exact Nn.is_newMomentum iC jC
  simp only [Nn.update, Ov.update, e, e']
  by_cases ha : h.alpha1 = 0
  · have fa : h.flags.al = false := by simp [Hyp.flags, ha]
    simp only [fa, ha, ne_eq, not_true_eq_false, if_false, Bool.false_eq_true]
    exact ⟨T.addO (fal _) s.K (Nn.is_product s.K kK) r.K (T.product s.K kK r.K gK), T.addO (fal _) s.C (Nn.is_product s.C kC) r.C (T.product s.C kC r.C gC), r.mK, r.mC, Or.inl ⟨rfl, rfl⟩, r.W, r.P⟩
  · have fa : h.flags.al = true := by simp [Hyp.flags, ha]
    simp only [fa, ha, ne_eq, not_false_eq_true, if_true]
    have wK := T.addO (fal h.alpha1) kK s.mK gK r.mK
    have wC := T.addO (fal h.alpha1) kC s.mC gC r.mC
    have vK := Nn.is_add (α := False) kK s.mK
    have vC := Nn.is_add (α := False) kC s.mC
    exact ⟨T.addO (fal _) s.K (Nn.is_product s.K vK) r.K (T.product s.K vK r.K wK), T.addO (fal _) s.C (Nn.is_product s.C vC) r.C (T.product s.C vC r.C wC), wK, wC, Or.inl ⟨rfl, rfl⟩, r.W, r.P⟩

theorem Tracks.natGrad (T : Tracks st R) (h : Hyp α) {l : Nn.Lay} {l' : Lay α} (r : RelL R l l') {G : Nn.M} {G' : M α} (hG : RelM R G G') : RelM R (Nn.natGrad n d l G) (natGrad st n d h l' G') :=
  T.matmulT r.C (T.rmatmat r.C (rel_tr (T.matmulT r.K (T.rmatmat r.K (rel_tr (T.timesM hG _))))))

theorem Tracks.step (T : Tracks st R) (h : Hyp α) (due : Bool) {G : Nn.M} {G' : M α} (hG : RelM R G G') {l : Nn.Lay} {l' : Lay α} (s : Nn.Shape cK cC l) (r : RelL R l l') :
    RelL R (Nn.step n d h.flags due G l) (step st n d h due G' l') := by
  have u : RelL R (if due then Nn.update n d h.flags l else l) (if due then Ov.update st n d h l' else l') := by
    split_ifs
    · exact T.update h s r
    · exact r
  simp only [Nn.step, Ov.step]
  generalize (if due then Nn.update n d h.flags l else l) = v at u ⊢
  generalize (if due then Ov.update st n d h l' else l') = v' at u ⊢
  have N := T.natGrad (n := n) (d := d) h u hG
  have S : RelM R (fun i j => Nn.natGrad n d v G i j ∨ (h.flags.wd = true ∧ v.W i j)) fun i j =>
      if h.weightDecay ≠ 0 then st (Ov.natGrad st n d h v' G' i j + .fin h.weightDecay * v'.W i j) else Ov.natGrad st n d h v' G' i j := by
    intro i j
    dsimp only
    split_ifs with hw
    · exact T.st (Tracks.cast (T.add (N i j) (T.times (u.W i j) _)) (by simp [Hyp.flags, hw]))
    · exact Tracks.cast (N i j) (by rw [not_not] at hw; simp [Hyp.flags, hw])
  by_cases hm : h.momentum = 0
  · have fm : h.flags.mom = false := by simp [Hyp.flags, hm]
    simp only [fm, hm, ne_eq, not_true_eq_false, if_false, Bool.false_eq_true]
    exact ⟨u.K, u.C, u.mK, u.mC, u.H, fun i j => T.st (T.add (u.W i j) (T.times (S i j) _)), u.P⟩
  · have fm : h.flags.mom = true := by simp [Hyp.flags, hm]
    simp only [fm, hm, ne_eq, not_false_eq_true, if_true]
    exact ⟨u.K, u.C, u.mK, u.mC, u.H, fun i j => T.st (T.add (u.W i j) (T.times (T.st (T.add (T.st (T.times (u.P i j) _)) (S i j))) _)),
      fun i j => T.st (T.add (T.st (T.times (u.P i j) _)) (S i j))⟩

theorem Tracks.exec (T : Tracks st R) (op : Op α) {l : Nn.Lay} {l' : Lay α} (s : Nn.Shape cK cC l) (r : RelL R l l') : RelL R (Nn.exec n d l op.bad) (exec st n d l' op) := by
  cases op with
  | backward m X m' g c =>
    have hK := T.innerX (n := n) r.K m (T.badM X)
    have hC := T.innerX (n := d) r.C m' (T.timesM (T.badM g) c)
    refine ⟨r.K, r.C, r.mK, r.mC, Or.inr ?_, r.W, r.P⟩
    rcases r.H with ⟨e, e'⟩ | ⟨⟨HK, HC⟩, ⟨HK', HC'⟩, e, e', rK, rC⟩
    · exact ⟨_, _, rfl, rfl, by simp only [e, e']; exact hK, by simp only [e, e']; exact hC⟩
    · obtain ⟨iK, iC⟩ := s.H _ e
      refine ⟨_, _, rfl, rfl, ?_, ?_⟩
      · simp only [e, e']; exact T.addO (T.fin 1) iK (Nn.is_innerX s.K) rK hK
      · simp only [e, e']; exact T.addO (T.fin 1) iC (Nn.is_innerX s.C) rC hC
  | skip => exact ⟨r.K, r.C, r.mK, r.mC, Or.inl ⟨rfl, rfl⟩, r.W, r.P⟩
  | step h due G => exact T.step h due (T.badM G) s r
  | setParam W => exact ⟨r.K, r.C, r.mK, r.mC, r.H, T.badM W, r.P⟩

/-- infinite values and NaN of a whole history -/
theorem Tracks.run (T : Tracks st R) (ops : List (Op α)) {l : Nn.Lay} {l' : Lay α} (s : Nn.Shape cK cC l) (r : RelL R l l') : RelL R (Nn.run n d l (ops.map Op.bad)) (run st n d l' ops) := by
  induction ops generalizing l l' with
  | nil => exact r
  | cons op ops ih => exact ih (Nn.shape_exec s _) (T.exec op s r)

end

/-! ## Statements -/

/-- infinite and NaN entries of a structured matrix -/
def badO : Obj α → Nn.Obj
  | .dense d => .dense (badM d)
  | .diagonal v => .diagonal fun i => (v i).Bad
  | .block D b l => .block D (fun k => badM (b k)) (badM l)
  | .hier m1 m2 A B C D E => .hier m1 m2 (badM A) (badM B) (fun i => (C i).Bad) (badM D) (badM E)
  | .tril v => .tril fun i => (v i).Bad
  | .triu v => .triu fun i => (v i).Bad
  | .topRight x y ca cc A B C => .topRight x y ca cc (badO A) (badM B) (badO C)
  | .bottomLeft x y ca cc A B C => .bottomLeft x y ca cc (badO A) (badM B) (badO C)

/-- infinite and NaN entries of all that is kept for a layer -/
def badL (l : Lay α) : Nn.Lay := ⟨badO l.K, badO l.C, badO l.mK, badO l.mC, l.H.map fun h => (badO h.1, badO h.2), badM l.W, badM l.P⟩

section
variable {st : Fl α → Fl α} {R : Prop → Fl α → Prop} {cK cC : Cls} {n d : ℕ}

theorem Tracks.badO (T : Tracks st R) : ∀ o : Obj α, RelO R (badO o) o
  | .dense d => T.badM d
  | .diagonal _ => fun _ => T.self _
  | .block _ b l => ⟨rfl, fun k => T.badM (b k), T.badM l⟩
  | .hier _ _ A B _ D E => ⟨rfl, rfl, T.badM A, T.badM B, fun _ => T.self _, T.badM D, T.badM E⟩
  | .tril _ => fun _ => T.self _
  | .triu _ => fun _ => T.self _
  | .topRight _ _ _ _ A B C => ⟨⟨rfl, rfl, rfl, rfl⟩, T.badO A, T.badM B, T.badO C⟩
  | .bottomLeft _ _ _ _ A B C => ⟨⟨rfl, rfl, rfl, rfl⟩, T.badO A, T.badM B, T.badO C⟩

theorem Tracks.badL (T : Tracks st R) (l : Lay α) : RelL R (badL l) l where
  K := T.badO _
  C := T.badO _
  mK := T.badO _
  mC := T.badO _
  H := by
    cases e : l.H with
    | none => exact Or.inl ⟨by simp [Ov.badL, e], rfl⟩
    | some h => exact Or.inr ⟨(Ov.badO h.1, Ov.badO h.2), h, by simp only [Ov.badL, e, Option.map_some], rfl, T.badO _, T.badO _⟩
  W := T.badM _
  P := T.badM _

theorem exact_M {A : Nn.M} {A' : M α} (h : RelM (fun p x => p ↔ x.Bad) A A') : badM A' = A := funext fun i => funext fun j => (propext (h i j)).symm

theorem exact_V {v : Nn.V} {v' : V α} (h : RelV (fun p x => p ↔ x.Bad) v v') : (fun i => (v' i).Bad) = v := funext fun i => (propext (h i)).symm

theorem exact_O : ∀ {o : Nn.Obj} {o' : Obj α}, RelO (fun p x => p ↔ x.Bad) o o' → badO o' = o
  | .dense _, .dense _, h => by rw [badO, exact_M h]
  | .diagonal _, .diagonal _, h => by rw [badO, exact_V h]
  | .block .., .block .., h => by rw [badO, exact_M h.2.2, h.1]; congr 1; exact funext fun k => exact_M (h.2.1 k)
  | .hier .., .hier .., h => by
    obtain ⟨rfl, rfl, hA, hB, hC, hD, hE⟩ := h
    rw [badO, exact_M hA, exact_M hB, exact_V hC, exact_M hD, exact_M hE]
  | .tril _, .tril _, h => by rw [badO, exact_V h]
  | .triu _, .triu _, h => by rw [badO, exact_V h]
  | .topRight .., .topRight .., h => by
    obtain ⟨⟨rfl, rfl, rfl, rfl⟩, hA, hB, hC⟩ := h
    rw [badO, exact_O hA, exact_M hB, exact_O hC]
  | .bottomLeft .., .bottomLeft .., h => by
    obtain ⟨⟨rfl, rfl, rfl, rfl⟩, hA, hB, hC⟩ := h
    rw [badO, exact_O hA, exact_M hB, exact_O hC]

theorem full_least : ∀ {n : ℕ} {o : Nn.Obj} {o' : Obj α}, RelO (fun p x => p → x.Bad) o o' → Nn.Full n o → Nn.Full n (badO o')
  | _, .dense _, .dense _, h, f => fun i hi j hj => h i j (f i hi j hj)
  | _, .diagonal _, .diagonal _, h, f => fun i hi => h i (f i hi)
  | _, .block .., .block .., h, f => by
    obtain ⟨rfl, h1, h2⟩ := h
    exact ⟨fun k hk i hi j hj => h1 k i j (f.1 k hk i hi j hj), fun i hi j hj => h2 i j (f.2 i hi j hj)⟩
  | _, .hier .., .hier .., h, f => by
    obtain ⟨rfl, rfl, hA, hB, hC, hD, hE⟩ := h
    exact ⟨fun i hi j hj => hA i j (f.1 i hi j hj), fun i hi j hj => hB i j (f.2.1 i hi j hj), fun i hi => hC i (f.2.2.1 i hi), fun i hi j hj => hD i j (f.2.2.2.1 i hi j hj),
      fun i hi j hj => hE i j (f.2.2.2.2 i hi j hj)⟩
  | _, .tril _, .tril _, h, f => fun i hi => h i (f i hi)
  | _, .triu _, .triu _, h, f => fun i hi => h i (f i hi)
  | _, .topRight .., .topRight .., h, f => by
    obtain ⟨⟨rfl, rfl, rfl, rfl⟩, hA, hB, hC⟩ := h
    exact ⟨full_least hA f.1, fun i hi j hj => hB i j (f.2.1 i hi j hj), full_least hC f.2.2⟩
  | _, .bottomLeft .., .bottomLeft .., h, f => by
    obtain ⟨⟨rfl, rfl, rfl, rfl⟩, hA, hB, hC⟩ := h
    exact ⟨full_least hA f.1, fun i hi j hj => hB i j (f.2.1 i hi j hj), full_least hC f.2.2⟩

/-- **C97.** As long as nothing overflows, infinite values spread exactly as NaN does: the entries that are infinite or NaN after any history are those that `Nn.run` computes from the entries that
were so in the data. All statements of C89 hold with "infinite or NaN" in place of "NaN". -/
theorem C97_exact (h : ∀ x, (st x).Bad ↔ x.Bad) (l : Lay α) (s : Nn.Shape cK cC (badL l)) (ops : List (Op α)) : badL (run st n d l ops) = Nn.run n d (badL l) (ops.map Op.bad) := by
  have T := tracks_exactly h
  have r := T.run (n := n) (d := d) ops s (T.badL l)
  generalize Nn.run n d (badL l) (ops.map Op.bad) = v at r ⊢
  obtain ⟨vK, vC, vmK, vmC, vH, vW, vP⟩ := v
  have e1 : badO (run st n d l ops).K = vK := exact_O r.K
  have e2 : badO (run st n d l ops).C = vC := exact_O r.C
  have e3 : badO (run st n d l ops).mK = vmK := exact_O r.mK
  have e4 : badO (run st n d l ops).mC = vmC := exact_O r.mC
  have e5 : badM (run st n d l ops).W = vW := exact_M r.W
  have e6 : badM (run st n d l ops).P = vP := exact_M r.P
  have e7 : (run st n d l ops).H.map (fun h => (badO h.1, badO h.2)) = vH := by
    rcases r.H with ⟨a, b⟩ | ⟨h, h', a, b, c, e⟩
    · rw [b]; exact a.symm
    · rw [b, Option.map_some, exact_O c, exact_O e]; exact a.symm
  rw [badL, e1, e2, e3, e4, e5, e6, e7]

/-- **C97 (with overflow).** If numbers can overflow, at least these entries are infinite or NaN. -/
theorem C97_spread (h : ∀ x, x.Bad → (st x).Bad) (l : Lay α) (s : Nn.Shape cK cC (badL l)) (ops : List (Op α)) :
    (∀ i j, (Nn.run n d (badL l) (ops.map Op.bad)).W i j → ((run st n d l ops).W i j).Bad) ∧
    (Nn.Full n (Nn.run n d (badL l) (ops.map Op.bad)).K → Nn.Full n (badO (run st n d l ops).K)) ∧
    (Nn.Full d (Nn.run n d (badL l) (ops.map Op.bad)).C → Nn.Full d (badO (run st n d l ops).C)) := by
  have T := tracks_at_least h
  have r := T.run (n := n) (d := d) ops s (T.badL l)
  exact ⟨r.W, full_least r.K, full_least r.C⟩

/-- a backward pass: processed inputs, processed output gradients, `1 / sqrt(prev_grad_scale)` -/
structure Pass (α : Type) where
  m : ℕ
  X : M α
  m' : ℕ
  g : M α
  c : α

/-- the backward pass as an operation -/
def Pass.op (b : Pass α) : Op α := .backward b.m b.X b.m' b.g b.c

theorem run_append (l : Lay α) (a b : List (Op α)) : run st n d l (a ++ b) = run st n d (run st n d l a) b := by simp [run, List.foldl_append]

theorem is_least {c : Cls} : ∀ {o : Nn.Obj} {o' : Obj α}, RelO R o o' → Nn.Is c o → Nn.Is c (badO o') := by
  induction c with
  | dense | diagonal | block | hier | tril | triu =>
    intro o o' h i
    cases o <;> first | exact i.elim | skip
    cases o' <;> first | exact h.elim | skip
    first | trivial | exact h.1.trans i | exact ⟨h.1.trans i.1, h.2.1.trans i.2⟩
  | topRight x y ca cc iA iC | bottomLeft x y ca cc iA iC =>
    intro o o' h i
    cases o <;> first | exact i.elim | skip
    cases o' <;> first | exact h.elim | skip
    obtain ⟨⟨rfl, rfl, rfl, rfl⟩, hA, hB, hC⟩ := h
    obtain ⟨rfl, rfl, rfl, rfl, jA, jC⟩ := i
    exact ⟨rfl, rfl, rfl, rfl, iA hA jA, iC hC jC⟩

theorem shape_least {l : Nn.Lay} {l' : Lay α} (r : RelL R l l') (s : Nn.Shape cK cC l) : Nn.Shape cK cC (badL l') where
  K := is_least r.K s.K
  C := is_least r.C s.C
  mK := is_least r.mK s.mK
  mC := is_least r.mC s.mC
  H h e := by
    rcases r.H with ⟨a, b⟩ | ⟨p, q, a, b, hK, hC⟩
    · simp [badL, b] at e
    · simp only [badL, b, Option.map_some, Option.some.injEq] at e
      rw [← e]
      exact ⟨is_least hK (s.H _ a).1, is_least hC (s.H _ a).2⟩

/-- **C97 (permanent).** A factor all of whose entries are infinite or NaN stays so in every continuation, and every later step makes all parameters infinite or NaN again, also after good parameters
are put back. -/
theorem C97_permanent (h : ∀ x, x.Bad → (st x).Bad) (l : Lay α) (s : Nn.Shape cK cC (badL l)) (hf : Nn.Full n (badO l.K) ∨ Nn.Full d (badO l.C)) (ops : List (Op α)) (y : Hyp α) (due : Bool)
    (G : M α) : (Nn.Full n (badO (run st n d l ops).K) ∨ Nn.Full d (badO (run st n d l ops).C)) ∧ ∀ r < d, ∀ j < n, ((run st n d l (ops ++ [.step y due G])).W r j).Bad := by
  have A := C97_spread (n := n) (d := d) h l s (ops ++ [.step y due G])
  have B := C97_spread (n := n) (d := d) h l s ops
  have C := Nn.C89_permanent (n := n) (d := d) s hf (ops.map Op.bad) y.flags due (badM G)
  have D := Nn.full_run (n := n) (d := d) s (ops.map Op.bad)
  refine ⟨hf.imp (fun f => B.2.1 (D.1 f)) fun f => B.2.2 (D.2 f), fun r hr j hj => A.1 r j ?_⟩
  rw [List.map_append]
  exact C.2 r hr j hj

/-- **C97 (INGD's rule).** One infinite value or NaN in the inputs or output gradients of a backward pass since the last update: the update makes one whole factor and all parameters infinite or NaN,
whatever the structures and the gradients of the step, with or without `normalize_lr_cov` (whose rate is then zero or as if the norm were one), with or without overflow. -/
theorem C97_default (h : ∀ x, x.Bad → (st x).Bad) (l : Lay α) (s : Nn.Shape cK cC (badL l)) (bs : List (Pass α)) (y : Hyp α) (hk : y.kfac = false) (G : M α)
    (hb : (∃ i < n, ∃ b ∈ bs, ∃ t < b.m, (b.X i t).Bad) ∨ ∃ i < d, ∃ b ∈ bs, ∃ t < b.m', (b.g i t).Bad) :
    (Nn.Full n (badO (run st n d l (bs.map Pass.op ++ [.step y true G])).K) ∨ Nn.Full d (badO (run st n d l (bs.map Pass.op ++ [.step y true G])).C)) ∧
    ∀ r < d, ∀ j < n, ((run st n d l (bs.map Pass.op ++ [.step y true G])).W r j).Bad := by
  have A := C97_spread (n := n) (d := d) h l s (bs.map Pass.op ++ [.step y true G])
  have e : (bs.map Pass.op ++ [Op.step y true G]).map Op.bad = (bs.map fun b => (⟨b.m, badM b.X, b.m', badM b.g⟩ : Nn.Batch)).map Nn.Batch.op ++ [.step y.flags true (badM G)] := by
    rw [List.map_append, List.map_map, List.map_map]; rfl
  rw [e] at A
  have B := Nn.C89_default (n := n) (d := d) s (bs.map fun b => (⟨b.m, badM b.X, b.m', badM b.g⟩ : Nn.Batch)) y.flags hk (badM G)
  have hb' : (∃ i < n, Nn.InRow (bs.map fun b => (⟨b.m, badM b.X, b.m', badM b.g⟩ : Nn.Batch)) i) ∨
      ∃ i < d, Nn.OutRow (bs.map fun b => (⟨b.m, badM b.X, b.m', badM b.g⟩ : Nn.Batch)) i := by
    refine hb.imp ?_ ?_
    · rintro ⟨i, hi, b, hb, t, ht, a⟩; exact ⟨i, hi, _, List.mem_map.2 ⟨b, hb, rfl⟩, t, ht, a⟩
    · rintro ⟨i, hi, b, hb, t, ht, a⟩; exact ⟨i, hi, _, List.mem_map.2 ⟨b, hb, rfl⟩, t, ht, a⟩
  exact ⟨hb'.symm.imp (fun b => A.2.1 (B.2.1 b)) fun b => A.2.2 (B.1 b), fun r hr j hj => A.1 r j (B.2.2 hb' r hr j hj)⟩

/-- rows of the inputs of all passes with an infinite value or NaN -/
def InBad (bs : List (Pass α)) (i : ℕ) : Prop := ∃ b ∈ bs, ∃ t < b.m, (b.X i t).Bad

/-- rows of the output gradients of all passes with an infinite value or NaN -/
def OutBad (bs : List (Pass α)) (i : ℕ) : Prop := ∃ b ∈ bs, ∃ t < b.m', (b.g i t).Bad

/-- **C97 (exactly, without overflow).** From a layer without infinite values and with finite gradients, an entry of the parameters is infinite or NaN after the update: with INGD's rule if and only if
there was an infinite value or NaN anywhere in the data; with `kfac_like` if and only if a row of the inputs with one reaches its column or a row of the output gradients with one reaches its row. -/
theorem C97_rules (h : ∀ x, (st x).Bad ↔ x.Bad) (l : Lay α) (s : Nn.Shape cK cC (badL l)) (hl : Nn.Healthy n d (badL l)) (hH : l.H = none) (bs : List (Pass α)) (y : Hyp α) {G : M α}
    (hG : ∀ r < d, ∀ j < n, ¬ (G r j).Bad) {r j : ℕ} (hr : r < d) (hj : j < n) :
    (y.kfac = false → (((run st n d l (bs.map Pass.op ++ [.step y true G])).W r j).Bad ↔ (∃ i < n, InBad bs i) ∨ ∃ i < d, OutBad bs i)) ∧
    (y.kfac = true → (((run st n d l (bs.map Pass.op ++ [.step y true G])).W r j).Bad ↔
      (∃ i < n, InBad bs i ∧ Nn.Reach cK n i j) ∨ ∃ i < d, OutBad bs i ∧ Nn.Reach cC d i r)) := by
  have A := C97_exact (n := n) (d := d) h l s (bs.map Pass.op ++ [Op.step y true G])
  have e : (bs.map Pass.op ++ [Op.step y true G]).map Op.bad = (bs.map fun b => (⟨b.m, badM b.X, b.m', badM b.g⟩ : Nn.Batch)).map Nn.Batch.op ++ [.step y.flags true (badM G)] := by
    rw [List.map_append, List.map_map, List.map_map]; rfl
  rw [e] at A
  have W : ((run st n d l (bs.map Pass.op ++ [.step y true G])).W r j).Bad = (badL (run st n d l (bs.map Pass.op ++ [.step y true G]))).W r j := rfl
  have i1 : ∀ i, Nn.InRow (bs.map fun b => (⟨b.m, badM b.X, b.m', badM b.g⟩ : Nn.Batch)) i ↔ InBad bs i := by
    intro i; simp only [Nn.InRow, InBad, List.mem_map]
    exact ⟨fun ⟨_, ⟨b, hb, e⟩, t, ht, a⟩ => by subst e; exact ⟨b, hb, t, ht, a⟩, fun ⟨b, hb, t, ht, a⟩ => ⟨_, ⟨b, hb, rfl⟩, t, ht, a⟩⟩
  have i2 : ∀ i, Nn.OutRow (bs.map fun b => (⟨b.m, badM b.X, b.m', badM b.g⟩ : Nn.Batch)) i ↔ OutBad bs i := by
    intro i; simp only [Nn.OutRow, OutBad, List.mem_map]
    exact ⟨fun ⟨_, ⟨b, hb, e⟩, t, ht, a⟩ => by subst e; exact ⟨b, hb, t, ht, a⟩, fun ⟨b, hb, t, ht, a⟩ => ⟨_, ⟨b, hb, rfl⟩, t, ht, a⟩⟩
  rw [W, A]
  constructor
  · intro hk
    rw [Nn.C89_default_exact s hl _ y.flags hk (G := badM G) hG hr hj]
    simp only [i1, i2]
  · intro hk
    rw [Nn.C89_kfac_exact s hl (by rw [badL, hH]; rfl) _ y.flags hk (G := badM G) hG hr hj]
    simp only [i1, i2]

/-! ## Overflow -/

theorem bad_times {x : Fl α} (c : α) (h : x.Bad) : (Fl.fin c * x).Bad := (bad_mul ..).2 (Or.inr h)

/-- **C97 (overflow of statistics).** INGD's rule, whatever the data: if the average trace of the stored statistics of one side is infinite or NaN - for instance because numbers overflowed when
they were squared and summed - the update makes the whole other factor infinite or NaN. -/
theorem C97_trace (h : ∀ x, x.Bad → (st x).Bad) (l : Lay α) (s : Nn.Shape cK cC (badL l)) (y : Hyp α) (hk : y.kfac = false) {HK HC : Obj α} (e : l.H = some (HK, HC)) :
    ((averageTrace st d HC).Bad → Nn.Full n (badO (update st n d y l).K)) ∧ ((averageTrace st n HK).Bad → Nn.Full d (badO (update st n d y l).C)) := by
  have T := tracks_at_least h
  obtain ⟨iK, iC⟩ := s.H (badO HK, badO HC) (by simp only [badL, e, Option.map_some])
  have sK : Nn.Is cK (badO l.K) := s.K
  have sC : Nn.Is cC (badO l.C) := s.C
  have smK : Nn.Is cK (badO l.mK) := s.mK
  have smC : Nn.Is cC (badO l.mC) := s.mC
  have jK := Nn.is_inner (n := n) sK
  have jC := Nn.is_inner (n := d) sC
  have fal : ∀ x : Fl α, False → x.Bad := fun _ => False.elim
  constructor
  · intro hb
    have a : True → (st (.fin y.unscale * averageTrace st d HC)).Bad := fun _ => h _ (bad_times _ hb)
    have g := T.newMomentum (n := n) y iK jK (T.badO HK) (T.inner (T.badO l.K)) a (fal (st (.fin y.damping * averageTrace st d (inner st d l.C))))
    have k : Nn.Is cK (Nn.newMomentum n cK (badO HK) True (Nn.inner n (badO l.K)) False) := Nn.is_newMomentum iK jK
    have f : Nn.Full n (Nn.newMomentum n cK (badO HK) True (Nn.inner n (badO l.K)) False) := Nn.full_newMomentum iK jK trivial
    have c : l.K.cls = cK := (rel_cls (T.badO l.K)).trans sK.cls
    simp only [update, e, hk, c, Bool.false_eq_true, if_false]
    by_cases ha : y.alpha1 = 0
    · simp only [ha, ne_eq, not_true_eq_false, if_false]
      exact full_least (T.addO (fal _) sK (Nn.is_product sK k) (T.badO l.K) (T.product sK k (T.badO l.K) g)) (Nn.full_add_right sK (Nn.is_product sK k) (Nn.full_product sK k f))
    · simp only [ha, ne_eq, not_false_eq_true, if_true]
      have k' := Nn.is_add (α := False) k smK
      exact full_least (T.addO (fal _) sK (Nn.is_product sK k') (T.badO l.K) (T.product sK k' (T.badO l.K) (T.addO (fal _) k smK g (T.badO l.mK))))
        (Nn.full_add_right sK (Nn.is_product sK k') (Nn.full_product sK k' (Nn.full_add_left k smK f)))
  · intro hb
    have a : True → (st (.fin y.unscale * averageTrace st n HK)).Bad := fun _ => h _ (bad_times _ hb)
    have g := T.newMomentum (n := d) y iC jC (T.badO HC) (T.inner (T.badO l.C)) a (fal (st (.fin y.damping * averageTrace st n (inner st n l.K))))
    have k : Nn.Is cC (Nn.newMomentum d cC (badO HC) True (Nn.inner d (badO l.C)) False) := Nn.is_newMomentum iC jC
    have f : Nn.Full d (Nn.newMomentum d cC (badO HC) True (Nn.inner d (badO l.C)) False) := Nn.full_newMomentum iC jC trivial
    have c : l.C.cls = cC := (rel_cls (T.badO l.C)).trans sC.cls
    simp only [update, e, hk, c, Bool.false_eq_true, if_false]
    by_cases ha : y.alpha1 = 0
    · simp only [ha, ne_eq, not_true_eq_false, if_false]
      exact full_least (T.addO (fal _) sC (Nn.is_product sC k) (T.badO l.C) (T.product sC k (T.badO l.C) g)) (Nn.full_add_right sC (Nn.is_product sC k) (Nn.full_product sC k f))
    · simp only [ha, ne_eq, not_false_eq_true, if_true]
      have k' := Nn.is_add (α := False) k smC
      exact full_least (T.addO (fal _) sC (Nn.is_product sC k') (T.badO l.C) (T.product sC k' (T.badO l.C) (T.addO (fal _) k smC g (T.badO l.mC))))
        (Nn.full_add_right sC (Nn.is_product sC k') (Nn.full_product sC k' (Nn.full_add_left k smC f)))

/-- **C97 (either rule).** If all entries of the stored statistics of one side are infinite or NaN, all entries of its own factor are so after the update. -/
theorem C97_statistics (h : ∀ x, x.Bad → (st x).Bad) (l : Lay α) (s : Nn.Shape cK cC (badL l)) (y : Hyp α) {HK HC : Obj α} (e : l.H = some (HK, HC)) :
    (Nn.Full n (badO HK) → Nn.Full n (badO (update st n d y l).K)) ∧ (Nn.Full d (badO HC) → Nn.Full d (badO (update st n d y l).C)) := by
  have T := tracks_at_least h
  obtain ⟨iK, iC⟩ := s.H (badO HK, badO HC) (by simp only [badL, e, Option.map_some])
  have fal : ∀ x : Fl α, False → x.Bad := fun _ => False.elim
  have key : ∀ {c : Cls} {k : ℕ} {F m H I : Obj α} {a b β : Fl α}, Nn.Is c (badO F) → Nn.Is c (badO m) → Nn.Is c (badO H) → Nn.Is c (badO I) → Nn.Full k (badO H) →
      Nn.Full k (badO (add st β F (product st k F (if y.alpha1 ≠ 0 then add st (.fin y.alpha1) (newMomentum st k F.cls y H a I b) m else newMomentum st k F.cls y H a I b)))) := by
    intro c k F m H I a b β iF im iH iI f
    have ec : F.cls = c := (rel_cls (T.badO F)).trans iF.cls
    rw [ec]
    have g := T.newMomentum (n := k) y iH iI (T.badO H) (T.badO I) (fal a) (fal b)
    have j : Nn.Is c (Nn.newMomentum k c (badO H) False (badO I) False) := Nn.is_newMomentum iH iI
    have z := Nn.is_add (α := False) (Nn.is_zeros c k) iH
    have ff : Nn.Full k (Nn.newMomentum k c (badO H) False (badO I) False) := Nn.full_diagAdd (Nn.is_add z iI) (Nn.full_add_left z iI (Nn.full_add_right (Nn.is_zeros c k) iH f))
    split_ifs
    · have j' := Nn.is_add (α := False) j im
      exact full_least (T.addO (fal _) iF (Nn.is_product iF j') (T.badO F) (T.product iF j' (T.badO F) (T.addO (fal _) j im g (T.badO m))))
        (Nn.full_add_right iF (Nn.is_product iF j') (Nn.full_product iF j' (Nn.full_add_left j im ff)))
    · exact full_least (T.addO (fal _) iF (Nn.is_product iF j) (T.badO F) (T.product iF j (T.badO F) g)) (Nn.full_add_right iF (Nn.is_product iF j) (Nn.full_product iF j ff))
  have inn : ∀ {c : Cls} {k : ℕ} {F : Obj α}, Nn.Is c (badO F) → Nn.Is c (badO (inner st k F)) := fun {c k F} i => is_least (T.inner (n := k) (T.badO F)) (Nn.is_inner i)
  simp only [update, e]
  exact ⟨key s.K s.mK iK (inn s.K), key s.C s.mC iC (inn s.C)⟩

/-- the statistics of a side have an infinite or NaN trace if one of their diagonal entries is so -/
theorem C97_trace_of_diagonal (h : ∀ x, x.Bad → (st x).Bad) (o : Obj α) (hd : Nn.averageTrace n (badO o)) : (averageTrace st n o).Bad :=
  (tracks_at_least h).averageTrace ((tracks_at_least h).badO o) hd

end

/-- **C97 (normalisation does not help).** An infinite norm makes the rate of `normalize_lr_cov` zero, but zero times infinity is NaN: where the step of the factor is infinite, the factor becomes NaN. A NaN
norm counts as one. -/
theorem C97_normalized (β x : α) (s : Bool) : Fl.rate β (.inf false) = 0 ∧ Fl.fin x + Fl.fin (-Fl.rate β (.inf false)) * .inf s = (.nan : Fl α) ∧ Fl.rate β .nan = β := by
  refine ⟨rfl, ?_, rfl⟩
  have e : -Fl.rate β (.inf false) = 0 := by simp [Fl.rate]
  rw [e]
  have : Fl.fin (0 : α) * .inf s = (.nan : Fl α) := by
    show Fl.infMul s (0 : α) = .nan
    rw [Fl.infMul, if_pos rfl]
  rw [this]; rfl

/-! ### Values without overflow -/

section
variable [IsStrictOrderedRing α]

theorem clip_fin {Ω x : α} (h : |x| ≤ Ω) : (Fl.fin x).clip Ω = .fin x := by
  rw [abs_le] at h
  simp only [Fl.clip]
  rw [if_neg (not_lt.2 h.2), if_neg (not_lt.2 h.1)]

theorem clip_bad {Ω x : α} (h : Ω < |x|) : ((Fl.fin x).clip Ω).Bad := by
  simp only [Fl.clip]
  split_ifs with a b
  · trivial
  · trivial
  · rcases lt_abs.1 h with c | c
    · exact (a c).elim
    · exact (b (by linarith)).elim

theorem clip_self (Ω : α) (x : Fl α) : x.Bad → (x.clip Ω).Bad := bad_clip Ω x

theorem sum_fin (f : ℕ → α) : ∀ k, Fl.sum k (fun t => .fin (f t)) = .fin (∑ t ∈ Finset.range k, f t)
  | 0 => rfl
  | k + 1 => by rw [Fl.sum, sum_fin f k, Finset.sum_range_succ]; rfl

theorem sum_congr {f g : ℕ → Fl α} : ∀ k, (∀ t < k, f t = g t) → Fl.sum k f = Fl.sum k g
  | 0, _ => rfl
  | k + 1, h => by rw [Fl.sum, Fl.sum, sum_congr k fun t ht => h t (by omega), h k (by omega)]

theorem mm_fin {Ω : α} {k : ℕ} {A B : ℕ → ℕ → α} {A' B' : M α} {i j : ℕ} (hA : ∀ t < k, A' i t = .fin (A i t)) (hB : ∀ t < k, B' t j = .fin (B t j))
    (h : |∑ t ∈ Finset.range k, A i t * B t j| ≤ Ω) : mm (Fl.clip Ω) k A' B' i j = .fin (∑ t ∈ Finset.range k, A i t * B t j) := by
  rw [mm, sum_congr (g := fun t => .fin (A i t * B t j)) k fun t ht => by rw [hA t ht, hB t ht]; rfl, sum_fin, clip_fin h]

/-- **C97 (safe statistics).** A dense factor with entries of size at most `κ` and data with entries of size at most `x`, in `m` columns: if `m (n κ x)²` and `n κ x` are representable, the statistics of
the backward pass are finite, and they are the exact ones. -/
theorem C97_safe {Ω κ x : α} {n m : ℕ} {K X : ℕ → ℕ → α} (hK : ∀ i < n, ∀ j < n, |K i j| ≤ κ) (hX : ∀ i < n, ∀ t < m, |X i t| ≤ x) (h1 : n * (κ * x) ≤ Ω) (h2 : m * (n * (κ * x)) ^ 2 ≤ Ω) :
    ∃ H : M α, innerX (Fl.clip Ω) n (.dense fun i j => .fin (K i j)) m (fun i t => .fin (X i t)) = .dense H ∧ ∀ i < n, ∀ j < n,
      H i j = .fin (∑ t ∈ Finset.range m, (∑ s ∈ Finset.range n, K s i * X s t) * ∑ s ∈ Finset.range n, K s j * X s t) := by
  have bS : ∀ i < n, ∀ t < m, |∑ s ∈ Finset.range n, K s i * X s t| ≤ n * (κ * x) := by
    intro i hi t ht
    refine (Finset.abs_sum_le_sum_abs _ _).trans ((Finset.sum_le_card_nsmul _ _ (κ * x) fun s hs => ?_).trans_eq (by rw [Finset.card_range, nsmul_eq_mul]))
    have hs := Finset.mem_range.1 hs
    rw [abs_mul]
    exact mul_le_mul (hK s hs i hi) (hX s hs t ht) (abs_nonneg _) ((abs_nonneg _).trans (hK s hs i hi))
  refine ⟨_, rfl, fun i hi j hj => ?_⟩
  have S : ∀ i < n, ∀ t < m, rmatmat (Fl.clip Ω) n (.dense fun i j => .fin (K i j)) (fun i t => .fin (X i t)) i t = .fin (∑ s ∈ Finset.range n, K s i * X s t) := by
    intro i hi t ht
    exact mm_fin (A := fun i s => K s i) (B := X) (B' := fun i t => .fin (X i t)) (fun _ _ => rfl) (fun _ _ => rfl) ((bS i hi t ht).trans h1)
  refine mm_fin (A := fun i t => ∑ s ∈ Finset.range n, K s i * X s t) (B := fun t j => ∑ s ∈ Finset.range n, K s j * X s t) (fun t ht => S i hi t ht) (fun t ht => S j hj t ht) ?_
  refine (Finset.abs_sum_le_sum_abs _ _).trans ((Finset.sum_le_card_nsmul _ _ ((n * (κ * x)) ^ 2) fun t ht => ?_).trans (by rw [Finset.card_range, nsmul_eq_mul]; exact h2))
  have ht := Finset.mem_range.1 ht
  rw [abs_mul, sq]
  exact mul_le_mul (bS i hi t ht) (bS j hj t ht) (abs_nonneg _) ((abs_nonneg _).trans (bS i hi t ht))

end

namespace Sample

/-- a layer with one input and one output, without bias: dense factors `1`, momenta `0`, no statistics -/
def single (w : α) : Lay α := ⟨.dense fun _ _ => .fin 1, .dense fun _ _ => .fin 1, .dense fun _ _ => .fin 0, .dense fun _ _ => .fin 0, none, fun _ _ => .fin w, fun _ _ => .fin 0⟩

theorem single_shape (w : α) : Nn.Shape .dense .dense (badL (single w)) := ⟨trivial, trivial, trivial, trivial, fun _ h => by cases h⟩

end Sample

/-- **C97 (unnoticed).** Statistics overflow before gradients do. Gradient scaling by `S`, one sample with input 1 and output gradient `v > 1`: if the scaled gradient `S v` is representable, but `S v²` is
not, the scaler finds nothing and the step is taken; in it the factor and the parameter become infinite or NaN, for every rule and all hyper-parameters, and no later step repairs them. -/
theorem C97_unnoticed {v S Ω : ℝ} (hv : 1 < v) (hS : 0 < S) (h1 : S * v ≤ Ω) (h2 : Ω < S * v ^ 2) (w : ℝ) (y : Hyp ℝ) :
    (Fl.fin (S * v)).clip Ω = .fin (S * v) ∧ ∀ (ops : List (Op ℝ)) (y' : Hyp ℝ) (due : Bool) (G : M ℝ),
      let l := run (Fl.clip Ω) 1 1 (Sample.single w) [.backward 1 (fun _ _ => .fin 1) 1 (fun _ _ => .fin (S * v)) (1 / √S), .step y true fun _ _ => .fin (S * v)]
      (l.W 0 0).Bad ∧ ((run (Fl.clip Ω) 1 1 l (ops ++ [.step y' due G])).W 0 0).Bad := by
  have sv : 0 < S * v := mul_pos hS (by linarith)
  refine ⟨clip_fin (by rw [abs_of_pos sv]; exact h1), fun ops y' due G => ?_⟩
  have st := bad_clip Ω
  set l₁ := run (Fl.clip Ω) 1 1 (Sample.single w) [.backward 1 (fun _ _ => .fin 1) 1 (fun _ _ => .fin (S * v)) (1 / √S)] with e₁
  have T := tracks_at_least st
  have s₁ : Nn.Shape .dense .dense (badL l₁) := shape_least (T.run (n := 1) (d := 1) _ (Sample.single_shape w) (T.badL _)) (Nn.shape_run (Sample.single_shape w) _)
  obtain ⟨HK, HC, eH, fC⟩ : ∃ HK HC, l₁.H = some (HK, HC) ∧ Nn.Full 1 (badO HC) := by
    refine ⟨_, _, rfl, fun i hi j hj => ?_⟩
    obtain rfl : i = 0 := by omega
    obtain rfl : j = 0 := by omega
    show (mm (Fl.clip Ω) 1 _ _ 0 0).Bad
    have z : (1 / √S * (S * v)) ^ 2 = S * v ^ 2 := by
      rw [mul_pow, div_pow, Real.sq_sqrt hS.le]; field_simp
    set u : Fl ℝ := (Fl.fin (1 / √S) * Fl.fin (S * v)).clip Ω with hu
    have eS : ∀ i, rmatmat (Fl.clip Ω) 1 (.dense fun _ _ => .fin (1 : ℝ)) (times (Fl.clip Ω) (1 / √S) fun _ _ => .fin (S * v)) i 0 = (Fl.fin 0 + Fl.fin 1 * u).clip Ω := fun _ => rfl
    show ((Fl.fin 0 + rmatmat (Fl.clip Ω) 1 (.dense fun _ _ => .fin (1 : ℝ)) (times (Fl.clip Ω) (1 / √S) fun _ _ => .fin (S * v)) 0 0 *
      rmatmat (Fl.clip Ω) 1 (.dense fun _ _ => .fin (1 : ℝ)) (times (Fl.clip Ω) (1 / √S) fun _ _ => .fin (S * v)) 0 0).clip Ω).Bad
    rw [eS]
    by_cases hz : |1 / √S * (S * v)| ≤ Ω
    · have eu : u = .fin (1 / √S * (S * v)) := clip_fin hz
      have e2 : (Fl.fin 0 + Fl.fin 1 * u).clip Ω = .fin (1 / √S * (S * v)) := by
        rw [eu]
        show (Fl.fin (0 + 1 * (1 / √S * (S * v)))).clip Ω = _
        rw [zero_add, one_mul, clip_fin hz]
      rw [e2]
      show ((Fl.fin (0 + 1 / √S * (S * v) * (1 / √S * (S * v)))).clip Ω).Bad
      refine clip_bad ?_
      rw [zero_add, ← sq, z, abs_of_pos (by positivity)]
      exact h2
    · have bu : u.Bad := clip_bad (not_le.1 hz)
      exact st _ ((bad_add ..).2 (Or.inr ((bad_mul ..).2 (Or.inl (st _ ((bad_add ..).2 (Or.inr (bad_times _ bu))))))))
  have f₂ := (C97_statistics (n := 1) (d := 1) st l₁ s₁ y eH).2 fC
  have s₂ : Nn.Shape .dense .dense (badL (update (Fl.clip Ω) 1 1 y l₁)) := shape_least (T.update y s₁ (T.badL _)) (Nn.shape_update s₁)
  have A := C97_permanent (n := 1) (d := 1) st (update (Fl.clip Ω) 1 1 y l₁) s₂ (Or.inr f₂)
  refine ⟨(A [] y false fun _ _ => .fin (S * v)).2 0 one_pos 0 one_pos, ?_⟩
  exact (A (.step y false (fun _ _ => .fin (S * v)) :: ops) y' due G).2 0 one_pos 0 one_pos

/-! ## Examples -/

namespace Sample

/-- half precision: the largest number is 65504; scale 20000, output gradient 2 -/
example (w : ℝ) (y : Hyp ℝ) : ((run (Fl.clip 65504) 1 1 (single w) [.backward 1 (fun _ _ => .fin 1) 1 (fun _ _ => .fin (20000 * 2)) (1 / √20000), .step y true fun _ _ => .fin (20000 * 2)]).W 0 0).Bad :=
  ((C97_unnoticed (v := 2) (S := 20000) (Ω := 65504) (by norm_num) (by norm_num) (by norm_num) (by norm_num) w y).2 [] y true fun _ _ => .fin 0).1

/-- hyper-parameters of the examples -/
def hyp (kfac : Bool) (norms : Option (Fl ℚ × Fl ℚ)) : Hyp ℚ := ⟨kfac, 1 / 2, 1 / 10, 1 / 2, 1 / 10, norms, 0, 0, 1 / 10, 1, 1⟩

/-- one infinite input; finite gradients -/
def pass : Pass ℚ := ⟨1, fun _ _ => .inf false, 1, fun _ _ => .fin 1, 1⟩

/-- the parameter is infinite without `normalize_lr_cov` and NaN with it (the norm is infinite, the rate zero); it is what it was if the input is finite -/
example : (run id 1 1 (single 1) [pass.op, .step (hyp true none) true fun _ _ => .fin 1]).W 0 0 = .inf true := by decide +kernel
example : (run id 1 1 (single 1) [pass.op, .step (hyp true (some (.inf false, .fin 1))) true fun _ _ => .fin 1]).W 0 0 = .nan := by decide +kernel
example : (run id 1 1 (single 1) [.backward 1 (fun _ _ => .fin 1) 1 (fun _ _ => .fin 1) 1, .step (hyp true none) true fun _ _ => .fin 1]).W 0 0 = .fin (1 - (1 / 10) * (199 / 200) ^ 4) := by decide +kernel

/-- hypotheses of `C97_default` and `C97_rules`: a dense layer and a finite gradient -/
example : ((run (Fl.clip 65504) 1 1 (single 1) ([pass].map Pass.op ++ [.step (hyp false none) true fun _ _ => .fin 1])).W 0 0).Bad :=
  (C97_default (n := 1) (d := 1) (bad_clip 65504) (single 1) (single_shape 1) [pass] (hyp false none) rfl (fun _ _ => .fin 1) (Or.inl ⟨0, one_pos, pass, by simp, 0, one_pos, trivial⟩)).2 0 one_pos 0 one_pos

theorem single_healthy (w : α) : Nn.Healthy 1 1 (badL (single w)) :=
  ⟨fun _ _ _ _ => id, fun _ _ _ _ => id, fun _ _ _ _ => id, fun _ _ _ _ => id, fun _ h => (by cases h), fun _ _ _ _ => id, fun _ _ _ _ => id⟩

example : ((run id 1 1 (single 1) ([pass].map Pass.op ++ [.step (hyp true none) true fun _ _ => .fin 1])).W 0 0).Bad :=
  ((C97_rules (n := 1) (d := 1) (st := id) (fun _ => Iff.rfl) (single 1) (single_shape 1) (single_healthy 1) rfl [pass] (hyp true none) (G := fun _ _ => .fin 1) (fun _ _ _ _ => id) one_pos one_pos).2 rfl).2
    (Or.inl ⟨0, one_pos, ⟨pass, by simp, 0, one_pos, trivial⟩, trivial⟩)

/-- statistics whose trace overflowed -/
example : Nn.Full 1 (badO (update (Fl.clip 65504) 1 1 (hyp false none) { single (1 : ℚ) with H := some (.dense fun _ _ => .fin 1, .dense fun _ _ => .inf false) }).K) :=
  (C97_trace (cK := .dense) (cC := .dense) (n := 1) (d := 1) (bad_clip 65504) { single (1 : ℚ) with H := some (.dense fun _ _ => .fin 1, .dense fun _ _ => .inf false) }
    ⟨trivial, trivial, trivial, trivial, fun h e => by
      simp only [badL, Option.map_some, Option.some.injEq] at e; rw [← e]; exact ⟨trivial, trivial⟩⟩ (hyp false none) rfl rfl).1
    (C97_trace_of_diagonal (bad_clip 65504) _ ⟨0, one_pos, trivial⟩)

/-- hypotheses of `C97_safe` in half precision: dimension 2, factors up to 2, data up to 3, 100 samples -/
example (K X : ℕ → ℕ → ℚ) (hK : ∀ i < 2, ∀ j < 2, |K i j| ≤ 2) (hX : ∀ i < 2, ∀ t < 100, |X i t| ≤ 3) :
    ∃ H : M ℚ, innerX (Fl.clip 65504) 2 (.dense fun i j => .fin (K i j)) 100 (fun i t => .fin (X i t)) = .dense H ∧ ¬ (H 0 1).Bad := by
  obtain ⟨H, e, h⟩ := C97_safe (Ω := 65504) hK hX (by norm_num) (by norm_num)
  exact ⟨H, e, by rw [h 0 (by omega) 1 (by omega)]; exact id⟩

end Sample

end Ov
