import Verif.Props.OverflowValues

/-!
# Overflow is never silent (C98)

Two runs of the same operations, in a type that overflows and in a wider one (or one that never overflows): every entry of every tensor is infinite or NaN in the first run, or the same in both.
-/

namespace Ov

open Finset

variable {α : Type} [Field α] [LinearOrder α]

/-- infinite or NaN, or the same -/
def Le (x y : Fl α) : Prop := x.Bad ∨ x = y

theorem Le.refl (x : Fl α) : Le x x := .inr rfl

theorem Le.add {x y x' y' : Fl α} (h : Le x x') (g : Le y y') : Le (x + y) (x' + y') := by
  rcases h with h | rfl
  · exact .inl ((bad_add _ _).2 (.inl h))
  · rcases g with g | rfl
    · exact .inl ((bad_add _ _).2 (.inr g))
    · exact .inr rfl

theorem Le.mul {x y x' y' : Fl α} (h : Le x x') (g : Le y y') : Le (x * y) (x' * y') := by
  rcases h with h | rfl
  · exact .inl ((bad_mul _ _).2 (.inl h))
  · rcases g with g | rfl
    · exact .inl ((bad_mul _ _).2 (.inr g))
    · exact .inr rfl

theorem Le.sum {f g : ℕ → Fl α} (h : ∀ t, Le (f t) (g t)) : ∀ k, Le (Fl.sum k f) (Fl.sum k g)
  | 0 => .refl _
  | k + 1 => (Le.sum h k).add (h k)

theorem Le.ite {p : Prop} [Decidable p] {x y x' y' : Fl α} (h : Le x x') (g : Le y y') : Le (if p then x else y) (if p then x' else y') := by
  split_ifs
  · exact h
  · exact g

/-- vectors -/
def LeV (v w : V α) : Prop := ∀ i, Le (v i) (w i)
/-- matrices -/
def LeM (A B : M α) : Prop := ∀ i j, Le (A i j) (B i j)

/-- structured matrices of the same class, tensor by tensor -/
inductive LeO : Obj α → Obj α → Prop
  | dense {d d' : M α} (h : LeM d d') : LeO (.dense d) (.dense d')
  | diagonal {v v' : V α} (h : LeV v v') : LeO (.diagonal v) (.diagonal v')
  | block {D : ℕ} {b b' : ℕ → M α} {l l' : M α} (hb : ∀ k, LeM (b k) (b' k)) (hl : LeM l l') : LeO (.block D b l) (.block D b' l')
  | hier {m1 m2 : ℕ} {A A' B B' : M α} {C C' : V α} {D D' E E' : M α} (hA : LeM A A') (hB : LeM B B') (hC : LeV C C') (hD : LeM D D') (hE : LeM E E') :
      LeO (.hier m1 m2 A B C D E) (.hier m1 m2 A' B' C' D' E')
  | tril {v v' : V α} (h : LeV v v') : LeO (.tril v) (.tril v')
  | triu {v v' : V α} (h : LeV v v') : LeO (.triu v) (.triu v')
  | topRight {x y : MaxDim} {ca cc : Cls} {A A' : Obj α} {B B' : M α} {C C' : Obj α} (hA : LeO A A') (hB : LeM B B') (hC : LeO C C') :
      LeO (.topRight x y ca cc A B C) (.topRight x y ca cc A' B' C')
  | bottomLeft {x y : MaxDim} {ca cc : Cls} {A A' : Obj α} {B B' : M α} {C C' : Obj α} (hA : LeO A A') (hB : LeM B B') (hC : LeO C C') :
      LeO (.bottomLeft x y ca cc A B C) (.bottomLeft x y ca cc A' B' C')

theorem LeO.refl : ∀ o : Obj α, LeO o o
  | .dense _ => .dense fun _ _ => .refl _
  | .diagonal _ => .diagonal fun _ => .refl _
  | .block .. => .block (fun _ _ _ => .refl _) fun _ _ => .refl _
  | .hier .. => .hier (fun _ _ => .refl _) (fun _ _ => .refl _) (fun _ => .refl _) (fun _ _ => .refl _) fun _ _ => .refl _
  | .tril _ => .tril fun _ => .refl _
  | .triu _ => .triu fun _ => .refl _
  | .topRight _ _ _ _ A _ C => .topRight (LeO.refl A) (fun _ _ => .refl _) (LeO.refl C)
  | .bottomLeft _ _ _ _ A _ C => .bottomLeft (LeO.refl A) (fun _ _ => .refl _) (LeO.refl C)

theorem LeO.cls {o o' : Obj α} (h : LeO o o') : o.cls = o'.cls := by cases h <;> rfl

/-- storing in the first type loses more than storing in the second: infinite values and NaN stay so, and a number that the first type keeps is kept by the second -/
structure Wider (st st' : Fl α → Fl α) : Prop where
  bad : ∀ x, x.Bad → (st x).Bad
  le : ∀ x, Le (st x) (st' x)

section operations
variable {st st' : Fl α → Fl α} (W : Wider st st')
include W

theorem Wider.store {x y : Fl α} (h : Le x y) : Le (st x) (st' y) := by
  rcases h with h | rfl
  · exact .inl (W.bad _ h)
  · exact W.le _

theorem Wider.mm (k : ℕ) {A A' B B' : M α} (hA : LeM A A') (hB : LeM B B') : LeM (mm st k A B) (mm st' k A' B') := fun i j => W.store (.sum (fun t => (hA i t).mul (hB t j)) k)

omit [Field α] [LinearOrder α] W in
theorem LeM.tr {A A' : M α} (hA : LeM A A') : LeM (tr A) (tr A') := fun i j => hA j i

theorem Wider.plus {A A' B B' : M α} (hA : LeM A A') (hB : LeM B B') : LeM (plus st A B) (plus st' A' B') := fun i j => W.store ((hA i j).add (hB i j))

theorem Wider.times (c : α) {A A' : M α} (hA : LeM A A') : LeM (times st c A) (times st' c A') := fun i j => W.store ((Le.refl _).mul (hA i j))

omit W in
theorem LeO.toDense {o o' : Obj α} (h : LeO o o') : ∀ n, LeM (toDense n o) (toDense n o') := by
  induction h with
  | dense h => exact fun n => h
  | diagonal h => exact fun n i j => .ite (h i) (.refl _)
  | block hb hl => exact fun n i j => .ite (.ite (hb _ _ _) (.refl _)) (.ite (hl _ _) (.refl _))
  | hier hA hB hC hD hE => exact fun n i j => .ite (.ite (hA _ _) (hB _ _)) (.ite (.ite (hC _) (.refl _)) (.ite (.refl _) (.ite (hD _ _) (hE _ _))))
  | tril h => exact fun n i j => .ite (h _) (.refl _)
  | triu h => exact fun n i j => .ite (h _) (.refl _)
  | topRight _ hB _ iA iC => exact fun n i j => .ite (.ite (iA _ _ _) (hB _ _)) (.ite (iC _ _ _) (.refl _))
  | bottomLeft _ hB _ iA iC => exact fun n i j => .ite (.ite (iA _ _ _) (.refl _)) (.ite (hB _ _) (iC _ _ _))

theorem Wider.coeff (n : ℕ) {d d' : M α} (h : LeM d d') : LeV (coeff st n d) (coeff st' n d') := fun _ =>
  W.store ((Le.refl _).mul (W.store (.sum (fun i => .sum (fun j => .ite (h i j) (.refl _)) n) n)))

theorem Wider.fromDense : ∀ (c : Cls) (n : ℕ) {d d' : M α}, LeM d d' → LeO (fromDense st c n d) (fromDense st' c n d')
  | .dense, _, _, _, h => .dense h
  | .diagonal, _, _, _, h => .diagonal fun i => h i i
  | .block _, _, _, _, h => .block (fun _ _ _ => h _ _) fun _ _ => h _ _
  | .hier _ _, _, _, _, h => .hier h (fun _ _ => W.store ((Le.refl _).mul (h _ _))) (fun _ => h _ _) (fun _ _ => W.store ((Le.refl _).mul (h _ _))) fun _ _ => h _ _
  | .tril, n, _, _, h => .tril (W.coeff n h)
  | .triu, n, _, _, h => .triu (W.coeff n h)
  | .topRight _ _ ca cc, _, _, _, h => .topRight (Wider.fromDense ca _ h) (fun _ _ => W.store ((h _ _).add (h _ _))) (Wider.fromDense cc _ fun _ _ => h _ _)
  | .bottomLeft _ _ ca cc, _, _, _, h => .bottomLeft (Wider.fromDense ca _ h) (fun _ _ => W.store ((h _ _).add (h _ _))) (Wider.fromDense cc _ fun _ _ => h _ _)

theorem Wider.matmulT (n : ℕ) {o o' : Obj α} {X X' : M α} (h : LeO o o') (hX : LeM X X') : LeM (matmulT st n o X) (matmulT st' n o' X') := by
  cases h with
  | diagonal h => exact fun i j => W.store ((h i).mul (hX i j))
  | block hb hl => exact fun i j => .ite (W.store (.sum (fun t => (hb _ _ _).mul (hX _ _)) _)) (W.store (.sum (fun t => (hl _ _).mul (hX _ _)) _))
  | hier hA hB hC hD hE =>
    have sX : ∀ k, LeM (fun t j => X (k + t) j) (fun t j => X' (k + t) j) := fun k i j => hX _ _
    exact fun i j => .ite (W.store ((W.store ((W.mm _ hA hX i j).add (W.mm _ hB (sX _) i j))).add (W.mm _ (fun i t => hB i _) (sX _) i j)))
      (.ite (W.store ((hC _).mul (hX _ _))) (W.store ((W.mm _ hD (sX _) _ _).add (W.mm _ hE (sX _) _ _))))
  | dense h => exact W.mm n (LeO.dense h |>.toDense n) hX
  | tril h => exact W.mm n (LeO.tril h |>.toDense n) hX
  | triu h => exact W.mm n (LeO.triu h |>.toDense n) hX
  | topRight a b c => exact W.mm n (LeO.topRight a b c |>.toDense n) hX
  | bottomLeft a b c => exact W.mm n (LeO.bottomLeft a b c |>.toDense n) hX

theorem Wider.rmatmat (n : ℕ) {o o' : Obj α} {X X' : M α} (h : LeO o o') (hX : LeM X X') : LeM (rmatmat st n o X) (rmatmat st' n o' X') := by
  cases h with
  | diagonal h => exact W.matmulT n (.diagonal h) hX
  | block hb hl => exact W.matmulT n (.block hb hl) hX
  | hier hA hB hC hD hE =>
    have sX : ∀ k, LeM (fun t j => X (k + t) j) (fun t j => X' (k + t) j) := fun k i j => hX _ _
    exact fun i j => .ite (W.mm _ hA.tr hX i j)
      (.ite (W.store ((W.store ((W.mm _ hB.tr hX _ _).add (W.store ((hC _).mul (hX _ _))))).add (W.mm _ hD.tr (sX _) _ _)))
        (W.store ((W.mm _ (LeM.tr fun i t => hB i _) hX _ _).add (W.mm _ hE.tr (sX _) _ _))))
  | dense h => exact W.mm n (LeO.dense h |>.toDense n).tr hX
  | tril h => exact W.mm n (LeO.tril h |>.toDense n).tr hX
  | triu h => exact W.mm n (LeO.triu h |>.toDense n).tr hX
  | topRight a b c => exact W.mm n (LeO.topRight a b c |>.toDense n).tr hX
  | bottomLeft a b c => exact W.mm n (LeO.bottomLeft a b c |>.toDense n).tr hX

theorem Wider.conv (n : ℕ) {v v' w w' : V α} (hv : LeV v v') (hw : LeV w w') : LeV (conv st n v w) (conv st' n v' w') := fun _ =>
  W.store (.ite (.sum (fun _ => (hv _).mul (.ite (hw _) (.refl _))) n) ((Le.sum hv n).add (.sum hw _)))

theorem Wider.product (n : ℕ) {o o' p p' : Obj α} (h : LeO o o') (g : LeO p p') : LeO (product st n o p) (product st' n o' p') := by
  have F : LeO (Ov.fromDense st o.cls n (Ov.mm st n (Ov.toDense n o) (Ov.toDense n p))) (Ov.fromDense st' o'.cls n (Ov.mm st' n (Ov.toDense n o') (Ov.toDense n p'))) := by
    rw [h.cls]; exact W.fromDense _ n (W.mm n (h.toDense n) (g.toDense n))
  cases h <;> cases g <;> try exact F
  case diagonal.diagonal h _ _ g => exact .diagonal fun i => W.store ((h i).mul (g i))
  case block.block hb hl _ _ _ _ _ gb gl => exact .block (fun k => W.mm _ (hb k) (gb k)) (W.mm _ hl gl)
  case hier.hier hA hB hC hD hE _ _ _ _ _ _ _ _ _ _ _ _ gA gB gC gD gE =>
    have sB := fun q : ℕ => (fun i t => hB i (q + t) : LeM _ _)
    exact .hier (W.mm _ hA gA)
      (fun i j => .ite (W.store ((W.store ((W.mm _ hA gB i j).add (W.store ((hB i j).mul (gC j))))).add (W.mm _ (sB _) gD i j))) (W.store ((W.mm _ hA gB i j).add (W.mm _ (sB _) gE i _))))
      (fun i => W.store ((hC i).mul (gC i))) (fun i j => W.store ((W.store ((hD i j).mul (gC j))).add (W.mm _ hE gD i j))) (W.mm _ hE gE)
  case tril.tril h _ _ g => exact .tril (W.conv n h g)
  case triu.triu h _ _ g => exact .triu (W.conv n h g)

theorem Wider.inner (n : ℕ) {o o' : Obj α} (h : LeO o o') : LeO (inner st n o) (inner st' n o') := by
  have F : LeO (Ov.fromDense st o.cls n (Ov.mm st n (Ov.tr (Ov.toDense n o)) (Ov.toDense n o))) (Ov.fromDense st' o'.cls n (Ov.mm st' n (Ov.tr (Ov.toDense n o')) (Ov.toDense n o'))) := by
    rw [h.cls]; exact W.fromDense _ n (W.mm n (h.toDense n).tr (h.toDense n))
  cases h <;> try exact F
  case diagonal h => exact .diagonal fun i => W.store ((h i).mul (h i))
  case block hb hl => exact .block (fun k => W.mm _ (hb k) (hb k).tr) (W.mm _ hl hl.tr)
  case hier hA hB hC hD hE =>
    have sB := fun q : ℕ => (fun i t => hB i (q + t) : LeM _ _)
    exact .hier (W.mm _ hA.tr hA) (W.mm _ (W.times 2 hA.tr) hB)
      (fun i => W.store ((W.store ((W.store ((hC i).mul (hC i))).add (W.store (.sum (fun t => (hB t i).mul (hB t i)) _)))).add (W.store (.sum (fun t => (hD t i).mul (hD t i)) _))))
      (W.times 2 (W.plus (W.mm _ (LeM.tr (sB _)) hB) (W.mm _ hE.tr hD))) (W.plus (W.mm _ hE.tr hE) (W.mm _ (LeM.tr (sB _)) (sB _)))

theorem Wider.innerX (n : ℕ) {o o' : Obj α} (m : ℕ) {X X' : M α} (h : LeO o o') (hX : LeM X X') : LeO (innerX st n o m X) (innerX st' n o' m X') := by
  have S := W.rmatmat n h hX
  have F : LeO (Ov.fromDense st o.cls n (Ov.mm st m (Ov.rmatmat st n o X) (Ov.tr (Ov.rmatmat st n o X))))
      (Ov.fromDense st' o'.cls n (Ov.mm st' m (Ov.rmatmat st' n o' X') (Ov.tr (Ov.rmatmat st' n o' X')))) := by
    rw [h.cls]; exact W.fromDense _ n (W.mm m S S.tr)
  cases h <;> try exact F
  case diagonal h => exact .diagonal fun i => W.store ((W.store ((h i).mul (h i))).mul (W.store (.sum (fun j => (hX i j).mul (hX i j)) m)))
  case hier hA hB hC hD hE =>
    have sS := fun q : ℕ => (fun i j => S (q + i) j : LeM _ _)
    exact .hier (W.mm m S S.tr) (W.times 2 (W.mm m S (LeM.tr (sS _)))) (fun i => W.store (.sum (fun j => (sS _ i j).mul (sS _ i j)) m)) (W.mm m (W.times 2 (sS _)) (LeM.tr (sS _))) (W.mm m (sS _) (LeM.tr (sS _)))

theorem Wider.averageTrace (n : ℕ) {o o' : Obj α} (h : LeO o o') : Le (averageTrace st n o) (averageTrace st' n o') := by
  have F : Le (st (.fin (1 / n) * Fl.sum n fun i => Ov.toDense n o i i)) (st' (.fin (1 / n) * Fl.sum n fun i => Ov.toDense n o' i i)) :=
    W.store ((Le.refl _).mul (.sum (fun i => h.toDense n i i) n))
  have D : ∀ {x y : Fl α}, Le x y → Le (st (.fin (1 / n) * x)) (st' (.fin (1 / n) * y)) := fun h => W.store ((Le.refl _).mul h)
  cases h <;> try exact F
  case diagonal h => exact D (.sum h n)
  case block hb hl => exact W.store ((W.store (.sum (fun k => .sum (fun i => D (hb k i i)) _) _)).add (W.store (.sum (fun i => D (hl i i)) _)))
  case hier hA hB hC hD hE => exact W.store ((W.store ((W.store (.sum (fun i => D (hA i i)) _)).add (W.store (.sum (fun i => D (hC i)) _)))).add (W.store (.sum (fun i => D (hE i i)) _)))
  case tril h => exact h 0
  case triu h => exact h 0

theorem Wider.add {a a' : Fl α} (ha : Le a a') {o o' : Obj α} (h : LeO o o') : ∀ {p p' : Obj α}, LeO p p' → LeO (add st a o p) (add st' a' o' p') := by
  have A : ∀ {x x' y y' : Fl α}, Le x x' → Le y y' → Le (st (x + a * y)) (st' (x' + a' * y')) := fun hx hy => W.store (hx.add (ha.mul hy))
  induction h with
  | dense h => intro p p' g; cases g <;> first | exact .dense h | (rename_i g; exact .dense fun i j => A (h i j) (g i j))
  | diagonal h => intro p p' g; cases g <;> first | exact .diagonal h | (rename_i g; exact .diagonal fun i => A (h i) (g i))
  | block hb hl => intro p p' g; cases g <;> first | exact .block hb hl | (rename_i gb gl; exact .block (fun k i j => A (hb k i j) (gb k i j)) fun i j => A (hl i j) (gl i j))
  | hier hA hB hC hD hE =>
    intro p p' g
    cases g <;> first
      | exact .hier hA hB hC hD hE
      | (rename_i gA gB gC gD gE
         exact .hier (fun i j => A (hA i j) (gA i j)) (fun i j => A (hB i j) (gB i j)) (fun i => A (hC i) (gC i)) (fun i j => A (hD i j) (gD i j)) fun i j => A (hE i j) (gE i j))
  | tril h => intro p p' g; cases g <;> first | exact .tril h | (rename_i g; exact .tril fun i => A (h i) (g i))
  | triu h => intro p p' g; cases g <;> first | exact .triu h | (rename_i g; exact .triu fun i => A (h i) (g i))
  | topRight hA hB hC iA iC => intro p p' g; cases g <;> first | exact .topRight hA hB hC | (rename_i gA gB gC; exact .topRight (iA gA) (fun i j => A (hB i j) (gB i j)) (iC gC))
  | bottomLeft hA hB hC iA iC => intro p p' g; cases g <;> first | exact .bottomLeft hA hB hC | (rename_i gA gB gC; exact .bottomLeft (iA gA) (fun i j => A (hB i j) (gB i j)) (iC gC))

theorem Wider.diagPlus (a : α) {d d' : M α} (h : LeM d d') : LeM (diagPlus st a d) (diagPlus st' a d') := fun i j => .ite (W.store ((h i j).add (.refl _))) (h i j)

theorem Wider.diagAdd (n : ℕ) (a : α) {o o' : Obj α} (h : LeO o o') : LeO (diagAdd st n a o) (diagAdd st' n a o') := by
  cases h with
  | dense h => exact .dense (W.diagPlus a h)
  | diagonal h => exact .diagonal fun i => W.store ((h i).add (.refl _))
  | block hb hl => exact .block (fun k => W.diagPlus a (hb k)) (W.diagPlus a hl)
  | hier hA hB hC hD hE => exact .hier (W.diagPlus a hA) hB (fun i => W.store ((hC i).add (.refl _))) hD (W.diagPlus a hE)
  | tril h => exact .tril fun t => .ite (W.store ((h t).add (.refl _))) (h t)
  | triu h => exact .triu fun t => .ite (W.store ((h t).add (.refl _))) (h t)
  | topRight hA hB hC => exact W.fromDense _ n (W.diagPlus a ((LeO.topRight hA hB hC).toDense n))
  | bottomLeft hA hB hC => exact W.fromDense _ n (W.diagPlus a ((LeO.bottomLeft hA hB hC).toDense n))

theorem Wider.scale (c : α) {o o' : Obj α} (h : LeO o o') : LeO (scale st c o) (scale st' c o') := by
  have V : ∀ {v v' : V α}, LeV v v' → LeV (fun i => st (.fin c * v i)) (fun i => st' (.fin c * v' i)) := fun h i => W.store ((Le.refl _).mul (h i))
  induction h with
  | dense h => exact .dense (W.times c h)
  | diagonal h => exact .diagonal (V h)
  | block hb hl => exact .block (fun k => W.times c (hb k)) (W.times c hl)
  | hier hA hB hC hD hE => exact .hier (W.times c hA) (W.times c hB) (V hC) (W.times c hD) (W.times c hE)
  | tril h => exact .tril (V h)
  | triu h => exact .triu (V h)
  | topRight _ hB _ iA iC => exact .topRight iA (W.times c hB) iC
  | bottomLeft _ hB _ iA iC => exact .bottomLeft iA (W.times c hB) iC

end operations

/-- layers -/
structure LeL (l l' : Lay α) : Prop where
  K : LeO l.K l'.K
  C : LeO l.C l'.C
  mK : LeO l.mK l'.mK
  mC : LeO l.mC l'.mC
  H : Option.Rel (fun h h' => LeO h.1 h'.1 ∧ LeO h.2 h'.2) l.H l'.H
  W : LeM l.W l'.W
  P : LeM l.P l'.P

/-- operations with the same hyper-parameters (also the same norms, if `normalize_lr_cov` is on) on inputs, output gradients, gradients and parameters that are infinite or NaN in the first run, or the
same in both -/
inductive LeOp : Op α → Op α → Prop
  | backward {m m' : ℕ} {X X' g g' : M α} (c : α) (hX : LeM X X') (hg : LeM g g') : LeOp (.backward m X m' g c) (.backward m X' m' g' c)
  | skip : LeOp .skip .skip
  | step (h : Hyp α) (due : Bool) {G G' : M α} (hG : LeM G G') : LeOp (.step h due G) (.step h due G')
  | setParam {W W' : M α} (hW : LeM W W') : LeOp (.setParam W) (.setParam W')

section layer
variable {st st' : Fl α → Fl α} (W : Wider st st') (n d : ℕ)
include W

theorem Wider.newMomentum {c : Cls} (h : Hyp α) {H H' I I' : Obj α} {a a' γ γ' : Fl α} (hH : LeO H H') (ha : Le a a') (hI : LeO I I') (hγ : Le γ γ') :
    LeO (newMomentum st n c h H a I γ) (newMomentum st' n c h H' a' I' γ') :=
  W.scale _ (W.diagAdd n _ (W.add hγ (W.add ha (W.fromDense c n fun _ _ => .refl _) hH) hI))

theorem Wider.update (h : Hyp α) {l l' : Lay α} (r : LeL l l') : LeL (update st n d h l) (update st' n d h l') := by
  have rH := r.H
  unfold Ov.update
  revert rH
  cases l.H with
  | none =>
    cases l'.H with
    | none => exact fun _ => r
    | some _ => exact fun e => nomatch e
  | some H =>
    cases l'.H with
    | none => exact fun e => nomatch e
    | some H' =>
      intro e
      obtain ⟨HK, HC⟩ := H
      obtain ⟨HK', HC'⟩ := H'
      cases e with
      | some e =>
        obtain ⟨e1, e2⟩ := e
        have iK := W.inner n r.K
        have iC := W.inner d r.C
        have T : ∀ {k : ℕ} {o o' : Obj α} (a b : α), LeO o o' → Le (if h.kfac then Fl.fin a else st (.fin b * Ov.averageTrace st k o)) (if h.kfac then Fl.fin a else st' (.fin b * Ov.averageTrace st' k o')) :=
          fun a b g => .ite (.refl _) (W.store ((Le.refl _).mul (W.averageTrace _ g)))
        dsimp only
        have mK1 := W.newMomentum n (c := l.K.cls) h e1 (T (k := d) 1 h.unscale e2) iK (T (k := d) h.damping h.damping iC)
        have mC1 := W.newMomentum d (c := l.C.cls) h e2 (T (k := n) h.unscale h.unscale e1) iC (T (k := n) h.damping h.damping iK)
        rw [← r.K.cls, ← r.C.cls]
        by_cases ha : h.alpha1 ≠ 0
        · simp only [if_pos ha]
          have m1 := W.add (.refl (.fin h.alpha1)) mK1 r.mK
          have m2 := W.add (.refl (.fin h.alpha1)) mC1 r.mC
          exact ⟨W.add (.refl _) r.K (W.product n r.K m1), W.add (.refl _) r.C (W.product d r.C m2), m1, m2, .none, r.W, r.P⟩
        · simp only [if_neg ha]
          exact ⟨W.add (.refl _) r.K (W.product n r.K mK1), W.add (.refl _) r.C (W.product d r.C mC1), r.mK, r.mC, .none, r.W, r.P⟩

theorem Wider.natGrad (h : Hyp α) {l l' : Lay α} (r : LeL l l') {G G' : M α} (hG : LeM G G') : LeM (natGrad st n d h l G) (natGrad st' n d h l' G') :=
  W.matmulT d r.C (W.rmatmat d r.C (W.matmulT n r.K (W.rmatmat n r.K (W.times _ hG).tr)).tr)

theorem Wider.step (h : Hyp α) (due : Bool) {l l' : Lay α} (r : LeL l l') {G G' : M α} (hG : LeM G G') : LeL (step st n d h due G l) (step st' n d h due G' l') := by
  have r1 : LeL (if due then Ov.update st n d h l else l) (if due then Ov.update st' n d h l' else l') := by
    cases due
    · exact r
    · exact W.update n d h r
  unfold Ov.step
  generalize (if due then Ov.update st n d h l else l) = q at r1
  generalize (if due then Ov.update st' n d h l' else l') = q' at r1
  have hN := W.natGrad n d h r1 hG
  have hs : LeM (fun i j => if h.weightDecay ≠ 0 then st (Ov.natGrad st n d h q G i j + .fin h.weightDecay * q.W i j) else Ov.natGrad st n d h q G i j)
      (fun i j => if h.weightDecay ≠ 0 then st' (Ov.natGrad st' n d h q' G' i j + .fin h.weightDecay * q'.W i j) else Ov.natGrad st' n d h q' G' i j) :=
    fun i j => .ite (W.store ((hN i j).add ((Le.refl _).mul (r1.W i j)))) (hN i j)
  dsimp only
  by_cases hm : h.momentum ≠ 0
  · simp only [if_pos hm]
    have hP := fun i j => W.store ((W.store ((Le.refl (.fin h.momentum)).mul (r1.P i j))).add (hs i j))
    exact ⟨r1.K, r1.C, r1.mK, r1.mC, r1.H, fun i j => W.store ((r1.W i j).add ((Le.refl _).mul (hP i j))), hP⟩
  · simp only [if_neg hm]
    exact ⟨r1.K, r1.C, r1.mK, r1.mC, r1.H, fun i j => W.store ((r1.W i j).add ((Le.refl _).mul (hs i j))), r1.P⟩

theorem Wider.exec {l l' : Lay α} (r : LeL l l') {op op' : Op α} (ho : LeOp op op') : LeL (exec st n d l op) (exec st' n d l' op') := by
  cases ho with
  | backward c hX hg =>
    rename_i m m' X X' g g'
    have h1 := W.innerX n m r.K hX
    have h2 := W.innerX d m' r.C (W.times c hg)
    refine ⟨r.K, r.C, r.mK, r.mC, ?_, r.W, r.P⟩
    have rH := r.H
    simp only [Ov.exec, Ov.backward]
    revert rH
    cases l.H with
    | none =>
      cases l'.H with
      | none => exact fun _ => .some ⟨h1, h2⟩
      | some _ => exact fun e => nomatch e
    | some H =>
      cases l'.H with
      | none => exact fun e => nomatch e
      | some H' =>
        intro e
        cases e with
        | some e => exact .some ⟨W.add (.refl _) e.1 h1, W.add (.refl _) e.2 h2⟩
  | skip => exact ⟨r.K, r.C, r.mK, r.mC, .none, r.W, r.P⟩
  | step h due hG => exact W.step n d h due r hG
  | setParam hW => exact ⟨r.K, r.C, r.mK, r.mC, r.H, hW, r.P⟩

/-- **Overflow is never silent.** Two runs of a layer with the same operations, in a type that overflows and in a wider one: every entry of every factor, momentum, statistic, parameter and buffer is
infinite or NaN in the first run, or the same in both. All classes, all histories, all shapes. -/
theorem C98_never_silent (ops ops' : List (Op α)) (ho : List.Forall₂ LeOp ops ops') : ∀ l l' : Lay α, LeL l l' → LeL (run st n d l ops) (run st' n d l' ops') := by
  induction ho with
  | nil => exact fun l l' r => r
  | cons h _ ih => exact fun l l' r => ih _ _ (W.exec n d r h)

end layer

/-- a type with a larger largest number is wider -/
theorem wider_clip [IsStrictOrderedRing α] {Ω Ω' : α} (h : Ω ≤ Ω') : Wider (Fl.clip Ω) (Fl.clip Ω') where
  bad := bad_clip Ω
  le x := by
    rcases x with x | s | _
    · simp only [Fl.clip]
      by_cases a : Ω < x
      · exact .inl (by rw [if_pos a]; trivial)
      · by_cases b : x < -Ω
        · exact .inl (by rw [if_neg a, if_pos b]; trivial)
        · exact .inr (by rw [if_neg a, if_neg b, if_neg (not_lt.2 ((not_lt.1 a).trans h)), if_neg (not_lt.2 ((neg_le_neg h).trans (not_lt.1 b)))])
    · exact .inr rfl
    · exact .inr rfl

/-- not overflowing at all is wider -/
theorem wider_id (Ω : α) : Wider (Fl.clip Ω) id where
  bad := bad_clip Ω
  le x := by
    rcases x with x | s | _
    · simp only [Fl.clip]
      split_ifs
      · exact .inl trivial
      · exact .inl trivial
      · exact .inr rfl
    · exact .inr rfl
    · exact .inr rfl

theorem LeL.refl (l : Lay α) : LeL l l :=
  ⟨.refl _, .refl _, .refl _, .refl _, by cases l.H with | none => exact .none | some h => exact .some ⟨.refl _, .refl _⟩, fun _ _ => .refl _, fun _ _ => .refl _⟩

theorem LeOp.refl : ∀ op : Op α, LeOp op op
  | .backward .. => .backward _ (fun _ _ => .refl _) fun _ _ => .refl _
  | .skip => .skip
  | .step .. => .step _ _ fun _ _ => .refl _
  | .setParam _ => .setParam fun _ _ => .refl _

/-- **A finite parameter is right**: with the same inputs and gradients, a parameter that is a number after a run in a type with largest number `Ω` has the value it has without overflow, and in every type with a
larger largest number; so has every number of the natural gradient. -/
theorem C98_finite_right [IsStrictOrderedRing α] {n d : ℕ} (Ω : α) (l : Lay α) (ops : List (Op α)) (i j : ℕ) :
    (¬ ((run (Fl.clip Ω) n d l ops).W i j).Bad → (run (Fl.clip Ω) n d l ops).W i j = (run id n d l ops).W i j ∧
      ∀ Ω', Ω ≤ Ω' → (run (Fl.clip Ω') n d l ops).W i j = (run id n d l ops).W i j) ∧
    ∀ (y : Hyp α) (G : M α), ¬ (natGrad (Fl.clip Ω) n d y (run (Fl.clip Ω) n d l ops) G i j).Bad →
      natGrad (Fl.clip Ω) n d y (run (Fl.clip Ω) n d l ops) G i j = natGrad id n d y (run id n d l ops) G i j := by
  have F : List.Forall₂ LeOp ops ops := List.forall₂_same.2 fun op _ => .refl op
  have r := C98_never_silent (wider_id Ω) n d ops ops F l l (.refl l)
  refine ⟨fun h => ?_, fun y G h => ((wider_id Ω).natGrad n d y r (fun _ _ => .refl _) i j).resolve_left h⟩
  have e := (r.W i j).resolve_left h
  exact ⟨e, fun Ω' h1 => ((C98_never_silent (wider_clip h1) n d ops ops F l l (.refl l)).W i j |>.resolve_left h).symm.trans e⟩

/-! ### `normalize_lr_cov` hides an overflow -/

/-- a diagonal factor `K` with two entries -/
def two : Lay ℚ :=
  ⟨.diagonal fun _ => .fin 1, .dense fun _ _ => .fin 1, .diagonal fun _ => .fin 0, .dense fun _ _ => .fin 0, none, fun _ _ => .fin 1, fun _ _ => .fin 0⟩

/-- a pass whose statistics overflow in one entry of `K` -/
def twoPass : Op ℚ := .backward 1 (fun i _ => if i = 0 then .fin 300 else .fin 2) 1 (fun _ _ => .fin 1) 1

/-- hyper-parameters with Riemannian momentum 1/2 and `normalize_lr_cov` -/
def twoHyp (ν : Fl ℚ) : Hyp ℚ :=
  { kfac := true, alpha1 := 1 / 2, damping := 0, half := 1 / 4, lrCov := 1 / 10, norms := some (ν, .fin 0), momentum := 0, weightDecay := 0, lr := 1 / 10, unscale := 1, inv := 1 }

/-- **With `normalize_lr_cov` an overflow can be silent.** One entry of the statistics overflows, so the norm of the momentum of `K` is infinite in half precision and 89999/4 without overflow: the
update of all of `K` is divided by infinity. The overflowed entry becomes NaN, and the other entry of `K` is a number in both runs, but not the same one. -/
theorem C98_normalize_false :
    (match (run (Fl.clip 65504) 2 1 two [twoPass, .step (twoHyp (.inf false)) true fun _ _ => .fin 0]).mK with | .diagonal v => [v 0, v 1] | _ => []) = [.inf false, .fin (3 / 4)] ∧
    (match (run id 2 1 two [twoPass, .step (twoHyp (.fin (89999 / 4))) true fun _ _ => .fin 0]).mK with | .diagonal v => [v 0, v 1] | _ => []) = [.fin (89999 / 4), .fin (3 / 4)] ∧
    (match (run (Fl.clip 65504) 2 1 two [twoPass, .step (twoHyp (.inf false)) true fun _ _ => .fin 0]).K with | .diagonal v => [v 0, v 1] | _ => []) = [.nan, .fin 1] ∧
    (match (run id 2 1 two [twoPass, .step (twoHyp (.fin (89999 / 4))) true fun _ _ => .fin 0]).K with | .diagonal v => [v 0, v 1] | _ => []) = [.fin (9 / 10), .fin (1 - 3 / 899990)] := by
  decide +kernel

/-- hypotheses of `C98_finite_right` with an overflow in the same layer: one column of parameters is NaN, the other is a number -/
example : ((run (Fl.clip 65504) 2 1 two [twoPass, .step { twoHyp (.fin 0) with norms := none } true fun _ _ => .fin 1]).W 0 0).Bad ∧
    ¬ ((run (Fl.clip 65504) 2 1 two [twoPass, .step { twoHyp (.fin 0) with norms := none } true fun _ _ => .fin 1]).W 0 1).Bad := by decide +kernel

/-! ### signs -/

/-- the sign of a value -/
def sgn : Fl α → ℤ
  | .fin x => if x = 0 then 0 else if x < 0 then -1 else 1
  | .inf s => if s then -1 else 1
  | .nan => 0

/-- signs of products, also of infinite ones -/
theorem C98_sign [IsStrictOrderedRing α] (x y : Fl α) (h : x * y ≠ .nan) : sgn (x * y) = sgn x * sgn y := by
  change Fl.mul x y ≠ .nan at h
  change sgn (Fl.mul x y) = _
  rcases x with x | s | _ <;> rcases y with y | s' | _ <;> simp only [Fl.mul, Fl.infMul, sgn, ne_eq, not_true_eq_false] at h ⊢
  · rcases lt_trichotomy x 0 with a | a | a <;> rcases lt_trichotomy y 0 with b | b | b
    · simp [a, b, a.ne, b.ne, (mul_pos_of_neg_of_neg a b).ne', (mul_pos_of_neg_of_neg a b).le]
    · simp [b]
    · simp [a, b.not_gt, a.ne, b.ne', mul_neg_of_neg_of_pos a b]
    · simp [a]
    · simp [a]
    · simp [a]
    · simp [b, a.not_gt, b.ne, a.ne', mul_neg_of_pos_of_neg a b]
    · simp [b]
    · simp [a.not_gt, b.not_gt, a.ne', b.ne', (mul_pos a b).le]
  · rcases lt_trichotomy x 0 with a | a | a
    · cases s' <;> simp [a, a.ne, sgn]
    · simp [a] at h
    · cases s' <;> simp [a.not_gt, a.ne', sgn]
  · rcases lt_trichotomy y 0 with a | a | a
    · cases s <;> simp [a, a.ne, sgn]
    · simp [a] at h
    · cases s <;> simp [a.not_gt, a.ne', sgn]
  · cases s <;> cases s' <;> simp

example : sgn (Fl.inf true * Fl.inf true : Fl ℚ) = 1 := (C98_sign (.inf true) (.inf true) (by decide +kernel)).trans (by decide +kernel)

end Ov
