import Verif.Props.Nan

/-! # NaN over training: what one NaN does to a layer -/

namespace Nn

/-! ## Vocabulary of the statements -/

/-- index `i` is in the diagonal part of a hierarchical matrix -/
def Middle (m1 m2 n i : ℕ) : Prop := (Hier.blockDims m1 m2 n).1 ≤ i ∧ i < (Hier.blockDims m1 m2 n).1 + (Hier.blockDims m1 m2 n).2.1

/-- NaN in row `i` of the data spoils row `j` of the pre-conditioned gradient -/
def Reach : Cls → ℕ → ℕ → ℕ → Prop
  | .diagonal, _, i, j => i = j
  | .block D, _, i, j => i / D = j / D
  | .hier m1 m2, n, i, j => Middle m1 m2 n i → Middle m1 m2 n j → i = j
  | _, _, _, _ => True

/-! ## Objects with NaN from given rows -/

/-- NaN exactly where the rows `R` of the data put it -/
def Stat (R : ℕ → Prop) (n : ℕ) : Obj → Prop
  | .diagonal v => ∀ i < n, v i ↔ R i
  | .block D b l => (∀ k < n / D, ∀ i < D, ∀ j < D, b k i j ↔ ∃ t < D, R (k * D + t)) ∧ ∀ i < n % D, ∀ j < n % D, l i j ↔ ∃ t < n % D, R (n / D * D + t)
  | .hier m1 m2 A B C D E =>
    let (k1, q, k2) := Hier.blockDims m1 m2 n
    let τ := ∃ t < k1, R t
    let σ := τ ∨ ∃ t < k2, R (k1 + q + t)
    (∀ i < k1, ∀ j < k1, A i j ↔ τ) ∧ (∀ i < k1, ∀ j < q, B i j ↔ σ ∨ R (k1 + j)) ∧ (∀ i < k1, ∀ j < k2, B i (q + j) ↔ σ) ∧ (∀ i < q, C i ↔ σ ∨ R (k1 + i)) ∧
      (∀ i < k2, ∀ j < q, D i j ↔ σ ∨ R (k1 + j)) ∧ ∀ i < k2, ∀ j < k2, E i j ↔ σ
  | o => All (fun x => x ↔ ∃ i < n, R i) n o

theorem all_mono {p q : Prop → Prop} (h : ∀ x, p x → q x) : ∀ {n : ℕ} {o : Obj}, All p n o → All q n o
  | n, .dense _, a => fun i hi j hj => h _ (a i hi j hj)
  | n, .diagonal _, a => fun i hi => h _ (a i hi)
  | n, .block .., a => ⟨fun k hk i hi j hj => h _ (a.1 k hk i hi j hj), fun i hi j hj => h _ (a.2 i hi j hj)⟩
  | n, .hier .., a => ⟨fun i hi j hj => h _ (a.1 i hi j hj), fun i hi j hj => h _ (a.2.1 i hi j hj), fun i hi => h _ (a.2.2.1 i hi), fun i hi j hj => h _ (a.2.2.2.1 i hi j hj),
      fun i hi j hj => h _ (a.2.2.2.2 i hi j hj)⟩
  | n, .tril _, a => fun i hi => h _ (a i hi)
  | n, .triu _, a => fun i hi => h _ (a i hi)
  | n, .topRight .., a => ⟨all_mono h a.1, fun i hi j hj => h _ (a.2.1 i hi j hj), all_mono h a.2.2⟩
  | n, .bottomLeft .., a => ⟨all_mono h a.1, fun i hi j hj => h _ (a.2.1 i hi j hj), all_mono h a.2.2⟩

theorem all_full {P : Prop} {n : ℕ} {o : Obj} (hP : P) : All (fun x => x ↔ P) n o ↔ Full n o :=
  ⟨all_mono fun _ h => h.2 hP, all_mono fun _ h => iff_of_true h hP⟩

theorem all_clean {P : Prop} {n : ℕ} {o : Obj} (hP : ¬ P) : All (fun x => x ↔ P) n o ↔ Clean n o :=
  ⟨all_mono fun _ h => fun hx => hP (h.1 hx), all_mono fun _ h => iff_of_false h hP⟩

/-- classes for which one NaN row makes everything NaN -/
theorem stat_other {R : ℕ → Prop} {n : ℕ} {o : Obj} (h1 : ∀ v, o ≠ .diagonal v) (h2 : ∀ D b l, o ≠ .block D b l) (h3 : ∀ a b A B C D E, o ≠ .hier a b A B C D E) :
    Stat R n o ↔ All (fun x => x ↔ ∃ i < n, R i) n o := by
  cases o with
  | diagonal v => exact (h1 v rfl).elim
  | block D b l => exact (h2 D b l rfl).elim
  | hier a b A B C D E => exact (h3 a b A B C D E rfl).elim
  | _ => exact Iff.rfl

theorem clean_stat {R : ℕ → Prop} {n : ℕ} {o : Obj} (hR : ∀ i < n, ¬ R i) : Stat R n o ↔ Clean n o := by
  have base : All (fun x => x ↔ ∃ i < n, R i) n o ↔ Clean n o := all_clean fun ⟨i, hi, h⟩ => hR i hi h
  cases o <;> first | exact base | skip
  case diagonal v => exact forall₂_congr fun i hi => by simp [hR i hi]
  case block D b l =>
    refine and_congr (forall₂_congr fun k hk => forall₂_congr fun i hi => forall₂_congr fun j hj => ?_) (forall₂_congr fun i hi => forall₂_congr fun j hj => ?_)
    · have : ¬ ∃ t < D, R (k * D + t) := fun ⟨t, ht, h⟩ => by have := blk_lt hk ht; exact hR _ (by omega) h
      simp [this]
    · have : ¬ ∃ t < n % D, R (n / D * D + t) := fun ⟨t, ht, h⟩ => hR _ (last_lt ht).1 h
      simp [this]
  case hier m1 m2 A B C D E =>
    obtain ⟨k1, q, k2, hd, hs⟩ := dims m1 m2 n
    simp only [Stat, Clean, All, hd]
    have hτ : ¬ ∃ t < k1, R t := fun ⟨t, ht, h⟩ => hR t (by omega) h
    have hβ : ¬ ∃ t < k2, R (k1 + q + t) := fun ⟨t, ht, h⟩ => hR _ (by omega) h
    simp only [hτ, hβ, false_or, iff_false]
    constructor
    · rintro ⟨a1, a2, a3, a4, a5, a6⟩
      refine ⟨a1, fun i hi j hj => ?_, fun i hi h => hR _ (by omega) ((a4 i hi).1 h), fun i hi j hj h => hR _ (by omega) ((a5 i hi j hj).1 h), a6⟩
      by_cases c : j < q
      · exact fun h => hR _ (by omega) ((a2 i hi j c).1 h)
      · have := a3 i hi (j - q) (by omega)
        rwa [show q + (j - q) = j by omega] at this
    · rintro ⟨a1, a2, a3, a4, a5⟩
      exact ⟨a1, fun i hi j hj => iff_of_false (a2 i hi j (by omega)) (hR _ (by omega)), fun i hi j hj => a2 i hi _ (by omega), fun i hi => iff_of_false (a3 i hi) (hR _ (by omega)),
        fun i hi j hj => iff_of_false (a4 i hi j hj) (hR _ (by omega)), a5⟩

theorem ex_or {k : ℕ} (hk : 0 < k) {P Q : Prop} : (∃ t < k, P ∨ Q) ↔ P ∨ Q := ⟨fun ⟨_, _, h⟩ => h, fun h => ⟨0, hk, h⟩⟩

/-- statistics of one batch, computed with a clean factor -/
theorem stat_innerX {n m : ℕ} {o : Obj} {X : M} (h : Clean n o) : Stat (fun i => ∃ j < m, X i j) n (innerX n o m X) := by
  have base : ∀ c, (∀ X i j, rmatmat n o X i j = mm n (tr (toDense n o)) X i j) →
      All (fun x => x ↔ ∃ i < n, ∃ j < m, X i j) n (fromDense c n (mm m (rmatmat n o X) (tr (rmatmat n o X)))) := by
    intro c hr
    have key : ∀ i < n, ∀ j, rmatmat n o X i j ↔ ∃ t < n, X t j := by
      intro i hi j
      refine ⟨clean_rmatmat h hi, ?_⟩
      rintro ⟨t, ht, g⟩
      rw [hr]; exact ⟨t, ht, Or.inr g⟩
    refine all_const (fun x => x ↔ ∃ i < n, ∃ j < m, X i j) _ Iff.rfl c n fun i hi j hj => ?_
    simp only [mm, tr]
    constructor
    · rintro ⟨s, hs, g⟩
      rcases g with g | g
      · obtain ⟨t, ht, g⟩ := (key i hi s).1 g; exact ⟨t, ht, s, hs, g⟩
      · obtain ⟨t, ht, g⟩ := (key j hj s).1 g; exact ⟨t, ht, s, hs, g⟩
    · rintro ⟨t, ht, s, hs, g⟩
      exact ⟨s, hs, Or.inl ((key i hi s).2 ⟨t, ht, g⟩)⟩
  cases o
  case dense => exact base .dense fun _ _ _ => rfl
  case tril => exact base .tril fun _ _ _ => rfl
  case triu => exact base .triu fun _ _ _ => rfl
  case topRight x y ca cc _ _ _ => exact base (.topRight x y ca cc) fun _ _ _ => rfl
  case bottomLeft x y ca cc _ _ _ => exact base (.bottomLeft x y ca cc) fun _ _ _ => rfl
  case diagonal v => exact fun i hi => ⟨fun g => g.resolve_left (h i hi), Or.inr⟩
  case block D b l =>
    have key : ∀ k < n / D, ∀ i < D, ∀ j, rmatmat n (.block D b l) X (k * D + i) j ↔ ∃ t < D, X (k * D + t) j := by
      intro k hk i hi j
      have a := blk_lt hk hi
      simp only [rmatmat, matmulT, if_pos a.1, a.2.2.1, a.2.2.2]
      exact exists_congr fun t => and_congr_right fun ht => ⟨fun g => g.resolve_left (h.1 k hk i hi t ht), Or.inr⟩
    have key' : ∀ i < n % D, ∀ j, rmatmat n (.block D b l) X (n / D * D + i) j ↔ ∃ t < n % D, X (n / D * D + t) j := by
      intro i hi j
      have a := last_lt hi
      simp only [rmatmat, matmulT, if_neg a.2.1, a.2.2]
      exact exists_congr fun t => and_congr_right fun ht => ⟨fun g => g.resolve_left (h.2 i hi t ht), Or.inr⟩
    simp only [innerX, Obj.cls, fromDense, Stat]
    refine ⟨fun k hk i hi j hj => ?_, fun i hi j hj => ?_⟩
    · simp only [mm, tr, key k hk i hi, key k hk j hj, or_self]
      constructor
      · rintro ⟨s, hs, t, ht, g⟩; exact ⟨t, ht, s, hs, g⟩
      · rintro ⟨t, ht, s, hs, g⟩; exact ⟨s, hs, t, ht, g⟩
    · simp only [mm, tr, key' i hi, key' j hj, or_self]
      constructor
      · rintro ⟨s, hs, t, ht, g⟩; exact ⟨t, ht, s, hs, g⟩
      · rintro ⟨t, ht, s, hs, g⟩; exact ⟨s, hs, t, ht, g⟩
  case hier m1 m2 A B C D E =>
    obtain ⟨k1, q, k2, hd, hs⟩ := dims m1 m2 n
    have hc := h
    simp only [Clean, All, hd] at h
    obtain ⟨a1, a2, a3, a4, a5⟩ := h
    have top : ∀ i < k1, ∀ j, rmatmat n (.hier m1 m2 A B C D E) X i j ↔ ∃ t < k1, X t j := by
      intro i hi j
      simp only [rmatmat, hd, if_pos hi]
      exact exists_congr fun t => and_congr_right fun ht => ⟨fun g => g.resolve_left (a1 t ht i hi), Or.inr⟩
    have mid : ∀ i < q, ∀ j, rmatmat n (.hier m1 m2 A B C D E) X (k1 + i) j ↔ ((∃ t < k1, X t j) ∨ ∃ t < k2, X (k1 + q + t) j) ∨ X (k1 + i) j := by
      intro i hi j
      simp only [rmatmat, hd, if_neg (show ¬ k1 + i < k1 by omega), if_pos (show k1 + i < k1 + q by omega), show k1 + i - k1 = i by omega, mm, tr]
      constructor
      · rintro (⟨t, ht, g⟩ | g | ⟨t, ht, g⟩)
        · exact Or.inl (Or.inl ⟨t, ht, g.resolve_left (a2 t ht i (by omega))⟩)
        · exact Or.inr (g.resolve_left (a3 i hi))
        · exact Or.inl (Or.inr ⟨t, ht, g.resolve_left (a4 t ht i hi)⟩)
      · rintro ((⟨t, ht, g⟩ | ⟨t, ht, g⟩) | g)
        · exact Or.inl ⟨t, ht, Or.inr g⟩
        · exact Or.inr (Or.inr ⟨t, ht, Or.inr g⟩)
        · exact Or.inr (Or.inl (Or.inr g))
    have bot : ∀ i < k2, ∀ j, rmatmat n (.hier m1 m2 A B C D E) X (k1 + q + i) j ↔ (∃ t < k1, X t j) ∨ ∃ t < k2, X (k1 + q + t) j := by
      intro i hi j
      simp only [rmatmat, hd, if_neg (show ¬ k1 + q + i < k1 by omega), if_neg (show ¬ k1 + q + i < k1 + q by omega), show k1 + q + i - (k1 + q) = i by omega, mm, tr]
      constructor
      · rintro (⟨t, ht, g⟩ | ⟨t, ht, g⟩)
        · exact Or.inl ⟨t, ht, g.resolve_left (a2 t ht _ (by omega))⟩
        · exact Or.inr ⟨t, ht, g.resolve_left (a5 t ht i hi)⟩
      · rintro (⟨t, ht, g⟩ | ⟨t, ht, g⟩)
        · exact Or.inl ⟨t, ht, Or.inr g⟩
        · exact Or.inr ⟨t, ht, Or.inr g⟩
    have eτ : (∃ t < k1, ∃ j < m, X t j) ↔ ∃ j < m, ∃ t < k1, X t j := ⟨fun ⟨t, ht, j, hj, g⟩ => ⟨j, hj, t, ht, g⟩, fun ⟨j, hj, t, ht, g⟩ => ⟨t, ht, j, hj, g⟩⟩
    have eβ : (∃ t < k2, ∃ j < m, X (k1 + q + t) j) ↔ ∃ j < m, ∃ t < k2, X (k1 + q + t) j :=
      ⟨fun ⟨t, ht, j, hj, g⟩ => ⟨j, hj, t, ht, g⟩, fun ⟨j, hj, t, ht, g⟩ => ⟨t, ht, j, hj, g⟩⟩
    have eo : ∀ P Q : ℕ → Prop, (∃ j < m, P j ∨ Q j) ↔ (∃ j < m, P j) ∨ ∃ j < m, Q j := fun P Q => by
      constructor
      · rintro ⟨j, hj, g | g⟩
        · exact Or.inl ⟨j, hj, g⟩
        · exact Or.inr ⟨j, hj, g⟩
      · rintro (⟨j, hj, g⟩ | ⟨j, hj, g⟩)
        · exact ⟨j, hj, Or.inl g⟩
        · exact ⟨j, hj, Or.inr g⟩
    simp only [innerX, hd, Stat, eτ, eβ]
    refine ⟨fun i hi j hj => ?_, fun i hi j hj => ?_, fun i hi j hj => ?_, fun i hi => ?_, fun i hi j hj => ?_, fun i hi j hj => ?_⟩
    · simp only [mm, tr, top i hi, top j hj, or_self]
    · simp only [mm, tr, top i hi, mid j hj, eo]; generalize (∃ j < m, ∃ t < k1, X t j) = a; generalize (∃ j < m, ∃ t < k2, X (k1 + q + t) j) = b; tauto
    · simp only [mm, tr, top i hi, ← Nat.add_assoc, bot j hj, eo]; generalize (∃ j < m, ∃ t < k1, X t j) = a; generalize (∃ j < m, ∃ t < k2, X (k1 + q + t) j) = b; tauto
    · simp only [mid i hi, eo]
    · simp only [mm, tr, bot i hi, mid j hj, eo]; generalize (∃ j < m, ∃ t < k1, X t j) = a; generalize (∃ j < m, ∃ t < k2, X (k1 + q + t) j) = b; tauto
    · simp only [mm, tr, bot i hi, bot j hj, eo, or_self]

theorem stat_add {c : Cls} {R R' : ℕ → Prop} {n : ℕ} {o p : Obj} (e : Is c o) (e' : Is c p) (h : Stat R n o) (h' : Stat R' n p) : Stat (fun i => R i ∨ R' i) n (add False o p) := by
  have ex : ∀ (k : ℕ) (P Q : ℕ → Prop), (∃ t < k, P t ∨ Q t) ↔ (∃ t < k, P t) ∨ ∃ t < k, Q t := fun k P Q => by
    constructor
    · rintro ⟨j, hj, g | g⟩
      · exact Or.inl ⟨j, hj, g⟩
      · exact Or.inr ⟨j, hj, g⟩
    · rintro (⟨j, hj, g⟩ | ⟨j, hj, g⟩)
      · exact ⟨j, hj, Or.inl g⟩
      · exact ⟨j, hj, Or.inr g⟩
  have base : All (fun x => x ↔ ∃ i < n, R i) n o → All (fun x => x ↔ ∃ i < n, R' i) n p → All (fun x => x ↔ ∃ i < n, R i ∨ R' i) n (add False o p) :=
    fun a b => all_add (fun x y hx hy => by rw [hx, hy, ex]; simp) e e' a b
  cases o <;> cases p <;> first | (cases c <;> first | exact e.elim | exact e'.elim) | exact base h h' | skip
  case diagonal v w => exact fun i hi => by simp only [h i hi, h' i hi, or_false]
  case block =>
    cases c <;> first | exact e.elim | skip
    cases e; cases e'
    refine ⟨fun k hk i hi j hj => ?_, fun i hi j hj => ?_⟩
    · simp only [h.1 k hk i hi j hj, h'.1 k hk i hi j hj, or_false, ex]
    · simp only [h.2 i hi j hj, h'.2 i hi j hj, or_false, ex]
  case hier m1 m2 A B C D E m1' m2' A' B' C' D' E' =>
    cases c <;> first | exact e.elim | skip
    obtain ⟨rfl, rfl⟩ := e
    obtain ⟨rfl, rfl⟩ := e'
    obtain ⟨k1, q, k2, hd, hs⟩ := dims m1' m2' n
    simp only [Stat, hd] at h h'
    simp only [Stat, hd, add, ex]
    obtain ⟨a1, a2, a3, a4, a5, a6⟩ := h
    obtain ⟨b1, b2, b3, b4, b5, b6⟩ := h'
    refine ⟨fun i hi j hj => ?_, fun i hi j hj => ?_, fun i hi j hj => ?_, fun i hi => ?_, fun i hi j hj => ?_, fun i hi j hj => ?_⟩
    · rw [a1 i hi j hj, b1 i hi j hj]; simp only [or_false]
    · rw [a2 i hi j hj, b2 i hi j hj]; simp only [or_false]; exact iff_of_eq (by ac_rfl)
    · rw [a3 i hi j hj, b3 i hi j hj]; simp only [or_false]; exact iff_of_eq (by ac_rfl)
    · rw [a4 i hi, b4 i hi]; simp only [or_false]; exact iff_of_eq (by ac_rfl)
    · rw [a5 i hi j hj, b5 i hi j hj]; simp only [or_false]; exact iff_of_eq (by ac_rfl)
    · rw [a6 i hi j hj, b6 i hi j hj]; simp only [or_false]; exact iff_of_eq (by ac_rfl)

theorem stat_congr {R R' : ℕ → Prop} {n : ℕ} {o : Obj} (h : ∀ i, R i ↔ R' i) (a : Stat R n o) : Stat R' n o := by
  rwa [← funext fun i => propext (h i)]

theorem stat_add_clean {c : Cls} {R : ℕ → Prop} {n : ℕ} {o p : Obj} (e : Is c o) (e' : Is c p) (h : Stat R n o) (h' : Clean n p) : Stat R n (add False o p) :=
  stat_congr (fun _ => by simp) (stat_add e e' h ((clean_stat (R := fun _ => False) fun _ _ => not_false).2 h'))

theorem stat_clean_add {c : Cls} {R : ℕ → Prop} {n : ℕ} {o p : Obj} (e : Is c o) (e' : Is c p) (h : Clean n o) (h' : Stat R n p) : Stat R n (add False o p) :=
  stat_congr (fun _ => by simp) (stat_add e e' ((clean_stat (R := fun _ => False) fun _ _ => not_false).2 h) h')

theorem stat_diagAdd {c : Cls} {R : ℕ → Prop} {n : ℕ} {o : Obj} (e : Is c o) (h : Stat R n o) : Stat R n (diagAdd n o) := by
  have base : All (fun x => x ↔ ∃ i < n, R i) n o → All (fun x => x ↔ ∃ i < n, R i) n (diagAdd n o) := by
    intro a
    by_cases P : ∃ i < n, R i
    · exact (all_full P).2 (full_diagAdd e ((all_full P).1 a))
    · exact (all_clean P).2 (clean_diagAdd ((all_clean P).1 a))
  cases o <;> first | exact h | exact base h

theorem stat_product {c : Cls} {R : ℕ → Prop} {n : ℕ} {o p : Obj} (e : Is c o) (e' : Is c p) (g : Clean n o) (h : Stat R n p) : Stat R n (product n o p) := by
  have base : All (fun x => x ↔ ∃ i < n, R i) n p → All (fun x => x ↔ ∃ i < n, R i) n (product n o p) := by
    intro a
    by_cases P : ∃ i < n, R i
    · exact (all_full P).2 (full_product e e' ((all_full P).1 a))
    · exact (all_clean P).2 (clean_product e e' g ((all_clean P).1 a))
  cases o <;> cases p <;> first | (cases c <;> first | exact e.elim | exact e'.elim) | exact base h | skip
  case diagonal v w => exact fun i hi => ⟨fun a => (h i hi).1 (a.resolve_left (g i hi)), fun a => Or.inr ((h i hi).2 a)⟩
  case block D b l D' b' l' =>
    cases c <;> first | exact e.elim | skip
    cases e; cases e'
    refine ⟨fun k hk i hi j hj => ?_, fun i hi j hj => ?_⟩
    · constructor
      · rintro ⟨t, ht, a⟩; exact (h.1 k hk t ht j hj).1 (a.resolve_left (g.1 k hk i hi t ht))
      · exact fun a => ⟨j, hj, Or.inr ((h.1 k hk j hj j hj).2 a)⟩
    · constructor
      · rintro ⟨t, ht, a⟩; exact (h.2 t ht j hj).1 (a.resolve_left (g.2 i hi t ht))
      · exact fun a => ⟨j, hj, Or.inr ((h.2 j hj j hj).2 a)⟩
  case hier m1 m2 A B C D E m1' m2' A' B' C' D' E' =>
    cases c <;> first | exact e.elim | skip
    obtain ⟨rfl, rfl⟩ := e
    obtain ⟨rfl, rfl⟩ := e'
    obtain ⟨k1, q, k2, hd, hs⟩ := dims m1' m2' n
    simp only [Clean, All, hd] at g
    simp only [Stat, hd] at h
    simp only [Stat, product, hd]
    obtain ⟨a1, a2, a3, a4, a5, a6⟩ := h
    obtain ⟨b1, b2, b3, b4, b5⟩ := g
    refine ⟨fun i hi j hj => ?_, fun i hi j hj => ?_, fun i hi j hj => ?_, fun i hi => ?_, fun i hi j hj => ?_, fun i hi j hj => ?_⟩
    · constructor
      · rintro ⟨t, ht, a⟩; exact (a1 t ht j hj).1 (a.resolve_left (b1 i hi t ht))
      · exact fun a => ⟨j, hj, Or.inr ((a1 j hj j hj).2 a)⟩
    · rw [if_pos hj]
      constructor
      · rintro (⟨t, ht, a⟩ | a | ⟨t, ht, a⟩)
        · exact (a2 t ht j hj).1 (a.resolve_left (b1 i hi t ht))
        · exact (a4 j hj).1 (a.resolve_left (b2 i hi j (by omega)))
        · exact (a5 t ht j hj).1 (a.resolve_left (b2 i hi _ (by omega)))
      · exact fun a => Or.inl ⟨i, hi, Or.inr ((a2 i hi j hj).2 a)⟩
    · rw [if_neg (by omega), show q + j - q = j by omega]
      constructor
      · rintro (⟨t, ht, a⟩ | ⟨t, ht, a⟩)
        · exact (a3 t ht j hj).1 (a.resolve_left (b1 i hi t ht))
        · exact (a6 t ht j hj).1 (a.resolve_left (b2 i hi _ (by omega)))
      · exact fun a => Or.inl ⟨i, hi, Or.inr ((a3 i hi j hj).2 a)⟩
    · exact ⟨fun a => (a4 i hi).1 (a.resolve_left (b3 i hi)), fun a => Or.inr ((a4 i hi).2 a)⟩
    · constructor
      · rintro (a | ⟨t, ht, a⟩)
        · exact (a4 j hj).1 (a.resolve_left (b4 i hi j hj))
        · exact (a5 t ht j hj).1 (a.resolve_left (b5 i hi t ht))
      · exact fun a => Or.inl (Or.inr ((a4 j hj).2 a))
    · constructor
      · rintro ⟨t, ht, a⟩; exact (a6 t ht j hj).1 (a.resolve_left (b5 i hi t ht))
      · exact fun a => ⟨j, hj, Or.inr ((a6 j hj j hj).2 a)⟩

/-- pre-conditioning a gradient whose columns are NaN entirely or not at all -/
theorem stat_apply {c : Cls} {R : ℕ → Prop} {n : ℕ} {o : Obj} (e : Is c o) (h : Stat R n o) {X : M} {j : ℕ} {x : Prop} (hX : ∀ i < n, X i j ↔ x) {i : ℕ} (hi : i < n) :
    matmulT n o (rmatmat n o X) i j ↔ (∃ t < n, R t ∧ Reach c n t i) ∨ x := by
  have base : (∀ t i, Reach c n t i) → All (fun x => x ↔ ∃ i < n, R i) n o → (matmulT n o (rmatmat n o X) i j ↔ (∃ t < n, R t ∧ Reach c n t i) ∨ x) := by
    intro hr a
    simp only [hr, and_true]
    by_cases P : ∃ i < n, R i
    · exact iff_of_true (full_matmulT ((all_full P).1 a) _ hi) (Or.inl P)
    · have k := (all_clean P).1 a
      simp only [P, false_or]
      constructor
      · intro g
        obtain ⟨t, ht, g⟩ := clean_matmulT k hi g
        obtain ⟨t, ht, g⟩ := clean_rmatmat k ht g
        exact (hX t ht).1 g
      · exact fun g => matmulT_keep hi (rmatmat_keep hi ((hX i hi).2 g))
  cases o <;> cases c <;> first | exact e.elim | exact base (fun _ _ => trivial) h | skip
  case diagonal.diagonal v =>
    simp only [matmulT, rmatmat, Reach, h i hi, hX i hi]
    constructor
    · rintro (a | a | a)
      · exact Or.inl ⟨i, hi, a, rfl⟩
      · exact Or.inl ⟨i, hi, a, rfl⟩
      · exact Or.inr a
    · rintro (⟨t, ht, a, rfl⟩ | a)
      · exact Or.inl a
      · exact Or.inr (Or.inr a)
  case block.block D b l D' =>
    cases e
    by_cases c : i < n / D * D
    · have d := lt_div c
      have k1 : ∀ s < D, rmatmat n (.block D b l) X (i / D * D + s) j ↔ (∃ t < D, R (i / D * D + t)) ∨ x := by
        intro s hs
        have a := blk_lt d.2.1 hs
        simp only [rmatmat, matmulT, if_pos a.1, a.2.2.1, a.2.2.2]
        constructor
        · rintro ⟨t, ht, g | g⟩
          · exact Or.inl ((h.1 _ d.2.1 s hs t ht).1 g)
          · have := blk_lt d.2.1 ht
            exact Or.inr ((hX _ (by omega)).1 g)
        · rintro (g | g)
          · exact ⟨s, hs, Or.inl ((h.1 _ d.2.1 s hs s hs).2 g)⟩
          · exact ⟨s, hs, Or.inr ((hX _ (by omega)).2 g)⟩
      have r : (∃ t < D, R (i / D * D + t)) ↔ ∃ t < n, R t ∧ t / D = i / D := by
        constructor
        · rintro ⟨t, ht, g⟩
          have := blk_lt d.2.1 ht
          exact ⟨_, by omega, g, this.2.2.1⟩
        · rintro ⟨t, ht, g, et⟩
          refine ⟨t % D, Nat.mod_lt _ d.1, ?_⟩
          have := Nat.div_add_mod t D
          rw [et, Nat.mul_comm] at this
          rw [this]; exact g
      simp only [Reach, ← r]
      simp only [matmulT, if_pos c]
      constructor
      · rintro ⟨t, ht, g | g⟩
        · exact Or.inl ((h.1 _ d.2.1 _ d.2.2.1 t ht).1 g)
        · exact (k1 t ht).1 g
      · rintro g
        exact ⟨i % D, d.2.2.1, Or.inr ((k1 _ d.2.2.1).2 g)⟩
    · have hm := mod_bound hi c
      have k1 : ∀ s < n % D, rmatmat n (.block D b l) X (n / D * D + s) j ↔ (∃ t < n % D, R (n / D * D + t)) ∨ x := by
        intro s hs
        have a := last_lt hs
        simp only [rmatmat, matmulT, if_neg a.2.1, a.2.2]
        constructor
        · rintro ⟨t, ht, g | g⟩
          · exact Or.inl ((h.2 s hs t ht).1 g)
          · exact Or.inr ((hX _ (last_lt ht).1).1 g)
        · rintro (g | g)
          · exact ⟨s, hs, Or.inl ((h.2 s hs s hs).2 g)⟩
          · exact ⟨s, hs, Or.inr ((hX _ a.1).2 g)⟩
      have dv : ∀ t, n / D * D ≤ t → t < n → t / D = n / D := by
        intro t h1 h2
        exact le_antisymm (Nat.div_le_div_right h2.le) (by rcases Nat.eq_zero_or_pos D with z | z; · simp [z]
                                                           · exact (Nat.le_div_iff_mul_le z).2 h1)
      have r : (∃ t < n % D, R (n / D * D + t)) ↔ ∃ t < n, R t ∧ t / D = i / D := by
        rw [dv i (by omega) hi]
        constructor
        · rintro ⟨t, ht, g⟩
          have := last_lt ht
          exact ⟨_, this.1, g, dv _ (by omega) this.1⟩
        · rintro ⟨t, ht, g, et⟩
          have c' : ¬ t < n / D * D := by
            intro c'
            have := (lt_div c').2.1
            omega
          refine ⟨t - n / D * D, mod_bound ht c', ?_⟩
          rw [show n / D * D + (t - n / D * D) = t by omega]; exact g
      simp only [Reach, ← r]
      simp only [matmulT, if_neg c]
      constructor
      · rintro ⟨t, ht, g | g⟩
        · exact Or.inl ((h.2 _ hm t ht).1 g)
        · exact (k1 t ht).1 g
      · exact fun g => ⟨_, hm, Or.inr ((k1 _ hm).2 g)⟩
  case hier.hier m1 m2 A B C D E m1' m2' =>
    obtain ⟨rfl, rfl⟩ := e
    obtain ⟨k1, q, k2, hd, hs⟩ := dims m1 m2 n
    simp only [Stat, hd] at h
    obtain ⟨a1, a2, a3, a4, a5, a6⟩ := h
    simp only [Reach, Middle, hd]
    have top : ∀ s < k1, rmatmat n (.hier m1 m2 A B C D E) X s j ↔ (∃ t < k1, R t) ∨ x := by
      intro s hs
      simp only [rmatmat, hd, if_pos hs, mm, tr]
      constructor
      · rintro ⟨t, ht, g | g⟩
        · exact Or.inl ((a1 t ht s hs).1 g)
        · exact Or.inr ((hX t (by omega)).1 g)
      · rintro (g | g)
        · exact ⟨s, hs, Or.inl ((a1 s hs s hs).2 g)⟩
        · exact ⟨s, hs, Or.inr ((hX s (by omega)).2 g)⟩
    have mid : ∀ s < q, rmatmat n (.hier m1 m2 A B C D E) X (k1 + s) j ↔ (((∃ t < k1, R t) ∨ ∃ t < k2, R (k1 + q + t)) ∨ R (k1 + s)) ∨ x := by
      intro s hs
      simp only [rmatmat, hd, if_neg (show ¬ k1 + s < k1 by omega), if_pos (show k1 + s < k1 + q by omega), show k1 + s - k1 = s by omega, mm, tr]
      constructor
      · rintro (⟨t, ht, g | g⟩ | (g | g) | ⟨t, ht, g | g⟩)
        · exact Or.inl ((a2 t ht s hs).1 g)
        · exact Or.inr ((hX t (by omega)).1 g)
        · exact Or.inl ((a4 s hs).1 g)
        · exact Or.inr ((hX _ (by omega)).1 g)
        · exact Or.inl ((a5 t ht s hs).1 g)
        · exact Or.inr ((hX _ (by omega)).1 g)
      · rintro (g | g)
        · exact Or.inr (Or.inl (Or.inl ((a4 s hs).2 g)))
        · exact Or.inr (Or.inl (Or.inr ((hX _ (by omega)).2 g)))
    have bot : ∀ s < k2, rmatmat n (.hier m1 m2 A B C D E) X (k1 + q + s) j ↔ ((∃ t < k1, R t) ∨ ∃ t < k2, R (k1 + q + t)) ∨ x := by
      intro s hs
      simp only [rmatmat, hd, if_neg (show ¬ k1 + q + s < k1 by omega), if_neg (show ¬ k1 + q + s < k1 + q by omega), show k1 + q + s - (k1 + q) = s by omega, mm, tr]
      constructor
      · rintro (⟨t, ht, g | g⟩ | ⟨t, ht, g | g⟩)
        · exact Or.inl ((a3 t ht s hs).1 g)
        · exact Or.inr ((hX t (by omega)).1 g)
        · exact Or.inl ((a6 t ht s hs).1 g)
        · exact Or.inr ((hX _ (by omega)).1 g)
      · rintro (g | g)
        · exact Or.inr ⟨s, hs, Or.inl ((a6 s hs s hs).2 g)⟩
        · exact Or.inr ⟨s, hs, Or.inr ((hX _ (by omega)).2 g)⟩
    -- every row outside of the middle is reached from everywhere
    have split : ∀ P : ℕ → Prop, (∃ t < n, R t ∧ P t) ↔ (∃ t < k1, R t ∧ P t) ∨ (∃ t < q, R (k1 + t) ∧ P (k1 + t)) ∨ ∃ t < k2, R (k1 + q + t) ∧ P (k1 + q + t) := by
      intro P
      constructor
      · rintro ⟨t, ht, g⟩
        by_cases c1 : t < k1
        · exact Or.inl ⟨t, c1, g⟩
        by_cases c2 : t < k1 + q
        · exact Or.inr (Or.inl ⟨t - k1, by omega, by rw [show k1 + (t - k1) = t by omega]; exact g⟩)
        · exact Or.inr (Or.inr ⟨t - (k1 + q), by omega, by rw [show k1 + q + (t - (k1 + q)) = t by omega]; exact g⟩)
      · rintro (⟨t, ht, g⟩ | ⟨t, ht, g⟩ | ⟨t, ht, g⟩)
        · exact ⟨t, by omega, g⟩
        · exact ⟨_, by omega, g⟩
        · exact ⟨_, by omega, g⟩
    rw [split]
    have d1 : ∀ t < k1, ∀ i, (k1 ≤ t ∧ t < k1 + q → k1 ≤ i ∧ i < k1 + q → t = i) := fun t ht i h => by omega
    have d3 : ∀ t < k2, ∀ i, (k1 ≤ k1 + q + t ∧ k1 + q + t < k1 + q → k1 ≤ i ∧ i < k1 + q → k1 + q + t = i) := fun t ht i h => by omega
    have e1 : ∀ i, (∃ t < k1, R t ∧ (k1 ≤ t ∧ t < k1 + q → k1 ≤ i ∧ i < k1 + q → t = i)) ↔ ∃ t < k1, R t := fun i =>
      exists_congr fun t => and_congr_right fun ht => ⟨And.left, fun g => ⟨g, d1 t ht i⟩⟩
    have e3 : ∀ i, (∃ t < k2, R (k1 + q + t) ∧ (k1 ≤ k1 + q + t ∧ k1 + q + t < k1 + q → k1 ≤ i ∧ i < k1 + q → k1 + q + t = i)) ↔ ∃ t < k2, R (k1 + q + t) := fun i =>
      exists_congr fun t => and_congr_right fun ht => ⟨And.left, fun g => ⟨g, d3 t ht i⟩⟩
    rw [e1, e3]
    by_cases c1 : i < k1
    · have e2 : (∃ t < q, R (k1 + t) ∧ (k1 ≤ k1 + t ∧ k1 + t < k1 + q → k1 ≤ i ∧ i < k1 + q → k1 + t = i)) ↔ ∃ t < q, R (k1 + t) :=
        exists_congr fun t => and_congr_right fun ht => ⟨And.left, fun g => ⟨g, fun _ h => by omega⟩⟩
      rw [e2]
      simp only [matmulT, hd, if_pos c1, mm]
      constructor
      · rintro (⟨t, ht, g | g⟩ | ⟨t, ht, g | g⟩ | ⟨t, ht, g | g⟩)
        · exact Or.inl (Or.inl ((a1 i c1 t ht).1 g))
        · exact ((top t ht).1 g).elim (fun g => Or.inl (Or.inl g)) Or.inr
        · rcases (a2 i c1 t ht).1 g with (g | g) | g
          · exact Or.inl (Or.inl g)
          · exact Or.inl (Or.inr (Or.inr g))
          · exact Or.inl (Or.inr (Or.inl ⟨t, ht, g⟩))
        · rcases (mid t ht).1 g with ((g | g) | g) | g
          · exact Or.inl (Or.inl g)
          · exact Or.inl (Or.inr (Or.inr g))
          · exact Or.inl (Or.inr (Or.inl ⟨t, ht, g⟩))
          · exact Or.inr g
        · exact ((a3 i c1 t ht).1 g).elim (fun g => Or.inl (Or.inl g)) fun g => Or.inl (Or.inr (Or.inr g))
        · exact ((bot t ht).1 g).elim (fun g => g.elim (fun g => Or.inl (Or.inl g)) fun g => Or.inl (Or.inr (Or.inr g))) Or.inr
      · rintro ((g | ⟨t, ht, g⟩ | ⟨t, ht, g⟩) | g)
        · exact Or.inl ⟨i, c1, Or.inl ((a1 i c1 i c1).2 g)⟩
        · exact Or.inr (Or.inl ⟨t, ht, Or.inl ((a2 i c1 t ht).2 (Or.inr g))⟩)
        · exact Or.inr (Or.inr ⟨t, ht, Or.inl ((a3 i c1 t ht).2 (Or.inr ⟨t, ht, g⟩))⟩)
        · exact Or.inl ⟨i, c1, Or.inr ((top i c1).2 (Or.inr g))⟩
    · by_cases c2 : i < k1 + q
      · have e2 : (∃ t < q, R (k1 + t) ∧ (k1 ≤ k1 + t ∧ k1 + t < k1 + q → k1 ≤ i ∧ i < k1 + q → k1 + t = i)) ↔ R i := by
          constructor
          · rintro ⟨t, ht, g, g'⟩
            rw [← g' (by omega) (by omega)]; exact g
          · intro g
            exact ⟨i - k1, by omega, by rw [show k1 + (i - k1) = i by omega]; exact g, fun _ _ => by omega⟩
        rw [e2]
        have m := mid (i - k1) (by omega)
        have a := a4 (i - k1) (by omega)
        rw [show k1 + (i - k1) = i by omega] at m a
        simp only [matmulT, hd, if_neg c1, if_pos c2]
        rw [m, a]
        generalize (∃ t < k1, R t) = τ
        generalize (∃ t < k2, R (k1 + q + t)) = β
        generalize R i = r
        clear m a top mid bot a1 a2 a3 a4 a5 a6 e1 e2 e3 d1 d3 split hX base
        tauto
      · have e2 : (∃ t < q, R (k1 + t) ∧ (k1 ≤ k1 + t ∧ k1 + t < k1 + q → k1 ≤ i ∧ i < k1 + q → k1 + t = i)) ↔ ∃ t < q, R (k1 + t) :=
          exists_congr fun t => and_congr_right fun ht => ⟨And.left, fun g => ⟨g, fun _ h => by omega⟩⟩
        rw [e2]
        have hi2 : i - (k1 + q) < k2 := by omega
        simp only [matmulT, hd, if_neg c1, if_neg c2, mm]
        constructor
        · rintro (⟨t, ht, g | g⟩ | ⟨t, ht, g | g⟩)
          · rcases (a5 _ hi2 t ht).1 g with (g | g) | g
            · exact Or.inl (Or.inl g)
            · exact Or.inl (Or.inr (Or.inr g))
            · exact Or.inl (Or.inr (Or.inl ⟨t, ht, g⟩))
          · rcases (mid t ht).1 g with ((g | g) | g) | g
            · exact Or.inl (Or.inl g)
            · exact Or.inl (Or.inr (Or.inr g))
            · exact Or.inl (Or.inr (Or.inl ⟨t, ht, g⟩))
            · exact Or.inr g
          · exact ((a6 _ hi2 t ht).1 g).elim (fun g => Or.inl (Or.inl g)) fun g => Or.inl (Or.inr (Or.inr g))
          · exact ((bot t ht).1 g).elim (fun g => g.elim (fun g => Or.inl (Or.inl g)) fun g => Or.inl (Or.inr (Or.inr g))) Or.inr
        · rintro ((g | ⟨t, ht, g⟩ | ⟨t, ht, g⟩) | g)
          · exact Or.inr ⟨_, hi2, Or.inl ((a6 _ hi2 _ hi2).2 (Or.inl g))⟩
          · exact Or.inl ⟨t, ht, Or.inl ((a5 _ hi2 t ht).2 (Or.inr g))⟩
          · exact Or.inr ⟨_, hi2, Or.inl ((a6 _ hi2 _ hi2).2 (Or.inr ⟨t, ht, g⟩))⟩
          · exact Or.inr ⟨_, hi2, Or.inr ((bot _ hi2).2 (Or.inr g))⟩

/-! ## Layers -/

/-- one backward pass: `m` columns of inputs, `m'` columns of output gradients -/
structure Batch where
  m : ℕ
  X : M
  m' : ℕ
  g : M

/-- the backward pass as an operation -/
def Batch.op (b : Batch) : Op := .backward b.m b.X b.m' b.g

/-- row `i` of the inputs of some batch has a NaN -/
def InRow (bs : List Batch) (i : ℕ) : Prop := ∃ b ∈ bs, ∃ t < b.m, b.X i t

/-- row `i` of the output gradients of some batch has a NaN -/
def OutRow (bs : List Batch) (i : ℕ) : Prop := ∃ b ∈ bs, ∃ t < b.m', b.g i t

/-- everything kept for the layer has the class of its factor -/
structure Shape (cK cC : Cls) (l : Lay) : Prop where
  K : Is cK l.K
  C : Is cC l.C
  mK : Is cK l.mK
  mC : Is cC l.mC
  H : ∀ h, l.H = some h → Is cK h.1 ∧ Is cC h.2

/-- no NaN anywhere in the layer -/
structure Healthy (n d : ℕ) (l : Lay) : Prop where
  K : Clean n l.K
  C : Clean d l.C
  mK : Clean n l.mK
  mC : Clean d l.mC
  H : ∀ h, l.H = some h → Clean n h.1 ∧ Clean d h.2
  W : ∀ r < d, ∀ j < n, ¬ l.W r j
  P : ∀ r < d, ∀ j < n, ¬ l.P r j

/-- no NaN in what an operation is given -/
def Op.Clean (n d : ℕ) : Op → Prop
  | .backward m X m' g => (∀ i < n, ∀ t < m, ¬ X i t) ∧ ∀ i < d, ∀ t < m', ¬ g i t
  | .skip => True
  | .step _ _ G => ∀ r < d, ∀ j < n, ¬ G r j
  | .setParam W => ∀ r < d, ∀ j < n, ¬ W r j

theorem update_none {n d : ℕ} {f : Flags} {l : Lay} (h : l.H = none) : update n d f l = l := by simp only [update, h]

section
variable {n d : ℕ} {cK cC : Cls}

theorem shape_update {f : Flags} {l : Lay} (h : Shape cK cC l) : Shape cK cC (update n d f l) := by
  rcases e : l.H with _ | ⟨HK, HC⟩
  · rw [update_none e]; exact h
  · obtain ⟨hK, hC⟩ := h.H _ e
    have eK := h.K.cls
    have eC := h.C.cls
    have nK : ∀ a b, Is cK (newMomentum n l.K.cls HK a (inner n l.K) b) := fun a b => by rw [eK]; exact is_newMomentum hK (is_inner h.K)
    have nC : ∀ a b, Is cC (newMomentum d l.C.cls HC a (inner d l.C) b) := fun a b => by rw [eC]; exact is_newMomentum hC (is_inner h.C)
    simp only [update, e]
    cases f.al
    · exact ⟨is_add h.K (is_product h.K (nK _ _)), is_add h.C (is_product h.C (nC _ _)), h.mK, h.mC, fun _ g => by cases g⟩
    · exact ⟨is_add h.K (is_product h.K (is_add (nK _ _) h.mK)), is_add h.C (is_product h.C (is_add (nC _ _) h.mC)), is_add (nK _ _) h.mK, is_add (nC _ _) h.mC, fun _ g => by cases g⟩

theorem step_parts (f : Flags) (due : Bool) (G : M) (l : Lay) : let l' := if due then update n d f l else l
    (step n d f due G l).K = l'.K ∧ (step n d f due G l).C = l'.C ∧ (step n d f due G l).mK = l'.mK ∧ (step n d f due G l).mC = l'.mC ∧ (step n d f due G l).H = l'.H :=
  ⟨rfl, rfl, rfl, rfl, rfl⟩

theorem shape_exec {l : Lay} (h : Shape cK cC l) (o : Op) : Shape cK cC (exec n d l o) := by
  cases o with
  | backward m X m' g =>
    refine ⟨h.K, h.C, h.mK, h.mC, ?_⟩
    intro k hk
    simp only [exec, backward, Option.some.injEq] at hk
    rcases e : l.H with _ | ⟨HK, HC⟩
    · rw [e] at hk; subst hk
      exact ⟨is_innerX h.K, is_innerX h.C⟩
    · rw [e] at hk; subst hk
      exact ⟨is_add (h.H _ e).1 (is_innerX h.K), is_add (h.H _ e).2 (is_innerX h.C)⟩
  | skip => exact ⟨h.K, h.C, h.mK, h.mC, fun _ g => by cases g⟩
  | step f due G =>
    have k : Shape cK cC (if due then update n d f l else l) := by
      cases due
      · exact h
      · exact shape_update h
    exact ⟨k.K, k.C, k.mK, k.mC, k.H⟩
  | setParam W => exact ⟨h.K, h.C, h.mK, h.mC, h.H⟩

theorem shape_run {l : Lay} (h : Shape cK cC l) : ∀ ops : List Op, Shape cK cC (run n d l ops) := by
  intro ops
  induction ops generalizing l with
  | nil => exact h
  | cons o ops ih => exact ih (shape_exec h o)

theorem run_append (l : Lay) (a b : List Op) : run n d l (a ++ b) = run n d (run n d l a) b := by simp [run, List.foldl_append]

/-- the natural gradient of healthy factors and a clean gradient -/
theorem clean_natGrad {l : Lay} (hK : Clean n l.K) (hC : Clean d l.C) {G : M} (hG : ∀ r < d, ∀ j < n, ¬ G r j) : ∀ r < d, ∀ j < n, ¬ natGrad n d l G r j := by
  intro r hr j hj a
  obtain ⟨t, ht, a⟩ := clean_matmulT hC hr a
  obtain ⟨t, ht, a⟩ := clean_rmatmat hC ht a
  obtain ⟨s, hs, a⟩ := clean_matmulT hK hj a
  obtain ⟨s, hs, a⟩ := clean_rmatmat hK hs a
  exact hG t ht s hs a

theorem full_natGrad {l : Lay} (h : Full n l.K ∨ Full d l.C) (G : M) : ∀ r < d, ∀ j < n, natGrad n d l G r j := by
  intro r hr j hj
  rcases h with h | h
  · exact matmulT_keep hr (rmatmat_keep hr (full_matmulT h _ hj))
  · exact full_matmulT h _ hr

theorem clean_zeros (c : Cls) (n : ℕ) : Clean n (zeros c n) := clean_fromDense c fun _ _ _ _ => not_false

theorem clean_newMomentum {c : Cls} {n : ℕ} {H I : Obj} {α γ : Prop} (e : Is c H) (e' : Is c I) (h : Clean n H) (h' : Clean n I) (hα : ¬ α) (hγ : ¬ γ) : Clean n (newMomentum n c H α I γ) :=
  clean_diagAdd (clean_add (is_add (is_zeros c n) e) e' (clean_add (is_zeros c n) e (clean_zeros c n) h hα) h' hγ)

theorem healthy_update (hn : 0 < n) (hd : 0 < d) {f : Flags} {l : Lay} (s : Shape cK cC l) (h : Healthy n d l) : Healthy n d (update n d f l) := by
  rcases e : l.H with _ | ⟨HK, HC⟩
  · rw [update_none e]; exact h
  · obtain ⟨hK, hC⟩ := h.H _ e
    obtain ⟨iK, iC⟩ := s.H _ e
    have eK := s.K.cls
    have eC := s.C.cls
    have no : ∀ {p : Prop}, ¬ p → ¬ (if f.kfac then False else p) := fun hp => by cases f.kfac <;> simp [hp]
    have nK := clean_newMomentum (c := cK) iK (is_inner s.K) hK (clean_inner h.K) (no (clean_trace hd hC)) (no (clean_trace hd (clean_inner h.C)))
    have nC := clean_newMomentum (c := cC) iC (is_inner s.C) hC (clean_inner h.C) (no (clean_trace hn hK)) (no (clean_trace hn (clean_inner h.K)))
    have jK : ∀ a b, Is cK (newMomentum n cK HK a (inner n l.K) b) := fun a b => is_newMomentum iK (is_inner s.K)
    have jC : ∀ a b, Is cC (newMomentum d cC HC a (inner d l.C) b) := fun a b => is_newMomentum iC (is_inner s.C)
    have aK := clean_add (jK _ _) s.mK nK h.mK not_false
    have aC := clean_add (jC _ _) s.mC nC h.mC not_false
    simp only [update, e, eK, eC]
    cases f.al
    · exact ⟨clean_add s.K (is_product s.K (jK _ _)) h.K (clean_product s.K (jK _ _) h.K nK) not_false, clean_add s.C (is_product s.C (jC _ _)) h.C (clean_product s.C (jC _ _) h.C nC) not_false,
        h.mK, h.mC, fun _ g => (by cases g), h.W, h.P⟩
    · exact ⟨clean_add s.K (is_product s.K (is_add (jK _ _) s.mK)) h.K (clean_product s.K (is_add (jK _ _) s.mK) h.K aK) not_false,
        clean_add s.C (is_product s.C (is_add (jC _ _) s.mC)) h.C (clean_product s.C (is_add (jC _ _) s.mC) h.C aC) not_false, aK, aC, fun _ g => (by cases g), h.W, h.P⟩

theorem healthy_innerX {c : Cls} {n m : ℕ} {o : Obj} {X : M} (h : Clean n o) (hX : ∀ i < n, ∀ t < m, ¬ X i t) : Clean n (innerX n o m X) :=
  (clean_stat fun i hi ⟨t, ht, g⟩ => hX i hi t ht g).1 (stat_innerX h)

theorem healthy_exec (hn : 0 < n) (hd : 0 < d) {l : Lay} (s : Shape cK cC l) (h : Healthy n d l) {o : Op} (ho : o.Clean n d) : Healthy n d (exec n d l o) := by
  cases o with
  | backward m X m' g =>
    have hK := healthy_innerX (c := cK) h.K ho.1
    have hC := healthy_innerX (c := cC) h.C ho.2
    refine ⟨h.K, h.C, h.mK, h.mC, ?_, h.W, h.P⟩
    intro k hk
    simp only [exec, backward, Option.some.injEq] at hk
    rcases e : l.H with _ | ⟨HK, HC⟩
    · rw [e] at hk; subst hk
      exact ⟨hK, hC⟩
    · rw [e] at hk; subst hk
      exact ⟨clean_add (s.H _ e).1 (is_innerX s.K) (h.H _ e).1 hK not_false, clean_add (s.H _ e).2 (is_innerX s.C) (h.H _ e).2 hC not_false⟩
  | skip => exact ⟨h.K, h.C, h.mK, h.mC, fun _ g => (by cases g), h.W, h.P⟩
  | step f due G =>
    have k : Healthy n d (if due then update n d f l else l) := by
      cases due
      · exact h
      · exact healthy_update hn hd s h
    have ng := clean_natGrad k.K k.C ho
    have hP : ∀ r < d, ∀ j < n, ¬ (exec n d l (.step f due G)).P r j := by
      intro r hr j hj
      simp only [exec, step]
      cases f.mom
      · exact k.P r hr j hj
      · rintro (a | a | a)
        · exact k.P r hr j hj a
        · exact ng r hr j hj a
        · exact k.W r hr j hj a.2
    refine ⟨k.K, k.C, k.mK, k.mC, k.H, ?_, hP⟩
    intro r hr j hj
    have := hP r hr j hj
    simp only [exec, step] at this ⊢
    cases e : f.mom <;> simp only [e, if_true] at this ⊢
    · rintro (a | a | a)
      · exact k.W r hr j hj a
      · exact ng r hr j hj a
      · exact k.W r hr j hj a.2
    · rintro (a | a)
      · exact k.W r hr j hj a
      · exact this a
  | setParam W => exact ⟨h.K, h.C, h.mK, h.mC, h.H, ho, h.P⟩

/-- NaN only comes from NaN: as long as no data, gradient or assigned parameter has one, none is stored. -/
theorem C89_healthy (hn : 0 < n) (hd : 0 < d) {l : Lay} (s : Shape cK cC l) (h : Healthy n d l) (ops : List Op) (ho : ∀ o ∈ ops, o.Clean n d) : Healthy n d (run n d l ops) := by
  induction ops generalizing l with
  | nil => exact h
  | cons o ops ih => exact ih (shape_exec s o) (healthy_exec hn hd s h (ho o (by simp))) fun o h => ho o (by simp [h])

/-! ## NaN stays -/

theorem full_update_K {f : Flags} {l : Lay} (s : Shape cK cC l) (h : Full n l.K) : Full n (update n d f l).K := by
  rcases e : l.H with _ | ⟨HK, HC⟩
  · rw [update_none e]; exact h
  · obtain ⟨iK, iC⟩ := s.H _ e
    have jK : ∀ a b, Is cK (newMomentum n cK HK a (inner n l.K) b) := fun a b => is_newMomentum iK (is_inner s.K)
    simp only [update, e, s.K.cls]
    cases f.al
    · exact full_add_left s.K (is_product s.K (jK _ _)) h
    · exact full_add_left s.K (is_product s.K (is_add (jK _ _) s.mK)) h

theorem full_update_C {f : Flags} {l : Lay} (s : Shape cK cC l) (h : Full d l.C) : Full d (update n d f l).C := by
  rcases e : l.H with _ | ⟨HK, HC⟩
  · rw [update_none e]; exact h
  · obtain ⟨iK, iC⟩ := s.H _ e
    have jC : ∀ a b, Is cC (newMomentum d cC HC a (inner d l.C) b) := fun a b => is_newMomentum iC (is_inner s.C)
    simp only [update, e, s.C.cls]
    cases f.al
    · exact full_add_left s.C (is_product s.C (jC _ _)) h
    · exact full_add_left s.C (is_product s.C (is_add (jC _ _) s.mC)) h

theorem full_exec {l : Lay} (s : Shape cK cC l) (o : Op) : (Full n l.K → Full n (exec n d l o).K) ∧ (Full d l.C → Full d (exec n d l o).C) := by
  cases o with
  | step f due G =>
    cases due
    · exact ⟨id, id⟩
    · exact ⟨full_update_K s, full_update_C s⟩
  | _ => exact ⟨id, id⟩

theorem full_run {l : Lay} (s : Shape cK cC l) (ops : List Op) : (Full n l.K → Full n (run n d l ops).K) ∧ (Full d l.C → Full d (run n d l ops).C) := by
  induction ops generalizing l with
  | nil => exact ⟨id, id⟩
  | cons o ops ih =>
    have a := full_exec s o (n := n) (d := d)
    have b := ih (shape_exec s o (n := n) (d := d))
    exact ⟨fun h => b.1 (a.1 h), fun h => b.2 (a.2 h)⟩

theorem step_full {l : Lay} (s : Shape cK cC l) (h : Full n l.K ∨ Full d l.C) (f : Flags) (due : Bool) (G : M) : ∀ r < d, ∀ j < n, (step n d f due G l).W r j := by
  have k : Full n (if due then update n d f l else l).K ∨ Full d (if due then update n d f l else l).C := by
    cases due
    · exact h
    · exact h.imp (full_update_K s) (full_update_C s)
  intro r hr j hj
  have ng := full_natGrad k G r hr j hj
  simp only [step]
  refine Or.inr ?_
  cases f.mom
  · exact Or.inl ng
  · exact Or.inr (Or.inl ng)

/-- A factor all of whose entries are NaN never recovers, and spoils all parameters of the layer in every later step: also after the parameters were replaced by good ones. -/
theorem C89_permanent {l : Lay} (s : Shape cK cC l) (h : Full n l.K ∨ Full d l.C) (ops : List Op) (f : Flags) (due : Bool) (G : M) :
    (Full n (run n d l ops).K ∨ Full d (run n d l ops).C) ∧ ∀ r < d, ∀ j < n, (run n d l (ops ++ [.step f due G])).W r j := by
  have k : Full n (run n d l ops).K ∨ Full d (run n d l ops).C := h.imp (full_run s ops).1 (full_run s ops).2
  refine ⟨k, ?_⟩
  rw [run_append]
  exact step_full (shape_run s ops) k f due G

/-- A NaN parameter stays NaN unless it is assigned. -/
theorem C89_parameter_stays {l : Lay} {r j : ℕ} (h : l.W r j) (ops : List Op) (ho : ∀ W, Op.setParam W ∉ ops) : (run n d l ops).W r j := by
  induction ops generalizing l with
  | nil => exact h
  | cons o ops ih =>
    refine ih ?_ fun W hW => ho W (by simp [hW])
    cases o with
    | backward => exact h
    | skip => exact h
    | step f due G =>
      refine Or.inl ?_
      cases due
      · exact h
      · show (update n d f l).W r j
        rcases e : l.H with _ | ⟨HK, HC⟩
        · rw [update_none e]; exact h
        · simp only [update, e]; exact h
    | setParam W => exact (ho W (by simp)).elim

/-- A step that is skipped because of infinite or NaN gradients discards what backward passes left, NaN or not. -/
theorem C89_skip (l : Lay) (bs : List Batch) : run n d l (bs.map Batch.op ++ [.skip]) = { l with H := none } := by
  induction bs generalizing l with
  | nil => rfl
  | cons b bs ih =>
    show run n d (exec n d l b.op) (bs.map Batch.op ++ [.skip]) = _
    rw [ih]; rfl

/-! ## One update -/

/-- statistics after backward passes: their average traces -/
theorem traces {l : Lay} (s : Shape cK cC l) (bs : List Batch) (hb : bs ≠ []) : ∃ HK HC, (run n d l (bs.map Batch.op)).H = some (HK, HC) ∧
    ((∃ i < n, InRow bs i) → averageTrace n HK) ∧ ((∃ i < d, OutRow bs i) → averageTrace d HC) ∧
    ((∃ h, l.H = some h ∧ averageTrace n h.1) → averageTrace n HK) ∧ ((∃ h, l.H = some h ∧ averageTrace d h.2) → averageTrace d HC) := by
  induction bs generalizing l with
  | nil => exact (hb rfl).elim
  | cons b bs ih =>
    have e1 : ∃ GK GC, (exec n d l b.op).H = some (GK, GC) ∧ ((∃ i < n, ∃ t < b.m, b.X i t) → averageTrace n GK) ∧ ((∃ i < d, ∃ t < b.m', b.g i t) → averageTrace d GC) ∧
        ((∃ h, l.H = some h ∧ averageTrace n h.1) → averageTrace n GK) ∧ ((∃ h, l.H = some h ∧ averageTrace d h.2) → averageTrace d GC) := by
      rcases e : l.H with _ | ⟨HK, HC⟩
      · refine ⟨_, _, by simp only [exec, Batch.op, backward, e]; rfl, ?_, ?_, ?_, ?_⟩
        · rintro ⟨i, hi, t, ht, h⟩; exact trace_innerX hi ht h
        · rintro ⟨i, hi, t, ht, h⟩; exact trace_innerX hi ht h
        · rintro ⟨h, hh, -⟩; cases hh
        · rintro ⟨h, hh, -⟩; cases hh
      · have a := s.H _ e
        refine ⟨_, _, by simp only [exec, Batch.op, backward, e]; rfl, ?_, ?_, ?_, ?_⟩
        · rintro ⟨i, hi, t, ht, h⟩; exact trace_add a.1 (is_innerX s.K) (Or.inr (trace_innerX hi ht h))
        · rintro ⟨i, hi, t, ht, h⟩; exact trace_add a.2 (is_innerX s.C) (Or.inr (trace_innerX hi ht h))
        · rintro ⟨h, hh, g⟩; cases hh; exact trace_add a.1 (is_innerX s.K) (Or.inl g)
        · rintro ⟨h, hh, g⟩; cases hh; exact trace_add a.2 (is_innerX s.C) (Or.inl g)
    obtain ⟨GK, GC, eG, t1, t2, t3, t4⟩ := e1
    rcases bs with _ | ⟨b', bs⟩
    · refine ⟨GK, GC, eG, ?_, ?_, t3, t4⟩
      · rintro ⟨i, hi, b', hb', h⟩
        simp only [List.mem_singleton] at hb'; subst hb'
        exact t1 ⟨i, hi, h⟩
      · rintro ⟨i, hi, b', hb', h⟩
        simp only [List.mem_singleton] at hb'; subst hb'
        exact t2 ⟨i, hi, h⟩
    · obtain ⟨HK, HC, eH, u1, u2, u3, u4⟩ := ih (l := exec n d l b.op) (shape_exec s b.op) (by simp)
      refine ⟨HK, HC, eH, ?_, ?_, fun h => u3 ⟨_, eG, t3 h⟩, fun h => u4 ⟨_, eG, t4 h⟩⟩
      · rintro ⟨i, hi, c, hc, h⟩
        rcases List.mem_cons.1 hc with rfl | hc
        · exact u3 ⟨_, eG, t1 ⟨i, hi, h⟩⟩
        · exact u1 ⟨i, hi, c, hc, h⟩
      · rintro ⟨i, hi, c, hc, h⟩
        rcases List.mem_cons.1 hc with rfl | hc
        · exact u4 ⟨_, eG, t2 ⟨i, hi, h⟩⟩
        · exact u2 ⟨i, hi, c, hc, h⟩

theorem full_newMomentum {c : Cls} {n : ℕ} {H I : Obj} {α γ : Prop} (e : Is c H) (e' : Is c I) (h : α) : Full n (newMomentum n c H α I γ) :=
  full_diagAdd (is_add (is_add (is_zeros c n) e) e') (full_add_left (is_add (is_zeros c n) e) e' (full_add_coeff (is_zeros c n) e h))

/-- INGD's own rule couples the factors through their traces: one NaN in the inputs of any backward pass since the last update makes the whole other factor NaN in the update, likewise one in the output
gradients, and the whole weight: whatever the state before, the structures, and the gradients of the step (which may be free of NaN, as after `zero_grad` of the bad batch). -/
theorem C89_default {l : Lay} (s : Shape cK cC l) (bs : List Batch) (f : Flags) (hf : f.kfac = false) (G : M) :
    ((∃ i < n, InRow bs i) → Full d (run n d l (bs.map Batch.op ++ [.step f true G])).C) ∧
    ((∃ i < d, OutRow bs i) → Full n (run n d l (bs.map Batch.op ++ [.step f true G])).K) ∧
    ((∃ i < n, InRow bs i) ∨ (∃ i < d, OutRow bs i) → ∀ r < d, ∀ j < n, (run n d l (bs.map Batch.op ++ [.step f true G])).W r j) := by
  rcases eb : bs with _ | ⟨b0, bt⟩
  · simp [InRow, OutRow]
  rw [← eb]
  have hb : bs ≠ [] := by rw [eb]; simp
  clear eb
  rw [run_append]
  have s' := shape_run s (n := n) (d := d) (bs.map Batch.op)
  obtain ⟨HK, HC, eH, t1, t2, -, -⟩ := traces (n := n) (d := d) s bs hb
  generalize run n d l (bs.map Batch.op) = l' at *
  obtain ⟨iK, iC⟩ := s'.H _ eH
  have cC' : averageTrace n HK → Full d (update n d f l').C := by
    intro h
    have j : Is cC (newMomentum d cC HC (if f.kfac then False else averageTrace n HK) (inner d l'.C) (if f.kfac then False else averageTrace n (inner n l'.K))) := is_newMomentum iC (is_inner s'.C)
    have k : Full d (newMomentum d cC HC (if f.kfac then False else averageTrace n HK) (inner d l'.C) (if f.kfac then False else averageTrace n (inner n l'.K))) :=
      full_newMomentum iC (is_inner s'.C) (by rw [hf]; exact h)
    simp only [update, eH, s'.C.cls]
    cases f.al
    · exact full_add_right s'.C (is_product s'.C j) (full_product s'.C j k)
    · exact full_add_right s'.C (is_product s'.C (is_add j s'.mC)) (full_product s'.C (is_add j s'.mC) (full_add_left j s'.mC k))
  have cK' : averageTrace d HC → Full n (update n d f l').K := by
    intro h
    have j : Is cK (newMomentum n cK HK (if f.kfac then False else averageTrace d HC) (inner n l'.K) (if f.kfac then False else averageTrace d (inner d l'.C))) := is_newMomentum iK (is_inner s'.K)
    have k : Full n (newMomentum n cK HK (if f.kfac then False else averageTrace d HC) (inner n l'.K) (if f.kfac then False else averageTrace d (inner d l'.C))) :=
      full_newMomentum iK (is_inner s'.K) (by rw [hf]; exact h)
    simp only [update, eH, s'.K.cls]
    cases f.al
    · exact full_add_right s'.K (is_product s'.K j) (full_product s'.K j k)
    · exact full_add_right s'.K (is_product s'.K (is_add j s'.mK)) (full_product s'.K (is_add j s'.mK) (full_add_left j s'.mK k))
  refine ⟨fun h => cC' (t1 h), fun h => cK' (t2 h), ?_⟩
  intro h
  have := step_full (n := n) (d := d) (shape_update (n := n) (d := d) (f := f) s') (h.elim (fun h => Or.inr (cC' (t1 h))) fun h => Or.inl (cK' (t2 h))) f false G
  intro r hr j hj
  exact this r hr j hj

/-- INGD's own rule, exactly: from a healthy layer and with clean gradients, an entry of the weight is NaN after the update if and only if there was a NaN anywhere in the data. -/
theorem C89_default_exact {l : Lay} (s : Shape cK cC l) (h : Healthy n d l) (bs : List Batch) (f : Flags) (hf : f.kfac = false) {G : M} (hG : ∀ r < d, ∀ j < n, ¬ G r j) {r j : ℕ} (hr : r < d) (hj : j < n) :
    (run n d l (bs.map Batch.op ++ [.step f true G])).W r j ↔ (∃ i < n, InRow bs i) ∨ ∃ i < d, OutRow bs i := by
  refine ⟨fun w => ?_, fun a => (C89_default s bs f hf G).2.2 a r hr j hj⟩
  by_contra c
  rw [not_or] at c
  refine (C89_healthy (by omega) (by omega) s h (bs.map Batch.op ++ [.step f true G]) ?_).W r hr j hj w
  intro o ho
  rcases List.mem_append.1 ho with ho | ho
  · obtain ⟨b, hb, rfl⟩ := List.mem_map.1 ho
    exact ⟨fun i hi t ht g => c.1 ⟨i, hi, b, hb, t, ht, g⟩, fun i hi t ht g => c.2 ⟨i, hi, b, hb, t, ht, g⟩⟩
  · rw [List.mem_singleton.1 ho]; exact hG

/-- exact statistics after backward passes -/
theorem stats {l : Lay} (s : Shape cK cC l) (hK : Clean n l.K) (hC : Clean d l.C) (bs : List Batch) (hb : bs ≠ []) {RK RC : ℕ → Prop}
    (h0 : ∀ h, l.H = some h → Stat RK n h.1 ∧ Stat RC d h.2) (h1 : l.H = none → (∀ i, ¬ RK i) ∧ ∀ i, ¬ RC i) :
    ∃ HK HC, (run n d l (bs.map Batch.op)).H = some (HK, HC) ∧ Stat (fun i => RK i ∨ InRow bs i) n HK ∧ Stat (fun i => RC i ∨ OutRow bs i) d HC := by
  induction bs generalizing l RK RC with
  | nil => exact (hb rfl).elim
  | cons b bs ih =>
    have e1 : ∃ GK GC, (exec n d l b.op).H = some (GK, GC) ∧ Stat (fun i => RK i ∨ ∃ t < b.m, b.X i t) n GK ∧ Stat (fun i => RC i ∨ ∃ t < b.m', b.g i t) d GC := by
      rcases e : l.H with _ | ⟨HK, HC⟩
      · refine ⟨_, _, by simp only [exec, Batch.op, backward, e]; rfl, ?_, ?_⟩
        · exact stat_congr (fun i => by simp [(h1 e).1 i]) (stat_innerX hK)
        · exact stat_congr (fun i => by simp [(h1 e).2 i]) (stat_innerX hC)
      · have a := s.H _ e
        refine ⟨_, _, by simp only [exec, Batch.op, backward, e]; rfl, ?_, ?_⟩
        · exact stat_add a.1 (is_innerX s.K) (h0 _ e).1 (stat_innerX hK)
        · exact stat_add a.2 (is_innerX s.C) (h0 _ e).2 (stat_innerX hC)
    obtain ⟨GK, GC, eG, t1, t2⟩ := e1
    have inr : ∀ i, (RK i ∨ InRow (b :: bs) i) ↔ (RK i ∨ ∃ t < b.m, b.X i t) ∨ InRow bs i := fun i => by simp [InRow, or_assoc]
    have outr : ∀ i, (RC i ∨ OutRow (b :: bs) i) ↔ (RC i ∨ ∃ t < b.m', b.g i t) ∨ OutRow bs i := fun i => by simp [OutRow, or_assoc]
    rcases bs with _ | ⟨b', bs⟩
    · refine ⟨GK, GC, eG, stat_congr (fun i => ?_) t1, stat_congr (fun i => ?_) t2⟩
      · rw [inr]; simp [InRow]
      · rw [outr]; simp [OutRow]
    · obtain ⟨HK, HC, eH, u1, u2⟩ := ih (l := exec n d l b.op) (shape_exec s b.op) hK hC (by simp) (RK := fun i => RK i ∨ ∃ t < b.m, b.X i t) (RC := fun i => RC i ∨ ∃ t < b.m', b.g i t)
        (fun h hh => by rw [eG] at hh; cases hh; exact ⟨t1, t2⟩) (fun hh => by rw [eG] at hh; cases hh)
      exact ⟨HK, HC, eH, stat_congr (fun i => (inr i).symm) u1, stat_congr (fun i => (outr i).symm) u2⟩

theorem run_batches (l : Lay) (bs : List Batch) : (run n d l (bs.map Batch.op)).K = l.K ∧ (run n d l (bs.map Batch.op)).C = l.C ∧ (run n d l (bs.map Batch.op)).mK = l.mK ∧
    (run n d l (bs.map Batch.op)).mC = l.mC ∧ (run n d l (bs.map Batch.op)).W = l.W ∧ (run n d l (bs.map Batch.op)).P = l.P := by
  induction bs generalizing l with
  | nil => exact ⟨rfl, rfl, rfl, rfl, rfl, rfl⟩
  | cons b bs ih => exact ih (exec n d l b.op)

/-- The KFAC-like rule, exactly: from a healthy layer without statistics and with clean gradients, the entry `(r, j)` of the weight is NaN after the update if and only if a row of the inputs with NaN reaches
`j` or a row of the output gradients with NaN reaches `r`. For diagonal factors these are single columns and rows, for block-diagonal ones blocks, for others everything. -/
theorem C89_kfac_exact {l : Lay} (s : Shape cK cC l) (h : Healthy n d l) (hH : l.H = none) (bs : List Batch) (f : Flags) (hf : f.kfac = true) {G : M} (hG : ∀ r < d, ∀ j < n, ¬ G r j)
    {r j : ℕ} (hr : r < d) (hj : j < n) :
    (run n d l (bs.map Batch.op ++ [.step f true G])).W r j ↔ (∃ i < n, InRow bs i ∧ Reach cK n i j) ∨ ∃ i < d, OutRow bs i ∧ Reach cC d i r := by
  rcases eb : bs with _ | ⟨b0, bt⟩
  · simp only [InRow, OutRow, List.not_mem_nil, false_and, exists_false, and_false, or_false, iff_false]
    exact (C89_healthy (by omega) (by omega) s h [.step f true G] (by simpa [Op.Clean] using hG)).W r hr j hj
  rw [← eb]
  have hb : bs ≠ [] := by rw [eb]; simp
  clear eb
  rw [run_append]
  have s' := shape_run s (n := n) (d := d) (bs.map Batch.op)
  obtain ⟨HK, HC, eH, t1, t2⟩ := stats (n := n) (d := d) s h.K h.C bs hb (RK := fun _ => False) (RC := fun _ => False) (fun k hk => by rw [hH] at hk; cases hk) fun _ => ⟨fun _ => id, fun _ => id⟩
  obtain ⟨q1, q2, q3, q4, q5, q6⟩ := run_batches (n := n) (d := d) l bs
  simp only [false_or] at t1 t2
  generalize run n d l (bs.map Batch.op) = l' at *
  obtain ⟨iK, iC⟩ := s'.H _ eH
  have kK : Clean n l'.K := q1 ▸ h.K
  have kC : Clean d l'.C := q2 ▸ h.C
  have kmK : Clean n l'.mK := q3 ▸ h.mK
  have kmC : Clean d l'.mC := q4 ▸ h.mC
  have jK : Is cK (newMomentum n cK HK False (inner n l'.K) False) := is_newMomentum iK (is_inner s'.K)
  have jC : Is cC (newMomentum d cC HC False (inner d l'.C) False) := is_newMomentum iC (is_inner s'.C)
  have mK : Stat (InRow bs) n (newMomentum n cK HK False (inner n l'.K) False) :=
    stat_diagAdd (is_add (is_add (is_zeros cK n) iK) (is_inner s'.K)) (stat_add_clean (is_add (is_zeros cK n) iK) (is_inner s'.K) (stat_clean_add (is_zeros cK n) iK (clean_zeros cK n) t1) (clean_inner kK))
  have mC : Stat (OutRow bs) d (newMomentum d cC HC False (inner d l'.C) False) :=
    stat_diagAdd (is_add (is_add (is_zeros cC d) iC) (is_inner s'.C)) (stat_add_clean (is_add (is_zeros cC d) iC) (is_inner s'.C) (stat_clean_add (is_zeros cC d) iC (clean_zeros cC d) t2) (clean_inner kC))
  have K' : Stat (InRow bs) n (update n d f l').K := by
    simp only [update, eH, s'.K.cls, hf, if_true]
    cases f.al
    · exact stat_clean_add s'.K (is_product s'.K jK) kK (stat_product s'.K jK kK mK)
    · exact stat_clean_add s'.K (is_product s'.K (is_add jK s'.mK)) kK (stat_product s'.K (is_add jK s'.mK) kK (stat_add_clean jK s'.mK mK kmK))
  have C' : Stat (OutRow bs) d (update n d f l').C := by
    simp only [update, eH, s'.C.cls, hf, if_true]
    cases f.al
    · exact stat_clean_add s'.C (is_product s'.C jC) kC (stat_product s'.C jC kC mC)
    · exact stat_clean_add s'.C (is_product s'.C (is_add jC s'.mC)) kC (stat_product s'.C (is_add jC s'.mC) kC (stat_add_clean jC s'.mC mC kmC))
  have s'' := shape_update (n := n) (d := d) (f := f) s'
  have W' : (update n d f l').W = l.W := by rw [← q5]; simp only [update, eH]
  have P' : (update n d f l').P = l.P := by rw [← q6]; simp only [update, eH]
  show (step n d f true G l').W r j ↔ _
  have ng : natGrad n d (update n d f l') G r j ↔ (∃ i < n, InRow bs i ∧ Reach cK n i j) ∨ ∃ i < d, OutRow bs i ∧ Reach cC d i r := by
    have inn : ∀ i < d, tr (matmulT n (update n d f l').K (rmatmat n (update n d f l').K (tr G))) i j ↔ ∃ t < n, InRow bs t ∧ Reach cK n t j := by
      intro i hi
      have := stat_apply s''.K K' (X := tr G) (j := i) (x := False) (fun t ht => iff_of_false (hG i hi t ht) id) hj
      rwa [or_false] at this
    rw [natGrad, stat_apply s''.C C' inn hr, or_comm]
  have w0 := h.W r hr j hj
  have p0 := h.P r hr j hj
  simp only [step, if_true, W', P', w0, false_or, and_false, or_false]
  cases f.mom
  · simpa [w0] using ng
  · simpa [p0, w0] using ng

end

/-! ## Examples -/

namespace Sample

/-- a new layer: identity factors, nothing NaN -/
def layer (cK cC : Cls) (n d : ℕ) : Lay := ⟨zeros cK n, zeros cC d, zeros cK n, zeros cC d, none, fun _ _ => False, fun _ _ => False⟩

theorem layer_shape (cK cC : Cls) (n d : ℕ) : Shape cK cC (layer cK cC n d) := ⟨is_zeros _ _, is_zeros _ _, is_zeros _ _, is_zeros _ _, fun _ h => by cases h⟩

theorem layer_healthy (cK cC : Cls) (n d : ℕ) : Healthy n d (layer cK cC n d) :=
  ⟨clean_zeros _ _, clean_zeros _ _, clean_zeros _ _, clean_zeros _ _, fun _ h => (by cases h), fun _ _ _ _ => id, fun _ _ _ _ => id⟩

/-- two batches; the second has one NaN, at input 1 of its first example -/
def batches : List Batch := [⟨2, fun _ _ => False, 2, fun _ _ => False⟩, ⟨2, fun i t => i = 1 ∧ t = 0, 2, fun _ _ => False⟩]

theorem inRow (i : ℕ) : InRow batches i ↔ i = 1 := by
  constructor
  · rintro ⟨b, hb, t, ht, h⟩
    simp only [batches, List.mem_cons, List.not_mem_nil, or_false] at hb
    rcases hb with rfl | rfl
    · exact h.elim
    · exact h.1
  · rintro rfl
    exact ⟨⟨2, fun i t => i = 1 ∧ t = 0, 2, fun _ _ => False⟩, by simp [batches], 0, by simp, rfl, rfl⟩

theorem outRow (i : ℕ) : ¬ OutRow batches i := by
  rintro ⟨b, hb, t, ht, h⟩
  simp only [batches, List.mem_cons, List.not_mem_nil, or_false] at hb
  rcases hb with rfl | rfl <;> exact h.elim

/-- no NaN -/
def zero : M := fun _ _ => False

/-- INGD's own rule, diagonal factors: the whole weight is NaN, although the gradient is not -/
example : ∀ r < 4, ∀ j < 3, (run 3 4 (layer .diagonal .diagonal 3 4) (batches.map Batch.op ++ [.step ⟨false, true, true, true⟩ true zero])).W r j :=
  (C89_default (layer_shape _ _ _ _) batches _ rfl zero).2.2 (Or.inl ⟨1, by omega, (inRow 1).2 rfl⟩)

/-- KFAC-like rule, diagonal input factor: column 1 -/
example {r j : ℕ} (hr : r < 4) (hj : j < 3) : (run 3 4 (layer .diagonal .dense 3 4) (batches.map Batch.op ++ [.step ⟨true, true, true, true⟩ true zero])).W r j ↔ j = 1 := by
  rw [C89_kfac_exact (layer_shape _ _ _ _) (layer_healthy _ _ _ _) rfl batches _ rfl (G := zero) (fun _ _ _ _ => id) hr hj]
  simp only [inRow, outRow, Reach]
  constructor
  · rintro (⟨i, _, rfl, rfl⟩ | ⟨i, _, h, _⟩)
    · rfl
    · exact h.elim
  · rintro rfl
    exact Or.inl ⟨1, by omega, rfl, rfl⟩

/-- KFAC-like rule, blocks of 2 in 5 inputs: columns 0 and 1 -/
example {r j : ℕ} (hr : r < 4) (hj : j < 5) : (run 5 4 (layer (.block 2) .diagonal 5 4) (batches.map Batch.op ++ [.step ⟨true, false, false, true⟩ true zero])).W r j ↔ j < 2 := by
  rw [C89_kfac_exact (layer_shape _ _ _ _) (layer_healthy _ _ _ _) rfl batches _ rfl (G := zero) (fun _ _ _ _ => id) hr hj]
  simp only [inRow, outRow, Reach]
  constructor
  · rintro (⟨i, _, rfl, h⟩ | ⟨i, _, h, _⟩)
    · omega
    · exact h.elim
  · intro h
    exact Or.inl ⟨1, by omega, rfl, by omega⟩

/-- KFAC-like rule, hierarchical input factor with 5 inputs, of which 1, 2, 3 are in the middle: columns 0, 1 and 4 -/
example {r j : ℕ} (hr : r < 4) (hj : j < 5) : (run 5 4 (layer (.hier 1 1) .diagonal 5 4) (batches.map Batch.op ++ [.step ⟨true, false, false, true⟩ true zero])).W r j ↔ j ≠ 2 ∧ j ≠ 3 := by
  rw [C89_kfac_exact (layer_shape _ _ _ _) (layer_healthy _ _ _ _) rfl batches _ rfl (G := zero) (fun _ _ _ _ => id) hr hj]
  simp only [inRow, outRow, Reach, Middle, show Hier.blockDims 1 1 5 = (1, 3, 1) by decide]
  constructor
  · rintro (⟨i, _, rfl, h⟩ | ⟨i, _, h, _⟩)
    · constructor
      · rintro rfl; exact absurd (h (by omega) (by omega)) (by omega)
      · rintro rfl; exact absurd (h (by omega) (by omega)) (by omega)
    · exact h.elim
  · intro h
    exact Or.inl ⟨1, by omega, rfl, fun _ _ => by omega⟩

/-- good weights are put back, training goes on with clean data: all NaN again -/
example : ∀ r < 4, ∀ j < 3, (run 3 4 (layer .tril .dense 3 4) (batches.map Batch.op ++ [.step ⟨false, true, true, true⟩ true zero] ++
    ([.setParam zero, .backward 2 zero 2 zero] ++ [.step ⟨false, true, true, true⟩ true zero]))).W r j := by
  rw [run_append]
  exact (C89_permanent (shape_run (layer_shape _ _ _ _) _) (Or.inr ((C89_default (layer_shape .tril .dense 3 4) batches _ rfl zero).1 ⟨1, by omega, (inRow 1).2 rfl⟩)) _ _ _ _).2

/-- the same batches, but the step is skipped: nothing is NaN afterwards -/
example : Healthy 3 4 (run 3 4 (layer .tril .dense 3 4) (batches.map Batch.op ++ [.skip] ++ [.backward 2 zero 2 zero, .step ⟨false, true, true, true⟩ true zero])) := by
  rw [run_append, C89_skip]
  refine C89_healthy (by omega) (by omega) (cK := .tril) (cC := .dense) ?_ ?_ _ ?_
  · exact ⟨is_zeros .tril 3, is_zeros .dense 4, is_zeros .tril 3, is_zeros .dense 4, fun _ h => by cases h⟩
  · exact layer_healthy .tril .dense 3 4
  · simp [Op.Clean, zero]

/-- without NaN in the data the exact statement says that nothing is NaN -/
example : ¬ (run 3 4 (layer .diagonal .diagonal 3 4) ([⟨2, zero, 2, zero⟩].map Batch.op ++ [.step ⟨false, true, true, true⟩ true zero])).W 0 0 := by
  rw [C89_default_exact (layer_shape _ _ _ _) (layer_healthy _ _ _ _) _ _ rfl (G := zero) (fun _ _ _ _ => id) (by omega) (by omega)]
  simp [InRow, OutRow, zero]

/-- a parameter that is NaN stays NaN -/
example : (run 3 4 { layer .diagonal .dense 3 4 with W := fun r j => r = 0 ∧ j = 2 } [.backward 2 zero 2 zero, .step ⟨true, false, false, false⟩ true zero, .skip]).W 0 2 :=
  C89_parameter_stays (l := { layer .diagonal .dense 3 4 with W := fun r j => r = 0 ∧ j = 2 }) ⟨rfl, rfl⟩ _ (by simp)

end Sample

end Nn
