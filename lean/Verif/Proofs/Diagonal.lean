import Verif.Proofs.TensorLemmas
import Verif.Model.Diagonal

open Finset
variable {α : Type} [Field α]

namespace Diagonal
variable {d e : Vec α} {n : ℕ}

theorem get_toDense (d : Vec α) (i j) : (toDense d).get i j = if i = j then d.get i else 0 := by
  simp [toDense]

theorem matmulT_spec {m} (hd : d.len = n) {X : Mat α} (hr : X.rows = n) (hc : X.cols = m) :
    matmulT d X = .ok ((toDense d).mul X) := by
  subst hd
  simp only [matmulT, Mat.scaleRows?, hr, if_true]
  congr 1
  refine Mat.ext' (by simp [toDense, hr]) rfl fun i hi j hj => ?_
  simp only [Mat.get_scaleRows, Mat.get_mul, get_toDense, toDense, Vec.cols_diagMat, ite_mul, zero_mul,
    Vec.get_diagMat]
  simp at hi
  rw [sum_ite_eq, if_pos (by simpa [← hr] using hi)]

theorem matmulS_spec (hd : d.len = n) (he : e.len = n) :
    matmulS d e = .ok (d.had e) ∧ toDense (d.had e) = (toDense d).mul (toDense e) := by
  refine ⟨by simp [matmulS, Vec.had?, hd, he], Mat.ext' (by simp [toDense]) (by simp [toDense, hd, he]) ?_⟩
  intro i hi j hj
  simp [toDense] at hi hj
  simp [Mat.get_mul, toDense]
  by_cases h : i = j
  · subst h; simp [hi]
  · simp [h]

theorem add_spec (hd : d.len = n) (he : e.len = n) :
    add d e = .ok (d.add e) ∧ toDense (d.add e) = (toDense d).add (toDense e) := by
  refine ⟨by simp [add, Vec.add?, hd, he], Mat.ext' (by simp [toDense]) (by simp [toDense]) ?_⟩
  intro i hi j hj
  rw [Mat.get_add (by simp [toDense, hd, he]) (by simp [toDense, hd, he])]
  simp only [toDense, Vec.get_diagMat, Vec.get_add (hd.trans he.symm)]
  split_ifs <;> simp

theorem smul_spec (s : α) : toDense (smul d s) = (toDense d).smul s := by
  refine Mat.ext' (by simp [toDense, smul]) (by simp [toDense, smul]) fun i _ j _ => ?_
  simp [toDense, smul]

theorem toDense_T : (toDense d).T = toDense d := by
  refine Mat.ext' (by simp [toDense]) (by simp [toDense]) fun i _ j _ => ?_
  simp only [toDense, Mat.get_T, Vec.get_diagMat]
  by_cases h : i = j
  · simp [h]
  · simp [h, Ne.symm h]

theorem diagAdd_spec (s : α) : toDense (diagAdd d s) = (toDense d).diagAdd s := by
  refine Mat.ext' (by simp [toDense, diagAdd]) (by simp [toDense, diagAdd]) fun i hi j hj => ?_
  simp [toDense, diagAdd] at hi hj
  simp [toDense, diagAdd, Mat.diagAdd, Vec.addScalar, hi, hj]
  split_ifs <;> simp

theorem fromDense_toDense : (toDense d).diag = d := by
  refine Vec.ext' (by simp [toDense]) fun i _ => by simp [toDense]
theorem zeros_spec : toDense (zeros n : Vec α) = Mat.zeros n n :=
  Mat.ext' (by simp [toDense, zeros]) (by simp [toDense, zeros]) fun i _ j _ => by simp [toDense, zeros]
theorem eye_spec : toDense (eye n : Vec α) = Mat.eye n :=
  Mat.ext' (by simp [toDense, eye]) (by simp [toDense, eye]) fun i hi j hj => by
    simp [toDense, eye] at hi hj
    simp [toDense, eye, Mat.get_eye, hi]
end Diagonal
