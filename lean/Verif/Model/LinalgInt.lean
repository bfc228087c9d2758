import Verif.Model.Linalg

/-!
# Model of `flamingpy/utils/linalg.py` on integer matrices

Model/Linalg has binary matrices; here the entries are the integers that the code really has (weights of edges), with its division and remainders.
-/

namespace Flamingpy.LinalgInt

open Flamingpy.Linalg Matrix

variable {m n : ℕ} {κ : Type*}

/-- `p + np.nonzero(R[p:, j])[0][0]`, utils/linalg.py:25-29. -/
def firstPivot (R : Fin m → κ → ℤ) (p : ℕ) (j : κ) : Option (Fin m) :=
  (List.finRange m).find? fun i => decide (p ≤ i.val ∧ R i j ≠ 0)

/-- `R[[p, i], :] = R[[i, p], :]`, utils/linalg.py:31. -/
def swapRows (R : Fin m → κ → ℤ) (p i : Fin m) : Fin m → κ → ℤ :=
  fun r => R (if r = p then i else if r = i then p else r)

/-- `R[p, :] = R[p, :] / R[p, j]` (assigned to an array of integers: cut off towards zero) and the elimination, utils/linalg.py:33-37. -/
def eliminate (R : Fin m → κ → ℤ) (p : Fin m) (j : κ) : Fin m → κ → ℤ :=
  fun r => if r = p then (fun c => (R p c).tdiv (R p j))
    else if R r j ≠ 0 then (fun c => (R r c - R r j * (R p c).tdiv (R p j)) % 2) else R r

/-- The column loop of `reduce_RREform_mod2`, utils/linalg.py:23-41. -/
def rrefLoop : List κ → (Fin m → κ → ℤ) → ℕ → (Fin m → κ → ℤ) × ℕ
  | [], R, p => (R, p)
  | j :: js, R, p =>
    match firstPivot R p j with
    | none => rrefLoop js R p
    | some i =>
      if h : p < m then
        let R' := eliminate (swapRows R ⟨p, h⟩ i) ⟨p, h⟩ j
        if p + 1 = m then (R', p + 1) else rrefLoop js R' (p + 1)
      else (R, p)

/-- `reduce_RREform_mod2(M, max_cols)`, utils/linalg.py:6-42. -/
def reduceRREform (M : Fin m → κ → ℤ) (cols : List κ) : (Fin m → κ → ℤ) × ℕ := rrefLoop cols M 0

/-- A matrix together with its number of rows. -/
structure RowsOf (n : ℕ) where
  /-- number of rows -/
  d : ℕ
  /-- the rows -/
  rows : Fin d → Fin n → ℤ

/-- The augmented matrix `[M.T | I]`, utils/linalg.py:92-95. -/
def augmented {ι : Type*} (M : ι → Fin n → ℤ) : Fin n → (ι ⊕ Fin n) → ℤ :=
  fun r => Sum.elim (fun i => M i r) (fun c => if r = c then 1 else 0)

/-- `nullspace_basis(M)`, utils/linalg.py:79-100. -/
def nullspaceBasis {ι : Type*} (rowOrder : List ι) (M : ι → Fin n → ℤ) : RowsOf n :=
  let Rp := reduceRREform (augmented M) (rowOrder.map Sum.inl)
  let N : Fin (n - Rp.2) → Fin n → ℤ :=
    fun i c => Rp.1 ⟨Rp.2 + i.val, by omega⟩ (Sum.inr c)
  ⟨n - Rp.2, (reduceRREform N (List.finRange n)).1⟩

/-- `lc_constraint_system(G, H)`, utils/linalg.py:45-76. -/
def lcConstraintSystem (G H : Matrix (Fin n) (Fin n) ℤ) : (Fin n × Fin n) → Fin (4 * n) → ℤ :=
  fun jk c =>
    let j := jk.1
    let k := jk.2
    let i := (unblk c).2
    match (unblk c).1 with
    | 0 => if k = i then G j k else 0
    | 1 => if k = j ∧ i = j then 1 else 0
    | 2 => G i j * H i k
    | 3 => if i = j then H j k else 0

/-- The determinant check of one candidate, utils/linalg.py:137-145. -/
def detOk (sol : Fin (4 * n) → ℤ) : Bool :=
  (List.finRange n).all fun k =>
    decide ((sol (blk 0 k) * sol (blk 3 k) + sol (blk 1 k) * sol (blk 2 k)) % 2 = 1)

/-- `search_nullspace(basis)`, utils/linalg.py:103-159. -/
def searchNullspace (basis : RowsOf (4 * n)) : Option (Fin (4 * n) → ℤ) :=
  ((pairs basis.d).map fun ij c => (basis.rows ij.1 c + basis.rows ij.2 c) % 2).find? detOk

/-- `clifford_vec_to_tensors(vec)`, utils/linalg.py:162-189. -/
def cliffordVecToTensors (vec : Fin (4 * n) → ℤ) : Fin n → Matrix (Fin 2) (Fin 2) ℤ :=
  fun i => !![vec (blk 0 i), vec (blk 1 i); vec (blk 2 i), vec (blk 3 i)]

/-- `clifford_vec_to_global(vec)`, utils/linalg.py:192-222. -/
def cliffordVecToGlobal (vec : Fin (4 * n) → ℤ) : Matrix (Fin n ⊕ Fin n) (Fin n ⊕ Fin n) ℤ :=
  fromBlocks (diagonal fun i => vec (blk 0 i)) (diagonal fun i => vec (blk 1 i))
    (diagonal fun i => vec (blk 2 i)) (diagonal fun i => vec (blk 3 i))

/-- The second component of the result of `are_lc_equivalent`. -/
inductive CliffordOut (n : ℕ) where
  | none
  | tensors (t : Fin n → Matrix (Fin 2) (Fin 2) ℤ)
  | globalMat (g : Matrix (Fin n ⊕ Fin n) (Fin n ⊕ Fin n) ℤ)

/-- `are_lc_equivalent`, utils/linalg.py:225-295, on dense adjacency matrices with integer weights (weights that are not integers are cut off
towards zero in products and in the system, which is not modelled). -/
def areLcEquivalent {n m : ℕ} (G : Matrix (Fin n) (Fin n) ℤ) (H : Matrix (Fin m) (Fin m) ℤ)
    (form : CliffordForm := .tensor) : Except LcErr (Bool × CliffordOut n) :=
  if n = 0 ∨ m = 0 then .ok (false, .none)
  else if h : m = n then
    let H' : Matrix (Fin n) (Fin n) ℤ := fun i j => H (Fin.cast h.symm i) (Fin.cast h.symm j)
    let system := lcConstraintSystem G H'
    let nullspace := nullspaceBasis (systemRowOrder n) system
    match searchNullspace nullspace with
    | none => .ok (false, .none)
    | some v =>
      match form with
      | .tensor => .ok (true, .tensors (cliffordVecToTensors v))
      | .global => .ok (true, .globalMat (cliffordVecToGlobal v))
      | .other => .error .unboundLocal
  else .ok (false, .none)

end Flamingpy.LinalgInt
