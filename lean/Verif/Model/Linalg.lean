import Mathlib.Data.Matrix.Block
import Mathlib.Algebra.Field.ZMod
import Mathlib.LinearAlgebra.Matrix.Notation

/-!
# Model of `flamingpy/utils/linalg.py`

Binary matrices are matrices over `ZMod 2` (every entry the code manipulates is 0 or 1 and
is reduced mod 2; int/float dtypes are not modelled).  Rows are indexed by `Fin m`.
Columns are indexed by any type, together with the list giving their left-to-right order.
-/

namespace Flamingpy.Linalg

open Matrix

/-- The field with two elements. -/
abbrev F2 := ZMod 2

variable {m n : ℕ} {κ : Type*}

/-- `p + np.nonzero(R[p:, j])[0][0]`, utils/linalg.py:25-29: first row at or below `p` with
a non-zero entry in column `j`, if any. -/
def firstPivot (R : Fin m → κ → F2) (p : ℕ) (j : κ) : Option (Fin m) :=
  (List.finRange m).find? fun i => decide (p ≤ i.val ∧ R i j ≠ 0)

/-- `R[[p, i], :] = R[[i, p], :]`, utils/linalg.py:31. -/
def swapRows (R : Fin m → κ → F2) (p i : Fin m) : Fin m → κ → F2 :=
  fun r => R (if r = p then i else if r = i then p else r)

/-- `R[p, :] / R[p, j]` and the elimination of column `j` in all other rows,
utils/linalg.py:33-37 (only rows with a non-zero entry in column `j` are touched by the
code; for the others the update below is the identity). -/
def eliminate (R : Fin m → κ → F2) (p : Fin m) (j : κ) : Fin m → κ → F2 :=
  fun r => if r = p then (fun c => R p c / R p j)
    else if R r j ≠ 0 then (fun c => R r c - R r j * (R p c / R p j)) else R r

/-- The column loop of `reduce_RREform_mod2`, utils/linalg.py:23-41. -/
def rrefLoop : List κ → (Fin m → κ → F2) → ℕ → (Fin m → κ → F2) × ℕ
  | [], R, p => (R, p)
  | j :: js, R, p =>
    match firstPivot R p j with
    | none => rrefLoop js R p
    | some i =>
      if h : p < m then
        let R' := eliminate (swapRows R ⟨p, h⟩ i) ⟨p, h⟩ j
        if p + 1 = m then (R', p + 1) else rrefLoop js R' (p + 1)
      else (R, p) -- unreachable: `p ≤ i < m`

/-- `reduce_RREform_mod2(M, max_cols)`, utils/linalg.py:6-42; `cols` are the first
`max_cols` columns in order. -/
def reduceRREform (M : Fin m → κ → F2) (cols : List κ) : (Fin m → κ → F2) × ℕ :=
  rrefLoop cols M 0

/-- A matrix together with its number of rows. -/
structure RowsOf (n : ℕ) where
  /-- number of rows -/
  d : ℕ
  /-- the rows -/
  rows : Fin d → Fin n → F2

/-- The augmented matrix `[M.T | I]`, utils/linalg.py:92-95. -/
def augmented {ι : Type*} (M : ι → Fin n → F2) : Fin n → (ι ⊕ Fin n) → F2 :=
  fun r => Sum.elim (fun i => M i r) (fun c => if r = c then 1 else 0)

/-- `nullspace_basis(M)`, utils/linalg.py:79-100; `rowOrder` lists the rows of `M` (the
columns of the transposed matrix) in order. -/
def nullspaceBasis {ι : Type*} (rowOrder : List ι) (M : ι → Fin n → F2) : RowsOf n :=
  let Rp := reduceRREform (augmented M) (rowOrder.map Sum.inl)
  let N : Fin (n - Rp.2) → Fin n → F2 :=
    fun i c => Rp.1 ⟨Rp.2 + i.val, by omega⟩ (Sum.inr c)
  ⟨n - Rp.2, (reduceRREform N (List.finRange n)).1⟩

/-- Flat position `i + k*n` of the `i`-th entry of the `k`-th block of a `4n` vector. -/
def blk (k : Fin 4) (i : Fin n) : Fin (4 * n) :=
  ⟨i.val + k.val * n, by
    have := i.2; have := k.2
    have : k.val * n ≤ 3 * n := Nat.mul_le_mul_right n (by omega)
    omega⟩

/-- Inverse of `blk`: block and position within the block of a flat index. -/
def unblk (c : Fin (4 * n)) : Fin 4 × Fin n :=
  (⟨c.val / n, Nat.div_lt_of_lt_mul (by have := c.2; omega)⟩,
   ⟨c.val % n, Nat.mod_lt _ (by have := c.2; omega)⟩)

/-- `lc_constraint_system(G, H)`, utils/linalg.py:45-76.  Row `(j, k)` is row `k` of the
`j`-th row block; the four column blocks are A = diag(G[j]), B = E_jj,
C[k, i] = G[i, j] * H[i, k], D[k, j] = H[j, k]. -/
def lcConstraintSystem (G H : Matrix (Fin n) (Fin n) F2) : (Fin n × Fin n) → Fin (4 * n) → F2 :=
  fun jk c =>
    let j := jk.1
    let k := jk.2
    let i := (unblk c).2
    match (unblk c).1 with
    | 0 => if k = i then G j k else 0
    | 1 => if k = j ∧ i = j then 1 else 0
    | 2 => G i j * H i k
    | 3 => if i = j then H j k else 0

/-- The order of the rows of the constraint system: row blocks `j`, then `k` within. -/
def systemRowOrder (n : ℕ) : List (Fin n × Fin n) :=
  (List.finRange n).flatMap fun j => (List.finRange n).map fun k => (j, k)

/-- The pairs `(i, j)`, `i in range(d)`, `j in range(i)`, in loop order,
utils/linalg.py:129-130. -/
def pairs (d : ℕ) : List (Fin d × Fin d) :=
  (List.finRange d).flatMap fun i => ((List.finRange d).filter (· < i)).map fun j => (i, j)

/-- The determinant check of one candidate, utils/linalg.py:137-145. -/
def detOk (sol : Fin (4 * n) → F2) : Bool :=
  (List.finRange n).all fun k =>
    decide (sol (blk 0 k) * sol (blk 3 k) + sol (blk 1 k) * sol (blk 2 k) = 1)

/-- `search_nullspace(basis)`, utils/linalg.py:103-159: the first sum of two distinct basis
vectors satisfying the determinant constraints. -/
def searchNullspace (basis : RowsOf (4 * n)) : Option (Fin (4 * n) → F2) :=
  ((pairs basis.d).map fun ij => basis.rows ij.1 + basis.rows ij.2).find? detOk

/-- `clifford_vec_to_tensors(vec)`, utils/linalg.py:162-189. -/
def cliffordVecToTensors (vec : Fin (4 * n) → F2) : Fin n → Matrix (Fin 2) (Fin 2) F2 :=
  fun i => !![vec (blk 0 i), vec (blk 1 i); vec (blk 2 i), vec (blk 3 i)]

/-- `clifford_vec_to_global(vec)`, utils/linalg.py:192-222. -/
def cliffordVecToGlobal (vec : Fin (4 * n) → F2) : Matrix (Fin n ⊕ Fin n) (Fin n ⊕ Fin n) F2 :=
  fromBlocks (diagonal fun i => vec (blk 0 i)) (diagonal fun i => vec (blk 1 i))
    (diagonal fun i => vec (blk 2 i)) (diagonal fun i => vec (blk 3 i))

/-- The `clifford_form` argument. -/
inductive CliffordForm where
  | tensor | global | other
deriving DecidableEq

/-- The second component of the result of `are_lc_equivalent`. -/
inductive CliffordOut (n : ℕ) where
  | none
  | tensors (t : Fin n → Matrix (Fin 2) (Fin 2) F2)
  | globalMat (g : Matrix (Fin n ⊕ Fin n) (Fin n ⊕ Fin n) F2)

/-- Errors of `are_lc_equivalent`: an unknown `clifford_form` on equivalent graphs leaves the
local variables unbound (UnboundLocalError). -/
inductive LcErr where
  | unboundLocal

/-- `are_lc_equivalent`, utils/linalg.py:225-295, on the dense adjacency matrices (the
non-dense and non-square cases raise and cannot arise from `adj_generator(sparse=False)` on a
fresh graph). -/
def areLcEquivalent {n m : ℕ} (G : Matrix (Fin n) (Fin n) F2) (H : Matrix (Fin m) (Fin m) F2)
    (form : CliffordForm := .tensor) : Except LcErr (Bool × CliffordOut n) :=
  if n = 0 ∨ m = 0 then .ok (false, .none)
  else if h : m = n then
    let H' : Matrix (Fin n) (Fin n) F2 := fun i j => H (Fin.cast h.symm i) (Fin.cast h.symm j)
    let system := lcConstraintSystem G H'
    let nullspace := nullspaceBasis (systemRowOrder n) system
    match searchNullspace nullspace with
    | none => .ok (false, .none)
    | some v =>
      match form with
      | .tensor => .ok (true, .tensors (cliffordVecToTensors v))
      | .global => .ok (true, .globalMat (cliffordVecToGlobal v))
      | .other => .error .unboundLocal
  else .ok (false, .none)

end Flamingpy.Linalg
