import Mathlib.Data.Matrix.Block
import Mathlib.LinearAlgebra.Matrix.Symmetric
import Mathlib.LinearAlgebra.Matrix.Notation
import Mathlib.Data.Real.Basic
import Mathlib.Analysis.SpecialFunctions.Trigonometric.Basic

/-!
# Model of `flamingpy/cv/ops.py`

A length-`2N` vector in the `(q₁,…,q_N,p₁,…,p_N)` convention is a function on
`Fin N ⊕ Fin N`; NumPy's slices `[:N]`, `[N:]` are the two summands.  Sparse and dense
storage are not distinguished, integer dtypes are unbounded.
-/

namespace Flamingpy.CvOps

open Matrix

/-- Fancy indexing `a[p]` by a list of non-negative indices; `none` is IndexError. -/
def index {α : Type*} (a : List α) (p : List ℕ) : Option (List α) := p.mapM (a[·]?)

/-- `invert_permutation`, cv/ops.py:24-28.  `empty` is the uninitialised buffer
`np.empty(p.size)`; the fancy assignment `p_inverted[p] = np.arange(p.size)` writes
`p_inverted[p[i]] = i` in order. Out-of-range writes (IndexError) are ignored here. -/
def invertPermutation (empty p : List ℕ) : List ℕ :=
  (p.zipIdx).foldl (fun acc e => acc.set e.1 e.2) empty

variable {R : Type*} [CommRing R] {N : ℕ}

/-- `SCZ_mat(adj)`, cv/ops.py:36-70. -/
def sczMat (adj : Matrix (Fin N) (Fin N) R) : Matrix (Fin N ⊕ Fin N) (Fin N ⊕ Fin N) R :=
  fromBlocks 1 0 adj 1

/-- `SCZ_apply(adj, quads, one_shot)` for one-dimensional `quads` of length 2N,
cv/ops.py:81-90. -/
def sczApply1 (adj : Matrix (Fin N) (Fin N) R) (quads : Fin N ⊕ Fin N → R) (oneShot : Bool := true) :
    Fin N ⊕ Fin N → R :=
  if oneShot then (sczMat adj).mulVec quads
  else
    let oldQs : Fin N → R := fun i => quads (Sum.inl i)
    let oldPs : Fin N → R := fun i => quads (Sum.inr i)
    Sum.elim oldQs (adj.mulVec oldQs + oldPs)

/-- Assignment of a number to an entry of an array of floats or of integers (`isInt`): NumPy casts without a warning, towards zero. -/
noncomputable def castTo (isInt : Bool) (x : ℝ) : ℝ := if isInt then ((if 0 ≤ x then ⌊x⌋ else ⌈x⌉ : ℤ) : ℝ) else x

/-- `SCZ_apply(adj, quads, one_shot)` for one-dimensional `quads`, cv/ops.py:81-90, with a float matrix `adj`, and with the type of
the entries of `quads`: without `one_shot` the result is written into an array of that type (cv/ops.py:88-90).  Rounding and overflow are not modelled. -/
noncomputable def sczApply1D (isInt : Bool) (adj : Matrix (Fin N) (Fin N) ℝ) (quads : Fin N ⊕ Fin N → ℝ) (oneShot : Bool) : Fin N ⊕ Fin N → ℝ :=
  if oneShot then (sczMat adj).mulVec quads
  else
    let oldQs : Fin N → ℝ := fun i => quads (Sum.inl i)
    let oldPs : Fin N → ℝ := fun i => quads (Sum.inr i)
    Sum.elim (fun i => castTo isInt (oldQs i)) fun i => castTo isInt ((adj.mulVec oldQs + oldPs) i)

/-- `SCZ_apply(adj, quads, one_shot)` for a `2N × 2N` array, cv/ops.py:91-101. -/
def sczApply2 (adj : Matrix (Fin N) (Fin N) R) (quads : Matrix (Fin N ⊕ Fin N) (Fin N ⊕ Fin N) R)
    (oneShot : Bool := true) : Matrix (Fin N ⊕ Fin N) (Fin N ⊕ Fin N) R :=
  if oneShot then
    let scz := sczMat adj
    (scz * (scz * quads)ᵀ)ᵀ
  else
    let c1 := quads.toBlocks₁₁
    let c2 := quads.toBlocks₁₂
    let c3 := quads.toBlocks₂₁
    let c4 := quads.toBlocks₂₂
    let block2 := (adj * c1ᵀ)ᵀ + c2
    let block3 := adj * c1 + c3
    let block4 := c4 + adj * c2 + (adj * c3ᵀ)ᵀ + (adj * (adj * c1)ᵀ)ᵀ
    fromBlocks c1 block2 block3 block4

/-! ### The four-splitter -/

/-- thewalrus `beam_splitter(theta, 0)` in the all-q's-first convention (used at
cv/ops.py:121): `interferometer(U)` of the real matrix `U = [[c, -s], [s, c]]`, i.e.
`[[X, -Y], [Y, X]]` with `X = U`, `Y = 0`. -/
noncomputable def beamSplitter (theta : ℝ) : Matrix (Fin 2 ⊕ Fin 2) (Fin 2 ⊕ Fin 2) ℝ :=
  let X : Matrix (Fin 2) (Fin 2) ℝ := !![Real.cos theta, -Real.sin theta; Real.sin theta, Real.cos theta]
  fromBlocks X 0 0 X

/-- Position of mode `a` in the list `w = [w₀, w₁]` of modes. -/
def modePos (w : Fin 2 → Fin N) (a : Fin N) : Option (Fin 2) :=
  if w 0 = a then some 0 else if w 1 = a then some 1 else none

/-- One of the four blocks of thewalrus `expand`: `base[w, w] = B` on distinct modes `w`. -/
def expandSub (w : Fin 2 → Fin N) (B : Matrix (Fin 2) (Fin 2) ℝ) (base : Matrix (Fin N) (Fin N) ℝ) :
    Matrix (Fin N) (Fin N) ℝ :=
  Matrix.of fun a b => match modePos w a, modePos w b with
    | some k, some l => B k l
    | _, _ => base a b

/-- thewalrus `expand(S, modes, N)` for a two-mode `S` on distinct modes `w`. -/
def expand (S : Matrix (Fin 2 ⊕ Fin 2) (Fin 2 ⊕ Fin 2) ℝ) (w : Fin 2 → Fin N) :
    Matrix (Fin N ⊕ Fin N) (Fin N ⊕ Fin N) ℝ :=
  fromBlocks (expandSub w S.toBlocks₁₁ 1) (expandSub w S.toBlocks₁₂ 0)
    (expandSub w S.toBlocks₂₁ 0) (expandSub w S.toBlocks₂₂ 1)

/-- `bs_network` in `splitter_symp`, cv/ops.py:121-126 (the cast to single precision is
not modelled).  This is the value returned for `n = 4`. -/
noncomputable def bsNetwork : Matrix (Fin 4 ⊕ Fin 4) (Fin 4 ⊕ Fin 4) ℝ :=
  let bs5050 := beamSplitter (Real.pi / 4)
  let bs1 := expand bs5050 ![1, 0]
  let bs2 := expand bs5050 ![3, 2]
  let bs3 := expand bs5050 ![2, 0]
  let bs4 := expand bs5050 ![3, 1]
  bs4 * bs3 * bs2 * bs1

/-- `perm_out_4 = [0, 4, 1, 5, 2, 6, 3, 7]`, cv/ops.py:132; index `4 + i` is `inr i`. -/
def permOut4 : Fin 8 → Fin 4 ⊕ Fin 4 :=
  ![.inl 0, .inr 0, .inl 1, .inr 1, .inl 2, .inr 2, .inl 3, .inr 3]

/-- `bs_full` in `splitter_symp` for `n > 4`, cv/ops.py:129-137: `n // 4` diagonal copies.
Row `8k + i` of the NumPy array is the pair `(i, k)`. -/
noncomputable def bsFull (n : ℕ) : Matrix (Fin 8 × Fin (n / 4)) (Fin 8 × Fin (n / 4)) ℝ :=
  blockDiagonal fun _ => bsNetwork.submatrix permOut4 permOut4

/-- The result of `splitter_symp(n)`, cv/ops.py:104-140; `none` is the bare `Exception`. -/
inductive SplitterResult where
  | allQsFirst (m : Matrix (Fin 4 ⊕ Fin 4) (Fin 4 ⊕ Fin 4) ℝ)
  | interleaved (n : ℕ) (m : Matrix (Fin 8 × Fin (n / 4)) (Fin 8 × Fin (n / 4)) ℝ)

/-- `splitter_symp(n)`, cv/ops.py:104-140. -/
noncomputable def splitterSymp (n : ℕ := 4) : Option SplitterResult :=
  if n = 4 then some (.allQsFirst bsNetwork)
  else if n > 4 then some (.interleaved n (bsFull n))
  else none

end Flamingpy.CvOps
