import Verif.Proofs.Linalg
import Mathlib.Tactic.LinearCombination
import Mathlib.LinearAlgebra.Matrix.Determinant.Basic
import Mathlib.LinearAlgebra.Matrix.Symmetric

/-! # Properties of `flamingpy/utils/linalg.py` (C10-C14) -/

namespace Flamingpy.Linalg

open Matrix

/-! ## C10, C11: Gaussian elimination -/

/-- C10: for every binary matrix and every list of columns to reduce, the returned matrix
has the same row space (all linear combinations of rows), and there are pivot columns
`piv`, one for each of the first `p` rows and in column order, such that the pivot columns
are unit vectors, every entry to the left of a pivot vanishes, and the rows from `p` on
vanish on all reduced columns. -/
theorem C10_row_reduction {m : ℕ} {κ : Type*} (M : Fin m → κ → F2) (cols : List κ) :
    (Submodule.span F2 (Set.range (reduceRREform M cols).1) = Submodule.span F2 (Set.range M)) ∧
    ∃ piv : List κ, piv.length = (reduceRREform M cols).2 ∧ (reduceRREform M cols).2 ≤ m ∧
      piv.Sublist cols ∧
      (∀ (i : Fin m) (t : ℕ) (ht : t < piv.length),
        (reduceRREform M cols).1 i piv[t] = if i.val = t then 1 else 0) ∧
      (∀ i : Fin m, (reduceRREform M cols).2 ≤ i.val → ∀ c ∈ cols, (reduceRREform M cols).1 i c = 0) ∧
      (∀ (i : Fin m) (hi : i.val < piv.length), ∃ a b, cols = a ++ piv[i.val] :: b ∧
        ∀ c ∈ a, (reduceRREform M cols).1 i c = 0) := by
  obtain ⟨⟨piv, E⟩, h⟩ := reduce_spec M cols
  exact ⟨h, piv, E.len, E.le, E.sub, E.unit, E.low, E.lead⟩

/-- C11: the rows of `nullspace_basis(M)` are linearly independent and their span is exactly
the set of vectors `v` with `M v = 0` mod 2. -/
theorem C11_nullspace_basis {n : ℕ} {ι : Type*} [Finite ι] (M : ι → Fin n → F2) (rowOrder : List ι)
    (hall : ∀ i, i ∈ rowOrder) :
    LinearIndependent F2 (nullspaceBasis rowOrder M).rows ∧
    ∀ v : Fin n → F2, v ∈ Submodule.span F2 (Set.range (nullspaceBasis rowOrder M).rows) ↔
      ∀ i, ∑ c, M i c * v c = 0 :=
  nullspace_spec M rowOrder hall

/-- A concrete use: the nullspace of a 2 x 3 matrix is one-dimensional, spanned by (1,1,1). -/
example : (nullspaceBasis (List.finRange 2) (fun i c => if c.val = i.val ∨ c.val = i.val + 1 then 1 else 0 :
    Fin 2 → Fin 3 → F2)).d = 1 := by decide +kernel

/-! ## C12: soundness -/

/-- Specification: binary stabilizer space of the graph state with adjacency matrix `G`, as
pairs (z-part, x-part): generated by the columns of `[G; I]`. -/
def stabSpace {n : ℕ} (G : Matrix (Fin n) (Fin n) F2) : Set ((Fin n → F2) × (Fin n → F2)) :=
  {zx | ∀ i, zx.1 i = ∑ j, G i j * zx.2 j}

/-- Specification: the action of a product of single-qubit Cliffords `t k = [[a, b], [c, d]]`
on (z, x). -/
def applyLocal {n : ℕ} (t : Fin n → Matrix (Fin 2) (Fin 2) F2)
    (zx : (Fin n → F2) × (Fin n → F2)) : (Fin n → F2) × (Fin n → F2) :=
  (fun k => t k 0 0 * zx.1 k + t k 0 1 * zx.2 k, fun k => t k 1 0 * zx.1 k + t k 1 1 * zx.2 k)

/-- Specification: local-Clifford equivalence of graph states (up to phases). -/
def LCEquivalent {n : ℕ} (G H : Matrix (Fin n) (Fin n) F2) : Prop :=
  ∃ t : Fin n → Matrix (Fin 2) (Fin 2) F2,
    (∀ k, (t k).det = 1) ∧ applyLocal t '' stabSpace G = stabSpace H

theorem f2_add_self (x : F2) : x + x = 0 := by revert x; decide

theorem applyLocal_inj {n : ℕ} (t : Fin n → Matrix (Fin 2) (Fin 2) F2) (ht : ∀ k, (t k).det = 1) :
    Function.Injective (applyLocal t) := by
  intro ⟨z, x⟩ ⟨z', x'⟩ h
  unfold applyLocal at h
  have h1 := fun k => congrFun (congrArg Prod.fst h) k
  have h2 := fun k => congrFun (congrArg Prod.snd h) k
  simp only at h1 h2
  have hd : ∀ k, t k 0 0 * t k 1 1 - t k 0 1 * t k 1 0 = 1 := fun k => by
    rw [← det_fin_two]; exact ht k
  refine Prod.ext (funext fun k => ?_) (funext fun k => ?_)
  · simp only
    linear_combination (t k 1 1) * h1 k - (t k 0 1) * h2 k - (z k - z' k) * hd k
  · simp only
    linear_combination (-t k 1 0) * h1 k + (t k 0 0) * h2 k - (x k - x' k) * hd k

/-- The constraint system says exactly that the local operation maps the first stabilizer space into the second. -/
theorem system_iff {n : ℕ} (G H : Matrix (Fin n) (Fin n) F2) (hG : G.IsSymm) (hH : H.IsSymm)
    (v : Fin (4 * n) → F2) : (∀ jk, ∑ c, lcConstraintSystem G H jk c * v c = 0) ↔
      ∀ zx ∈ stabSpace G, applyLocal (cliffordVecToTensors v) zx ∈ stabSpace H := by
  have neg : ∀ a b : F2, a + b = 0 ↔ a = b := by decide
  -- what membership of an image means, row by row
  have key : ∀ (x : Fin n → F2) (k : Fin n),
      (v (blk 0 k) * (∑ j, G k j * x j) + v (blk 1 k) * x k =
        ∑ i, H k i * (v (blk 2 i) * (∑ j, G i j * x j) + v (blk 3 i) * x i)) ↔
      ∑ j, (∑ c, lcConstraintSystem G H (j, k) c * v c) * x j = 0 := by
    intro x k
    simp only [system_row, add_mul, Finset.sum_add_distrib]
    have s1 : ∑ j, G j k * v (blk 0 k) * x j = v (blk 0 k) * ∑ j, G k j * x j := by
      rw [Finset.mul_sum]; apply Finset.sum_congr rfl; intro j _
      rw [hG.apply k j]; ring
    have s2 : ∑ j, (if k = j then v (blk 1 j) else 0) * x j = v (blk 1 k) * x k := by simp
    have s3 : ∑ j, (∑ i, G i j * H i k * v (blk 2 i)) * x j =
        ∑ i, H k i * (v (blk 2 i) * ∑ j, G i j * x j) := by
      simp only [Finset.sum_mul, Finset.mul_sum]
      rw [Finset.sum_comm]
      apply Finset.sum_congr rfl; intro i _
      apply Finset.sum_congr rfl; intro j _
      rw [hH.apply k i]; ring
    have s4 : ∑ j, H j k * v (blk 3 j) * x j = ∑ i, H k i * (v (blk 3 i) * x i) := by
      apply Finset.sum_congr rfl; intro j _
      rw [hH.apply k j]; ring
    rw [s1, s2, s3, s4, ← neg]
    simp only [mul_add, Finset.sum_add_distrib]
    constructor <;> intro h <;> rw [← h] <;> ring
  have hmem : ∀ x : Fin n → F2, applyLocal (cliffordVecToTensors v) (fun i => ∑ j, G i j * x j, x) ∈ stabSpace H ↔
      ∀ k, ∑ j, (∑ c, lcConstraintSystem G H (j, k) c * v c) * x j = 0 := by
    intro x
    simp only [← key]
    simp only [stabSpace, Set.mem_setOf_eq, applyLocal, cliffordVecToTensors, of_apply, cons_val', cons_val_zero,
      cons_val_one, cons_val_fin_one]
  constructor
  · rintro hv ⟨z, x⟩ hz
    have hz' : z = fun i => ∑ j, G i j * x j := funext hz
    rw [hz', hmem]
    intro k
    exact Finset.sum_eq_zero fun j _ => by rw [hv (j, k), zero_mul]
  · rintro hm ⟨j, k⟩
    have := (hmem (Pi.single j 1)).1 (hm _ fun i => rfl) k
    rw [Finset.sum_eq_single j (fun b _ hb => by rw [Pi.single_eq_of_ne hb, mul_zero])
      (fun h => absurd (Finset.mem_univ j) h)] at this
    simpa using this

/-- A local Clifford that maps the first stabilizer space into the second maps it onto the second. -/
theorem maps_onto {n : ℕ} (G H : Matrix (Fin n) (Fin n) F2) (t : Fin n → Matrix (Fin 2) (Fin 2) F2)
    (hdet : ∀ k, (t k).det = 1) (hmaps : ∀ zx ∈ stabSpace G, applyLocal t zx ∈ stabSpace H) :
    applyLocal t '' stabSpace G = stabSpace H := by
  apply Set.Subset.antisymm
  · rintro _ ⟨zx, hz, rfl⟩; exact hmaps zx hz
  · -- counting: an injective self-map of a finite set of x-parts is onto
    let f : (Fin n → F2) → (Fin n → F2) := fun x =>
      (applyLocal t (fun i => ∑ j, G i j * x j, x)).2
    have hfin : Function.Injective f := by
      intro x x' h
      have m1 := hmaps (fun i => ∑ j, G i j * x j, x) (fun i => rfl)
      have m2 := hmaps (fun i => ∑ j, G i j * x' j, x') (fun i => rfl)
      have : applyLocal t (fun i => ∑ j, G i j * x j, x) =
          applyLocal t (fun i => ∑ j, G i j * x' j, x') := by
        refine Prod.ext (funext fun i => ?_) h
        rw [m1 i, m2 i]
        change ∑ j, H i j * f x j = ∑ j, H i j * f x' j
        rw [h]
      exact congrArg Prod.snd (applyLocal_inj _ hdet this)
    have hsurj := Finite.injective_iff_surjective.mp hfin
    rintro ⟨z, y⟩ hz
    obtain ⟨x, hx⟩ := hsurj y
    refine ⟨(fun i => ∑ j, G i j * x j, x), fun i => rfl, ?_⟩
    have m := hmaps (fun i => ∑ j, G i j * x j, x) (fun i => rfl)
    refine Prod.ext (funext fun i => ?_) hx
    rw [m i, hz i]
    change ∑ j, H i j * f x j = ∑ j, H i j * y j
    rw [hx]

theorem det_tensors {n : ℕ} (v : Fin (4 * n) → F2) (k : Fin n) : (cliffordVecToTensors v k).det =
    v (blk 0 k) * v (blk 3 k) + v (blk 1 k) * v (blk 2 k) := by
  simp only [cliffordVecToTensors, det_fin_two_of]
  rw [sub_eq_add_neg, ZMod.neg_eq_self_mod_two]

theorem sound_core {n : ℕ} (G H : Matrix (Fin n) (Fin n) F2) (hG : G.IsSymm) (hH : H.IsSymm)
    (v : Fin (4 * n) → F2) (hv : ∀ jk, ∑ c, lcConstraintSystem G H jk c * v c = 0)
    (hd : detOk v = true) :
    (∀ k, (cliffordVecToTensors v k).det = 1) ∧
    applyLocal (cliffordVecToTensors v) '' stabSpace G = stabSpace H := by
  rw [detOk_iff] at hd
  have hdet : ∀ k, (cliffordVecToTensors v k).det = 1 := fun k => by rw [det_tensors]; exact hd k
  exact ⟨hdet, maps_onto G H _ hdet ((system_iff G H hG hH v).1 hv)⟩

/-- The 2x2 matrices as a linear function of the solution vector. -/
def tensorsLin (n : ℕ) : (Fin (4 * n) → F2) ≃ₗ[F2] (Fin n → Matrix (Fin 2) (Fin 2) F2) where
  toFun := cliffordVecToTensors
  map_add' v w := by
    funext k; ext i j; fin_cases i <;> fin_cases j <;> simp [cliffordVecToTensors]
  map_smul' a v := by
    funext k; ext i j; fin_cases i <;> fin_cases j <;> simp [cliffordVecToTensors]
  invFun t c := match (unblk c).1 with
    | 0 => t (unblk c).2 0 0
    | 1 => t (unblk c).2 0 1
    | 2 => t (unblk c).2 1 0
    | 3 => t (unblk c).2 1 1
  left_inv v := by
    funext c
    have h := blk_unblk c
    rcases hb : (unblk c).1 with ⟨k, hk⟩
    have h' := h
    rw [hb] at h'
    interval_cases k <;> simp only [cliffordVecToTensors, hb] <;> exact congrArg v h'
  right_inv t := by
    funext k; ext i j; fin_cases i <;> fin_cases j <;> simp [cliffordVecToTensors, unblk_blk]

theorem search_sound {n : ℕ} (G H : Matrix (Fin n) (Fin n) F2) (v : Fin (4 * n) → F2)
    (h : searchNullspace (nullspaceBasis (systemRowOrder n) (lcConstraintSystem G H)) = some v) :
    (∀ jk, ∑ c, lcConstraintSystem G H jk c * v c = 0) ∧ detOk v = true := by
  obtain ⟨⟨i, j, _, rfl⟩, hd⟩ := search_some h
  refine ⟨?_, hd⟩
  rw [← (C11_nullspace_basis (lcConstraintSystem G H) _ mem_systemRowOrder).2]
  exact Submodule.add_mem _ (Submodule.subset_span ⟨i, rfl⟩) (Submodule.subset_span ⟨j, rfl⟩)

/-- C12: whenever `are_lc_equivalent` answers `True` (in tensor form) for two graphs, they have the same
number of nodes, the returned 2x2 matrices are invertible mod 2, and the local Clifford they
form maps the stabilizer space of the first graph state onto that of the second. -/
theorem C12_sound {n m : ℕ} (G : Matrix (Fin n) (Fin n) F2) (H : Matrix (Fin m) (Fin m) F2)
    (hG : G.IsSymm) (hH : H.IsSymm) (o : CliffordOut n)
    (h : areLcEquivalent G H .tensor = .ok (true, o)) :
    ∃ t, o = .tensors t ∧ ∃ e : m = n, (∀ k, (t k).det = 1) ∧ applyLocal t '' stabSpace G =
      stabSpace (fun i j => H (Fin.cast e.symm i) (Fin.cast e.symm j)) := by
  unfold areLcEquivalent at h
  by_cases h0 : n = 0 ∨ m = 0
  · rw [if_pos h0] at h; cases h
  · rw [if_neg h0] at h
    by_cases e : m = n
    · subst e
      rw [dif_pos rfl] at h
      simp only at h
      split at h
      · cases h
      · rename_i v hv
        obtain ⟨h1, h2⟩ := search_sound _ _ v hv
        simp only [Except.ok.injEq, Prod.mk.injEq, true_and] at h
        exact ⟨_, h.symm, rfl, sound_core G H hG hH v h1 h2⟩
    · rw [dif_neg e] at h; cases h

/-- Every positive answer comes with a Clifford in the requested form, so C12 applies to
every `True`: the tensor form exists whenever any form is reported, and the verdict does not
depend on the form requested. -/
theorem C12_verdict_independent_of_form {n m : ℕ} (G : Matrix (Fin n) (Fin n) F2)
    (H : Matrix (Fin m) (Fin m) F2) (b : Bool) :
    (∃ o, areLcEquivalent G H .tensor = .ok (b, o)) ↔ (∃ o, areLcEquivalent G H .global = .ok (b, o)) := by
  unfold areLcEquivalent
  by_cases h0 : n = 0 ∨ m = 0
  · simp [h0]
  · by_cases e : m = n
    · subst e
      simp only [h0, if_false, dif_pos]
      split <;> simp
    · simp [h0, e]

/-- The three-node star and the triangle: a non-trivial pair on which the code answers `True`
(kernel evaluation of the whole algorithm), so the hypothesis of `C12_sound` is met. -/
example : ∃ t, areLcEquivalent (!![0, 1, 1; 1, 0, 0; 1, 0, 0] : Matrix (Fin 3) (Fin 3) F2)
    (!![0, 1, 1; 1, 0, 1; 1, 1, 0] : Matrix (Fin 3) (Fin 3) F2) .tensor = .ok (true, .tensors t) := by
  have h : (searchNullspace (nullspaceBasis (systemRowOrder 3)
      (lcConstraintSystem !![0, 1, 1; 1, 0, 0; 1, 0, 0] !![0, 1, 1; 1, 0, 1; 1, 1, 0]))).isSome = true := by
    decide +kernel
  obtain ⟨v, hv⟩ := Option.isSome_iff_exists.mp h
  refine ⟨cliffordVecToTensors v, ?_⟩
  unfold areLcEquivalent
  simp only [show ¬((3 : ℕ) = 0 ∨ (3 : ℕ) = 0) by omega, if_false, dif_pos]
  have hc : (fun i j : Fin 3 => (!![0, 1, 1; 1, 0, 1; 1, 1, 0] : Matrix (Fin 3) (Fin 3) F2)
      (Fin.cast rfl i) (Fin.cast rfl j)) = !![0, 1, 1; 1, 0, 1; 1, 1, 0] := rfl
  rw [hc, hv]

theorem stabSpace_refl_lc {n : ℕ} (G : Matrix (Fin n) (Fin n) F2) : LCEquivalent G G := by
  refine ⟨fun _ => 1, fun _ => det_one, ?_⟩
  have : applyLocal (fun _ : Fin n => (1 : Matrix (Fin 2) (Fin 2) F2)) = id := by
    funext ⟨z, x⟩; simp [applyLocal]
  rw [this, Set.image_id]

/-! ## C13: completeness is false -/

/-- Adjacency matrix of `ring_graph(5)` (edges 0-3, 0-4, 1-2, 1-4, 2-3 in index order). -/
def ring5 : Matrix (Fin 5) (Fin 5) F2 :=
  !![0, 0, 0, 1, 1; 0, 0, 1, 0, 1; 0, 1, 0, 1, 0; 1, 0, 1, 0, 0; 1, 1, 0, 0, 0]

/-- If all solutions of the constraint system are `0` or `w`, the answer is "not equivalent". -/
theorem search_none_of_dim_one {n : ℕ} (G H : Matrix (Fin n) (Fin n) F2) (w : Fin (4 * n) → F2)
    (hw : ∀ v, (∀ jk, ∑ c, lcConstraintSystem G H jk c * v c = 0) → v = 0 ∨ v = w) :
    searchNullspace (nullspaceBasis (systemRowOrder n) (lcConstraintSystem G H)) = none := by
  obtain ⟨hind, hspan⟩ := C11_nullspace_basis (lcConstraintSystem G H) _ mem_systemRowOrder
  rw [search_none]
  intro i j hij
  exfalso
  have row : ∀ i, (nullspaceBasis (systemRowOrder n) (lcConstraintSystem G H)).rows i = w := by
    intro i
    have h := (hspan _).mp (Submodule.subset_span ⟨i, rfl⟩)
    exact (hw _ h).resolve_left (hind.ne_zero i)
  exact hij.ne (hind.injective ((row j).trans (row i).symm))

theorem f2_eq {a b : F2} (h : a + b = 0) : a = b := by revert a b; decide

/-- C13 refuted: `ring_graph(5)` is (of course) LC-equivalent to itself, but the code reports
that it is not. -/
theorem C13_complete_false :
    ring5.IsSymm ∧ LCEquivalent ring5 ring5 ∧
    areLcEquivalent ring5 ring5 .tensor = .ok (false, .none) := by
  refine ⟨by decide, stabSpace_refl_lc _, ?_⟩
  have key : searchNullspace (nullspaceBasis (systemRowOrder 5) (lcConstraintSystem ring5 ring5)) = none := by
    apply search_none_of_dim_one ring5 ring5
      (fun c => if (unblk c).1 = 0 ∨ (unblk c).1 = 3 then 1 else 0)
    intro v hv
    have e : ∀ j k, _ := fun j k => (system_row ring5 ring5 v j k).symm.trans (hv (j, k))
    simp only [Fin.sum_univ_five, ring5, of_apply] at e
    -- non-adjacent pairs: the common neighbour's c vanishes
    have c4 : v (blk 2 4) = 0 := by simpa using e 0 1
    have c3 : v (blk 2 3) = 0 := by simpa using e 0 2
    have c2 : v (blk 2 2) = 0 := by simpa using e 1 3
    have c0 : v (blk 2 0) = 0 := by simpa using e 3 4
    have c1 : v (blk 2 1) = 0 := by simpa using e 2 4
    have b0 : v (blk 1 0) = 0 := by simpa [c0, c1, c2, c3, c4] using e 0 0
    have b1 : v (blk 1 1) = 0 := by simpa [c0, c1, c2, c3, c4] using e 1 1
    have b2 : v (blk 1 2) = 0 := by simpa [c0, c1, c2, c3, c4] using e 2 2
    have b3 : v (blk 1 3) = 0 := by simpa [c0, c1, c2, c3, c4] using e 3 3
    have b4 : v (blk 1 4) = 0 := by simpa [c0, c1, c2, c3, c4] using e 4 4
    -- adjacent pairs: a_k = d_j
    have a30 : v (blk 0 3) = v (blk 3 0) := f2_eq (by simpa using e 0 3)
    have a40 : v (blk 0 4) = v (blk 3 0) := f2_eq (by simpa using e 0 4)
    have a21 : v (blk 0 2) = v (blk 3 1) := f2_eq (by simpa using e 1 2)
    have a41 : v (blk 0 4) = v (blk 3 1) := f2_eq (by simpa using e 1 4)
    have a12 : v (blk 0 1) = v (blk 3 2) := f2_eq (by simpa using e 2 1)
    have a32 : v (blk 0 3) = v (blk 3 2) := f2_eq (by simpa using e 2 3)
    have a03 : v (blk 0 0) = v (blk 3 3) := f2_eq (by simpa using e 3 0)
    have a23 : v (blk 0 2) = v (blk 3 3) := f2_eq (by simpa using e 3 2)
    have a04 : v (blk 0 0) = v (blk 3 4) := f2_eq (by simpa using e 4 0)
    have a14 : v (blk 0 1) = v (blk 3 4) := f2_eq (by simpa using e 4 1)
    have all : ∀ c, v c = if (unblk c).1 = 0 ∨ (unblk c).1 = 3 then v (blk 0 0) else 0 := by
      intro c
      rw [← blk_unblk c, unblk_blk]
      generalize unblk c = x
      obtain ⟨k, i⟩ := x
      have d3 := a03.symm
      have d4 := a04.symm
      have a2 := a23.trans d3
      have d1 := a21.symm.trans a2
      have a4 := a41.trans d1
      have d0 := a40.symm.trans a4
      have a3 := a30.trans d0
      have d2 := a32.symm.trans a3
      have a1 := a12.trans d2
      clear a03 a04 a23 a21 a41 a40 a30 a32 a12 a14 e
      fin_cases k <;> fin_cases i <;> simp [*]
    rcases f2_cases (v (blk 0 0)) with h | h
    · left; funext c; rw [all c, h]; simp
    · right; funext c; rw [all c, h]
  unfold areLcEquivalent
  simp only [show ¬((5 : ℕ) = 0 ∨ (5 : ℕ) = 0) by omega, if_false, dif_pos]
  have hc : (fun i j : Fin 5 => ring5 (Fin.cast rfl i) (Fin.cast rfl j)) = ring5 := rfl
  rw [hc, key]

/-- C13 refuted, a whole family: any graph with two isolated nodes is reported as not
equivalent to itself (more generally, to any graph in which the same two nodes are isolated). -/
theorem C13_two_isolated_false {n : ℕ} (G H : Matrix (Fin n) (Fin n) F2) (u w : Fin n) (huw : u ≠ w)
    (hGu : ∀ i, G u i = 0 ∧ G i u = 0) (hGw : ∀ i, G w i = 0 ∧ G i w = 0)
    (hHu : ∀ i, H u i = 0 ∧ H i u = 0) (hHw : ∀ i, H w i = 0 ∧ H i w = 0) :
    areLcEquivalent G H .tensor = .ok (false, .none) := by
  have hn : n ≠ 0 := fun h => by subst h; exact u.elim0
  have key : searchNullspace (nullspaceBasis (systemRowOrder n) (lcConstraintSystem G H)) = none := by
    obtain ⟨hind, hspan⟩ := C11_nullspace_basis (lcConstraintSystem G H) _ mem_systemRowOrder
    obtain ⟨piv, E⟩ := nullspace_echelon (lcConstraintSystem G H) (systemRowOrder n) hind
    set B := nullspaceBasis (systemRowOrder n) (lcConstraintSystem G H) with hB
    have blk_inj : ∀ (k k' : Fin 4) (i i' : Fin n), blk k i = blk k' i' → k = k' ∧ i = i' := by
      intro k k' i i' h
      have := congrArg unblk h
      rw [unblk_blk, unblk_blk] at this
      exact ⟨congrArg Prod.fst this, congrArg Prod.snd this⟩
    have unitv : ∀ s : Fin n, (∀ i, G s i = 0 ∧ G i s = 0) → (∀ i, H s i = 0 ∧ H i s = 0) →
        ∀ k : Fin 4, k ≠ 1 →
        (fun x => if x = blk k s then (1 : F2) else 0) ∈ rowSpace B.rows := by
      intro s hGs hHs k hk
      refine (hspan _).mpr ?_
      rintro ⟨j, l⟩
      rw [system_row]
      have hb : ∀ (k' : Fin 4) (i : Fin n), (blk k' i = blk k s) ↔ (k' = k ∧ i = s) :=
        fun k' i => ⟨blk_inj _ _ _ _, fun h => by rw [h.1, h.2]⟩
      simp only [hb]
      fin_cases k
      · simp only [Fin.zero_eta, true_and]
        by_cases hl : l = s
        · simp [hl, (hGs j).2]
        · simp [hl]
      · exact absurd rfl hk
      · simp only [Fin.reduceFinMk, Fin.reduceEq, false_and, if_false, mul_zero, ite_self, zero_add,
          add_zero, true_and]
        apply Finset.sum_eq_zero
        intro i _
        by_cases hi : i = s
        · simp [hi, (hGs j).1]
        · simp [hi]
      · simp only [Fin.reduceFinMk, Fin.reduceEq, false_and, if_false, mul_zero, ite_self, zero_add,
          true_and, Finset.sum_const_zero]
        by_cases hj : j = s
        · simp [hj, (hHs l).1]
        · simp [hj]
    have bzero : ∀ s : Fin n, (∀ i, G s i = 0 ∧ G i s = 0) → (∀ i, H s i = 0 ∧ H i s = 0) →
        ∀ i, B.rows i (blk 1 s) = 0 := by
      intro s hGs hHs i
      have h := (hspan _).mp (Submodule.subset_span ⟨i, rfl⟩) (s, s)
      rw [system_row] at h
      simpa [(hGs _).1, (hGs _).2, (hHs _).1] using h
    rw [search_none]
    intro i j hij
    by_contra hcon
    rw [Bool.not_eq_false, detOk_iff] at hcon
    -- at an isolated node one of the two rows has pivot a, the other pivot d
    have piv_i : ∀ s, (∀ i, G s i = 0 ∧ G i s = 0) → (∀ i, H s i = 0 ∧ H i s = 0) →
        ∃ k : Fin 4, piv[i.val]'(by rw [E.len]; exact i.2) = blk k s := by
      intro s hGs hHs
      have hd := hcon s
      simp only [Pi.add_apply, bzero s hGs hHs, add_zero, zero_mul] at hd
      have ha : B.rows i (blk 0 s) + B.rows j (blk 0 s) ≠ 0 := left_ne_zero_of_mul (hd ▸ one_ne_zero)
      have hdd : B.rows i (blk 3 s) + B.rows j (blk 3 s) ≠ 0 := right_ne_zero_of_mul (hd ▸ one_ne_zero)
      by_cases h0 : B.rows i (blk 0 s) = 0
      · by_cases h3 : B.rows i (blk 3 s) = 0
        · rw [h0, zero_add] at ha
          rw [h3, zero_add] at hdd
          have p0 := E.pivot_of_unit _ (unitv s hGs hHs 0 (by decide)) j ha
          have p3 := E.pivot_of_unit _ (unitv s hGs hHs 3 (by decide)) j hdd
          have := (blk_inj _ _ _ _ (p0.symm.trans p3)).1
          exact absurd this (by decide)
        · exact ⟨3, E.pivot_of_unit _ (unitv s hGs hHs 3 (by decide)) i h3⟩
      · exact ⟨0, E.pivot_of_unit _ (unitv s hGs hHs 0 (by decide)) i h0⟩
    obtain ⟨k1, h1⟩ := piv_i u hGu hHu
    obtain ⟨k2, h2⟩ := piv_i w hGw hHw
    exact huw (blk_inj _ _ _ _ (h1.symm.trans h2)).2
  unfold areLcEquivalent
  simp only [hn, or_self, if_false, dif_pos]
  have hc : (fun i j : Fin n => H (Fin.cast rfl i) (Fin.cast rfl j)) = H := rfl
  rw [hc, key]

theorem answer_iff {n : ℕ} (hn : n ≠ 0) (G H : Matrix (Fin n) (Fin n) F2) :
    (∃ t, areLcEquivalent G H .tensor = .ok (true, .tensors t)) ↔
    ∃ i j, i ≠ j ∧ ∀ k,
      let v := (nullspaceBasis (systemRowOrder n) (lcConstraintSystem G H)).rows i +
        (nullspaceBasis (systemRowOrder n) (lcConstraintSystem G H)).rows j
      v (blk 0 k) * v (blk 3 k) + v (blk 1 k) * v (blk 2 k) = 1 := by
  have hc : (fun i j : Fin n => H (Fin.cast rfl i) (Fin.cast rfl j)) = H := rfl
  unfold areLcEquivalent
  simp only [hn, or_self, if_false, dif_pos, hc]
  cases h : searchNullspace (nullspaceBasis (systemRowOrder n) (lcConstraintSystem G H)) with
  | none =>
    rw [search_none] at h
    constructor
    · rintro ⟨t, ht⟩; cases ht
    · rintro ⟨i, j, hij, hk⟩
      exfalso
      rcases lt_or_gt_of_ne hij with hlt | hlt
      · have := h j i hlt
        rw [add_comm, Bool.eq_false_iff] at this
        exact this ((detOk_iff _).mpr hk)
      · have := h i j hlt
        rw [Bool.eq_false_iff] at this
        exact this ((detOk_iff _).mpr hk)
  | some v =>
    obtain ⟨⟨i, j, hij, rfl⟩, hd⟩ := search_some h
    exact ⟨fun _ => ⟨i, j, hij.ne', (detOk_iff _).mp hd⟩, fun _ => ⟨_, rfl⟩⟩

/-- C13, what does hold: the search space is the right one - `True` is the right answer exactly when some family of
invertible matrices lies in the space of all families mapping the first stabilizer space into the second - and
the answer is `True` exactly when the sum of two distinct vectors of some basis of that space is such a family.
Missing for C13: the other vectors of the space are not tried. -/
theorem C13_complete_partial {n : ℕ} (hn : n ≠ 0) (G H : Matrix (Fin n) (Fin n) F2) (hG : G.IsSymm) (hH : H.IsSymm) :
    (LCEquivalent G H ↔ ∃ t : Fin n → Matrix (Fin 2) (Fin 2) F2,
      (∀ k, (t k).det = 1) ∧ ∀ zx ∈ stabSpace G, applyLocal t zx ∈ stabSpace H) ∧
    ∃ (d : ℕ) (b : Fin d → Fin n → Matrix (Fin 2) (Fin 2) F2), LinearIndependent F2 b ∧
      (∀ t, t ∈ Submodule.span F2 (Set.range b) ↔ ∀ zx ∈ stabSpace G, applyLocal t zx ∈ stabSpace H) ∧
      ((∃ t, areLcEquivalent G H .tensor = .ok (true, .tensors t)) ↔ ∃ i j, i ≠ j ∧ ∀ k, (b i k + b j k).det = 1) ∧
      ((¬ ∃ i j, i ≠ j ∧ ∀ k, (b i k + b j k).det = 1) → areLcEquivalent G H .tensor = .ok (false, .none)) := by
  have hc : (fun i j : Fin n => H (Fin.cast rfl i) (Fin.cast rfl j)) = H := rfl
  obtain ⟨hli, hsp⟩ := C11_nullspace_basis (lcConstraintSystem G H) (systemRowOrder n) mem_systemRowOrder
  set B := nullspaceBasis (systemRowOrder n) (lcConstraintSystem G H) with hB
  have hiff : (∃ t, areLcEquivalent G H .tensor = .ok (true, .tensors t)) ↔
      ∃ i j, i ≠ j ∧ ∀ k, (tensorsLin n (B.rows i) k + tensorsLin n (B.rows j) k).det = 1 := by
    rw [answer_iff hn G H]
    apply exists_congr; intro i; apply exists_congr; intro j
    apply and_congr_right; intro _
    apply forall_congr'; intro k
    have e : tensorsLin n (B.rows i) k + tensorsLin n (B.rows j) k = cliffordVecToTensors (B.rows i + B.rows j) k := by
      have := congrFun ((tensorsLin n).map_add (B.rows i) (B.rows j)) k
      exact this.symm
    rw [e, det_tensors]
  refine ⟨⟨fun ⟨t, h1, h2⟩ => ⟨t, h1, fun zx hz => h2 ▸ Set.mem_image_of_mem _ hz⟩,
    fun ⟨t, h1, h2⟩ => ⟨t, h1, maps_onto G H t h1 h2⟩⟩, B.d, fun i => tensorsLin n (B.rows i), ?_, ?_, hiff, ?_⟩
  · exact hli.map' (tensorsLin n).toLinearMap (LinearEquiv.ker _)
  · intro t
    have himg : Set.range (fun i => tensorsLin n (B.rows i)) = (tensorsLin n).toLinearMap '' Set.range B.rows := by
      rw [← Set.range_comp]; rfl
    rw [himg, Submodule.span_image]
    obtain ⟨v, rfl⟩ := (tensorsLin n).surjective t
    have : tensorsLin n v ∈ Submodule.map (tensorsLin n).toLinearMap (Submodule.span F2 (Set.range B.rows)) ↔
        v ∈ Submodule.span F2 (Set.range B.rows) := by
      constructor
      · rintro ⟨w, hw, e⟩; rwa [← (tensorsLin n).injective e]
      · intro h; exact ⟨v, h, rfl⟩
    rw [this, hsp, system_iff G H hG hH]
    rfl
  · intro hno
    have hno' := mt hiff.1 hno
    unfold areLcEquivalent at hno' ⊢
    simp only [hn, or_self, if_false, dif_pos, hc] at hno' ⊢
    cases h : searchNullspace (nullspaceBasis (systemRowOrder n) (lcConstraintSystem G H)) with
    | none => rfl
    | some v => rw [h] at hno'; exact absurd ⟨_, rfl⟩ hno'

/-! ## C14 -/

/-- C14: the global matrix acts on the (z, x) pair of qubit `k` as the `k`-th tensor factor
and does not mix qubits. -/
theorem C14_forms_agree {n : ℕ} (vec : Fin (4 * n) → F2) :
    (∀ (z x : Fin n → F2), (cliffordVecToGlobal vec).mulVec (Sum.elim z x) =
      Sum.elim (applyLocal (cliffordVecToTensors vec) (z, x)).1
        (applyLocal (cliffordVecToTensors vec) (z, x)).2) ∧
    (∀ i j, i ≠ j → cliffordVecToGlobal vec (.inl i) (.inl j) = 0 ∧
      cliffordVecToGlobal vec (.inl i) (.inr j) = 0 ∧
      cliffordVecToGlobal vec (.inr i) (.inl j) = 0 ∧
      cliffordVecToGlobal vec (.inr i) (.inr j) = 0) := by
  constructor
  · intro z x
    unfold cliffordVecToGlobal
    rw [fromBlocks_mulVec]
    congr 1 <;> funext k <;>
      simp [applyLocal, cliffordVecToTensors, mulVec_diagonal]
  · intro i j h
    simp [cliffordVecToGlobal, h]

/-- C14, at the level of `are_lc_equivalent`: the two forms come from the same solution. -/
theorem C14_api {n m : ℕ} (G : Matrix (Fin n) (Fin n) F2) (H : Matrix (Fin m) (Fin m) F2)
    (t : Fin n → Matrix (Fin 2) (Fin 2) F2) (h : areLcEquivalent G H .tensor = .ok (true, .tensors t)) :
    ∃ g, areLcEquivalent G H .global = .ok (true, .globalMat g) ∧
      ∀ (z x : Fin n → F2), g.mulVec (Sum.elim z x) =
        Sum.elim (applyLocal t (z, x)).1 (applyLocal t (z, x)).2 := by
  unfold areLcEquivalent at h ⊢
  by_cases h0 : n = 0 ∨ m = 0
  · rw [if_pos h0] at h; cases h
  · rw [if_neg h0] at h ⊢
    by_cases e : m = n
    · subst e
      rw [dif_pos rfl] at h ⊢
      simp only at h ⊢
      split at h
      · cases h
      · rename_i v hv
        simp only [Except.ok.injEq, Prod.mk.injEq, CliffordOut.tensors.injEq, true_and] at h
        subst h
        exact ⟨_, rfl, (C14_forms_agree v).1⟩
    · rw [dif_neg e] at h; cases h

end Flamingpy.Linalg
