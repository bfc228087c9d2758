import Verif.Model.LinalgInt
import Verif.Props.Linalg

/-!
# C92: local-Clifford equivalence of graphs with integer weights
-/

namespace Flamingpy.LinalgInt

open Flamingpy.Linalg Matrix

variable {m n : ℕ} {κ : Type*}

/-! ### Specification -/

/-- The number is one of -1, 0, 1. -/
def Sgn (x : ℤ) : Prop := x = -1 ∨ x = 0 ∨ x = 1

/-- The matrix modulo two. -/
def mod2 {α β : Type*} (M : α → β → ℤ) : α → β → F2 := fun a b => (M a b : F2)

/-- The output modulo two. -/
def CliffordOut.mod2 {n : ℕ} : CliffordOut n → Linalg.CliffordOut n
  | .none => .none
  | .tensors t => .tensors fun k => (t k).map fun x => (x : F2)
  | .globalMat g => .globalMat (g.map fun x => (x : F2))

/-- The output has entries zero and one only. -/
def CliffordOut.Binary {n : ℕ} : CliffordOut n → Prop
  | .none => True
  | .tensors t => ∀ k a b, t k a b = 0 ∨ t k a b = 1
  | .globalMat g => ∀ a b, g a b = 0 ∨ g a b = 1

/-! ### Proofs -/

theorem Sgn.cast_eq_zero {x : ℤ} (h : Sgn x) : (x : F2) = 0 ↔ x = 0 := by
  rcases h with rfl | rfl | rfl <;> decide

theorem sgn_emod (x : ℤ) : Sgn (x % 2) := by unfold Sgn; omega

theorem cast_emod (x : ℤ) : ((x % 2 : ℤ) : F2) = (x : F2) := by
  rw [← sub_eq_zero, ← Int.cast_sub, ZMod.intCast_zmod_eq_zero_iff_dvd]
  push_cast
  omega

theorem sgn_tdiv {x d : ℤ} (hx : Sgn x) (hd : Sgn d) : Sgn (x.tdiv d) := by
  rcases hx with rfl | rfl | rfl <;> rcases hd with rfl | rfl | rfl <;> simp [Sgn]

theorem cast_tdiv {x d : ℤ} (hx : Sgn x) (hd : Sgn d) (h0 : d ≠ 0) : ((x.tdiv d : ℤ) : F2) = (x : F2) / (d : F2) := by
  have e : (((-1 : ℤ)) : F2) = 1 := by decide
  rcases hd with rfl | rfl | rfl
  · rw [e, div_one]
    rcases hx with rfl | rfl | rfl <;> decide
  · exact absurd rfl h0
  · rw [Int.tdiv_one, Int.cast_one, div_one]

theorem firstPivot_mod2 {R : Fin m → κ → ℤ} (hR : ∀ r c, Sgn (R r c)) (p : ℕ) (j : κ) :
    Linalg.firstPivot (mod2 R) p j = firstPivot R p j := by
  unfold Linalg.firstPivot firstPivot mod2
  congr 1
  funext i
  simp only [ne_eq, (hR i j).cast_eq_zero]

theorem swapRows_mod2 (R : Fin m → κ → ℤ) (p i : Fin m) : Linalg.swapRows (mod2 R) p i = mod2 (swapRows R p i) := rfl

theorem sgn_swapRows {R : Fin m → κ → ℤ} (hR : ∀ r c, Sgn (R r c)) (p i : Fin m) : ∀ r c, Sgn (swapRows R p i r c) := fun _ _ => hR _ _

theorem eliminate_mod2 {R : Fin m → κ → ℤ} (hR : ∀ r c, Sgn (R r c)) (p : Fin m) (j : κ) (h0 : R p j ≠ 0) :
    Linalg.eliminate (mod2 R) p j = mod2 (eliminate R p j) := by
  funext r c
  unfold Linalg.eliminate eliminate mod2
  by_cases hr : r = p
  · simp only [hr, if_true]
    exact (cast_tdiv (hR _ _) (hR _ _) h0).symm
  · simp only [hr, if_false, ne_eq, (hR r j).cast_eq_zero]
    by_cases hz : R r j = 0
    · simp [hz]
    · simp only [hz, not_false_eq_true, if_true]
      rw [cast_emod]
      push_cast
      rw [cast_tdiv (hR _ _) (hR _ _) h0]

theorem sgn_eliminate {R : Fin m → κ → ℤ} (hR : ∀ r c, Sgn (R r c)) (p : Fin m) (j : κ) : ∀ r c, Sgn (eliminate R p j r c) := by
  intro r c
  unfold eliminate
  split_ifs
  · exact sgn_tdiv (hR _ _) (hR _ _)
  · exact sgn_emod _
  · exact hR _ _

theorem firstPivot_ne {R : Fin m → κ → ℤ} {p : ℕ} {j : κ} {i : Fin m} (h : firstPivot R p j = some i) : R i j ≠ 0 := by
  have := List.find?_some h
  rw [decide_eq_true_eq] at this
  exact this.2

theorem rrefLoop_mod2 : ∀ (cols : List κ) (R : Fin m → κ → ℤ) (p : ℕ), (∀ r c, Sgn (R r c)) →
    Linalg.rrefLoop cols (mod2 R) p = (mod2 (rrefLoop cols R p).1, (rrefLoop cols R p).2) ∧ ∀ r c, Sgn ((rrefLoop cols R p).1 r c)
  | [], R, p, hR => ⟨rfl, hR⟩
  | j :: js, R, p, hR => by
    unfold Linalg.rrefLoop rrefLoop
    rw [firstPivot_mod2 hR]
    cases hf : firstPivot R p j with
    | none => exact rrefLoop_mod2 js R p hR
    | some i =>
      simp only
      by_cases hp : p < m
      · simp only [hp, dif_pos]
        have hR2 := sgn_swapRows hR ⟨p, hp⟩ i
        have h0 : swapRows R ⟨p, hp⟩ i ⟨p, hp⟩ j ≠ 0 := by
          unfold swapRows
          rw [if_pos rfl]
          exact firstPivot_ne hf
        rw [swapRows_mod2, eliminate_mod2 hR2 _ _ h0]
        have hR3 := sgn_eliminate hR2 ⟨p, hp⟩ j
        split_ifs
        · exact ⟨rfl, hR3⟩
        · exact rrefLoop_mod2 js _ (p + 1) hR3
      · rw [dif_neg hp, dif_neg hp]
        exact ⟨rfl, hR⟩

theorem augmented_mod2 {ι : Type*} (M : ι → Fin n → ℤ) : Linalg.augmented (mod2 M) = mod2 (augmented M) := by
  funext r c
  unfold Linalg.augmented augmented mod2
  cases c with
  | inl i => rfl
  | inr c =>
    simp only [Sum.elim_inr]
    split_ifs <;> simp

/-- The rows modulo two. -/
def RowsOf.mod2 (B : RowsOf n) : Linalg.RowsOf n := ⟨B.d, LinalgInt.mod2 B.rows⟩

theorem nullspace_mod2 {ι : Type*} (rowOrder : List ι) (M : ι → Fin n → ℤ) (hM : ∀ i c, Sgn (M i c)) :
    Linalg.nullspaceBasis rowOrder (mod2 M) = (nullspaceBasis rowOrder M).mod2 ∧ ∀ i c, Sgn ((nullspaceBasis rowOrder M).rows i c) := by
  have hA : ∀ r c, Sgn (augmented M r c) := by
    intro r c
    cases c with
    | inl i => exact hM _ _
    | inr c =>
      unfold augmented
      simp only [Sum.elim_inr]
      split_ifs <;> simp [Sgn]
  obtain ⟨h1, h2⟩ := rrefLoop_mod2 (rowOrder.map Sum.inl) (augmented M) 0 hA
  have h1' : Linalg.reduceRREform (Linalg.augmented (mod2 M)) (rowOrder.map Sum.inl) =
      (mod2 (reduceRREform (augmented M) (rowOrder.map Sum.inl)).1, (reduceRREform (augmented M) (rowOrder.map Sum.inl)).2) := by
    rw [augmented_mod2]
    exact h1
  have h3 := rrefLoop_mod2 (List.finRange n) (fun (i : Fin (n - (reduceRREform (augmented M) (rowOrder.map Sum.inl)).2)) (c : Fin n) =>
    (reduceRREform (augmented M) (rowOrder.map Sum.inl)).1 ⟨(reduceRREform (augmented M) (rowOrder.map Sum.inl)).2 + i.val, by omega⟩
      (Sum.inr c)) 0 (fun _ _ => h2 _ _)
  refine ⟨?_, h3.2⟩
  have key : ∀ Rp : (Fin n → (ι ⊕ Fin n) → F2) × ℕ,
      Rp = (mod2 (reduceRREform (augmented M) (rowOrder.map Sum.inl)).1, (reduceRREform (augmented M) (rowOrder.map Sum.inl)).2) →
      (⟨n - Rp.2, (Linalg.reduceRREform (fun (i : Fin (n - Rp.2)) (c : Fin n) => Rp.1 ⟨Rp.2 + i.val, by omega⟩ (Sum.inr c)) (List.finRange n)).1⟩ :
        Linalg.RowsOf n) = (nullspaceBasis rowOrder M).mod2 := by
    rintro _ rfl
    unfold nullspaceBasis RowsOf.mod2
    congr 1
    exact congrArg Prod.fst h3.1
  exact key _ h1'

theorem system_mod2 (G H : Matrix (Fin n) (Fin n) ℤ) :
    Linalg.lcConstraintSystem (mod2 G) (mod2 H) = mod2 (lcConstraintSystem G H) := by
  funext jk c
  unfold Linalg.lcConstraintSystem lcConstraintSystem
  change _ = ((_ : ℤ) : F2)
  simp only
  generalize (unblk c).1 = b
  generalize (unblk c).2 = i
  fin_cases b
  · change (if jk.2 = i then mod2 G jk.1 jk.2 else 0) = ((if jk.2 = i then G jk.1 jk.2 else 0 : ℤ) : F2)
    split_ifs
    · rfl
    · exact Int.cast_zero.symm
  · change (if jk.2 = jk.1 ∧ i = jk.1 then 1 else 0) = ((if jk.2 = jk.1 ∧ i = jk.1 then 1 else 0 : ℤ) : F2)
    split_ifs
    · exact Int.cast_one.symm
    · exact Int.cast_zero.symm
  · exact (Int.cast_mul _ _).symm
  · change (if i = jk.1 then mod2 H jk.1 jk.2 else 0) = ((if i = jk.1 then H jk.1 jk.2 else 0 : ℤ) : F2)
    split_ifs
    · rfl
    · exact Int.cast_zero.symm

theorem sgn_mul {x y : ℤ} (hx : Sgn x) (hy : Sgn y) : Sgn (x * y) := by
  rcases hx with rfl | rfl | rfl <;> rcases hy with rfl | rfl | rfl <;> simp [Sgn]

theorem sgn_system {G H : Matrix (Fin n) (Fin n) ℤ} (hG : ∀ i j, Sgn (G i j)) (hH : ∀ i j, Sgn (H i j)) :
    ∀ jk c, Sgn (lcConstraintSystem G H jk c) := by
  intro jk c
  unfold lcConstraintSystem
  simp only
  split
  · split_ifs
    · exact hG _ _
    · simp [Sgn]
  · split_ifs <;> simp [Sgn]
  · exact sgn_mul (hG _ _) (hH _ _)
  · split_ifs
    · exact hH _ _
    · simp [Sgn]

theorem detOk_mod2 (s : Fin (4 * n) → ℤ) : Linalg.detOk (fun c => (s c : F2)) = detOk s := by
  unfold Linalg.detOk detOk
  congr 1
  funext k
  have : ∀ x : ℤ, ((x : F2) = 1) ↔ x % 2 = 1 := by
    intro x
    rw [← cast_emod]
    rcases Int.emod_two_eq_zero_or_one x with h | h <;> rw [h] <;> decide
  have h := this (s (blk 0 k) * s (blk 3 k) + s (blk 1 k) * s (blk 2 k))
  push_cast at h
  simp only [h]

theorem search_mod2 (B : RowsOf (4 * n)) :
    Linalg.searchNullspace B.mod2 = (searchNullspace B).map fun s c => (s c : F2) := by
  unfold Linalg.searchNullspace searchNullspace RowsOf.mod2
  simp only
  rw [List.find?_map, List.find?_map, Option.map_map]
  have h : ∀ ij : Fin B.d × Fin B.d, (fun c => (((B.rows ij.1 c + B.rows ij.2 c) % 2 : ℤ) : F2)) = mod2 B.rows ij.1 + mod2 B.rows ij.2 := by
    intro ij
    funext c
    rw [cast_emod]
    push_cast
    rfl
  have h1 : (Linalg.detOk ∘ fun ij : Fin B.d × Fin B.d => mod2 B.rows ij.1 + mod2 B.rows ij.2) =
      (detOk ∘ fun (ij : Fin B.d × Fin B.d) c => (B.rows ij.1 c + B.rows ij.2 c) % 2) := by
    funext ij
    simp only [Function.comp]
    rw [← detOk_mod2, h]
  rw [h1]
  congr 1
  funext ij
  exact (h ij).symm

theorem search_binary {B : RowsOf (4 * n)} {s : Fin (4 * n) → ℤ} (h : searchNullspace B = some s) (c : Fin (4 * n)) : s c = 0 ∨ s c = 1 := by
  have := List.mem_of_find?_eq_some h
  obtain ⟨ij, _, rfl⟩ := List.mem_map.1 this
  exact Int.emod_two_eq_zero_or_one _

theorem answer_mod2 (v : Option (Fin (4 * n) → ℤ)) (form : CliffordForm)
    (r : Except LcErr (Bool × CliffordOut n)) (r' : Except LcErr (Bool × Linalg.CliffordOut n))
    (hr : r = match (generalizing := false) v with
      | none => .ok (false, .none)
      | some v => match (generalizing := false) form with
        | .tensor => .ok (true, .tensors (cliffordVecToTensors v))
        | .global => .ok (true, .globalMat (cliffordVecToGlobal v))
        | .other => .error .unboundLocal)
    (hr' : r' = match (generalizing := false) v.map fun s c => (s c : F2) with
      | none => .ok (false, .none)
      | some v => match (generalizing := false) form with
        | .tensor => .ok (true, .tensors (Linalg.cliffordVecToTensors v))
        | .global => .ok (true, .globalMat (Linalg.cliffordVecToGlobal v))
        | .other => .error .unboundLocal)
    (hv : ∀ s, v = some s → ∀ c, s c = 0 ∨ s c = 1) :
    r.map (fun r => (r.1, r.2.mod2)) = r' ∧ ∀ b o, r = .ok (b, o) → o.Binary := by
  subst hr hr'
  cases v with
  | none =>
    refine ⟨rfl, fun b o h => ?_⟩
    cases h
    trivial
  | some s =>
    have hb := hv s rfl
    cases form with
    | tensor =>
      refine ⟨?_, fun b o h => ?_⟩
      · refine congrArg (fun t => Except.ok (true, Linalg.CliffordOut.tensors t)) ?_
        funext k
        ext a b
        fin_cases a <;> fin_cases b <;> rfl
      · cases h
        intro k a b
        fin_cases a <;> fin_cases b <;> exact hb _
    | global =>
      have hd : ∀ (f : Fin n → ℤ), (diagonal f).map (fun x => (x : F2)) = diagonal fun i => (f i : F2) := fun f =>
        diagonal_map (by simp)
      refine ⟨?_, fun b o h => ?_⟩
      · refine congrArg (fun t => Except.ok (true, Linalg.CliffordOut.globalMat t)) ?_
        unfold cliffordVecToGlobal Linalg.cliffordVecToGlobal
        rw [fromBlocks_map]
        simp only [hd]
      · cases h
        have hdb : ∀ (k : Fin 4) (a b : Fin n), diagonal (fun i => s (blk k i)) a b = 0 ∨ diagonal (fun i => s (blk k i)) a b = 1 := by
          intro k a b
          rw [diagonal_apply]
          split_ifs
          · exact hb _
          · exact Or.inl rfl
        rintro (a | a) (b | b) <;> exact hdb _ _ _
    | other =>
      refine ⟨rfl, fun b o h => ?_⟩
      cases h

theorem search_eq (G H : Matrix (Fin n) (Fin n) ℤ) (hG : ∀ i j, Sgn (G i j)) (hH : ∀ i j, Sgn (H i j)) :
    Linalg.searchNullspace (Linalg.nullspaceBasis (systemRowOrder n) (Linalg.lcConstraintSystem (mod2 G) (mod2 H))) =
      (searchNullspace (nullspaceBasis (systemRowOrder n) (lcConstraintSystem G H))).map fun s c => (s c : F2) := by
  rw [system_mod2, (nullspace_mod2 _ _ (sgn_system hG hH)).1, search_mod2]

/-- C92.  For weights -1, 0 and 1 the answer is that for the graphs modulo two (a controlled-Z gate is its own inverse), and the Clifford operation
has entries zero and one. -/
theorem C92_signed {n m : ℕ} (G : Matrix (Fin n) (Fin n) ℤ) (H : Matrix (Fin m) (Fin m) ℤ) (hG : ∀ i j, Sgn (G i j)) (hH : ∀ i j, Sgn (H i j))
    (form : CliffordForm) :
    (areLcEquivalent G H form).map (fun r => (r.1, r.2.mod2)) = Linalg.areLcEquivalent (mod2 G) (mod2 H) form ∧
    ∀ b o, areLcEquivalent G H form = .ok (b, o) → o.Binary := by
  unfold areLcEquivalent Linalg.areLcEquivalent
  by_cases h0 : n = 0 ∨ m = 0
  · simp only [h0, if_true]
    refine ⟨rfl, fun b o h => ?_⟩
    cases h
    trivial
  · rw [if_neg h0, if_neg h0]
    by_cases e : m = n
    · subst e
      rw [dif_pos rfl, dif_pos rfl]
      refine answer_mod2 (searchNullspace (nullspaceBasis (systemRowOrder m) (lcConstraintSystem G H))) form _ _ rfl ?_
        (fun s hs c => search_binary hs c)
      rw [← search_eq G H hG hH]
      rfl
    · rw [dif_neg e, dif_neg e]
      refine ⟨rfl, fun b o h => ?_⟩
      cases h
      trivial

/-- C92.  So a positive answer for signed graphs is right: the operations returned map the stabilizer group of the first graph state to that of
the second. -/
theorem C92_sound {n m : ℕ} (G : Matrix (Fin n) (Fin n) ℤ) (H : Matrix (Fin m) (Fin m) ℤ) (hG : ∀ i j, Sgn (G i j)) (hH : ∀ i j, Sgn (H i j))
    (sG : G.IsSymm) (sH : H.IsSymm) (o : CliffordOut n) (h : areLcEquivalent G H .tensor = .ok (true, o)) :
    ∃ t, o = .tensors t ∧ (∀ k a b, t k a b = 0 ∨ t k a b = 1) ∧ ∃ e : m = n, (∀ k, ((t k).map fun x => (x : F2)).det = 1) ∧
      applyLocal (fun k => (t k).map fun x => (x : F2)) '' stabSpace (mod2 G) =
        stabSpace (fun i j => mod2 H (Fin.cast e.symm i) (Fin.cast e.symm j)) := by
  obtain ⟨h1, h2⟩ := C92_signed G H hG hH .tensor
  rw [h] at h1
  have sym : ∀ {k : ℕ} {A : Matrix (Fin k) (Fin k) ℤ}, A.IsSymm → Matrix.IsSymm (mod2 A) := by
    intro k A hA
    ext i j
    change ((A j i : ℤ) : F2) = (A i j : F2)
    rw [hA.apply]
  obtain ⟨t, ht, e, h3, h4⟩ := C12_sound (mod2 G) (mod2 H) (sym sG) (sym sH) o.mod2 h1.symm
  have h5 := h2 _ _ h
  cases o with
  | none => cases ht
  | globalMat g => cases ht
  | tensors t' =>
    cases ht
    exact ⟨t', rfl, h5, e, h3, h4⟩

/-- A non-trivial signed pair: the star and the triangle with weights of both signs. -/
def starZ : Matrix (Fin 3) (Fin 3) ℤ := !![0, 1, -1; 1, 0, 0; -1, 0, 0]
/-- A triangle with signs. -/
def triangleZ : Matrix (Fin 3) (Fin 3) ℤ := !![0, 1, -1; 1, 0, -1; -1, -1, 0]

example : (∀ i j, Sgn (starZ i j)) ∧ (∀ i j, Sgn (triangleZ i j)) ∧ ∃ t, areLcEquivalent starZ triangleZ .tensor = .ok (true, .tensors t) := by
  refine ⟨by intro i j; fin_cases i <;> fin_cases j <;> simp [Sgn, starZ], by intro i j; fin_cases i <;> fin_cases j <;> simp [Sgn, triangleZ], ?_⟩
  have h : (searchNullspace (nullspaceBasis (systemRowOrder 3) (lcConstraintSystem starZ triangleZ))).isSome = true := by decide +kernel
  obtain ⟨s, hs⟩ := Option.isSome_iff_exists.1 h
  refine ⟨cliffordVecToTensors s, ?_⟩
  unfold areLcEquivalent
  rw [if_neg (by decide), dif_pos rfl]
  simp only
  have e : (fun i j : Fin 3 => triangleZ (Fin.cast rfl i) (Fin.cast rfl j)) = triangleZ := rfl
  rw [e, hs]

/-- Two graphs with weights one and three. -/
def wrongG : Matrix (Fin 3) (Fin 3) ℤ := !![0, 1, 3; 1, 0, 3; 3, 3, 0]
/-- The second graph. -/
def wrongH : Matrix (Fin 3) (Fin 3) ℤ := !![0, 3, 1; 3, 0, 0; 1, 0, 0]

/-- The solution that the search finds for these. -/
def wrongS : Fin (4 * 3) → ℤ := ![0, 1, 0, 1, 1, 1, 1, 0, 1, 1, 1, 0]

/-- C92.  With other weights the answer may be wrong, although odd weights stand for the same gate as weight one: here the answer is positive, but the
operations do not map the stabilizer group of the first graph state into that of the second. -/
theorem C92_other_weights_false : wrongG.IsSymm ∧ wrongH.IsSymm ∧ ∃ t, areLcEquivalent wrongG wrongH .tensor = .ok (true, .tensors t) ∧
    ¬ applyLocal (fun k => (t k).map fun x => (x : F2)) '' stabSpace (mod2 wrongG) ⊆ stabSpace (mod2 wrongH) := by
  refine ⟨by decide, by decide, cliffordVecToTensors wrongS, ?_, ?_⟩
  · have hs : searchNullspace (nullspaceBasis (systemRowOrder 3) (lcConstraintSystem wrongG wrongH)) = some wrongS := by decide +kernel
    unfold areLcEquivalent
    rw [if_neg (by decide), dif_pos rfl]
    simp only
    have e : (fun i j : Fin 3 => wrongH (Fin.cast rfl i) (Fin.cast rfl j)) = wrongH := rfl
    rw [e, hs]
  · intro h
    have h1 := h ⟨(fun i => ∑ j, mod2 wrongG i j * ![1, 0, 0] j, ![1, 0, 0]), fun _ => rfl, rfl⟩ 
    revert h1
    unfold stabSpace applyLocal
    decide +kernel

end Flamingpy.LinalgInt
