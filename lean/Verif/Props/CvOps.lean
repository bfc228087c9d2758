import Verif.Model.CvOps
import Mathlib.Tactic.NormNum
import Mathlib.Tactic.Ring
import Mathlib.Tactic.FinCases
import Mathlib.Analysis.SpecialFunctions.Trigonometric.Basic
import Mathlib.Data.List.Nodup
import Mathlib.Data.List.Perm.Basic

/-! # Properties of `flamingpy/cv/ops.py` (C06-C09) -/

namespace Flamingpy.CvOps

open Matrix

/-- Specification: the canonical symplectic form in the all-q's-first convention. -/
def omega (N : ℕ) (R : Type*) [CommRing R] : Matrix (Fin N ⊕ Fin N) (Fin N ⊕ Fin N) R :=
  fromBlocks 0 1 (-1) 0

section CZ
variable {R : Type*} [CommRing R] {N : ℕ}

/-- C06: for a symmetric adjacency matrix `SCZ_mat` preserves the symplectic form. -/
theorem C06_symplectic (adj : Matrix (Fin N) (Fin N) R) (h : adj.IsSymm) :
    sczMat adj * omega N R * (sczMat adj)ᵀ = omega N R := by
  unfold sczMat omega
  rw [fromBlocks_transpose, fromBlocks_multiply, fromBlocks_multiply]
  simp [h.eq]

/-- C06, necessity: a non-symmetric matrix does not give a symplectic transformation. -/
theorem C06_symplectic_only_if (adj : Matrix (Fin N) (Fin N) R)
    (h : sczMat adj * omega N R * (sczMat adj)ᵀ = omega N R) : adj.IsSymm := by
  unfold sczMat omega at h
  rw [fromBlocks_transpose, fromBlocks_multiply, fromBlocks_multiply] at h
  have := (fromBlocks_inj.mp h).2.2.2
  simp at this
  exact neg_add_eq_zero.mp this

/-- C06: CZ applications compose additively, the empty one is the identity, and
`SCZ_mat(-adj)` is the inverse. -/
theorem C06_compose (adj adj' : Matrix (Fin N) (Fin N) R) :
    sczMat adj * sczMat adj' = sczMat (adj + adj') ∧
    sczMat (0 : Matrix (Fin N) (Fin N) R) = 1 ∧
    sczMat (-adj) * sczMat adj = 1 ∧ sczMat adj * sczMat (-adj) = 1 := by
  have add : ∀ a b : Matrix (Fin N) (Fin N) R, sczMat a * sczMat b = sczMat (a + b) := by
    intro a b
    unfold sczMat
    rw [fromBlocks_multiply]
    simp
  have zero : sczMat (0 : Matrix (Fin N) (Fin N) R) = 1 := fromBlocks_one
  exact ⟨add _ _, zero, by rw [add]; simp [zero], by rw [add]; simp [zero]⟩

/-- C07 (vectors): positions are unchanged, momenta are shifted by `adj @ q`, and
`one_shot` does not matter. -/
theorem C07_apply_vector (adj : Matrix (Fin N) (Fin N) R) (q p : Fin N → R) (oneShot : Bool) :
    sczApply1 adj (Sum.elim q p) oneShot =
      Sum.elim q (fun i => p i + ∑ j, adj i j * q j) := by
  cases oneShot
  · simp only [sczApply1, Bool.false_eq_true, if_false]
    congr 1
    funext i
    simp [mulVec, dotProduct, add_comm]
  · simp only [sczApply1, if_true, sczMat]
    rw [fromBlocks_mulVec]
    congr 1
    · simp
    · funext i
      simp [mulVec, dotProduct, add_comm]

/-- C07 (matrices): both modes compute the covariance transformation `S Q Sᵀ`; `adj` need
not even be symmetric. -/
theorem C07_apply_matrix (adj : Matrix (Fin N) (Fin N) R)
    (quads : Matrix (Fin N ⊕ Fin N) (Fin N ⊕ Fin N) R) (oneShot : Bool) :
    sczApply2 adj quads oneShot = sczMat adj * quads * (sczMat adj)ᵀ := by
  cases oneShot
  · simp only [sczApply2, Bool.false_eq_true, if_false, sczMat]
    conv_rhs => rw [← fromBlocks_toBlocks quads, fromBlocks_transpose, fromBlocks_multiply,
      fromBlocks_multiply]
    simp only [transpose_mul, transpose_transpose, transpose_one, transpose_zero, one_mul, zero_mul,
      mul_one, mul_zero, add_zero, Matrix.add_mul]
    congr 1
    rw [Matrix.mul_assoc]; abel
  · simp only [sczApply2, if_true]
    simp [Matrix.mul_assoc]

/-- C07, as stated: the two modes agree. -/
theorem C07_one_shot_irrelevant (adj : Matrix (Fin N) (Fin N) R)
    (quads : Matrix (Fin N ⊕ Fin N) (Fin N ⊕ Fin N) R) (v : Fin N ⊕ Fin N → R) :
    sczApply2 adj quads true = sczApply2 adj quads false ∧
    sczApply1 adj v true = sczApply1 adj v false := by
  refine ⟨by rw [C07_apply_matrix, C07_apply_matrix], ?_⟩
  have : v = Sum.elim (fun i => v (.inl i)) (fun i => v (.inr i)) := by
    funext x; cases x <;> rfl
  rw [this, C07_apply_vector, C07_apply_vector]

/-- C07.  For a vector of integers stored as such, the two modes agree exactly when all shifts `adj @ q` are integers: otherwise `one_shot=False`
drops the fractional parts of the new momenta. For vectors of floats they always agree. -/
theorem C07_integers (adj : Matrix (Fin N) (Fin N) ℝ) (q p : Fin N → ℤ) (v : Fin N ⊕ Fin N → ℝ) :
    (sczApply1D true adj (Sum.elim (fun i => (q i : ℝ)) fun i => (p i : ℝ)) true =
      sczApply1D true adj (Sum.elim (fun i => (q i : ℝ)) fun i => (p i : ℝ)) false ↔ ∀ i, ∃ n : ℤ, ∑ j, adj i j * (q j : ℝ) = n) ∧
    (∀ i, |sczApply1D true adj (Sum.elim (fun i => (q i : ℝ)) fun i => (p i : ℝ)) true i -
      sczApply1D true adj (Sum.elim (fun i => (q i : ℝ)) fun i => (p i : ℝ)) false i| < 1) ∧
    sczApply1D false adj v true = sczApply1D false adj v false := by
  have hint : ∀ n : ℤ, castTo true (n : ℝ) = n := fun n => by unfold castTo; simp
  have hlt : ∀ x : ℝ, |x - castTo true x| < 1 := by
    intro x
    unfold castTo
    rw [if_pos rfl, abs_lt]
    split_ifs
    · constructor <;> linarith [Int.floor_le x, Int.lt_floor_add_one x]
    · constructor <;> linarith [Int.le_ceil x, Int.ceil_lt_add_one x]
  have h1 := C07_apply_vector adj (fun i => (q i : ℝ)) (fun i => (p i : ℝ)) true
  have h0 : sczApply1D true adj (Sum.elim (fun i => (q i : ℝ)) fun i => (p i : ℝ)) true =
      Sum.elim (fun i => (q i : ℝ)) (fun i => (p i : ℝ) + ∑ j, adj i j * (q j : ℝ)) := h1
  have h2 : sczApply1D true adj (Sum.elim (fun i => (q i : ℝ)) fun i => (p i : ℝ)) false =
      Sum.elim (fun i => (q i : ℝ)) (fun i => castTo true ((p i : ℝ) + ∑ j, adj i j * (q j : ℝ))) := by
    unfold sczApply1D
    simp only [Bool.false_eq_true, if_false, Sum.elim_inl, Sum.elim_inr, hint]
    congr 1
    funext i
    simp [mulVec, dotProduct, add_comm]
  refine ⟨?_, fun i => ?_, ?_⟩
  · rw [h0, h2]
    constructor
    · intro h i
      have := congrFun h (.inr i)
      simp only [Sum.elim_inr] at this
      unfold castTo at this
      rw [if_pos rfl] at this
      exact ⟨_, (eq_sub_of_add_eq' this).trans (Int.cast_sub _ _).symm⟩
    · intro h
      congr 1
      funext i
      obtain ⟨n, hn⟩ := h i
      rw [hn, ← Int.cast_add, hint]
  · rw [h0, h2]
    cases i with
    | inl i => simp
    | inr i => exact hlt _
  · obtain ⟨-, h⟩ := C07_one_shot_irrelevant adj 0 v
    exact h

/-- A concrete case in which they differ: two modes joined by an edge of weight one half. -/
example : sczApply1D true (!![0, 1 / 2; 1 / 2, 0] : Matrix (Fin 2) (Fin 2) ℝ)
      (Sum.elim (fun i => ((1 : ℤ) : ℝ)) fun i => ((0 : ℤ) : ℝ)) true ≠
    sczApply1D true (!![0, 1 / 2; 1 / 2, 0] : Matrix (Fin 2) (Fin 2) ℝ)
      (Sum.elim (fun i => ((1 : ℤ) : ℝ)) fun i => ((0 : ℤ) : ℝ)) false := by
  intro h
  obtain ⟨n, hn⟩ := (C07_integers _ (fun _ => 1) (fun _ => 0) 0).1.1 h 0
  simp [Fin.sum_univ_two] at hn
  have h2 : (1 : ℝ) = ((2 * n : ℤ) : ℝ) := by push_cast; linarith
  have h3 : (1 : ℤ) = 2 * n := by exact_mod_cast h2
  omega

end CZ

/-- A concrete two-mode CZ. -/
example : (!![0, 1; 1, 0] : Matrix (Fin 2) (Fin 2) ℤ).IsSymm := by
  ext i j; fin_cases i <;> fin_cases j <;> rfl

/-! ## C08 -/

theorem foldl_set_length (l : List (ℕ × ℕ)) (acc : List ℕ) :
    (l.foldl (fun acc e => acc.set e.1 e.2) acc).length = acc.length := by
  induction l generalizing acc with
  | nil => rfl
  | cons e l ih => simp [ih]

theorem foldl_set_get_of_not_mem (l : List (ℕ × ℕ)) (acc : List ℕ) (j : ℕ)
    (h : j ∉ l.map Prod.fst) : (l.foldl (fun acc e => acc.set e.1 e.2) acc)[j]? = acc[j]? := by
  induction l generalizing acc with
  | nil => rfl
  | cons e l ih =>
    simp only [List.map_cons, List.mem_cons, not_or] at h
    rw [List.foldl_cons, ih _ h.2, List.getElem?_set]
    simp [Ne.symm h.1]

theorem foldl_set_get (l : List (ℕ × ℕ)) (acc : List ℕ) (hnd : (l.map Prod.fst).Nodup)
    (e : ℕ × ℕ) (he : e ∈ l) (hlt : e.1 < acc.length) :
    (l.foldl (fun acc e => acc.set e.1 e.2) acc)[e.1]? = some e.2 := by
  induction l generalizing acc with
  | nil => cases he
  | cons d l ih =>
    rw [List.map_cons, List.nodup_cons] at hnd
    rw [List.foldl_cons]
    rcases List.mem_cons.mp he with rfl | he
    · rw [foldl_set_get_of_not_mem _ _ _ hnd.1]
      simp [hlt]
    · exact ih _ hnd.2 he (by simpa using hlt)

theorem invertPermutation_get (empty p : List ℕ) (hp : p.Perm (List.range p.length))
    (he : empty.length = p.length) (i : ℕ) (hi : i < p.length) :
    (invertPermutation empty p)[p[i]]? = some i := by
  have hnd : p.Nodup := hp.nodup_iff.mpr List.nodup_range
  have hlt : p[i] < p.length := List.mem_range.mp (hp.subset (List.getElem_mem hi))
  have := foldl_set_get p.zipIdx empty (by simpa using hnd) (p[i], i)
    (by rw [List.mk_mem_zipIdx_iff_getElem?]; exact List.getElem?_eq_getElem hi) (by simpa [he] using hlt)
  exact this

theorem mapM_some_iff {α β : Type*} (f : α → Option β) (l : List α) (r : List β) :
    l.mapM f = some r ↔ l.map f = r.map some := by
  induction l generalizing r with
  | nil => cases r <;> simp
  | cons a l ih =>
    simp only [List.mapM_cons, List.map_cons]
    cases hfa : f a with
    | none => cases r <;> simp
    | some b =>
      cases r with
      | nil => simp [Option.bind_eq_some_iff]
      | cons c r =>
        simp only [Option.pure_def, Option.bind_eq_bind, Option.bind_some, Option.bind_eq_some_iff,
          Option.some.injEq, List.cons.injEq, List.map_cons]
        constructor
        · rintro ⟨x, hx, rfl, rfl⟩; exact ⟨rfl, (ih _).mp hx⟩
        · rintro ⟨rfl, h⟩; exact ⟨r, (ih _).mpr h, rfl, rfl⟩

/-- C08: for every permutation `p` of `0..n-1` and every array `a` of length `n`, indexing
by `p` and then by `invert_permutation(p)` (or in the other order) returns `a`, whatever
the uninitialised buffer contained. -/
theorem C08_invert_permutation {α : Type*} (empty p : List ℕ) (a : List α)
    (hp : p.Perm (List.range p.length)) (he : empty.length = p.length) (ha : a.length = p.length) :
    (index a p).bind (fun b => index b (invertPermutation empty p)) = some a ∧
    (index a (invertPermutation empty p)).bind (fun b => index b p) = some a := by
  set q := invertPermutation empty p with hq
  have hql : q.length = p.length := by
    rw [hq]; unfold invertPermutation; rw [foldl_set_length, he]
  have hlt : ∀ (i : ℕ) (hi : i < p.length), p[i] < p.length := fun i hi =>
    List.mem_range.mp (hp.subset (List.getElem_mem hi))
  have hqp : ∀ (i : ℕ) (hi : i < p.length), q[p[i]]'(by rw [hql]; exact hlt i hi) = i := by
    intro i hi
    have := invertPermutation_get empty p hp he i hi
    rw [← hq] at this
    rw [List.getElem?_eq_getElem (by rw [hql]; exact hlt i hi)] at this
    exact Option.some.inj this
  have hsurj : ∀ j < p.length, ∃ (i : ℕ) (hi : i < p.length), p[i] = j := by
    intro j hj
    have : j ∈ p := hp.symm.subset (List.mem_range.mpr hj)
    obtain ⟨i, hi, h⟩ := List.getElem_of_mem this
    exact ⟨i, hi, h⟩
  have hqlt : ∀ (j : ℕ) (hj : j < q.length), q[j] < p.length := by
    intro j hj
    obtain ⟨i, hi, rfl⟩ := hsurj j (by omega)
    rw [hqp i hi]; exact hi
  have hpq : ∀ (j : ℕ) (hj : j < q.length), p[q[j]]'(hqlt j hj) = j := by
    intro j hj
    obtain ⟨i, hi, rfl⟩ := hsurj j (by omega)
    simp only [hqp i hi]
  have idx : ∀ (b : List α) (r : List ℕ), (hr : ∀ (i : ℕ) (hi : i < r.length), r[i] < b.length) →
      index b r = some (List.ofFn fun i : Fin r.length => b[r[i]]'(hr i i.2)) := by
    intro b r hr
    unfold index
    rw [mapM_some_iff]
    apply List.ext_getElem
    · simp
    · intro i h1 h2
      simp only [List.getElem_map, List.getElem_ofFn]
      rw [List.getElem?_eq_getElem (hr i (by simpa using h1))]
      rfl
  constructor
  · rw [idx a p (fun i hi => by rw [ha]; exact hlt i hi), Option.bind_some,
      idx _ q (fun i hi => by simpa using hqlt i hi)]
    congr 1
    apply List.ext_getElem
    · simp [hql, ha]
    · intro i h1 h2
      simp only [List.getElem_ofFn]
      have hi : i < q.length := by simpa using h1
      simp only [Fin.getElem_fin, hpq i hi]
  · rw [idx a q (fun i hi => by rw [ha]; exact hqlt i hi), Option.bind_some,
      idx _ p (fun i hi => by simpa [hql] using hlt i hi)]
    congr 1
    apply List.ext_getElem
    · simp [ha]
    · intro i h1 h2
      simp only [List.getElem_ofFn]
      have hi : i < p.length := by simpa using h1
      simp only [Fin.getElem_fin, hqp i hi]

example : [2, 0, 3, 1].Perm (List.range [2, 0, 3, 1].length) := by decide
example : invertPermutation [7, 7, 7, 7] [2, 0, 3, 1] = [1, 3, 0, 2] := by decide

/-! ## C09 -/

/-- Specification: the four-splitter on one quadrature, read off from arXiv:2104.03241. -/
noncomputable def fourSplitter : Matrix (Fin 4) (Fin 4) ℝ :=
  (1 / 2 : ℝ) • !![1, 1, 1, 1; -1, 1, -1, 1; -1, -1, 1, 1; 1, -1, -1, 1]

section
variable (r : ℝ)

theorem ex1 : expandSub ![1, 0] !![r, -r; r, r] 1 =
    !![r, r, 0, 0; -r, r, 0, 0; 0, 0, 1, 0; 0, 0, 0, 1] := by
  ext i j; fin_cases i <;> fin_cases j <;> rfl
theorem ex2 : expandSub ![3, 2] !![r, -r; r, r] 1 =
    !![1, 0, 0, 0; 0, 1, 0, 0; 0, 0, r, r; 0, 0, -r, r] := by
  ext i j; fin_cases i <;> fin_cases j <;> rfl
theorem ex3 : expandSub ![2, 0] !![r, -r; r, r] 1 =
    !![r, 0, r, 0; 0, 1, 0, 0; -r, 0, r, 0; 0, 0, 0, 1] := by
  ext i j; fin_cases i <;> fin_cases j <;> rfl
theorem ex4 : expandSub ![3, 1] !![r, -r; r, r] 1 =
    !![1, 0, 0, 0; 0, r, 0, r; 0, 0, 1, 0; 0, -r, 0, r] := by
  ext i j; fin_cases i <;> fin_cases j <;> rfl
end

theorem bs_entries : bsNetwork = fromBlocks fourSplitter 0 0 fourSplitter := by
  have hc : Real.cos (Real.pi / 4) = √2 / 2 := Real.cos_pi_div_four
  have hs : Real.sin (Real.pi / 4) = √2 / 2 := Real.sin_pi_div_four
  have h2 : (√2 / 2) * (√2 / 2) = (1 / 2 : ℝ) := by
    rw [div_mul_div_comm, Real.mul_self_sqrt (by norm_num)]; norm_num
  unfold bsNetwork
  simp only [expand, beamSplitter, hc, hs, toBlocks_fromBlocks₁₁, toBlocks_fromBlocks₁₂,
    toBlocks_fromBlocks₂₁, toBlocks_fromBlocks₂₂]
  generalize hr : √2 / 2 = r at h2
  have Z : ∀ w : Fin 2 → Fin 4, expandSub w 0 0 = (0 : Matrix (Fin 4) (Fin 4) ℝ) := by
    intro w; ext a b; simp only [expandSub, Matrix.of_apply]
    cases modePos w a <;> cases modePos w b <;> rfl
  rw [ex1, ex2, ex3, ex4]
  simp only [Z, fromBlocks_multiply, Matrix.zero_mul, Matrix.mul_zero, add_zero, zero_add]
  have key : (!![1, 0, 0, 0; 0, r, 0, r; 0, 0, 1, 0; 0, -r, 0, r] : Matrix (Fin 4) (Fin 4) ℝ) *
      !![r, 0, r, 0; 0, 1, 0, 0; -r, 0, r, 0; 0, 0, 0, 1] *
      !![1, 0, 0, 0; 0, 1, 0, 0; 0, 0, r, r; 0, 0, -r, r] *
      !![r, r, 0, 0; -r, r, 0, 0; 0, 0, 1, 0; 0, 0, 0, 1] = fourSplitter := by
    unfold fourSplitter
    simp only [Matrix.cons_mul, Matrix.vecMul_cons, Matrix.empty_mul, Matrix.smul_cons,
      Matrix.smul_empty, Matrix.head_cons, Matrix.tail_cons, 
      Matrix.add_cons, Matrix.empty_add_empty, smul_eq_mul,
      Equiv.symm_apply_apply, Matrix.empty_vecMul, Matrix.smul_of, smul_cons, smul_empty,
      mul_one, mul_zero, add_zero, zero_add, neg_mul, mul_neg, h2, zero_mul, one_mul]
    norm_num
    exact h2
  rw [key]

theorem fourSplitter_orth : fourSplitter * fourSplitterᵀ = 1 := by
  ext i j
  fin_cases i <;> fin_cases j <;>
    simp [Matrix.mul_apply, Fin.sum_univ_four, fourSplitter] <;> norm_num

/-- C09: `splitter_symp()` acts identically on positions and momenta (as the four-splitter
above), and is orthogonal and symplectic. -/
theorem C09_four_splitter :
    splitterSymp = some (.allQsFirst bsNetwork) ∧
    bsNetwork = fromBlocks fourSplitter 0 0 fourSplitter ∧
    bsNetwork * bsNetworkᵀ = 1 ∧ bsNetwork * omega 4 ℝ * bsNetworkᵀ = omega 4 ℝ := by
  refine ⟨rfl, bs_entries, ?_, ?_⟩
  · rw [bs_entries, fromBlocks_transpose, fromBlocks_multiply]
    simp [fourSplitter_orth]
  · rw [bs_entries, omega, fromBlocks_transpose, fromBlocks_multiply, fromBlocks_multiply]
    simp [fourSplitter_orth]

/-- Specification: the symplectic form in the `q1 p1 … qn pn` ordering, on the rows
`8k + i` written `(i, k)`: `q` of a mode is paired with `p` of the same mode. -/
def omegaInterleaved (m : ℕ) : Matrix (Fin 8 × Fin m) (Fin 8 × Fin m) ℝ := fun a b =>
  if a.2 = b.2 ∧ a.1.val % 2 = 0 ∧ b.1.val = a.1.val + 1 then 1
  else if a.2 = b.2 ∧ b.1.val % 2 = 0 ∧ a.1.val = b.1.val + 1 then -1 else 0

theorem omegaInterleaved_eq (m : ℕ) :
    omegaInterleaved m = blockDiagonal fun _ : Fin m => (omega 4 ℝ).submatrix permOut4 permOut4 := by
  ext ⟨i, k⟩ ⟨j, l⟩
  rw [blockDiagonal_apply]
  by_cases h : k = l
  · subst h
    simp only [omegaInterleaved, true_and, if_true, submatrix_apply, omega]
    fin_cases i <;> fin_cases j <;> simp [permOut4]
  · simp [omegaInterleaved, h]

theorem permOut4_bij : Function.Bijective permOut4 := by
  rw [Fintype.bijective_iff_injective_and_card]
  exact ⟨by decide, rfl⟩

/-- C09: for `n > 4` the result is `n // 4` diagonal copies (rows `8k + 2a` and `8k + 2a + 1` are the position and
the momentum of mode `a` of copy `k`); it is orthogonal and symplectic
in the interleaved ordering; the smaller numbers of modes are rejected. -/
theorem C09_many_splitters (n : ℕ) :
    (4 < n → splitterSymp n = some (.interleaved n (bsFull n))) ∧
    (n < 4 → splitterSymp n = none) ∧
    (∀ (a b : Fin 4) (k l : Fin (n / 4)),
      bsFull n (⟨2 * a, by omega⟩, k) (⟨2 * b, by omega⟩, l) = (if k = l then fourSplitter a b else 0) ∧
      bsFull n (⟨2 * a + 1, by omega⟩, k) (⟨2 * b + 1, by omega⟩, l) = (if k = l then fourSplitter a b else 0) ∧
      bsFull n (⟨2 * a, by omega⟩, k) (⟨2 * b + 1, by omega⟩, l) = 0 ∧
      bsFull n (⟨2 * a + 1, by omega⟩, k) (⟨2 * b, by omega⟩, l) = 0) ∧
    bsFull n * (bsFull n)ᵀ = 1 ∧
    bsFull n * omegaInterleaved (n / 4) * (bsFull n)ᵀ = omegaInterleaved (n / 4) := by
  let e : Fin 8 ≃ Fin 4 ⊕ Fin 4 := Equiv.ofBijective permOut4 permOut4_bij
  have he : permOut4 = e := rfl
  refine ⟨?_, ?_, ?_, ?_, ?_⟩
  · intro h; unfold splitterSymp; rw [if_neg (by omega), if_pos h]
  · intro h; unfold splitterSymp; rw [if_neg (by omega), if_neg (by omega)]
  · have h0 : ∀ a : Fin 4, permOut4 ⟨2 * a, by omega⟩ = .inl a := by decide
    have h1 : ∀ a : Fin 4, permOut4 ⟨2 * a + 1, by omega⟩ = .inr a := by decide
    intro a b k l
    unfold bsFull
    simp only [blockDiagonal_apply, submatrix_apply, h0, h1, C09_four_splitter.2.1, fromBlocks_apply₁₁,
      fromBlocks_apply₁₂, fromBlocks_apply₂₁, fromBlocks_apply₂₂, Matrix.zero_apply, ite_self, and_self]
  · unfold bsFull
    rw [blockDiagonal_transpose, ← blockDiagonal_mul]
    simp only [he, transpose_submatrix, submatrix_mul_equiv]
    rw [C09_four_splitter.2.2.1]
    simp only [submatrix_one_equiv]
    exact blockDiagonal_one
  · rw [omegaInterleaved_eq]
    unfold bsFull
    rw [blockDiagonal_transpose, ← blockDiagonal_mul, ← blockDiagonal_mul]
    simp only [he, transpose_submatrix, submatrix_mul_equiv]
    rw [C09_four_splitter.2.2.2]

example : splitterSymp 12 = some (.interleaved 12 (bsFull 12)) := (C09_many_splitters 12).1 (by norm_num)

end Flamingpy.CvOps
