import Verif.Proofs.Homology
import Mathlib.Data.Matrix.Mul
import Mathlib.Algebra.Module.LinearMap.End
import Mathlib.Algebra.CharP.Two
import Mathlib.Tactic.NoncommRing
import Mathlib.Algebra.BigOperators.Fin

/-!
# A contracting homotopy of the code's chain complex

The box is a product of three one-dimensional complexes.  Each of these contracts to its homology;
the product of the contractions shows that a chain of qubits without syndrome whose plane parities
are all even is a sum of neighbourhoods of nodes of the other type.
-/

namespace Flamingpy.SurfaceCode

open Flamingpy Finset

section abstract

variable {A : Fin 3 → Type} [∀ i, Fintype (A i)] [∀ i, DecidableEq (A i)]

/-- Apply a matrix along one axis. -/
def axisMap (i : Fin 3) (M : Matrix (A i) (A i) (ZMod 2)) :
    Module.End (ZMod 2) ((∀ i, A i) → ZMod 2) where
  toFun g x := ∑ b, M (x i) b * g (Function.update x i b)
  map_add' g h := by funext x; simp [mul_add, Finset.sum_add_distrib]
  map_smul' c g := by
    funext x
    simp only [Pi.smul_apply, smul_eq_mul, RingHom.id_apply, Finset.mul_sum]
    exact Finset.sum_congr rfl fun b _ => by ring

theorem axisMap_apply (i : Fin 3) (M : Matrix (A i) (A i) (ZMod 2)) (g : (∀ i, A i) → ZMod 2) (x) :
    axisMap i M g x = ∑ b, M (x i) b * g (Function.update x i b) := rfl

theorem axisMap_one (i : Fin 3) : axisMap i (1 : Matrix (A i) (A i) (ZMod 2)) = 1 := by
  apply LinearMap.ext; intro g; funext x
  rw [axisMap_apply, Finset.sum_eq_single (x i)]
  · simp
  · intro b _ hb; simp [Matrix.one_apply_ne (Ne.symm hb)]
  · simp

theorem axisMap_add (i : Fin 3) (M N : Matrix (A i) (A i) (ZMod 2)) :
    axisMap i (M + N) = axisMap i M + axisMap i N := by
  apply LinearMap.ext; intro g; funext x
  simp [axisMap_apply, add_mul, Finset.sum_add_distrib]

theorem axisMap_mul (i : Fin 3) (M N : Matrix (A i) (A i) (ZMod 2)) :
    axisMap i (M * N) = axisMap i M * axisMap i N := by
  apply LinearMap.ext; intro g; funext x
  simp only [Module.End.mul_apply, axisMap_apply, Matrix.mul_apply, Function.update_self,
    Function.update_idem, Finset.sum_mul, Finset.mul_sum]
  rw [Finset.sum_comm]
  exact Finset.sum_congr rfl fun b _ => Finset.sum_congr rfl fun c _ => by ring

theorem axisMap_comm {i j : Fin 3} (h : i ≠ j) (M : Matrix (A i) (A i) (ZMod 2)) (N : Matrix (A j) (A j) (ZMod 2)) :
    axisMap i M * axisMap j N = axisMap j N * axisMap i M := by
  apply LinearMap.ext; intro g; funext x
  simp only [Module.End.mul_apply, axisMap_apply, Finset.mul_sum, Function.update_of_ne h,
    Function.update_of_ne h.symm]
  rw [Finset.sum_comm]
  refine Finset.sum_congr rfl fun b _ => Finset.sum_congr rfl fun c _ => ?_
  rw [Function.update_comm h]
  ring

theorem end_add_self (T : Module.End (ZMod 2) ((∀ i, A i) → ZMod 2)) : T + T = 0 := by
  apply LinearMap.ext; intro g; funext x
  exact CharTwo.add_self_eq_zero _

end abstract

/-- The product of three contractions, in any ring of characteristic two. -/
theorem homotopy_ring {R : Type} [Ring R] (h2 : ∀ T : R, T + T = 0)
    (D0 D1 D2 H0 H1 H2 P0 P1 P2 : R)
    (e0 : D0 * H0 + H0 * D0 = 1 + P0) (e1 : D1 * H1 + H1 * D1 = 1 + P1) (e2 : D2 * H2 + H2 * D2 = 1 + P2)
    (c0 : D0 * P0 = P0 * D0) (c1 : D1 * P1 = P1 * D1)
    (a1 : D1 * H0 = H0 * D1) (a2 : D2 * H0 = H0 * D2)
    (a3 : D0 * H1 = H1 * D0) (a4 : D2 * H1 = H1 * D2)
    (a5 : D0 * H2 = H2 * D0) (a6 : D1 * H2 = H2 * D1)
    (b1 : D1 * P0 = P0 * D1) (b2 : D2 * P0 = P0 * D2) (b3 : D0 * P1 = P1 * D0) (b4 : D2 * P1 = P1 * D2) :
    (D0 + D1 + D2) * (H0 + P0 * H1 + P0 * P1 * H2) + (H0 + P0 * H1 + P0 * P1 * H2) * (D0 + D1 + D2) =
      1 + P0 * P1 * P2 := by
  have d0 : (D0 + D1 + D2) * P0 = P0 * (D0 + D1 + D2) := by simp only [add_mul, mul_add, c0, b1, b2]
  have d1 : (D0 + D1 + D2) * P1 = P1 * (D0 + D1 + D2) := by simp only [add_mul, mul_add, c1, b3, b4]
  have f0 : (D0 + D1 + D2) * H0 + H0 * (D0 + D1 + D2) = 1 + P0 := by
    rw [← e0]; simp only [add_mul, mul_add, a1, a2]
    have := h2 (H0 * D1); have := h2 (H0 * D2)
    calc _ = D0 * H0 + H0 * D0 + (H0 * D1 + H0 * D1) + (H0 * D2 + H0 * D2) := by abel
      _ = _ := by rw [h2, h2]; simp
  have f1 : (D0 + D1 + D2) * H1 + H1 * (D0 + D1 + D2) = 1 + P1 := by
    rw [← e1]; simp only [add_mul, mul_add, a3, a4]
    calc _ = D1 * H1 + H1 * D1 + (H1 * D0 + H1 * D0) + (H1 * D2 + H1 * D2) := by abel
      _ = _ := by rw [h2, h2]; simp
  have f2 : (D0 + D1 + D2) * H2 + H2 * (D0 + D1 + D2) = 1 + P2 := by
    rw [← e2]; simp only [add_mul, mul_add, a5, a6]
    calc _ = D2 * H2 + H2 * D2 + (H2 * D0 + H2 * D0) + (H2 * D1 + H2 * D1) := by abel
      _ = _ := by rw [h2, h2]; simp
  generalize D0 + D1 + D2 = D at *
  calc D * (H0 + P0 * H1 + P0 * P1 * H2) + (H0 + P0 * H1 + P0 * P1 * H2) * D
      = (D * H0 + H0 * D) + (D * P0 * H1 + P0 * H1 * D) + (D * P0 * P1 * H2 + P0 * P1 * H2 * D) := by
        noncomm_ring
    _ = (D * H0 + H0 * D) + P0 * (D * H1 + H1 * D) + P0 * P1 * (D * H2 + H2 * D) := by
        rw [d0, mul_assoc P0 D P1, d1]; noncomm_ring
    _ = 1 + P0 * P1 * P2 + (P0 + P0) + (P0 * P1 + P0 * P1) := by rw [f0, f1, f2]; noncomm_ring
    _ = _ := by rw [h2, h2]; simp

/-! ### One axis -/

section axis
variable (ec : Ec) (bd : Bd) (d : ℕ)

/-- Points of an axis. -/
abbrev AxPt := {a : ℤ // a ∈ ax bd d}

/-- Boundary: from faces to cells. -/
def axD : Matrix (AxPt bd d) (AxPt bd d) (ZMod 2) := fun c f =>
  if c.1 % 2 = cellPar ec ∧ f.1 ∈ nb bd d c.1 then 1 else 0

/-- Contraction: from cells to faces. -/
def axH : Matrix (AxPt bd d) (AxPt bd d) (ZMod 2) := fun f c =>
  if f.1 % 2 = facePar ec ∧ c.1 % 2 = cellPar ec ∧ f.1 < c.1 then 1 else 0

/-- The cell where the contraction collects. -/
def starC : ℤ :=
  match bd, ec with
  | .periodic, .primal => 2 * d - 1
  | .periodic, .dual => 0
  | _, .primal => 1
  | _, .dual => 0

/-- The face where the contraction evaluates. -/
def starF : ℤ :=
  match bd, ec with
  | .periodic, .primal => 0
  | .periodic, .dual => 2 * d - 1
  | _, .primal => 2 * d - 2
  | _, .dual => 2 * d - 1

/-- Projection on the homology of an axis. -/
def axP : Matrix (AxPt bd d) (AxPt bd d) (ZMod 2) := fun a b =>
  if a.1 % 2 = cellPar ec then
    if b.1 % 2 = cellPar ec ∧ bd ≠ ec.toBd ∧ a.1 = starC ec bd d then 1 else 0
  else
    if b.1 % 2 = facePar ec ∧ (bd = ec.toBd ∨ bd = .periodic) ∧ b.1 = starF ec bd d then 1 else 0

variable {ec bd d}

theorem sum_axPt (g : ℤ → ZMod 2) : ∑ b : AxPt bd d, g b.1 = ∑ b ∈ ax bd d, g b :=
  Finset.sum_coe_sort (ax bd d) g

theorem sum_nb {a : ℤ} (ha : inAxis bd d a) (hd : 2 ≤ d) (g : ℤ → ZMod 2) :
    ∑ b ∈ nb bd d a, g b =
      (if inAxis bd d (prevA bd d a) then g (prevA bd d a) else 0) +
      (if inAxis bd d (succA bd d a) then g (succA bd d a) else 0) := by
  rw [nb_eq ha (by omega), Finset.sum_filter, Finset.sum_pair (prev_ne_succ hd)]

theorem axD_mul (M : Matrix (AxPt bd d) (AxPt bd d) (ZMod 2)) (m : ℤ → ZMod 2) (a b : AxPt bd d)
    (hm : ∀ c : AxPt bd d, c.1 % 2 = facePar ec → M c b = m c.1) :
    (axD ec bd d * M) a b = if a.1 % 2 = cellPar ec then ∑ f ∈ nb bd d a.1, m f else 0 := by
  rw [Matrix.mul_apply]
  split_ifs with h
  · have : ∀ c : AxPt bd d, axD ec bd d a c * M c b = if c.1 ∈ nb bd d a.1 then m c.1 else 0 := by
      intro c
      unfold axD
      by_cases hc : c.1 ∈ nb bd d a.1
      · rw [if_pos ⟨h, hc⟩, if_pos hc, one_mul, hm]
        exact (par_next ec (nextTo_symm.1 (mem_nb.1 hc).2)).2 h
      · rw [if_neg (fun h' => hc h'.2), if_neg hc, zero_mul]
    rw [Finset.sum_congr rfl fun c _ => this c, sum_axPt (fun c => if c ∈ nb bd d a.1 then m c else 0),
      ← Finset.sum_filter]
    congr 1
    ext c
    simp only [Finset.mem_filter, mem_ax]
    exact ⟨fun h => h.2, fun h => ⟨(mem_nb.1 h).1, h⟩⟩
  · apply Finset.sum_eq_zero
    intro c _
    unfold axD
    rw [if_neg (fun h' => h h'.1), zero_mul]

theorem mul_axD (M : Matrix (AxPt bd d) (AxPt bd d) (ZMod 2)) (m : ℤ → ZMod 2) (a b : AxPt bd d)
    (hm : ∀ c : AxPt bd d, c.1 % 2 = cellPar ec → M a c = m c.1) :
    (M * axD ec bd d) a b = if b.1 % 2 = facePar ec then ∑ c ∈ nb bd d b.1, m c else 0 := by
  rw [Matrix.mul_apply]
  have hb := mem_ax.1 b.2
  split_ifs with h
  · have : ∀ c : AxPt bd d, M a c * axD ec bd d c b = if c.1 ∈ nb bd d b.1 then m c.1 else 0 := by
      intro c
      have hc' := mem_ax.1 c.2
      unfold axD
      by_cases hc : c.1 ∈ nb bd d b.1
      · have hp := (par_next ec (mem_nb.1 hc).2).1 h
        rw [if_pos ⟨hp, (nb_symm hb hc').1 hc⟩, if_pos hc, mul_one, hm c hp]
      · rw [if_neg (fun h' => hc ((nb_symm hb hc').2 h'.2)), if_neg hc, mul_zero]
    rw [Finset.sum_congr rfl fun c _ => this c, sum_axPt (fun c => if c ∈ nb bd d b.1 then m c else 0),
      ← Finset.sum_filter]
    congr 1
    ext c
    simp only [Finset.mem_filter, mem_ax]
    exact ⟨fun h => h.2, fun h => ⟨(mem_nb.1 h).1, h⟩⟩
  · apply Finset.sum_eq_zero
    intro c _
    unfold axD
    rw [if_neg, mul_zero]
    rintro ⟨h1, h2⟩
    exact h ((par_next ec (nextTo_symm.1 (mem_nb.1 h2).2)).2 h1)

theorem ite_split (p q r s : Prop) [Decidable p] [Decidable q] [Decidable r] [Decidable s]
    (h : (p ∧ q ∧ (r ↔ s)) ∨ (p ∧ ¬ q ∧ (r ↔ ¬ s)) ∨ (¬ p ∧ q ∧ (r ↔ ¬ s)) ∨ (¬ p ∧ ¬ q ∧ (r ↔ s))) :
    (if p then (1 : ZMod 2) else 0) + (if q then 1 else 0) = (if r then 1 else 0) + (if s then 1 else 0) := by
  by_cases hp : p <;> by_cases hq : q <;> by_cases hr : r <;> by_cases hs : s <;> simp_all <;> decide

theorem ite_and_zero (p q : Prop) [Decidable p] [Decidable q] :
    (if p then (if q then (1 : ZMod 2) else 0) else 0) = if p ∧ q then 1 else 0 := by
  by_cases hp : p <;> by_cases hq : q <;> simp [hp, hq]

theorem cell_identity (hd : 2 ≤ d) {a b : ℤ} (ha : inAxis bd d a) (hb : inAxis bd d b)
    (hca : a % 2 = cellPar ec) (hcb : b % 2 = cellPar ec) :
    ∑ f ∈ nb bd d a, (if f < b then (1 : ZMod 2) else 0) =
      (if a = b then 1 else 0) + (if bd ≠ ec.toBd ∧ a = starC ec bd d then 1 else 0) := by
  rw [sum_nb ha hd, ite_and_zero, ite_and_zero]
  apply ite_split
  unfold prevA succA starC
  cases bd <;> cases ec <;> simp only [inAxis, cellPar, Ec.toBd, reduceCtorEq, false_and, if_false, true_and,
    ne_eq, not_true_eq_false, not_false_eq_true, iff_false, iff_true] at * <;> (try split_ifs) <;> omega

theorem face_identity (hd : 2 ≤ d) {a b : ℤ} (ha : inAxis bd d a) (hb : inAxis bd d b)
    (hca : a % 2 = facePar ec) (hcb : b % 2 = facePar ec) :
    ∑ c ∈ nb bd d b, (if a < c then (1 : ZMod 2) else 0) =
      (if a = b then 1 else 0) + (if (bd = ec.toBd ∨ bd = .periodic) ∧ b = starF ec bd d then 1 else 0) := by
  rw [sum_nb hb hd, ite_and_zero, ite_and_zero]
  apply ite_split
  unfold prevA succA starF
  cases bd <;> cases ec <;> simp only [inAxis, facePar, cellPar, Ec.toBd, reduceCtorEq, false_and, if_false, true_and,
    not_false_eq_true, or_false, or_true, false_or, or_self, iff_false, iff_true] at * <;> (try split_ifs) <;> omega

theorem axis_homotopy (hd : 2 ≤ d) :
    axD ec bd d * axH ec bd d + axH ec bd d * axD ec bd d = 1 + axP ec bd d := by
  ext a b
  have ha := mem_ax.1 a.2
  have hb := mem_ax.1 b.2
  rw [Matrix.add_apply, Matrix.add_apply,
    axD_mul (ec := ec) (axH ec bd d) (fun f => if b.1 % 2 = cellPar ec ∧ f < b.1 then 1 else 0) a b
      (fun c hc => by unfold axH; simp [hc]),
    mul_axD (ec := ec) (axH ec bd d) (fun c => if a.1 % 2 = facePar ec ∧ a.1 < c then 1 else 0) a b
      (fun c hc => by unfold axH; simp [hc])]
  have hone : (1 : Matrix (AxPt bd d) (AxPt bd d) (ZMod 2)) a b = if a.1 = b.1 then 1 else 0 := by
    rw [Matrix.one_apply]; simp only [Subtype.ext_iff]
  rw [hone]
  unfold axP
  rcases par_cases ec a.1 with h1 | h1 <;> rcases par_cases ec b.1 with h2 | h2
  · rw [if_pos h1, if_neg (par_ne ec h2), add_zero, if_pos h1]
    simp only [h2, true_and]
    exact cell_identity hd ha hb h1 h2
  · have h3 := par_ne ec h1
    have h4 : ¬ b.1 % 2 = cellPar ec := fun h => par_ne ec h h2
    have h5 : a.1 ≠ b.1 := fun h => h4 (h ▸ h1)
    rw [if_neg h5]
    simp only [h3, h4, false_and, if_false, Finset.sum_const_zero, ite_self, add_zero]
    rw [if_pos h1, add_zero]
  · have h3 := par_ne ec h2
    have h4 : ¬ a.1 % 2 = cellPar ec := fun h => par_ne ec h h1
    have h5 : a.1 ≠ b.1 := fun h => h4 (h ▸ h2)
    rw [if_neg h5]
    simp only [h3, h4, false_and, and_false, if_false, Finset.sum_const_zero, ite_self, add_zero]
  · have h3 : ¬ a.1 % 2 = cellPar ec := fun h => par_ne ec h h1
    rw [if_neg h3, zero_add, if_pos h2, if_neg h3]
    simp only [h1, h2, true_and]
    exact face_identity hd ha hb h1 h2

theorem axis_commute (hd : 2 ≤ d) : axD ec bd d * axP ec bd d = axP ec bd d * axD ec bd d := by
  have hz : ∀ s : Finset ℤ, s.card = 2 → ∀ c : ZMod 2, ∑ _x ∈ s, c = 0 := by
    intro s hs c; rw [Finset.sum_const, hs]; exact CharTwo.two_nsmul c
  ext a b
  have ha := mem_ax.1 a.2
  have hb := mem_ax.1 b.2
  rw [axD_mul (ec := ec) (axP ec bd d) (fun _ => if b.1 % 2 = facePar ec ∧ (bd = ec.toBd ∨ bd = .periodic) ∧
      b.1 = starF ec bd d then 1 else 0) a b
      (fun c hc => by
        have : ¬ c.1 % 2 = cellPar ec := fun h => par_ne ec h hc
        unfold axP; simp [this]),
    mul_axD (ec := ec) (axP ec bd d) (fun _ => if a.1 % 2 = cellPar ec ∧ bd ≠ ec.toBd ∧ a.1 = starC ec bd d then 1 else 0)
      a b (fun c hc => by
        unfold axP
        have := par_ne ec hc
        by_cases h : a.1 % 2 = cellPar ec
        · simp [h, hc]
        · rw [if_neg h, if_neg (fun h' => this h'.1), if_neg (fun h' => h h'.1)])]
  trans (0 : ZMod 2)
  · split_ifs with h1 h2
    · exact hz _ (nb_cell ha hd h1 h2.2.1).2 1
    · simp
    · rfl
  · symm
    split_ifs with h1 h2
    · exact hz _ (nb_face_closed hb hd h1 h2.2.1) 1
    · simp
    · rfl

end axis

/-! ### The box -/

section box
variable (ec : Ec) (dims : Fin 3 → ℕ) (bds : Fin 3 → Bd)

/-- Points of the box. -/
abbrev BoxPt := ∀ i, AxPt (bds i) (dims i)

def BoxPt.toV {dims bds} (x : BoxPt dims bds) : V := fun i => (x i).1

theorem BoxPt.inBox {dims bds} (x : BoxPt dims bds) : inBox dims bds x.toV := fun i => mem_ax.1 (x i).2

theorem BoxPt.toV_update {dims bds} (x : BoxPt dims bds) (i : Fin 3) (b : AxPt (bds i) (dims i)) :
    BoxPt.toV (Function.update x i b) = Function.update x.toV i b.1 := by
  funext j
  by_cases h : j = i
  · subst h; simp [BoxPt.toV]
  · simp [BoxPt.toV, h]

def ofV {dims bds} (x : V) (hx : Flamingpy.SurfaceCode.inBox dims bds x) : BoxPt dims bds := fun i => ⟨x i, mem_ax.2 (hx i)⟩

theorem toV_ofV {dims bds} (x : V) (hx : Flamingpy.SurfaceCode.inBox dims bds x) : (ofV x hx).toV = x := rfl

/-- Total boundary, contraction and projection. -/
noncomputable def bndry : Module.End (ZMod 2) (BoxPt dims bds → ZMod 2) :=
  axisMap 0 (axD ec (bds 0) (dims 0)) + axisMap 1 (axD ec (bds 1) (dims 1)) + axisMap 2 (axD ec (bds 2) (dims 2))

noncomputable def contr : Module.End (ZMod 2) (BoxPt dims bds → ZMod 2) :=
  axisMap 0 (axH ec (bds 0) (dims 0)) + axisMap 0 (axP ec (bds 0) (dims 0)) * axisMap 1 (axH ec (bds 1) (dims 1)) +
    axisMap 0 (axP ec (bds 0) (dims 0)) * axisMap 1 (axP ec (bds 1) (dims 1)) * axisMap 2 (axH ec (bds 2) (dims 2))

noncomputable def proj : Module.End (ZMod 2) (BoxPt dims bds → ZMod 2) :=
  axisMap 0 (axP ec (bds 0) (dims 0)) * axisMap 1 (axP ec (bds 1) (dims 1)) * axisMap 2 (axP ec (bds 2) (dims 2))

variable {ec dims bds}

theorem box_homotopy (hd : ∀ i, 2 ≤ dims i) :
    bndry ec dims bds * contr ec dims bds + contr ec dims bds * bndry ec dims bds = 1 + proj ec dims bds := by
  have e : ∀ i, axisMap (A := fun i => AxPt (bds i) (dims i)) i (axD ec (bds i) (dims i)) *
      axisMap i (axH ec (bds i) (dims i)) +
      axisMap i (axH ec (bds i) (dims i)) * axisMap i (axD ec (bds i) (dims i)) =
      1 + axisMap i (axP ec (bds i) (dims i)) := by
    intro i
    rw [← axisMap_mul, ← axisMap_mul, ← axisMap_add, axis_homotopy (hd i), axisMap_add, axisMap_one]
  have c : ∀ i, axisMap (A := fun i => AxPt (bds i) (dims i)) i (axD ec (bds i) (dims i)) *
      axisMap i (axP ec (bds i) (dims i)) =
      axisMap i (axP ec (bds i) (dims i)) * axisMap i (axD ec (bds i) (dims i)) := by
    intro i
    rw [← axisMap_mul, ← axisMap_mul, axis_commute (hd i)]
  unfold bndry contr proj
  exact homotopy_ring end_add_self _ _ _ _ _ _ _ _ _ (e 0) (e 1) (e 2) (c 0) (c 1)
    (axisMap_comm (by decide) _ _) (axisMap_comm (by decide) _ _) (axisMap_comm (by decide) _ _)
    (axisMap_comm (by decide) _ _) (axisMap_comm (by decide) _ _) (axisMap_comm (by decide) _ _)
    (axisMap_comm (by decide) _ _) (axisMap_comm (by decide) _ _) (axisMap_comm (by decide) _ _)
    (axisMap_comm (by decide) _ _)

theorem bndry_apply (g : BoxPt dims bds → ZMod 2) (x : BoxPt dims bds) :
    bndry ec dims bds g x = ∑ i, axisMap i (axD ec (bds i) (dims i)) g x := by
  rw [Fin.sum_univ_three]
  rfl

/-- The boundary along one axis, for a function given on points of space. -/
theorem axD_apply (φ : V → ZMod 2) (g : BoxPt dims bds → ZMod 2) (hg : ∀ y, g y = φ y.toV) (x : BoxPt dims bds)
    (i : Fin 3) :
    axisMap i (axD ec (bds i) (dims i)) g x =
      if x.toV i % 2 = cellPar ec then
        ∑ f ∈ nb (bds i) (dims i) (x.toV i), φ (Function.update x.toV i f) else 0 := by
  have : axisMap i (axD ec (bds i) (dims i)) g x =
      ∑ b : AxPt (bds i) (dims i), (fun b : ℤ => if x.toV i % 2 = cellPar ec ∧ b ∈ nb (bds i) (dims i) (x.toV i)
        then φ (Function.update x.toV i b) else 0) b.1 := by
    rw [axisMap_apply]
    apply Finset.sum_congr rfl
    intro b _
    rw [hg, BoxPt.toV_update]
    unfold axD
    change (if x.toV i % 2 = cellPar ec ∧ b.1 ∈ nb (bds i) (dims i) (x.toV i) then (1 : ZMod 2) else 0) * _ = _
    by_cases hc : x.toV i % 2 = cellPar ec ∧ b.1 ∈ nb (bds i) (dims i) (x.toV i)
    · rw [if_pos hc, one_mul]; simp only; rw [if_pos hc]
    · rw [if_neg hc, zero_mul]; simp only; rw [if_neg hc]
  rw [this, sum_axPt (fun b : ℤ => if x.toV i % 2 = cellPar ec ∧ b ∈ nb (bds i) (dims i) (x.toV i)
        then φ (Function.update x.toV i b) else 0)]
  split_ifs with h
  · simp only [h, true_and]
    rw [← Finset.sum_filter]
    congr 1
    ext c
    simp only [Finset.mem_filter, mem_ax]
    exact ⟨fun h => h.2, fun h => ⟨(mem_nb.1 h).1, h⟩⟩
  · simp [h]

theorem sum_along (J : Finset (Fin 3)) (x : V) (φ : V → ZMod 2) :
    ∑ y ∈ J.biUnion (nbrsAlong dims bds x), φ y =
      ∑ j ∈ J, ∑ f ∈ nb (bds j) (dims j) (x j), φ (Function.update x j f) := by
  rw [Finset.sum_biUnion]
  · apply Finset.sum_congr rfl
    intro j _
    unfold nbrsAlong
    rw [Finset.sum_image fun a _ b _ h => update_inj x j h]
  · intro j _ k _ h
    exact nbrsAlong_disjoint dims bds x h

/-- The chain of a function on the qubits. -/
def chain (ec : Ec) (dims : Fin 3 → ℕ) (bds : Fin 3 → Bd) (e : V → ZMod 2) (x : BoxPt dims bds) : ZMod 2 :=
  if ∃ i, FaceAt ec x.toV i then e x.toV else 0

theorem par_sum (e : V → ZMod 2) {c : V} (hc : c ∈ cells ec dims bds) :
    par ec dims bds e c = ∑ i, ∑ f ∈ nb (bds i) (dims i) (c i), e (Function.update c i f) := by
  rw [← sum_along Finset.univ]
  unfold par
  congr 1
  ext x
  obtain ⟨hcb, hcp⟩ := mem_cells.1 hc
  rw [mem_filter, mem_biUnion]
  unfold nbrsAlong
  simp only [mem_image, mem_univ, true_and]
  constructor
  · rintro ⟨h1, h2⟩
    obtain ⟨i, f, hf, rfl⟩ := (adj_cell_iff hcb x).1 ⟨(mem_qubits.1 h1).1, h2⟩
    exact ⟨i, f, hf, rfl⟩
  · rintro ⟨i, f, hf, rfl⟩
    obtain ⟨h1, h2⟩ := (adj_cell_iff hcb _).2 ⟨i, f, hf, rfl⟩
    exact ⟨adj_cell_qubit hc h1 h2, h2⟩

theorem chain_bndry (e : V → ZMod 2) (htriv : ∀ c ∈ cells ec dims bds, par ec dims bds e c = 0) :
    bndry ec dims bds (chain ec dims bds e) = 0 := by
  funext x
  rw [bndry_apply]
  have hap := fun i => axD_apply (ec := ec) (fun y => if ∃ i, FaceAt ec y i then e y else 0)
    (chain ec dims bds e) (fun _ => rfl) x i
  simp only [hap]
  by_cases hc : ∀ i, x.toV i % 2 = cellPar ec
  · simp only [hc, if_true]
    have hcc : x.toV ∈ cells ec dims bds := mem_cells.2 ⟨x.inBox, hc⟩
    rw [Pi.zero_apply, ← htriv _ hcc, par_sum e hcc]
    refine Finset.sum_congr rfl fun i _ => Finset.sum_congr rfl fun f hf => ?_
    rw [if_pos]
    exact (mem_qubits.1 (line_mem hcc (mem_nb.1 hf).1
      ((par_next ec (nextTo_symm.1 (mem_nb.1 hf).2)).2 (hc i)))).2
  · apply Finset.sum_eq_zero
    intro i _
    split_ifs with hi
    · apply Finset.sum_eq_zero
      intro f hf
      rw [if_neg]
      rintro ⟨j, hj⟩
      have hij : i = j := hj.unique (by simpa using (par_next ec (nextTo_symm.1 (mem_nb.1 hf).2)).2 hi)
      subst hij
      apply hc
      intro k
      by_cases hk : k = i
      · rw [hk]; exact hi
      · have := hj.2 k hk
        rwa [Function.update_of_ne hk] at this
    · rfl

theorem axP_face (g : BoxPt dims bds → ZMod 2) (x : BoxPt dims bds) (i : Fin 3) (hi : x.toV i % 2 = facePar ec)
    (hne : axisMap i (axP ec (bds i) (dims i)) g x ≠ 0) :
    (bds i = ec.toBd ∨ bds i = .periodic) ∧ ∃ f : AxPt (bds i) (dims i), f.1 = starF ec (bds i) (dims i) ∧
      f.1 % 2 = facePar ec ∧
      ∀ g : BoxPt dims bds → ZMod 2, ∀ z : BoxPt dims bds, z i = x i →
        axisMap i (axP ec (bds i) (dims i)) g z = g (Function.update z i f) := by
  have hP : ∀ b, axP ec (bds i) (dims i) (x i) b = if b.1 % 2 = facePar ec ∧ (bds i = ec.toBd ∨ bds i = .periodic) ∧
      b.1 = starF ec (bds i) (dims i) then 1 else 0 := by
    intro b
    unfold axP
    rw [if_neg (show ¬ (x i).1 % 2 = cellPar ec from fun h => par_ne ec h hi)]
  rw [axisMap_apply] at hne
  obtain ⟨f, _, hf⟩ := Finset.exists_ne_zero_of_sum_ne_zero hne
  rw [hP] at hf
  split_ifs at hf with h
  · refine ⟨h.2.1, f, h.2.2, h.1, ?_⟩
    intro g z hz
    rw [axisMap_apply, Finset.sum_eq_single f]
    · rw [hz, hP, if_pos h, one_mul]
    · intro b _ hb
      rw [hz, hP, if_neg, zero_mul]
      rintro ⟨_, _, h3⟩
      exact hb (Subtype.ext (h3.trans h.2.2.symm))
    · simp
  · simp at hf

theorem proj_perm (i j k : Fin 3) (hij : i ≠ j) (hik : i ≠ k) (hjk : j ≠ k) :
    proj ec dims bds = axisMap j (axP ec (bds j) (dims j)) * axisMap k (axP ec (bds k) (dims k)) *
      axisMap i (axP ec (bds i) (dims i)) := by
  unfold proj
  have c := fun (i j : Fin 3) (h : i ≠ j) => axisMap_comm (A := fun i => AxPt (bds i) (dims i)) h
    (axP ec (bds i) (dims i)) (axP ec (bds j) (dims j))
  have c01 := c 0 1 (by decide)
  have c02 := c 0 2 (by decide)
  have c12 := c 1 2 (by decide)
  fin_cases i <;> fin_cases j <;> fin_cases k <;>
    first
    | exact absurd rfl hij
    | exact absurd rfl hik
    | exact absurd rfl hjk
    | skip
  all_goals simp only [Fin.zero_eta, Fin.mk_one, Fin.reduceFinMk]
  · rw [mul_assoc _ (axisMap 2 _), ← c02, ← mul_assoc, ← c01]
  · rw [mul_assoc, c12, ← mul_assoc, c02, mul_assoc, c01, mul_assoc]
  · rw [mul_assoc, c12, mul_assoc]
  · rw [mul_assoc, c12, ← mul_assoc, c02]
  · rw [c01]

theorem axP_cell (x : BoxPt dims bds) (j : Fin 3) (hj : x.toV j % 2 = cellPar ec) (b : AxPt (bds j) (dims j)) :
    axP ec (bds j) (dims j) (x j) b =
      if b.1 % 2 = cellPar ec ∧ bds j ≠ ec.toBd ∧ x.toV j = starC ec (bds j) (dims j) then 1 else 0 := by
  unfold axP
  rw [if_pos (show (x j).1 % 2 = cellPar ec from hj)]
  rfl

theorem plane_pairs (e : V → ZMod 2) (x : BoxPt dims bds) {i j k : Fin 3} (hij : i ≠ j) (hik : i ≠ k) (hjk : j ≠ k)
    (hall : ∀ m, m = i ∨ m = j ∨ m = k) (f : AxPt (bds i) (dims i)) (hf : f.1 % 2 = facePar ec) :
    ∑ p ∈ (Finset.univ : Finset (AxPt (bds j) (dims j) × AxPt (bds k) (dims k))).filter
        (fun p => p.1.1 % 2 = cellPar ec ∧ p.2.1 % 2 = cellPar ec),
      chain ec dims bds e (Function.update (Function.update (Function.update x j p.1) k p.2) i f) =
    plane ec dims bds e i f.1 := by
  unfold plane
  apply Finset.sum_nbij fun p => Function.update (Function.update (Function.update x.toV j p.1.1) k p.2.1) i f.1
  · rintro ⟨a, b⟩ hp
    simp only [mem_filter, mem_univ, true_and] at hp
    rw [mem_filter, mem_qubits]
    refine ⟨⟨?_, i, by simpa using hf, ?_⟩, by simp⟩
    · intro m
      rcases hall m with rfl | rfl | rfl
      · simpa using mem_ax.1 f.2
      · simpa [Ne.symm hij, hjk] using mem_ax.1 a.2
      · simpa [Ne.symm hik] using mem_ax.1 b.2
    · intro m hm
      rcases hall m with rfl | rfl | rfl
      · exact absurd rfl hm
      · simpa [Ne.symm hij, hjk] using hp.1
      · simpa [Ne.symm hik] using hp.2
  · rintro ⟨a, b⟩ _ ⟨a', b'⟩ _ h
    have h1 := congrFun h j
    have h2 := congrFun h k
    simp [Ne.symm hij, hjk] at h1
    simp [Ne.symm hik] at h2
    exact Prod.ext h1 h2
  · intro y hy
    simp only [coe_filter, Set.mem_ofPred_eq] at hy
    obtain ⟨hq, hyf⟩ := hy
    obtain ⟨hb, l, hl⟩ := mem_qubits.1 hq
    have hil : i = l := hl.unique (hyf ▸ hf)
    subst hil
    refine ⟨(⟨y j, mem_ax.2 (hb j)⟩, ⟨y k, mem_ax.2 (hb k)⟩), ?_, ?_⟩
    · simp only [coe_filter, mem_univ, true_and, Set.mem_ofPred_eq]
      exact ⟨hl.2 j (Ne.symm hij), hl.2 k (Ne.symm hik)⟩
    · funext m
      rcases hall m with rfl | rfl | rfl
      · simp [hyf]
      · simp [Ne.symm hij, hjk]
      · simp [Ne.symm hik]
  · rintro ⟨a, b⟩ hp
    simp only [mem_filter, mem_univ, true_and] at hp
    unfold chain
    have hv : BoxPt.toV (Function.update (Function.update (Function.update x j a) k b) i f) =
        Function.update (Function.update (Function.update x.toV j a.1) k b.1) i f.1 := by
      rw [BoxPt.toV_update, BoxPt.toV_update, BoxPt.toV_update]
    simp only [hv]
    rw [if_pos]
    refine ⟨i, by simpa using hf, ?_⟩
    intro m hm
    rcases hall m with rfl | rfl | rfl
    · exact absurd rfl hm
    · simpa [Ne.symm hij, hjk] using hp.1
    · simpa [Ne.symm hik] using hp.2

theorem proj_zero (e : V → ZMod 2) {x : BoxPt dims bds} {i : Fin 3} (hx : FaceAt ec x.toV i)
    (hpl : (bds i = ec.toBd ∨ bds i = .periodic) → (∀ j, j ≠ i → bds j ≠ ec.toBd) →
      plane ec dims bds e i (starF ec (bds i) (dims i)) = 0) :
    proj ec dims bds (chain ec dims bds e) x = 0 := by
  obtain ⟨j, hji⟩ := other_axis i
  obtain ⟨k, hki, hkj, hall⟩ := third_axis i j hji
  rw [proj_perm i j k hji.symm hki.symm hkj.symm]
  simp only [Module.End.mul_apply]
  by_contra hne
  have hne0 := hne
  rw [axisMap_apply] at hne
  obtain ⟨a, _, ha⟩ := Finset.exists_ne_zero_of_sum_ne_zero hne
  have ha1 := left_ne_zero_of_mul ha
  have ha2 := right_ne_zero_of_mul ha
  rw [axP_cell x j (hx.2 j hji)] at ha1
  split_ifs at ha1 with hj
  swap
  · exact ha1 rfl
  rw [axisMap_apply] at ha2
  obtain ⟨b, _, hb⟩ := Finset.exists_ne_zero_of_sum_ne_zero ha2
  have hb1 := left_ne_zero_of_mul hb
  have hb2 := right_ne_zero_of_mul hb
  rw [Function.update_of_ne hkj, axP_cell x k (hx.2 k hki)] at hb1
  split_ifs at hb1 with hk
  swap
  · exact hb1 rfl
  have hzi : BoxPt.toV (Function.update (Function.update x j a) k b) i % 2 = facePar ec := by
    rw [BoxPt.toV_update, BoxPt.toV_update, Function.update_of_ne hki.symm, Function.update_of_ne hji.symm]
    exact hx.1
  obtain ⟨hbd, f, hf, hfp, hall'⟩ := axP_face _ _ i hzi hb2
  apply hne0
  rw [← hpl hbd (fun m hm => by
    rcases hall m with rfl | rfl | rfl
    · exact absurd rfl hm
    · exact hj.2.1
    · exact hk.2.1), ← hf, ← plane_pairs e x hji.symm hki.symm hkj.symm hall f hfp]
  rw [axisMap_apply, Finset.sum_filter, Fintype.sum_prod_type]
  apply Finset.sum_congr rfl
  intro a' _
  rw [axP_cell x j (hx.2 j hji), axisMap_apply, Finset.mul_sum]
  apply Finset.sum_congr rfl
  intro b' _
  rw [Function.update_of_ne hkj, axP_cell x k (hx.2 k hki), hall' _ _ (by
    simp [Function.update_of_ne hki.symm, Function.update_of_ne hji.symm])]
  by_cases h1 : a'.1 % 2 = cellPar ec <;> by_cases h2 : b'.1 % 2 = cellPar ec <;>
    simp [h1, h2, hj.2.1, hk.2.1, hj.2.2, hk.2.2]

/-- A chain without syndrome and with even planes is a sum of neighbourhoods of points with two
face coordinates. -/
theorem exact_of_planes (hd : ∀ i, 2 ≤ dims i) (e : V → ZMod 2)
    (htriv : ∀ c ∈ cells ec dims bds, par ec dims bds e c = 0)
    (hpl : ∀ i, (bds i = ec.toBd ∨ bds i = .periodic) → (∀ j, j ≠ i → bds j ≠ ec.toBd) →
      plane ec dims bds e i (lowF ec) = 0) :
    ∃ h : V → ZMod 2, ∀ x i, inBox dims bds x → FaceAt ec x i →
      e x = ∑ y ∈ (Finset.univ.erase i).biUnion (nbrsAlong dims bds x), h y := by
  classical
  have key := congrArg (fun T => T (chain ec dims bds e)) (box_homotopy (ec := ec) (bds := bds) hd)
  simp only [LinearMap.add_apply, Module.End.mul_apply, Module.End.one_apply, chain_bndry e htriv, map_zero,
    add_zero] at key
  set g := contr ec dims bds (chain ec dims bds e) with hg
  refine ⟨fun y => if hy : inBox dims bds y then g (ofV y hy) else 0, ?_⟩
  intro x i hxb hxi
  have hp : proj ec dims bds (chain ec dims bds e) (ofV x hxb) = 0 := by
    apply proj_zero e (i := i) (by rw [toV_ofV]; exact hxi)
    intro h1 h2
    obtain ⟨m, hm, hms⟩ : ∃ m : ℕ, m < dims i ∧ starF ec (bds i) (dims i) = lowF ec + 2 * (m : ℤ) := by
      have := hd i
      apply (faces_iff (hd i) h1 _).1
      rcases h1 with h1 | h1 <;> rw [h1] <;> cases ec <;>
        simp only [starF, inAxis, Ec.toBd, facePar, cellPar] <;> omega
    rw [hms, plane_eq hd e i h2 h1 htriv m hm]
    exact hpl i h1 h2
  have hk := congrFun key (ofV x hxb)
  rw [Pi.add_apply, hp, add_zero] at hk
  have hch : chain ec dims bds e (ofV x hxb) = e x := by
    unfold chain
    rw [toV_ofV, if_pos ⟨i, hxi⟩]
  rw [hch, bndry_apply] at hk
  rw [← hk, sum_along]
  have hap := fun j => axD_apply (ec := ec) (fun y => if hy : inBox dims bds y then g (ofV y hy) else 0)
    g (fun y => by rw [dif_pos y.inBox]; rfl) (ofV x hxb) j
  rw [← Finset.add_sum_erase _ _ (Finset.mem_univ i), hap i,
    if_neg (show ¬ (ofV x hxb).toV i % 2 = cellPar ec from fun h => par_ne ec h hxi.1), zero_add]
  apply Finset.sum_congr rfl
  intro j hj
  rw [hap j, if_pos (show (ofV x hxb).toV j % 2 = cellPar ec from hxi.2 j (Finset.mem_erase.1 hj).1)]
  rfl

end box

end Flamingpy.SurfaceCode
