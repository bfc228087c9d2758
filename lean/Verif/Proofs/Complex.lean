import Verif.Proofs.RhgDegree
import Mathlib.Algebra.BigOperators.Group.Finset.Basic
import Mathlib.Algebra.BigOperators.Ring.Finset
import Mathlib.Data.ZMod.Basic
import Mathlib.Data.Fintype.Pi

/-!
# The chain complex behind the code

For an error complex `ec`: *cells* are the box points all of whose coordinates have the cell parity
(centres of stabilizers), *qubits* have exactly one coordinate of the other parity.  A stabilizer
consists of the qubits adjacent to its centre.
-/

namespace Flamingpy.SurfaceCode

open Flamingpy

/-- Parity of face coordinates. -/
def facePar (ec : Ec) : ℤ := 1 - cellPar ec

theorem par_cases (ec : Ec) (a : ℤ) : a % 2 = cellPar ec ∨ a % 2 = facePar ec := by
  cases ec <;> simp only [facePar, cellPar] <;> omega

theorem par_ne (ec : Ec) {a : ℤ} (h : a % 2 = cellPar ec) : a % 2 ≠ facePar ec := by
  cases ec <;> simp only [facePar, cellPar] at * <;> omega

theorem par_next (ec : Ec) {bd d a b} (h : nextTo bd d a b) : a % 2 = facePar ec ↔ b % 2 = cellPar ec := by
  have := nextTo_parity h
  cases ec <;> simp only [facePar, cellPar] at * <;> omega

instance (dims bds x y) : Decidable (adjacent dims bds x y) := by
  unfold adjacent; infer_instance

def FaceAt (ec : Ec) (x : V) (i : Fin 3) : Prop :=
  x i % 2 = facePar ec ∧ ∀ j, j ≠ i → x j % 2 = cellPar ec

instance (ec x i) : Decidable (FaceAt ec x i) := by unfold FaceAt; infer_instance

theorem FaceAt.unique {ec x i j} (h : FaceAt ec x i) (h' : x j % 2 = facePar ec) : j = i := by
  by_contra hc
  exact par_ne ec (h.2 j hc) h'

section
variable (ec : Ec) (dims : Fin 3 → ℕ) (bds : Fin 3 → Bd)

def box : Finset V := Fintype.piFinset fun i => ax (bds i) (dims i)

theorem mem_box {x : V} : x ∈ box dims bds ↔ inBox dims bds x := by
  simp [box, Fintype.mem_piFinset, mem_ax, inBox]

def cells : Finset V := (box dims bds).filter fun c => ∀ i, c i % 2 = cellPar ec
def qubits : Finset V := (box dims bds).filter fun x => ∃ i, FaceAt ec x i

end

variable {ec : Ec} {dims : Fin 3 → ℕ} {bds : Fin 3 → Bd}

theorem mem_cells {c : V} : c ∈ cells ec dims bds ↔ inBox dims bds c ∧ ∀ i, c i % 2 = cellPar ec := by
  unfold cells; rw [Finset.mem_filter, mem_box]

theorem mem_qubits {x : V} : x ∈ qubits ec dims bds ↔ inBox dims bds x ∧ ∃ i, FaceAt ec x i := by
  unfold qubits; rw [Finset.mem_filter, mem_box]

theorem mem_centers_iff_cells {c : V} : c ∈ centers ec dims bds ↔ c ∈ cells ec dims bds := by
  rw [mem_centers, mem_cells]
  exact ⟨fun h => ⟨fun i => (h i).2, fun i => (h i).1⟩, fun h i => ⟨h.2 i, h.1 i⟩⟩

/-! ### One axis -/

/-- Lowest and highest face coordinate of an open axis. -/
def lowF : Ec → ℤ
  | .primal => 0
  | .dual => 1

def highF (ec : Ec) (d : ℕ) : ℤ :=
  match ec with
  | .primal => 2 * (d : ℤ) - 2
  | .dual => 2 * (d : ℤ) - 1

theorem prevA_in {bd : Bd} {d : ℕ} {a : ℤ} (ha : inAxis bd d a) (hd : 2 ≤ d) :
    inAxis bd d (prevA bd d a) ↔ ¬ ((bd = .primal ∧ a = 0) ∨ (bd = .dual ∧ a = 1)) := by
  unfold prevA
  cases bd <;> simp only [inAxis, reduceCtorEq, false_and, if_false, true_and, or_false, false_or,
    not_false_eq_true, iff_true] at *
  · omega
  · omega
  · split_ifs <;> omega

theorem succA_in {bd : Bd} {d : ℕ} {a : ℤ} (ha : inAxis bd d a) (hd : 2 ≤ d) :
    inAxis bd d (succA bd d a) ↔ ¬ ((bd = .primal ∧ a = 2 * d - 2) ∨ (bd = .dual ∧ a = 2 * d - 1)) := by
  unfold succA
  cases bd <;> simp only [inAxis, reduceCtorEq, false_and, if_false, true_and, or_false, false_or,
    not_false_eq_true, iff_true] at *
  · omega
  · omega
  · split_ifs <;> omega

theorem prev_ne_succ {bd : Bd} {d : ℕ} {a : ℤ} (hd : 2 ≤ d) : prevA bd d a ≠ succA bd d a := by
  unfold prevA succA
  cases bd <;> simp only [reduceCtorEq, false_and, if_false, true_and]
  · omega
  · omega
  · split_ifs <;> omega

theorem nb_eq {bd : Bd} {d : ℕ} {a : ℤ} (ha : inAxis bd d a) (hd : 1 ≤ d) :
    nb bd d a = ({prevA bd d a, succA bd d a} : Finset ℤ).filter fun b => inAxis bd d b := by
  ext b
  rw [mem_nb, Finset.mem_filter, Finset.mem_insert, Finset.mem_singleton]
  constructor
  · rintro ⟨h1, h2⟩; exact ⟨(nextTo_iff ha h1 hd).1 h2, h1⟩
  · rintro ⟨h1, h2⟩; exact ⟨h2, (nextTo_iff ha h2 hd).2 h1⟩

theorem nb_two {bd : Bd} {d : ℕ} {a : ℤ} (ha : inAxis bd d a) (hd : 2 ≤ d)
    (h1 : inAxis bd d (prevA bd d a)) (h2 : inAxis bd d (succA bd d a)) :
    nb bd d a = {prevA bd d a, succA bd d a} ∧ (nb bd d a).card = 2 := by
  have : nb bd d a = {prevA bd d a, succA bd d a} := by
    rw [nb_eq ha (by omega), Finset.filter_true_of_mem]
    intro b hb
    rw [Finset.mem_insert, Finset.mem_singleton] at hb
    rcases hb with rfl | rfl <;> assumption
  exact ⟨this, by rw [this, Finset.card_pair (prev_ne_succ hd)]⟩

/-- A face on an axis that is not open for `ec` has two cells. -/
theorem nb_face_closed {bd : Bd} {d : ℕ} {a : ℤ} (ha : inAxis bd d a) (hd : 2 ≤ d) (hf : a % 2 = facePar ec)
    (hb : bd ≠ ec.toBd) : (nb bd d a).card = 2 := by
  refine (nb_two ha hd ((prevA_in ha hd).2 ?_) ((succA_in ha hd).2 ?_)).2
  · rintro (⟨rfl, h⟩ | ⟨rfl, h⟩) <;> cases ec <;> simp [Ec.toBd, facePar, cellPar] at * <;> omega
  · rintro (⟨rfl, h⟩ | ⟨rfl, h⟩) <;> cases ec <;> simp [Ec.toBd, facePar, cellPar] at * <;> omega

/-- A face on an open axis has two cells unless it is at an end, where it has one. -/
theorem nb_face_open {d : ℕ} {a : ℤ} (ha : inAxis ec.toBd d a) (hd : 2 ≤ d) (hf : a % 2 = facePar ec) :
    (nb ec.toBd d a).card = if a = lowF ec ∨ a = highF ec d then 1 else 2 := by
  split_ifs with h
  · have e : ∀ b c : ℤ, inAxis ec.toBd d b → ¬ inAxis ec.toBd d c →
        ({b, c} : Finset ℤ).filter (fun b => inAxis ec.toBd d b) = {b} := by
      intro b c hb hc
      ext m
      simp only [Finset.mem_filter, Finset.mem_insert, Finset.mem_singleton]
      constructor
      · rintro ⟨rfl | rfl, h⟩
        · rfl
        · exact absurd h hc
      · rintro rfl; exact ⟨Or.inl rfl, hb⟩
    rw [nb_eq ha (by omega)]
    rcases h with h | h
    · rw [Finset.pair_comm, e _ _ ((succA_in ha hd).2 ?_) (mt (prevA_in ha hd).1 ?_)]
      · simp
      · cases ec <;> simp [Ec.toBd, lowF] at * <;> omega
      · cases ec <;> simp [Ec.toBd, lowF] at * <;> omega
    · rw [e _ _ ((prevA_in ha hd).2 ?_) (mt (succA_in ha hd).1 ?_)]
      · simp
      · cases ec <;> simp [Ec.toBd, highF] at * <;> omega
      · cases ec <;> simp [Ec.toBd, highF] at * <;> omega
  · refine (nb_two ha hd ((prevA_in ha hd).2 ?_) ((succA_in ha hd).2 ?_)).2
    · cases ec <;> simp [Ec.toBd, lowF, highF] at * <;> omega
    · cases ec <;> simp [Ec.toBd, lowF, highF] at * <;> omega

/-- A cell on an open or periodic axis has two faces. -/
theorem nb_cell {bd : Bd} {d : ℕ} {a : ℤ} (ha : inAxis bd d a) (hd : 2 ≤ d) (hf : a % 2 = cellPar ec)
    (hb : bd = ec.toBd ∨ bd = .periodic) :
    nb bd d a = {prevA bd d a, succA bd d a} ∧ (nb bd d a).card = 2 := by
  refine nb_two ha hd ((prevA_in ha hd).2 ?_) ((succA_in ha hd).2 ?_)
  · rintro (⟨rfl, h⟩ | ⟨rfl, h⟩) <;> cases ec <;> simp [Ec.toBd, cellPar] at * <;> omega
  · rintro (⟨rfl, h⟩ | ⟨rfl, h⟩) <;> cases ec <;> simp [Ec.toBd, cellPar] at * <;> omega

theorem nb_symm {bd d a b} (ha : inAxis bd d a) (hb : inAxis bd d b) : b ∈ nb bd d a ↔ a ∈ nb bd d b := by
  rw [mem_nb, mem_nb, nextTo_symm]
  exact ⟨fun h => ⟨ha, h.2⟩, fun h => ⟨hb, h.2⟩⟩

/-! ### Incidence -/

theorem adjacent_update (dims bds) (x : V) (i : Fin 3) (b : ℤ) (h : nextTo (bds i) (dims i) (x i) b) :
    adjacent dims bds x (Function.update x i b) := by
  refine ⟨i, by simpa using h, ?_⟩
  intro j hj; simp [hj]

/-- A box point adjacent to a cell is a qubit. -/
theorem adj_cell_qubit {x c : V} (hc : c ∈ cells ec dims bds) (hx : inBox dims bds x)
    (h : adjacent dims bds x c) : x ∈ qubits ec dims bds := by
  obtain ⟨i, hi, hj⟩ := h
  rw [mem_cells] at hc
  refine mem_qubits.2 ⟨hx, i, (par_next ec hi).2 (hc.2 i), ?_⟩
  intro j hji; rw [hj j hji]; exact hc.2 j

/-- The cells adjacent to a qubit differ from it along its face axis. -/
theorem cells_of_qubit {x : V} (hx : inBox dims bds x) {i : Fin 3} (hf : FaceAt ec x i) :
    (cells ec dims bds).filter (fun c => adjacent dims bds x c) =
      (nb (bds i) (dims i) (x i)).image (Function.update x i) := by
  ext c
  rw [Finset.mem_filter, mem_cells, Finset.mem_image]
  constructor
  · rintro ⟨⟨hb, hc⟩, j, hj, hr⟩
    have hji : j = i := hf.unique ((par_next ec hj).2 (hc j))
    subst hji
    exact ⟨c j, mem_nb.2 ⟨hb j, hj⟩, (eq_update_of hr).symm⟩
  · rintro ⟨b, hb, rfl⟩
    rw [mem_nb] at hb
    refine ⟨⟨inBox_update hx hb.1, ?_⟩, adjacent_update _ _ _ _ _ hb.2⟩
    intro m
    by_cases hm : m = i
    · subst hm; simp only [Function.update_self]; exact (par_next ec hb.2).1 hf.1
    · simp only [Function.update_of_ne hm]; exact hf.2 m hm

theorem card_cells_of_qubit {x : V} (hx : inBox dims bds x) {i : Fin 3} (hf : FaceAt ec x i) :
    ((cells ec dims bds).filter fun c => adjacent dims bds x c).card = (nb (bds i) (dims i) (x i)).card := by
  rw [cells_of_qubit hx hf, Finset.card_image_of_injective _ (update_inj x i)]

/-- Points around a cell. -/
theorem adj_cell_iff {c : V} (hc : inBox dims bds c) (x : V) :
    (inBox dims bds x ∧ adjacent dims bds x c) ↔
      ∃ i, ∃ f ∈ nb (bds i) (dims i) (c i), x = Function.update c i f := by
  constructor
  · rintro ⟨hx, i, hi, hr⟩
    refine ⟨i, x i, mem_nb.2 ⟨hx i, nextTo_symm.1 hi⟩, ?_⟩
    exact eq_update_of fun j hj => (hr j hj).symm
  · rintro ⟨i, f, hf, rfl⟩
    rw [mem_nb] at hf
    exact ⟨inBox_update hc hf.1, adjacent_symm.1 (adjacent_update _ _ _ _ _ hf.2)⟩

end Flamingpy.SurfaceCode
