import Verif.Proofs.Complex
import Mathlib.Algebra.CharP.Two
import Mathlib.Tactic.Abel
import Mathlib.Algebra.Order.BigOperators.Group.Finset

/-! # Parities of stabilizers and planes, modulo 2 -/

namespace Flamingpy.SurfaceCode

open Flamingpy Finset

variable {ec : Ec} {dims : Fin 3 → ℕ} {bds : Fin 3 → Bd}

/-- Parity of the stabilizer with centre `c`. -/
def par (ec : Ec) (dims : Fin 3 → ℕ) (bds : Fin 3 → Bd) (e : V → ZMod 2) (c : V) : ZMod 2 :=
  ∑ x ∈ (qubits ec dims bds).filter (fun x => adjacent dims bds x c), e x

/-- Parity of the plane `x i = f`. -/
def plane (ec : Ec) (dims : Fin 3 → ℕ) (bds : Fin 3 → Bd) (e : V → ZMod 2) (i : Fin 3) (f : ℤ) : ZMod 2 :=
  ∑ x ∈ (qubits ec dims bds).filter (fun x => x i = f), e x

theorem sum_par (e : V → ZMod 2) (S : Finset V) :
    ∑ c ∈ S, par ec dims bds e c =
      ∑ x ∈ qubits ec dims bds, ((S.filter fun c => adjacent dims bds x c).card : ZMod 2) * e x := by
  unfold par
  simp only [Finset.sum_filter]
  rw [Finset.sum_comm]
  apply Finset.sum_congr rfl
  intro x _
  rw [← Finset.sum_filter, Finset.sum_const, nsmul_eq_mul]

theorem two_zero : ((2 : ℕ) : ZMod 2) = 0 := rfl

/-- Number of cells of a layer next to a qubit. -/
theorem layer_card {x : V} (hx : inBox dims bds x) {k : Fin 3} (hk : FaceAt ec x k) (i : Fin 3) (o : ℤ) :
    (((cells ec dims bds).filter fun c => c i = o).filter fun c => adjacent dims bds x c).card =
      if k = i then (if o ∈ nb (bds i) (dims i) (x i) then 1 else 0)
      else if x i = o then (nb (bds k) (dims k) (x k)).card else 0 := by
  rw [Finset.filter_filter]
  have : (cells ec dims bds).filter (fun c => c i = o ∧ adjacent dims bds x c) =
      ((nb (bds k) (dims k) (x k)).image (Function.update x k)).filter fun c => c i = o := by
    rw [← cells_of_qubit hx hk, Finset.filter_filter]
    apply Finset.filter_congr
    intro c _
    exact and_comm
  rw [this]
  split_ifs with h1 h2 h2
  · subst h1
    rw [Finset.card_eq_one]
    refine ⟨Function.update x k o, ?_⟩
    ext c
    simp only [mem_filter, mem_image, mem_singleton]
    constructor
    · rintro ⟨⟨b, _, rfl⟩, h⟩
      simp only [Function.update_self] at h
      rw [h]
    · rintro rfl
      exact ⟨⟨o, h2, rfl⟩, by simp⟩
  · subst h1
    rw [Finset.card_eq_zero]
    ext c
    simp only [mem_filter, mem_image, notMem_empty, iff_false, not_and]
    rintro ⟨b, hb, rfl⟩ h
    simp only [Function.update_self] at h
    exact h2 (h ▸ hb)
  · rw [Finset.filter_true_of_mem, Finset.card_image_of_injective _ (update_inj x k)]
    intro c hc
    rw [mem_image] at hc
    obtain ⟨b, _, rfl⟩ := hc
    simpa [Ne.symm h1] using h2
  · rw [Finset.card_eq_zero]
    ext c
    simp only [mem_filter, mem_image, notMem_empty, iff_false, not_and]
    rintro ⟨b, hb, rfl⟩ h
    simp only [Function.update_of_ne (Ne.symm h1)] at h
    exact h2 h

/-- The stabilizers of a layer add up to the two planes next to it. -/
theorem layer_sum (hd : ∀ i, 2 ≤ dims i) (e : V → ZMod 2) (i : Fin 3) (hi : ∀ j, j ≠ i → bds j ≠ ec.toBd)
    {o : ℤ} (ho : inAxis (bds i) (dims i) o) (hop : o % 2 = cellPar ec) :
    ∑ c ∈ (cells ec dims bds).filter (fun c => c i = o), par ec dims bds e c =
      ∑ f ∈ nb (bds i) (dims i) o, plane ec dims bds e i f := by
  rw [sum_par]
  unfold plane
  have hR : ∑ f ∈ nb (bds i) (dims i) o, ∑ x ∈ (qubits ec dims bds).filter (fun x => x i = f), e x =
      ∑ x ∈ qubits ec dims bds, if x i ∈ nb (bds i) (dims i) o then e x else 0 := by
    simp only [Finset.sum_filter]
    rw [Finset.sum_comm]
    apply Finset.sum_congr rfl
    intro x _
    rw [Finset.sum_ite_eq]
  rw [hR]
  apply Finset.sum_congr rfl
  intro x hx
  obtain ⟨hb, k, hk⟩ := mem_qubits.1 hx
  rw [layer_card hb hk]
  by_cases hki : k = i
  · subst hki
    rw [if_pos rfl]
    by_cases h : o ∈ nb (bds k) (dims k) (x k)
    · rw [if_pos h, if_pos ((nb_symm (hb k) ho).1 h)]; simp
    · rw [if_neg h, if_neg (fun h' => h ((nb_symm (hb k) ho).2 h'))]; simp
  · rw [if_neg hki]
    have hno : x i ∉ nb (bds i) (dims i) o := by
      intro h
      have := (mem_nb.1 h).2
      have hx1 : x i % 2 = cellPar ec := hk.2 i (Ne.symm hki)
      have := nextTo_parity this
      omega
    rw [if_neg hno]
    split_ifs
    · rw [nb_face_closed (hb k) (hd k) hk.1 (hi k hki), two_zero, zero_mul]
    · simp

theorem ind_face_prev {bd : Bd} {d : ℕ} (hd : 2 ≤ d) (hb : bd = ec.toBd ∨ bd = .periodic) {k : ℕ} (hk : k + 1 < d) :
    inAxis bd d (lowF ec + 2 * k + 1) ∧ (lowF ec + 2 * (k : ℤ) + 1) % 2 = cellPar ec ∧
      prevA bd d (lowF ec + 2 * k + 1) = lowF ec + 2 * k ∧
      succA bd d (lowF ec + 2 * k + 1) = lowF ec + 2 * (k + 1 : ℕ) := by
  unfold prevA succA
  rcases hb with rfl | rfl
  · cases ec <;> simp only [Ec.toBd, lowF, inAxis, cellPar, reduceCtorEq, false_and, if_false] <;> omega
  · cases ec <;> simp only [lowF, inAxis, cellPar, true_and]
    · refine ⟨by omega, by omega, ?_, ?_⟩
      · rw [if_neg (by omega)]; omega
      · rw [if_neg (by omega)]; omega
    · refine ⟨by omega, by omega, ?_, ?_⟩
      · rw [if_neg (by omega)]; omega
      · rw [if_neg (by omega)]; omega

theorem eq_of_add_zero {a b : ZMod 2} (h : a + b = 0) : a = b := by
  revert a b; decide

/-- With a trivial syndrome all parallel planes of a checked axis have the parity of the first. -/
theorem plane_eq (hd : ∀ i, 2 ≤ dims i) (e : V → ZMod 2) (i : Fin 3) (hi : ∀ j, j ≠ i → bds j ≠ ec.toBd)
    (hb : bds i = ec.toBd ∨ bds i = .periodic)
    (htriv : ∀ c ∈ cells ec dims bds, par ec dims bds e c = 0) (k : ℕ) (hk : k < dims i) :
    plane ec dims bds e i (lowF ec + 2 * k) = plane ec dims bds e i (lowF ec) := by
  induction k with
  | zero => simp
  | succ k ih =>
    rw [← ih (by omega)]
    obtain ⟨h1, h2, h3, h4⟩ := ind_face_prev (ec := ec) (hd i) hb hk
    have hs := layer_sum hd e i hi h1 h2
    rw [Finset.sum_eq_zero (fun c hc => htriv c (mem_filter.1 hc).1), (nb_cell (ec := ec) h1 (hd i) h2 hb).1,
      Finset.sum_pair (prev_ne_succ (hd i)), h3, h4] at hs
    exact (eq_of_add_zero hs.symm).symm

/-- An odd plane parity at trivial syndrome needs one qubit in each of the `d` planes. -/
theorem ones_ge (hd : ∀ i, 2 ≤ dims i) (e : V → ZMod 2) (i : Fin 3) (hi : ∀ j, j ≠ i → bds j ≠ ec.toBd)
    (hb : bds i = ec.toBd ∨ bds i = .periodic)
    (htriv : ∀ c ∈ cells ec dims bds, par ec dims bds e c = 0)
    (hodd : plane ec dims bds e i (lowF ec) ≠ 0) :
    dims i ≤ ((qubits ec dims bds).filter fun x => e x ≠ 0).card := by
  have hex : ∀ k : Fin (dims i), ∃ x ∈ qubits ec dims bds, x i = lowF ec + 2 * (k.val : ℤ) ∧ e x ≠ 0 := by
    intro k
    have h := plane_eq hd e i hi hb htriv k.val k.isLt
    rw [← h] at hodd
    obtain ⟨x, hx, hne⟩ := Finset.exists_ne_zero_of_sum_ne_zero hodd
    rw [mem_filter] at hx
    exact ⟨x, hx.1, hx.2, hne⟩
  choose g hg using hex
  have hinj : Function.Injective g := by
    intro a b hab
    have ha := (hg a).2.1
    have hb := (hg b).2.1
    rw [hab, hb] at ha
    apply Fin.ext
    omega
  have : (Finset.univ : Finset (Fin (dims i))).card ≤ ((qubits ec dims bds).filter fun x => e x ≠ 0).card := by
    apply Finset.card_le_card_of_injOn g
    · intro k _
      simp only [coe_filter, Set.mem_setOf_eq]
      exact ⟨(hg k).1, (hg k).2.2⟩
    · exact hinj.injOn
  simpa using this

/-! ### A straight line -/

/-- Indicator of the qubits on the line through the cell `c0` along axis `i`. -/
def line (ec : Ec) (c0 : V) (i : Fin 3) (x : V) : ZMod 2 :=
  if x i % 2 = facePar ec ∧ ∀ j, j ≠ i → x j = c0 j then 1 else 0

theorem card_cast_two {s : Finset V} (h : s.card = 2) : ((s.card : ℕ) : ZMod 2) = 0 := by rw [h]; rfl

theorem line_par (hd : ∀ i, 2 ≤ dims i) {c0 : V} (hc0 : c0 ∈ cells ec dims bds) (i : Fin 3)
    (hb : bds i = ec.toBd ∨ bds i = .periodic) (c : V) (hc : c ∈ cells ec dims bds) :
    par ec dims bds (line ec c0 i) c = 0 := by
  obtain ⟨hcb, hcp⟩ := mem_cells.1 hc
  unfold par line
  rw [← Finset.sum_filter, Finset.filter_filter, Finset.sum_const, nsmul_eq_mul, mul_one]
  by_cases hline : ∀ j, j ≠ i → c j = c0 j
  · have : (qubits ec dims bds).filter (fun x => adjacent dims bds x c ∧ x i % 2 = facePar ec ∧
        ∀ j, j ≠ i → x j = c0 j) = (nb (bds i) (dims i) (c i)).image (Function.update c i) := by
      ext x
      rw [mem_filter, mem_image, mem_qubits]
      constructor
      · rintro ⟨⟨hxb, _⟩, hadj, hxp, hx⟩
        obtain ⟨j, f, hf, rfl⟩ := (adj_cell_iff hcb x).1 ⟨hxb, hadj⟩
        have hji : j = i := by
          by_contra hc'
          rw [Function.update_of_ne (Ne.symm hc')] at hxp
          exact par_ne ec (hcp i) hxp
        subst hji
        exact ⟨f, hf, rfl⟩
      · rintro ⟨f, hf, rfl⟩
        obtain ⟨h1, h2⟩ := (adj_cell_iff hcb _).2 ⟨i, f, hf, rfl⟩
        refine ⟨mem_qubits.1 (adj_cell_qubit hc h1 h2), h2, ?_, ?_⟩
        · simp only [Function.update_self]
          exact (par_next ec (nextTo_symm.1 (mem_nb.1 hf).2)).2 (hcp i)
        · intro j hj; simp [hj, hline j hj]
    rw [this, Finset.card_image_of_injective _ (update_inj c i),
      (nb_cell (ec := ec) (hcb i) (hd i) (hcp i) hb).2]
    rfl
  · rw [Finset.filter_false_of_mem]
    · simp
    · rintro x hx ⟨⟨j, hj, hr⟩, hxp, hx'⟩
      have hij : j = i := by
        by_contra hc'
        have := hr i (Ne.symm hc')
        rw [this] at hxp
        exact par_ne ec (hcp i) hxp
      subst hij
      exact hline fun m hm => by rw [← hr m hm, hx' m hm]

theorem line_mem {c0 : V} (hc0 : c0 ∈ cells ec dims bds) {i : Fin 3} {f : ℤ}
    (hf : inAxis (bds i) (dims i) f) (hfp : f % 2 = facePar ec) :
    Function.update c0 i f ∈ qubits ec dims bds := by
  obtain ⟨hb, hp⟩ := mem_cells.1 hc0
  refine mem_qubits.2 ⟨inBox_update hb hf, i, by simpa using hfp, ?_⟩
  intro j hj; simp [hj]; exact hp j

theorem line_plane {c0 : V} (hc0 : c0 ∈ cells ec dims bds) (i : Fin 3) {f : ℤ}
    (hf : inAxis (bds i) (dims i) f) (hfp : f % 2 = facePar ec) :
    plane ec dims bds (line ec c0 i) i f = 1 := by
  unfold plane line
  rw [← Finset.sum_filter, Finset.filter_filter, Finset.sum_const, nsmul_eq_mul, mul_one]
  have : (qubits ec dims bds).filter (fun x => x i = f ∧ x i % 2 = facePar ec ∧ ∀ j, j ≠ i → x j = c0 j) =
      {Function.update c0 i f} := by
    ext x
    rw [mem_filter, mem_singleton]
    constructor
    · rintro ⟨_, rfl, _, hx⟩
      exact eq_update_of fun j hj => (hx j hj).symm
    · rintro rfl
      exact ⟨line_mem hc0 hf hfp, by simp, by simpa using hfp, fun j hj => by simp [hj]⟩
  rw [this]; simp

/-- Faces of an open or periodic axis. -/
theorem faces_iff {bd : Bd} {d : ℕ} (_hd : 2 ≤ d) (hb : bd = ec.toBd ∨ bd = .periodic) (f : ℤ) :
    (inAxis bd d f ∧ f % 2 = facePar ec) ↔ ∃ k : ℕ, k < d ∧ f = lowF ec + 2 * k := by
  rcases hb with rfl | rfl
  · cases ec <;> simp only [Ec.toBd, inAxis, facePar, cellPar, lowF]
    · exact ⟨fun h => ⟨(f / 2).toNat, by omega, by omega⟩, by rintro ⟨k, h1, rfl⟩; omega⟩
    · exact ⟨fun h => ⟨(f / 2).toNat, by omega, by omega⟩, by rintro ⟨k, h1, rfl⟩; omega⟩
  · cases ec <;> simp only [inAxis, facePar, cellPar, lowF]
    · exact ⟨fun h => ⟨(f / 2).toNat, by omega, by omega⟩, by rintro ⟨k, h1, rfl⟩; omega⟩
    · exact ⟨fun h => ⟨(f / 2).toNat, by omega, by omega⟩, by rintro ⟨k, h1, rfl⟩; omega⟩

theorem line_card (hd : ∀ i, 2 ≤ dims i) {c0 : V} (hc0 : c0 ∈ cells ec dims bds) (i : Fin 3)
    (hb : bds i = ec.toBd ∨ bds i = .periodic) :
    ((qubits ec dims bds).filter fun x => line ec c0 i x ≠ 0).card = dims i := by
  have : (qubits ec dims bds).filter (fun x => line ec c0 i x ≠ 0) =
      (Finset.univ : Finset (Fin (dims i))).image fun k =>
        Function.update c0 i (lowF ec + 2 * (k.val : ℤ)) := by
    ext x
    rw [mem_filter, mem_image]
    unfold line
    constructor
    · rintro ⟨hx, h⟩
      split_ifs at h with hl
      · obtain ⟨k, hk, hxk⟩ := (faces_iff (hd i) hb (x i)).1 ⟨(mem_qubits.1 hx).1 i, hl.1⟩
        refine ⟨⟨k, hk⟩, mem_univ _, ?_⟩
        simp only
        rw [← hxk]
        exact (eq_update_of fun j hj => (hl.2 j hj).symm).symm
      · exact absurd rfl h
    · rintro ⟨k, _, rfl⟩
      obtain ⟨h1, h2⟩ := (faces_iff (ec := ec) (hd i) hb _).2 ⟨k.val, k.isLt, rfl⟩
      refine ⟨line_mem hc0 h1 h2, ?_⟩
      rw [if_pos]
      · exact one_ne_zero
      · exact ⟨by simpa using h2, fun j hj => by simp [hj]⟩
  rw [this, Finset.card_image_of_injective]
  · simp
  · intro a b h
    have := update_inj c0 i h
    apply Fin.ext
    omega

/-! ### Nodes of the other type -/

/-- A node with two face coordinates: its cell axis is `k`. -/
def EdgeAt (ec : Ec) (q : V) (k : Fin 3) : Prop :=
  q k % 2 = cellPar ec ∧ ∀ j, j ≠ k → q j % 2 = facePar ec

/-- A graph node is a qubit of `ec` or has two face coordinates. -/
theorem node_cases {x : V} (hx : isNode dims bds x) :
    (∃ i, FaceAt ec x i) ∨ ∃ k, EdgeAt ec x k := by
  obtain ⟨hb, i, hi⟩ := isNode_iff.1 hx
  unfold Special at hi
  unfold FaceAt EdgeAt
  cases ec <;> simp only [facePar, cellPar]
  · rcases hi with h | h
    · left; exact ⟨i, by omega, h.2⟩
    · right; exact ⟨i, by omega, fun j hj => by have := h.2 j hj; omega⟩
  · rcases hi with h | h
    · right; exact ⟨i, by omega, fun j hj => by have := h.2 j hj; omega⟩
    · left; exact ⟨i, by omega, h.2⟩

/-- Two qubits are never adjacent. -/
theorem qubits_not_adjacent {x y : V} (hx : x ∈ qubits ec dims bds) (hy : y ∈ qubits ec dims bds) :
    ¬ adjacent dims bds x y := by
  rintro ⟨i, hi, hr⟩
  obtain ⟨_, k, hk⟩ := mem_qubits.1 hx
  obtain ⟨_, l, hl⟩ := mem_qubits.1 hy
  have hpar := nextTo_parity hi
  by_cases h : x i % 2 = facePar ec
  · have h1 : i = k := hk.unique h
    have h2 : y i % 2 = cellPar ec := (par_next ec hi).1 h
    have h3 : l ≠ i := by rintro rfl; exact par_ne ec h2 hl.1
    have h4 := hk.2 l (h1 ▸ h3)
    rw [hr l h3] at h4
    exact par_ne ec h4 hl.1
  · have h1 : x i % 2 = cellPar ec := (par_cases ec (x i)).resolve_right h
    have h2 : y i % 2 = facePar ec := (par_next ec (nextTo_symm.1 hi)).2 h1
    have h3 : i = l := hl.unique h2
    have h4 : k ≠ i := by rintro rfl; exact h hk.1
    have h5 := hl.2 k (h3 ▸ h4)
    rw [← hr k h4] at h5
    exact par_ne ec h5 hk.1

/-- The qubits next to an other-type node. -/
theorem nbrs_of_edge {q : V} (hq : inBox dims bds q) {k : Fin 3} (hk : EdgeAt ec q k) (x : V) :
    (x ∈ qubits ec dims bds ∧ adjacent dims bds q x) ↔
      ∃ j, j ≠ k ∧ ∃ o ∈ nb (bds j) (dims j) (q j), x = Function.update q j o := by
  constructor
  · rintro ⟨hx, j, hj, hr⟩
    obtain ⟨hb, l, hl⟩ := mem_qubits.1 hx
    refine ⟨j, ?_, x j, mem_nb.2 ⟨hb j, hj⟩, eq_update_of hr⟩
    rintro rfl
    -- then x has at least two face coordinates
    obtain ⟨m, hm⟩ := other_axis j
    obtain ⟨n, hnj, hnm, _⟩ := third_axis j m hm
    have h1 : x m % 2 = facePar ec := by rw [← hr m hm]; exact hk.2 m hm
    have h2 : x n % 2 = facePar ec := by rw [← hr n hnj]; exact hk.2 n hnj
    exact hnm ((hl.unique h2).trans (hl.unique h1).symm)
  · rintro ⟨j, hj, o, ho, rfl⟩
    rw [mem_nb] at ho
    refine ⟨mem_qubits.2 ⟨inBox_update hq ho.1, ?_⟩, adjacent_update _ _ _ _ _ ho.2⟩
    obtain ⟨m, hmk, hmj, hall⟩ := third_axis k j hj
    refine ⟨m, by simp [hmj]; exact hk.2 m hmk, ?_⟩
    intro n hn
    rcases hall n with rfl | rfl | rfl
    · simp [Ne.symm hj]; exact hk.1
    · simp; exact (par_next ec ho.2).1 (hk.2 n hj)
    · exact absurd rfl hn

/-- A node of the graph is next to an even number of the qubits of a stabilizer. -/
theorem stab_even {q c : V} (hq : isNode dims bds q) (hc : c ∈ cells ec dims bds) :
    ((qubits ec dims bds).filter fun x => adjacent dims bds x c ∧ adjacent dims bds q x).card = 0 ∨
    ((qubits ec dims bds).filter fun x => adjacent dims bds x c ∧ adjacent dims bds q x).card = 2 := by
  have hqb := (isNode_iff.1 hq).1
  obtain ⟨hcb, hcp⟩ := mem_cells.1 hc
  rcases node_cases (ec := ec) hq with h | ⟨k, hk⟩
  · left
    rw [Finset.card_eq_zero, Finset.filter_eq_empty_iff]
    rintro x hx ⟨_, hadj⟩
    exact qubits_not_adjacent (mem_qubits.2 ⟨hqb, h⟩) hx hadj
  · obtain ⟨i, hik⟩ := other_axis k
    obtain ⟨j, hjk, hji, hall⟩ := third_axis k i hik
    by_cases hcond : c k = q k ∧ c i ∈ nb (bds i) (dims i) (q i) ∧ c j ∈ nb (bds j) (dims j) (q j)
    · right
      obtain ⟨h1, h2, h3⟩ := hcond
      have e1 : Function.update q j (c j) = Function.update c i (q i) := by
        funext m
        rcases hall m with rfl | rfl | rfl
        · simp [Ne.symm hjk, Ne.symm hik, h1]
        · simp [Ne.symm hji]
        · simp [hji]
      have e2 : Function.update q i (c i) = Function.update c j (q j) := by
        funext m
        rcases hall m with rfl | rfl | rfl
        · simp [Ne.symm hjk, Ne.symm hik, h1]
        · simp [Ne.symm hji]
        · simp [hji]
      have hset : (qubits ec dims bds).filter (fun x => adjacent dims bds x c ∧ adjacent dims bds q x) =
          {Function.update q j (c j), Function.update q i (c i)} := by
        ext x
        rw [mem_filter, mem_insert, mem_singleton]
        constructor
        · rintro ⟨hx, hxc, hqx⟩
          obtain ⟨m, hmk, o, ho, rfl⟩ := (nbrs_of_edge hqb hk x).1 ⟨hx, hqx⟩
          obtain ⟨n, hn, hr⟩ := hxc
          rcases hall m with rfl | rfl | rfl
          · exact absurd rfl hmk
          · right
            have : n ≠ m := by
              rintro rfl
              have hp := (par_next ec hn).2 (hcp n)
              simp only [Function.update_self] at hp
              exact par_ne ec ((par_next ec (mem_nb.1 ho).2).1 (hk.2 n hmk)) hp
            have := hr m this.symm
            simp only [Function.update_self] at this
            rw [this]
          · left
            have : n ≠ m := by
              rintro rfl
              have hp := (par_next ec hn).2 (hcp n)
              simp only [Function.update_self] at hp
              exact par_ne ec ((par_next ec (mem_nb.1 ho).2).1 (hk.2 n hmk)) hp
            have := hr m this.symm
            simp only [Function.update_self] at this
            rw [this]
        · rintro (rfl | rfl)
          · have := (nbrs_of_edge hqb hk _).2 ⟨j, hjk, c j, h3, rfl⟩
            refine ⟨this.1, ?_, this.2⟩
            rw [e1]
            exact adjacent_symm.1 (adjacent_update _ _ _ _ _ (nextTo_symm.1 (mem_nb.1 h2).2))
          · have := (nbrs_of_edge hqb hk _).2 ⟨i, hik, c i, h2, rfl⟩
            refine ⟨this.1, ?_, this.2⟩
            rw [e2]
            exact adjacent_symm.1 (adjacent_update _ _ _ _ _ (nextTo_symm.1 (mem_nb.1 h3).2))
      rw [hset, Finset.card_pair]
      intro he
      have := congrFun he j
      simp [hji] at this
      have hp := nextTo_parity (mem_nb.1 h3).2
      omega
    · left
      rw [Finset.card_eq_zero, Finset.filter_eq_empty_iff]
      rintro x hx ⟨hxc, hqx⟩
      apply hcond
      obtain ⟨m, hmk, o, ho, rfl⟩ := (nbrs_of_edge hqb hk x).1 ⟨hx, hqx⟩
      obtain ⟨n, hn, hr⟩ := hxc
      have hnm : n ≠ m := by
        rintro rfl
        have hp := (par_next ec hn).2 (hcp n)
        simp only [Function.update_self] at hp
        exact par_ne ec ((par_next ec (mem_nb.1 ho).2).1 (hk.2 n hmk)) hp
      have hnk : n ≠ k := by
        rintro rfl
        have hp := (par_next ec hn).2 (hcp n)
        rw [Function.update_of_ne hnm] at hp
        exact par_ne ec hk.1 hp
      have hck : c k = q k := by
        have := hr k (Ne.symm hnk)
        rw [Function.update_of_ne (Ne.symm hmk)] at this
        exact this.symm
      have hcm : c m ∈ nb (bds m) (dims m) (q m) := by
        have := hr m (Ne.symm hnm)
        simp only [Function.update_self] at this
        rwa [← this]
      have hcn : c n ∈ nb (bds n) (dims n) (q n) := by
        rw [Function.update_of_ne hnm] at hn
        exact mem_nb.2 ⟨hcb n, hn⟩
      refine ⟨hck, ?_⟩
      rcases hall m with rfl | rfl | rfl
      · exact absurd rfl hmk
      · rcases hall n with rfl | rfl | rfl
        · exact absurd rfl hnk
        · exact absurd rfl hnm
        · exact ⟨hcm, hcn⟩
      · rcases hall n with rfl | rfl | rfl
        · exact absurd rfl hnk
        · exact ⟨hcn, hcm⟩
        · exact absurd rfl hnm

/-- A node of the graph is next to an even number of the qubits of a checked plane. -/
theorem plane_even (hd : ∀ i, 2 ≤ dims i) {q : V} (hq : isNode dims bds q) (i : Fin 3)
    (hi : ∀ j, j ≠ i → bds j ≠ ec.toBd) {f : ℤ} (hf : f % 2 = facePar ec) :
    ((qubits ec dims bds).filter fun x => x i = f ∧ adjacent dims bds q x).card = 0 ∨
    ((qubits ec dims bds).filter fun x => x i = f ∧ adjacent dims bds q x).card = 2 := by
  have hqb := (isNode_iff.1 hq).1
  rcases node_cases (ec := ec) hq with h | ⟨k, hk⟩
  · left
    rw [Finset.card_eq_zero, Finset.filter_eq_empty_iff]
    rintro x hx ⟨_, hadj⟩
    exact qubits_not_adjacent (mem_qubits.2 ⟨hqb, h⟩) hx hadj
  · by_cases hcase : i ≠ k ∧ q i = f
    · right
      obtain ⟨hik, hqf⟩ := hcase
      obtain ⟨j, hjk, hji, hall⟩ := third_axis k i hik
      have hset : (qubits ec dims bds).filter (fun x => x i = f ∧ adjacent dims bds q x) =
          (nb (bds j) (dims j) (q j)).image (Function.update q j) := by
        ext x
        rw [mem_filter, mem_image]
        constructor
        · rintro ⟨hx, hxi, hqx⟩
          obtain ⟨m, hmk, o, ho, rfl⟩ := (nbrs_of_edge hqb hk x).1 ⟨hx, hqx⟩
          rcases hall m with rfl | rfl | rfl
          · exact absurd rfl hmk
          · exfalso
            simp only [Function.update_self] at hxi
            have := nextTo_parity (mem_nb.1 ho).2
            omega
          · exact ⟨o, ho, rfl⟩
        · rintro ⟨o, ho, rfl⟩
          have := (nbrs_of_edge hqb hk _).2 ⟨j, hjk, o, ho, rfl⟩
          exact ⟨this.1, by simp [Ne.symm hji, hqf], this.2⟩
      rw [hset, Finset.card_image_of_injective _ (update_inj q j)]
      exact nb_face_closed (hqb j) (hd j) (hk.2 j hjk) (hi j hji)
    · left
      rw [Finset.card_eq_zero, Finset.filter_eq_empty_iff]
      rintro x hx ⟨hxi, hqx⟩
      obtain ⟨m, hmk, o, ho, rfl⟩ := (nbrs_of_edge hqb hk x).1 ⟨hx, hqx⟩
      apply hcase
      have hmi : i ≠ m := by
        rintro rfl
        simp only [Function.update_self] at hxi
        exact par_ne ec ((par_next ec (mem_nb.1 ho).2).1 (hk.2 i hmk)) (hxi ▸ hf)
      rw [Function.update_of_ne hmi] at hxi
      refine ⟨?_, hxi⟩
      rintro rfl
      exact par_ne ec hk.1 (hxi ▸ hf)

end Flamingpy.SurfaceCode
