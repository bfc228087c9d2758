import Verif.Proofs.UfWidth
import Verif.Proofs.UfCode
import Verif.Proofs.Parallel

/-!
# The positions of the nodes of the stabilizer graph of a code along an axis
-/

namespace Flamingpy.UnionFind

open Flamingpy SurfaceCode

/-- Period of an axis, zero if it is not periodic. -/
def period (bd : Bd) (d : ℕ) : ℤ := if bd = .periodic then 2 * d else 0

theorem period_nonneg (bd : Bd) (d : ℕ) : 0 ≤ period bd d := by unfold period; split_ifs <;> omega

theorem two_dvd_period (bd : Bd) (d : ℕ) : 2 ∣ period bd d := by
  unfold period; split_ifs
  · exact ⟨d, rfl⟩
  · exact dvd_zero _

theorem nextTo_cong {bd : Bd} {d : ℕ} {a b : ℤ} (h : nextTo bd d a b) :
    period bd d ∣ a - b - 1 ∨ period bd d ∣ a - b + 1 := by
  unfold nextTo at h
  unfold period
  rcases h with h | h | ⟨h, ⟨h1, h2⟩ | ⟨h1, h2⟩⟩
  · left; rw [show a - b - 1 = 0 by omega]; exact dvd_zero _
  · right; rw [show a - b + 1 = 0 by omega]; exact dvd_zero _
  · left; rw [if_pos h]; exact ⟨-1, by omega⟩
  · right; rw [if_pos h]; exact ⟨1, by omega⟩

theorem period_eq {bd : Bd} {d : ℕ} {a b : ℤ} (ha : inAxis bd d a) (hb : inAxis bd d b) (h : period bd d ∣ a - b) : a = b := by
  unfold period at h
  split_ifs at h with hp
  · subst hp
    unfold inAxis at ha hb
    obtain ⟨k, hk⟩ := h
    simp only at ha hb
    have h1 : -1 < k := by nlinarith
    have h2 : k < 1 := by nlinarith
    have : k = 0 := by omega
    subst this
    omega
  · have := Int.zero_dvd.1 h
    omega

/-- Two different cells next to the same face. -/
theorem step_cells {bd : Bd} {d : ℕ} {a c c' : ℤ} (hc : inAxis bd d c) (hc' : inAxis bd d c') (hne : c ≠ c')
    (h : nextTo bd d a c) (h' : nextTo bd d a c') : Step (period bd d) c c' (some a) := by
  have key : ∀ x y : ℤ, period bd d ∣ x → period bd d ∣ y → period bd d ∣ x - y := fun x y => Int.dvd_sub
  rcases nextTo_cong h with h1 | h1 <;> rcases nextTo_cong h' with h2 | h2
  · exact absurd (period_eq hc' hc (by have := key _ _ h1 h2; convert this using 1; ring)) hne.symm
  · exact Or.inl ⟨by have := key _ _ h1 h2; convert this using 1; ring, h1⟩
  · exact Or.inr ⟨by have := key _ _ h1 h2; convert this using 1; ring, h1⟩
  · exact absurd (period_eq hc' hc (by have := key _ _ h1 h2; convert this using 1; ring)) hne.symm

theorem step_point {bd : Bd} {d : ℕ} {a c : ℤ} (h : nextTo bd d a c) : Step (period bd d) c (2 * a - c) (some a) := by
  rcases nextTo_cong h with h1 | h1
  · exact Or.inl ⟨by rw [show 2 * a - c - c - 2 = 2 * (a - c - 1) by ring]; exact Dvd.dvd.mul_left h1 2, h1⟩
  · exact Or.inr ⟨by rw [show 2 * a - c - c + 2 = 2 * (a - c + 1) by ring]; exact Dvd.dvd.mul_left h1 2, h1⟩

/-- The cell of a stabilizer. -/
noncomputable def cellOf (code : Code) (k : ℕ) : V := (centers code.ec code.dims (boundsOf code.ec code.boundaries)).getD k fun _ => 0

open Classical in
/-- The position of a node. -/
noncomputable def pos (code : Code) (i : Fin 3) : SNode → ℤ
  | .stab k => cellOf code k i
  | .pt p => if h : ∃ k, p ∈ code.stabs.getD k [] then 2 * p i - cellOf code h.choose i else 0
  | _ => 0

/-- The sheet of a qubit. -/
def sheetOf (code : Code) (i : Fin 3) (x : V) : Option ℤ := if x i % 2 = cellPar code.ec then none else some (x i)

/-- The sheet an edge crosses. -/
def ysheet (bk : Backend) (sp : SetPop) (code : Code) (i : Fin 3) (e : Sym2 SNode) : Option ℤ :=
  ((PyDict.get? (stabGraph bk sp code).edges e).getD none).bind (sheetOf code i)

section
variable {code : Code} (h : IsCode code) (bk : Backend) (sp : SetPop) (w : V → ℚ) (bits : V → Bool)

local notation "II" => ufInput (stabGraph bk sp code) w bits
local notation "bds" => boundsOf code.ec code.boundaries

include h

theorem cellOf_mem {k : ℕ} (hk : k < code.stabs.length) : cellOf code k ∈ cells code.ec code.dims bds := by
  have hlen := h.ok.1.stabs_length
  have hk' : k < (centers code.ec code.dims bds).length := by omega
  unfold cellOf
  rw [List.getD_eq_getElem _ _ hk']
  exact mem_centers_iff_cells.1 (List.getElem_mem hk')

theorem mem_cellOf {k : ℕ} (hk : k < code.stabs.length) (x : V) :
    x ∈ code.stabs.getD k [] ↔ inBox code.dims bds x ∧ adjacent code.dims bds x (cellOf code k) := by
  have hlen := h.ok.1.stabs_length
  have hk' : k < (centers code.ec code.dims bds).length := by omega
  exact (forall₂_getD h.ok.1.stabs (fun _ => 0) [] hk').2 x

theorem cellOf_inj {j k : ℕ} (hj : j < code.stabs.length) (hk : k < code.stabs.length) (hne : j ≠ k) :
    cellOf code j ≠ cellOf code k := by
  have hlen := h.ok.1.stabs_length
  have hj' : j < (centers code.ec code.dims bds).length := by omega
  have hk' : k < (centers code.ec code.dims bds).length := by omega
  unfold cellOf
  rw [List.getD_eq_getElem _ _ hj', List.getD_eq_getElem _ _ hk']
  exact fun he => hne ((List.Nodup.getElem_inj_iff (centers_nodup _ _ _)).1 he)

/-- How a qubit lies next to the cell of a stabilizer. -/
theorem next_cell {k : ℕ} (hk : k < code.stabs.length) {x : V} (hx : x ∈ code.stabs.getD k []) :
    ∃ j, nextTo (bds j) (code.dims j) (x j) (cellOf code k j) ∧ x j % 2 ≠ cellPar code.ec ∧
      ∀ l, l ≠ j → x l = cellOf code k l ∧ x l % 2 = cellPar code.ec := by
  obtain ⟨hb, j, h1, h2⟩ := (mem_cellOf h hk x).1 hx
  have hc := (mem_cells.1 (cellOf_mem h hk)).2
  refine ⟨j, h1, ?_, fun l hl => ⟨h2 l hl, by rw [h2 l hl]; exact hc l⟩⟩
  have hcj := hc j
  unfold nextTo at h1
  rcases h1 with h1 | h1 | ⟨_, ⟨h1, h3⟩ | ⟨h1, h3⟩⟩ <;> (intro h4; omega)

/-- Positions and sheets fit. -/
theorem axis_code (i : Fin 3) : Axis (period (bds i) (code.dims i)) (pos code i) (ysheet bk sp code i) (nsF (II)) (esF (II)) := by
  have hI := wf_code h bk sp w bits
  refine ⟨period_nonneg _ _, fun u v he => ?_, fun u v he => ?_⟩
  · rw [List.mem_toFinset] at he ⊢
    exact mem_erasureNodes_left hI he
  · rw [List.mem_toFinset] at he
    obtain ⟨x, hx⟩ := (mem_realE_code h bk sp w bits).1 he
    have hy : ysheet bk sp code i s(u, v) = sheetOf code i x := by
      unfold ysheet
      rw [get_code h bk sp hx]
      rfl
    rw [hy]
    obtain ⟨_, heff, _⟩ := h.ok.1.edge_effect h.ok.2 sp hx
    have hcase : (∃ j k, j ≠ k ∧ j < code.stabs.length ∧ k < code.stabs.length ∧ u = .stab j ∧ v = .stab k) ∨
        (∃ k p, k < code.stabs.length ∧ p ∈ code.boundPoints ∧ p ∈ code.stabs.getD k [] ∧ x = p ∧
          ((u = .stab k ∧ v = .pt p) ∨ (v = .stab k ∧ u = .pt p))) := by
      rcases mem_codeEdges.1 hx with ⟨p, _, h1⟩ | ⟨p, _, h1⟩ | ⟨a, b, hij, hj, hc, h1⟩ | ⟨k, p, hk, hp, hpk, h1⟩
      · simp at h1
      · simp at h1
      · left
        rcases Sym2.eq_iff.1 (Prod.mk.inj h1).1 with ⟨rfl, rfl⟩ | ⟨rfl, rfl⟩
        · exact ⟨a, b, by omega, by omega, hj, rfl, rfl⟩
        · exact ⟨b, a, by omega, hj, by omega, rfl, rfl⟩
      · right
        refine ⟨k, p, hk, hp, hpk, Option.some.inj (Prod.mk.inj h1).2, ?_⟩
        rcases Sym2.eq_iff.1 (Prod.mk.inj h1).1 with ⟨rfl, rfl⟩ | ⟨rfl, rfl⟩
        · exact Or.inl ⟨rfl, rfl⟩
        · exact Or.inr ⟨rfl, rfl⟩
    rcases hcase with ⟨j, k, hjk, hj, hk, rfl, rfl⟩ | ⟨k, p, hk, hp, hpk, rfl, huv⟩
    · have hxj := (heff j).2 (by simp)
      have hxk := (heff k).2 (by simp)
      obtain ⟨a, a1, a2, a3⟩ := next_cell h hj hxj
      obtain ⟨b, b1, b2, b3⟩ := next_cell h hk hxk
      have hab : b = a := by
        by_contra hne
        exact b2 (a3 b hne).2
      subst hab
      show Step _ (cellOf code j i) (cellOf code k i) _
      unfold sheetOf
      by_cases hi : i = b
      · subst hi
        rw [if_neg a2]
        refine step_cells ((mem_cells.1 (cellOf_mem h hj)).1 i) ((mem_cells.1 (cellOf_mem h hk)).1 i) ?_ a1 b1
        intro hcc
        apply cellOf_inj h hj hk hjk
        funext l
        by_cases hl : l = i
        · rw [hl, hcc]
        · rw [← (a3 l hl).1, ← (b3 l hl).1]
      · rw [if_pos (a3 i hi).2]
        show _ ∣ _
        rw [← (a3 i hi).1, ← (b3 i hi).1, sub_self]
        exact dvd_zero _
    · have hpos : pos code i (.pt x) = 2 * x i - cellOf code k i := by
        have hex : ∃ k, x ∈ code.stabs.getD k [] := ⟨k, hpk⟩
        rw [pos, dif_pos hex]
        have h1 := h.ok.1.stabsOf_bound h.ok.2 hpk hp
        have h2 := mem_stabsOf'.2 hex.choose_spec
        rw [h1, Finset.mem_singleton] at h2
        rw [h2]
      have hst : Step (period (bds i) (code.dims i)) (pos code i (.stab k)) (pos code i (.pt x)) (sheetOf code i x) := by
        rw [hpos]
        obtain ⟨a, a1, a2, a3⟩ := next_cell h hk hpk
        show Step _ (cellOf code k i) _ _
        unfold sheetOf
        by_cases hi : i = a
        · subst hi
          rw [if_neg a2]
          exact step_point a1
        · rw [if_pos (a3 i hi).2]
          show _ ∣ _
          rw [(a3 i hi).1, show 2 * cellOf code k i - cellOf code k i - cellOf code k i = 0 by ring]
          exact dvd_zero _
      rcases huv with ⟨rfl, rfl⟩ | ⟨rfl, rfl⟩
      · exact hst
      · exact hst.symm

/-- Every qubit has its own edge if every periodic axis has at least three cells. -/
theorem own_edge (hd : ∀ i, bds i = .periodic → 3 ≤ code.dims i) {x : V} (hx : x ∈ code.syndrome) :
    ∃ e, (e, some x) ∈ codeEdges sp code := by
  have hcard := h.ok.1.stabsOf_card h.ok.2 hx
  by_cases hb : x ∈ code.boundPoints
  · rw [if_pos hb] at hcard
    obtain ⟨k, hk⟩ := Finset.card_eq_one.1 hcard
    obtain ⟨h1, h2⟩ := mem_stabsOf.1 (hk ▸ Finset.mem_singleton_self k : k ∈ stabsOf code.stabs x)
    exact ⟨_, mem_codeEdges.2 (Or.inr (Or.inr (Or.inr ⟨k, x, h1, hb, h2, rfl⟩)))⟩
  · rw [if_neg hb] at hcard
    obtain ⟨j, k, hjk, hs⟩ := Finset.card_eq_two.1 hcard
    have h1 : x ∈ code.stabs.getD j [] := mem_stabsOf'.1 (by rw [hs]; simp)
    have h2 : x ∈ code.stabs.getD k [] := mem_stabsOf'.1 (by rw [hs]; simp)
    obtain ⟨y, hy, hys⟩ := h.ok.1.joined h.ok.2 sp hjk h1 h2
    have h3 : y ∈ code.stabs.getD j [] := mem_stabsOf'.1 (by rw [hys, hs]; simp)
    have h4 : y ∈ code.stabs.getD k [] := mem_stabsOf'.1 (by rw [hys, hs]; simp)
    rw [h.ok.1.share_one hd hjk h1 h2 h3 h4]
    exact ⟨_, hy⟩

/-- The edge of a qubit. -/
theorem edge_map (hd : ∀ i, bds i = .periodic → 3 ≤ code.dims i) : ∃ f : V → Sym2 SNode,
    (∀ x ∈ code.syndrome, (f x, some x) ∈ codeEdges sp code) ∧
    (∀ e x, (e, some x) ∈ codeEdges sp code → x ∈ code.syndrome ∧ e = f x) ∧
    (∀ x ∈ code.syndrome, ∀ y ∈ code.syndrome, f x = f y → x = y) ∧
    (∀ e, e ∈ realE (II).E ↔ ∃ x ∈ code.syndrome, e = f x) ∧
    (∀ x ∈ code.syndrome, erased (II).E (f x) = decide (w x = -1)) ∧
    (∀ x ∈ code.syndrome, ∀ k, SNode.stab k ∈ f x ↔ x ∈ code.stabs.getD k []) ∧
    ∀ x ∈ code.syndrome, ∀ p, SNode.pt p ∈ f x → x = p ∧ p ∈ code.boundPoints := by
  classical
  have hex : ∀ x, ∃ e, x ∈ code.syndrome → (e, some x) ∈ codeEdges sp code := by
    intro x
    by_cases hx : x ∈ code.syndrome
    · obtain ⟨e, he⟩ := own_edge h sp hd hx
      exact ⟨e, fun _ => he⟩
    · exact ⟨s(.low, .low), fun h => absurd h hx⟩
  choose f hf using hex
  have hun : ∀ e x, (e, some x) ∈ codeEdges sp code → x ∈ code.syndrome ∧ e = f x := by
    intro e x he
    have hx := (h.ok.1.edge_effect h.ok.2 sp he).1
    exact ⟨hx, h.ok.1.edge_unique h.ok.2 sp he (hf x hx)⟩
  refine ⟨f, hf, hun, ?_, ?_, ?_, ?_, ?_⟩
  · intro x hx y hy hxy
    have h1 := get_code h bk sp (hf x hx)
    have h2 := get_code h bk sp (hf y hy)
    rw [hxy, h2] at h1
    simpa using h1.symm
  · intro e
    rw [mem_realE_code h]
    constructor
    · rintro ⟨x, hx⟩
      exact ⟨x, hun e x hx⟩
    · rintro ⟨x, hx, rfl⟩
      exact ⟨x, hf x hx⟩
  · intro x hx
    have hI := wf_code h bk sp w bits
    have : PyDict.get? (II).E (f x) = some (w x) := by
      rw [PyDict.get?_iff_mem hI.keys]
      unfold ufInput weightedEdges
      rw [List.mem_map]
      refine ⟨(f x, some x), ?_, rfl⟩
      have := get_code h bk sp (hf x hx)
      rwa [PyDict.get?_iff_mem (by
        have := hI.keys
        unfold ufInput at this
        rwa [keys_weightedEdges] at this)] at this
    unfold erased
    rw [this]
    simp
  · intro x hx k
    exact ((h.ok.1.edge_effect h.ok.2 sp (hf x hx)).2.1 k).symm
  · intro x hx p hp
    have hc := hf x hx
    generalize f x = e at hp hc
    rcases mem_codeEdges.1 hc with ⟨q, _, h1⟩ | ⟨q, _, h1⟩ | ⟨a, b, hij, hj, hc, h1⟩ | ⟨k, q, hk, hq, hqk, h1⟩
    · simp at h1
    · simp at h1
    · rw [(Prod.mk.inj h1).1] at hp
      simp at hp
    · rw [(Prod.mk.inj h1).1] at hp
      simp at hp
      subst hp
      exact ⟨Option.some.inj (Prod.mk.inj h1).2, hq⟩

/-- An odd plane parity at trivial syndrome needs a qubit in every plane. -/
theorem odd_all {bits' : V → Bool} (htriv : trivialSyndrome code bits') {i : Fin 3}
    (hi : i ∈ planesToCheck code.ec code.boundaries) (hodd : sheetParity code bits' i (lowF code.ec) = true) :
    ∀ k < code.dims i, ∃ x ∈ code.syndrome, x i = lowF code.ec + 2 * (k : ℤ) ∧ bits' x = true := by
  intro k hk
  obtain ⟨hok, hd⟩ := h.ok
  obtain ⟨h1, h2⟩ := checked_axis _ _ i hi
  have hp := plane_eq hd (fun x => b2z (bits' x)) i h1 h2 ((hok.trivial_iff bits').1 htriv) k hk
  have hne : plane code.ec code.dims bds (fun x => b2z (bits' x)) i (lowF code.ec + 2 * (k : ℤ)) ≠ 0 := by
    rw [hp, ← hok.sheet, b2z_ne_zero]
    exact hodd
  obtain ⟨x, hx, hxn⟩ := Finset.exists_ne_zero_of_sum_ne_zero hne
  rw [Finset.mem_filter] at hx
  exact ⟨x, (hok.syndrome x).2 hx.1, hx.2, b2z_ne_zero.1 hxn⟩

/-- If the growth is paid by few qubits then no plane parity is odd after the recovery. -/
theorem uf_low (hd : ∀ i, bds i = .periodic → 3 ≤ code.dims i) (cl : CompLib SNode) (io : IterOrder SNode) {fuel : ℕ}
    {s s' : St} {odd : List SNode} (hs : initState cl io (II) = some (s, odd)) (hu : unionFind io (II) fuel 0 s odd = some s')
    (her : ∀ k ∈ erasureEdges (II), k ∈ grownL s'.status) {R : List V}
    (hR : ∀ x ∈ R, ∃ e ∈ grownL s'.status, (e, some x) ∈ codeEdges sp code)
    (htriv : trivialSyndrome code fun x => xor (bits x) (decide (x ∈ R))) {i : Fin 3}
    (hi : i ∈ planesToCheck code.ec code.boundaries)
    (hlow : 2 * (code.syndrome.countP fun x => bits x && decide (w x ≠ -1)) + (code.syndrome.countP fun x => decide (w x = -1)) +
      (code.boundPoints.countP fun x => decide (w x = -1)) < code.dims i) :
    sheetParity code (fun x => xor (bits x) (decide (x ∈ R))) i (lowF code.ec) = false := by
  classical
  by_contra hodd
  rw [Bool.not_eq_false] at hodd
  have hall := odd_all h htriv hi hodd
  have hI := wf_code h bk sp w bits
  obtain ⟨f, f1, f2, f3, f4, f5, f6, f7⟩ := edge_map h bk sp w bits hd
  have hsn : code.syndrome.Nodup := h.ok.1.syndromeNd
  set ones := code.syndrome.toFinset.filter fun x => bits x = true with hones
  have hones_mem : ∀ x, x ∈ ones ↔ x ∈ code.syndrome ∧ bits x = true := fun x => by
    rw [hones, Finset.mem_filter, List.mem_toFinset]
  set Er := ones.image f with hEr
  have hE : Explains (II) Er := by
    refine ⟨fun e he => ?_, fun k hk => ?_⟩
    · obtain ⟨x, hx, rfl⟩ := Finset.mem_image.1 he
      rw [List.mem_toFinset]
      exact (f4 _).2 ⟨x, ((hones_mem x).1 hx).1, rfl⟩
    · rw [odd_code h, parity_mem, decide_eq_true_eq]
      have hk' : k < code.stabs.length := (stab_mem_nodes h bk sp w bits).1 (erasureNodes_sub hI hk).1
      have : Er.filter (SNode.stab k ∈ ·) = ((code.stabs.getD k []).filter bits).toFinset.image f := by
        ext e
        simp only [Finset.mem_filter, hEr, Finset.mem_image, List.mem_toFinset, List.mem_filter]
        constructor
        · rintro ⟨⟨x, hx, rfl⟩, hxk⟩
          have := (hones_mem x).1 hx
          exact ⟨x, ⟨(f6 x this.1 k).1 hxk, this.2⟩, rfl⟩
        · rintro ⟨x, ⟨hx, hb⟩, rfl⟩
          have hxs := h.ok.1.mem_syndrome_of_stab hx
          exact ⟨⟨x, (hones_mem x).2 ⟨hxs, hb⟩, rfl⟩, (f6 x hxs k).2 hx⟩
      rw [this, Finset.card_image_of_injOn, List.toFinset_card_of_nodup ((h.stab_nodup hk').filter _)]
      intro x hx y hy hxy
      simp only [List.coe_toFinset, Set.mem_ofPred_eq, List.mem_filter] at hx hy
      exact f3 x (h.ok.1.mem_syndrome_of_stab hx.1) y (h.ok.1.mem_syndrome_of_stab hy.1) hxy
  obtain ⟨c, rep, a, L, HA⟩ := unionFind_width cl io hI (axis_code h bk sp w bits i) hE hs hu
  set D := grownL s'.status with hD
  set F := Er.filter (fun e => erased (II).E e = false) with hF
  set K1 := (Finset.range (code.dims i)).filter fun k : ℕ => ∃ x ∈ code.syndrome, x i = lowF code.ec + 2 * (k : ℤ) ∧ f x ∈ D with hK1
  have hparF : ∀ x : V, ∀ k : ℕ, x i = lowF code.ec + 2 * (k : ℤ) → x i % 2 ≠ cellPar code.ec := by
    intro x k hx
    rw [hx]
    cases code.ec <;> simp only [lowF, cellPar] <;> omega
  have hin : ∀ k < code.dims i, inAxis (bds i) (code.dims i) (lowF code.ec + 2 * (k : ℤ)) := by
    intro k hk
    obtain ⟨x, hx, hxi, _⟩ := hall k hk
    rw [← hxi]
    exact (mem_qubits.1 ((h.ok.1.syndrome x).1 hx)).1 i
  have hcardT : (K1.image fun k : ℕ => lowF code.ec + 2 * (k : ℤ)).card = K1.card :=
    Finset.card_image_of_injective _ fun a b hab => by omega
  have hk1 := HA.sheets (K1.image fun k : ℕ => lowF code.ec + 2 * (k : ℤ)) (fun t ht => by
      obtain ⟨k, hk, rfl⟩ := Finset.mem_image.1 ht
      obtain ⟨hkd, x, hx, hxi, hxD⟩ := Finset.mem_filter.1 hk
      have hreal : f x ∈ realE (II).E := (f4 _).2 ⟨x, hx, rfl⟩
      have hy : ysheet bk sp code i (f x) = some (lowF code.ec + 2 * (k : ℤ)) := by
        unfold ysheet
        rw [get_code h bk sp (f1 x hx)]
        show sheetOf code i x = _
        unfold sheetOf
        rw [if_neg (hparF x k hxi), hxi]
      clear_value K1 F Er
      generalize f x = e at hxD hreal hy
      induction e with
      | _ u v =>
      have hun := mem_erasureNodes_left hI hreal
      have hvn := mem_erasureNodes_right hI hreal
      exact ⟨u, v, by simpa using hreal, by simpa using hun,
        (HA.conn u (by simpa using hun) v (by simpa using hvn)).2 (Conn.edge hxD), mem_grownL.1 hxD, hy⟩)
    (ε := lowF code.ec) (fun t ht => by
      obtain ⟨k, _, rfl⟩ := Finset.mem_image.1 ht
      cases code.ec <;> simp only [lowF] <;> omega) (two_dvd_period _ _) (fun t ht t' ht' hdiv => by
      obtain ⟨k, hk, rfl⟩ := Finset.mem_image.1 ht
      obtain ⟨k', hk', rfl⟩ := Finset.mem_image.1 ht'
      exact period_eq (hin k (Finset.mem_range.1 (Finset.mem_filter.1 hk).1)) (hin k' (Finset.mem_range.1 (Finset.mem_filter.1 hk').1)) hdiv)
    (fun hP => by
      rw [hcardT]
      have : K1.card ≤ code.dims i := (Finset.card_filter_le _ _).trans (by simp)
      unfold period at hP ⊢
      split_ifs at hP ⊢
      · omega
      · omega)
  rw [hcardT] at hk1
  -- the other planes
  have hk2 : ((Finset.range (code.dims i)).filter fun k : ℕ => ¬ ∃ x ∈ code.syndrome, x i = lowF code.ec + 2 * (k : ℤ) ∧ f x ∈ D).card ≤
      (F.filter fun e => lvl s'.status e < 2).card := by
    refine Finset.card_le_card_of_surjOn (fun e => (((sheetOf code i (((PyDict.get? (stabGraph bk sp code).edges e).getD none).getD fun _ => 0)).getD 0 - lowF code.ec) / 2).toNat) ?_
    intro k hk
    simp only [Finset.coe_filter, Set.mem_ofPred_eq, Finset.mem_range] at hk
    obtain ⟨hkd, hno⟩ := hk
    obtain ⟨x, hx, hxi, hxb⟩ := hall k hkd
    have hxD : f x ∉ D := fun hc => hno ⟨x, hx, hxi, hc⟩
    have hxR : x ∉ R := fun hc => by
      obtain ⟨e, he, hex⟩ := hR x hc
      rw [(f2 e x hex).2] at he
      exact hxD he
    have hb : bits x = true := by simpa [hxR] using hxb
    refine ⟨f x, ?_, ?_⟩
    · simp only [Finset.coe_filter, Set.mem_ofPred_eq, hF, Finset.mem_filter]
      refine ⟨⟨Finset.mem_image.2 ⟨x, (hones_mem x).2 ⟨hx, hb⟩, rfl⟩, ?_⟩, ?_⟩
      · by_contra he
        refine hxD (her _ (List.mem_filter.2 ⟨(f4 _).2 ⟨x, hx, rfl⟩, by simpa using he⟩))
      · have h1 := lvl_le s'.status (f x)
        have h2 : lvl s'.status (f x) ≠ 2 := fun hc => hxD (mem_grownL.2 hc)
        omega
    · simp only [get_code h bk sp (f1 x hx), Option.getD_some]
      unfold sheetOf
      rw [if_neg (hparF x k hxi), hxi, Option.getD_some]
      omega
  have hsplit := Finset.card_filter_add_card_filter_not (s := Finset.range (code.dims i))
    fun k : ℕ => ∃ x ∈ code.syndrome, x i = lowF code.ec + 2 * (k : ℤ) ∧ f x ∈ D
  rw [← hK1, Finset.card_range] at hsplit
  have hsum : ∑ e ∈ F, lvl s'.status e + (F.filter fun e => lvl s'.status e < 2).card ≤ 2 * F.card := by
    rw [Finset.card_filter, ← Finset.sum_add_distrib, mul_comm, ← smul_eq_mul]
    refine Finset.sum_le_card_nsmul _ _ _ fun e _ => ?_
    have := lvl_le s'.status e
    split_ifs <;> omega
  have hFc : F.card ≤ code.syndrome.countP fun x => bits x && decide (w x ≠ -1) := by
    rw [countP_card hsn]
    refine (Finset.card_le_card ?_).trans (Finset.card_image_le (f := f))
    intro e he
    obtain ⟨h1, h2⟩ := Finset.mem_filter.1 he
    obtain ⟨x, hx, rfl⟩ := Finset.mem_image.1 h1
    obtain ⟨hxs, hxb⟩ := (hones_mem x).1 hx
    rw [f5 x hxs, decide_eq_false_iff_not] at h2
    refine Finset.mem_image.2 ⟨x, Finset.mem_filter.2 ⟨by simpa using hxs, ?_⟩, rfl⟩
    simp [hxb, h2]
  have hSc : (erasureEdges (II)).length ≤ code.syndrome.countP fun x => decide (w x = -1) := by
    have hnd : (erasureEdges (II)).Nodup := (realE_nodup hI).filter _
    rw [countP_card hsn, ← List.toFinset_card_of_nodup hnd]
    refine (Finset.card_le_card ?_).trans (Finset.card_image_le (f := f))
    intro e he
    rw [List.mem_toFinset] at he
    obtain ⟨h1, h2⟩ := List.mem_filter.1 he
    obtain ⟨x, hx, rfl⟩ := (f4 e).1 h1
    rw [f5 x hx] at h2
    exact Finset.mem_image.2 ⟨x, Finset.mem_filter.2 ⟨by simpa using hx, h2⟩, rfl⟩
  have hBc : (erasedBnd (II)).card ≤ code.boundPoints.countP fun x => decide (w x = -1) := by
    rw [countP_card (h.ok.1.bound_nodup h.ok.2)]
    refine (Finset.card_le_card ?_).trans (Finset.card_image_le (f := f))
    intro e he
    rw [erasedBnd, Finset.mem_filter, List.mem_toFinset] at he
    obtain ⟨he, p, q, hpq⟩ := he
    obtain ⟨h1, h2⟩ := List.mem_filter.1 he
    obtain ⟨x, hx, rfl⟩ := (f4 e).1 h1
    rw [f5 x hx] at h2
    obtain ⟨rfl, hb⟩ := f7 x hx p (by rw [hpq]; simp)
    exact Finset.mem_image.2 ⟨x, Finset.mem_filter.2 ⟨by simpa using hb, h2⟩, rfl⟩
  have hsumZ : ∑ e ∈ F, (lvl s'.status e : ℤ) = ((∑ e ∈ F, lvl s'.status e : ℕ) : ℤ) := by push_cast; rfl
  rw [hsumZ] at hk1
  omega

end

end Flamingpy.UnionFind
