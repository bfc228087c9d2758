import Verif.Proofs.Rhg
import Mathlib.Data.Fintype.BigOperators
import Mathlib.Order.Interval.Finset.Basic
import Mathlib.Data.Int.Interval
import Mathlib.Algebra.Ring.Parity

/-! # Neighbours in the RHG lattice -/

namespace Flamingpy.SurfaceCode

open Flamingpy

/-! ### One axis as a finite set -/

instance (bd d a) : Decidable (inAxis bd d a) := by
  unfold inAxis; cases bd <;> infer_instance

instance (bd d a b) : Decidable (nextTo bd d a b) := by
  unfold nextTo; infer_instance

/-- The axis as a finite set. -/
def ax (bd : Bd) (d : ℕ) : Finset ℤ := (Finset.Icc 0 (2 * (d : ℤ))).filter fun a => inAxis bd d a

theorem mem_ax {bd d a} : a ∈ ax bd d ↔ inAxis bd d a := by
  unfold ax
  rw [Finset.mem_filter, Finset.mem_Icc, and_iff_right_iff_imp]
  intro h
  cases bd <;> simp only [inAxis] at h <;> omega

/-- Neighbours on an axis. -/
def nb (bd : Bd) (d : ℕ) (a : ℤ) : Finset ℤ := (ax bd d).filter fun b => nextTo bd d a b

theorem mem_nb {bd d a b} : b ∈ nb bd d a ↔ inAxis bd d b ∧ nextTo bd d a b := by
  unfold nb; rw [Finset.mem_filter, mem_ax]

def prevA (bd : Bd) (d : ℕ) (a : ℤ) : ℤ := if bd = .periodic ∧ a = 0 then 2 * d - 1 else a - 1
def succA (bd : Bd) (d : ℕ) (a : ℤ) : ℤ := if bd = .periodic ∧ a = 2 * d - 1 then 0 else a + 1

theorem nextTo_iff {bd : Bd} {d : ℕ} {a b : ℤ} (ha : inAxis bd d a) (hb : inAxis bd d b) (_hd : 1 ≤ d) :
    nextTo bd d a b ↔ b = prevA bd d a ∨ b = succA bd d a := by
  unfold prevA succA nextTo
  cases bd <;> simp only [inAxis, reduceCtorEq, false_and, if_false, or_false, true_and] at *
  · omega
  · omega
  · split_ifs <;> omega

theorem nb_subset {bd d a} (ha : inAxis bd d a) (hd : 1 ≤ d) : nb bd d a ⊆ {prevA bd d a, succA bd d a} := by
  intro b hb
  rw [mem_nb] at hb
  simpa using (nextTo_iff ha hb.1 hd).1 hb.2

theorem nb_card_le {bd d a} (ha : inAxis bd d a) (hd : 1 ≤ d) : (nb bd d a).card ≤ 2 :=
  (Finset.card_le_card (nb_subset ha hd)).trans Finset.card_le_two

theorem nb_periodic {d a} (ha : inAxis .periodic d a) (hd : 2 ≤ d) : (nb .periodic d a).card = 2 := by
  have h1 : inAxis .periodic d (prevA .periodic d a) := by
    unfold prevA; simp only [inAxis, true_and] at *; split_ifs <;> omega
  have h2 : inAxis .periodic d (succA .periodic d a) := by
    unfold succA; simp only [inAxis, true_and] at *; split_ifs <;> omega
  have : nb .periodic d a = {prevA .periodic d a, succA .periodic d a} := by
    apply Finset.Subset.antisymm (nb_subset ha (by omega))
    intro b hb
    rw [Finset.mem_insert, Finset.mem_singleton] at hb
    have hb' : inAxis .periodic d b := by rcases hb with rfl | rfl <;> assumption
    exact mem_nb.2 ⟨hb', (nextTo_iff ha hb' (by omega)).2 hb⟩
  rw [this, Finset.card_pair]
  unfold prevA succA
  simp only [inAxis, true_and] at *
  split_ifs <;> omega

/-! ### Neighbours of a node -/

/-- The axis whose parity differs from that of the other two. -/
def Special (x : V) (i : Fin 3) : Prop :=
  (x i % 2 = 0 ∧ ∀ j, j ≠ i → x j % 2 = 1) ∨ (x i % 2 = 1 ∧ ∀ j, j ≠ i → x j % 2 = 0)

theorem isNode_iff {dims bds} {x : V} : isNode dims bds x ↔ inBox dims bds x ∧ ∃ i, Special x i := by
  unfold isNode
  rw [evens_one_iff, evens_two_iff]
  unfold PrimalPt DualPt Special
  rw [← exists_or]

theorem special_nodes {x : V} {i : Fin 3} (h : Special x i) {j : Fin 3} (hj : j ≠ i) {b : ℤ}
    (hb : (x j + b) % 2 = 1) : ∃ k, Special (Function.update x j b) k := by
  obtain ⟨k, hki, hkj, hall⟩ := third_axis i j hj
  refine ⟨k, ?_⟩
  rcases h with ⟨h1, h2⟩ | ⟨h1, h2⟩
  · right
    refine ⟨by simp [hkj]; exact h2 k hki, ?_⟩
    intro m hm
    rcases hall m with rfl | rfl | rfl
    · simp [hj.symm]; exact h1
    · have := h2 m hj; simp; omega
    · exact absurd rfl hm
  · left
    refine ⟨by simp [hkj]; exact h2 k hki, ?_⟩
    intro m hm
    rcases hall m with rfl | rfl | rfl
    · simp [hj.symm]; exact h1
    · have := h2 m hj; simp; omega
    · exact absurd rfl hm

theorem eq_update_of {x y : V} {i : Fin 3} (h : ∀ j, j ≠ i → x j = y j) : y = Function.update x i (y i) := by
  funext m
  by_cases hm : m = i
  · subst hm; simp
  · simp [hm, h m hm]

theorem nbr_iff {dims bds} {x : V} (hb : inBox dims bds x) {i : Fin 3} (hi : Special x i) (y : V) :
    (isNode dims bds y ∧ adjacent dims bds x y) ↔
      ∃ j, j ≠ i ∧ ∃ b ∈ nb (bds j) (dims j) (x j), y = Function.update x j b := by
  constructor
  · rintro ⟨hy, j, hj, hr⟩
    have hxe : PrimalPt x ∨ DualPt x := by
      rcases hi with h | h
      · exact Or.inl ⟨i, h⟩
      · exact Or.inr ⟨i, h⟩
    have hye : PrimalPt y ∨ DualPt y := by
      have := hy.2; rwa [evens_one_iff, evens_two_iff] at this
    have hpar := parity_of_nodes hxe hye (nextTo_parity hj) hr
    refine ⟨j, ?_, y j, mem_nb.2 ⟨hy.1 j, hj⟩, eq_update_of hr⟩
    rintro rfl
    rcases hi with ⟨h1, h2⟩ | ⟨h1, h2⟩
    · rcases hpar with ⟨_, _, h, _⟩ | ⟨h, _⟩
      · omega
      · exact not_primal_dual ⟨j, h1, h2⟩ h
    · rcases hpar with ⟨h, _⟩ | ⟨_, _, h, _⟩
      · exact not_primal_dual h ⟨j, h1, h2⟩
      · omega
  · rintro ⟨j, hj, b, hbn, rfl⟩
    rw [mem_nb] at hbn
    refine ⟨isNode_iff.2 ⟨inBox_update hb hbn.1, special_nodes hi hj (nextTo_parity hbn.2)⟩, j, ?_, ?_⟩
    · simpa using hbn.2
    · intro m hm; simp [hm]

/-- Neighbours along one axis. -/
def nbrsAlong (dims : Fin 3 → ℕ) (bds : Fin 3 → Bd) (x : V) (j : Fin 3) : Finset V :=
  (nb (bds j) (dims j) (x j)).image (Function.update x j)

theorem update_inj (x : V) (j : Fin 3) : Function.Injective (Function.update x j) := by
  intro a b h
  have := congrFun h j
  simpa using this

theorem nbrsAlong_card (dims bds x j) :
    (nbrsAlong dims bds x j).card = (nb (bds j) (dims j) (x j)).card :=
  Finset.card_image_of_injective _ (update_inj x j)

theorem nbrsAlong_disjoint (dims bds) (x : V) {j k : Fin 3} (h : j ≠ k) :
    Disjoint (nbrsAlong dims bds x j) (nbrsAlong dims bds x k) := by
  rw [Finset.disjoint_left]
  unfold nbrsAlong
  simp only [Finset.mem_image]
  rintro y ⟨b, hb, rfl⟩ ⟨c, hc, he⟩
  have := congrFun he j
  simp [h] at this
  have hp := nextTo_parity (mem_nb.1 hb).2
  omega

section
variable {dims : Fin 3 → ℕ} {bds : Fin 3 → Bd} (hd : goodDims dims bds) (pol : Option (V → V → ℤ))
  {verts : List V} (hv : ∀ x, x ∈ verts ↔ x ∈ denested dims bds)

theorem edgesAt_nodup (x : V) : ((edgesAt (rhgGraph dims bds pol verts) x).map (·.1)).Nodup := by
  unfold edgesAt
  have := (rhgGraph_built dims bds pol verts).edgesNd
  exact List.Nodup.sublist (List.Sublist.map _ List.filter_sublist) this

include hd hv

theorem mem_edgesAt {x : V} (hb : inBox dims bds x) {i : Fin 3} (hi : Special x i)
    {e : Sym2 V × (ℤ × Bool)} (he : e ∈ edgesAt (rhgGraph dims bds pol verts) x) :
    ∃ j, j ≠ i ∧ ∃ y ∈ nbrsAlong dims bds x j, e.1 = s(x, y) := by
  unfold edgesAt at he
  simp only [List.mem_filter, decide_eq_true_eq] at he
  obtain ⟨he, y, hy⟩ := he
  have : s(x, y) ∈ PyDict.keys (rhgGraph dims bds pol verts).edges := by
    rw [← hy]; exact List.mem_map_of_mem (f := (·.1)) he
  rw [rhg_edges hd pol hv] at this
  obtain ⟨j, hj, b, hbn, rfl⟩ := (nbr_iff hb hi y).1 ⟨this.2.1, this.2.2⟩
  exact ⟨j, hj, _, Finset.mem_image_of_mem _ hbn, hy⟩

omit hv in
/-- The keys of the edges at `x` that lie along one axis. -/
theorem edges_along_le {x : V} (hb : inBox dims bds x) (j : Fin 3)
    (P : Sym2 V × (ℤ × Bool) → Bool)
    (hP : ∀ e ∈ edgesAt (rhgGraph dims bds pol verts) x, P e = true →
      ∃ y ∈ nbrsAlong dims bds x j, e.1 = s(x, y)) :
    ((edgesAt (rhgGraph dims bds pol verts) x).filter P).length ≤ 2 := by
  have nd : (((edgesAt (rhgGraph dims bds pol verts) x).filter P).map (·.1)).Nodup :=
    List.Nodup.sublist (List.Sublist.map _ List.filter_sublist) (edgesAt_nodup pol x)
  have h1 : ((edgesAt (rhgGraph dims bds pol verts) x).filter P).length =
      (((edgesAt (rhgGraph dims bds pol verts) x).filter P).map (·.1)).toFinset.card := by
    rw [List.toFinset_card_of_nodup nd, List.length_map]
  rw [h1]
  have h2 : (((edgesAt (rhgGraph dims bds pol verts) x).filter P).map (·.1)).toFinset ⊆
      (nbrsAlong dims bds x j).image fun y => s(x, y) := by
    intro k hk
    simp only [List.mem_toFinset, List.mem_map, List.mem_filter] at hk
    obtain ⟨e, ⟨he, hPe⟩, rfl⟩ := hk
    obtain ⟨y, hy, hey⟩ := hP e he hPe
    exact Finset.mem_image.2 ⟨y, hy, hey.symm⟩
  refine (Finset.card_le_card h2).trans (Finset.card_image_le.trans ?_)
  rw [nbrsAlong_card]
  exact nb_card_le (hb j) (hd j).1

theorem edgesAt_keys {x : V} (hb : inBox dims bds x) {i j k : Fin 3} (hi : Special x i)
    (hj : j ≠ i) (hk : k ≠ i) (hall : ∀ m, m = i ∨ m = j ∨ m = k) :
    ((edgesAt (rhgGraph dims bds pol verts) x).map (·.1)).toFinset =
      (nbrsAlong dims bds x j ∪ nbrsAlong dims bds x k).image fun y => s(x, y) := by
  ext e
  simp only [List.mem_toFinset, Finset.mem_image, Finset.mem_union]
  constructor
  · intro he
    rw [List.mem_map] at he
    obtain ⟨e, he, rfl⟩ := he
    obtain ⟨m, hm, y, hy, hey⟩ := mem_edgesAt hd pol hv hb hi he
    rcases hall m with rfl | rfl | rfl
    · exact absurd rfl hm
    · exact ⟨y, Or.inl hy, hey.symm⟩
    · exact ⟨y, Or.inr hy, hey.symm⟩
  · rintro ⟨y, hy, rfl⟩
    have hy' : ∃ j, j ≠ i ∧ ∃ b ∈ nb (bds j) (dims j) (x j), y = Function.update x j b := by
      rcases hy with hy | hy <;> unfold nbrsAlong at hy <;> rw [Finset.mem_image] at hy <;>
        obtain ⟨b, hbn, rfl⟩ := hy
      · exact ⟨j, hj, b, hbn, rfl⟩
      · exact ⟨k, hk, b, hbn, rfl⟩
    obtain ⟨hny, hadj⟩ := (nbr_iff hb hi y).2 hy'
    have := (rhg_edges hd pol hv x y).2 ⟨isNode_iff.2 ⟨hb, i, hi⟩, hny, hadj⟩
    unfold PyDict.keys at this
    rw [List.mem_map] at this
    obtain ⟨e, he, hes⟩ := this
    rw [List.mem_map]
    refine ⟨e, ?_, hes⟩
    unfold edgesAt
    rw [List.mem_filter]
    exact ⟨he, by simp [hes]⟩

theorem degree_eq {x : V} (hb : inBox dims bds x) {i j k : Fin 3} (hi : Special x i)
    (hj : j ≠ i) (hk : k ≠ i) (hjk : j ≠ k) (hall : ∀ m, m = i ∨ m = j ∨ m = k) :
    (edgesAt (rhgGraph dims bds pol verts) x).length =
      (nb (bds j) (dims j) (x j)).card + (nb (bds k) (dims k) (x k)).card := by
  have h1 := List.toFinset_card_of_nodup (edgesAt_nodup (dims := dims) (bds := bds) (verts := verts) pol x)
  rw [List.length_map] at h1
  rw [← h1, edgesAt_keys hd pol hv hb hi hj hk hall, Finset.card_image_of_injective,
    Finset.card_union_of_disjoint (nbrsAlong_disjoint dims bds x hjk), nbrsAlong_card, nbrsAlong_card]
  intro a b h
  exact Sym2.congr_right.1 h

theorem degree_le_four {x : V} (hx : isNode dims bds x) :
    (edgesAt (rhgGraph dims bds pol verts) x).length ≤ 4 := by
  obtain ⟨hb, i, hi⟩ := isNode_iff.1 hx
  obtain ⟨j, hj⟩ := other_axis i
  obtain ⟨k, hk, hkj, hall⟩ := third_axis i j hj
  rw [degree_eq hd pol hv hb hi hj hk hkj.symm hall]
  have := nb_card_le (hb j) (hd j).1
  have := nb_card_le (hb k) (hd k).1
  omega

theorem degree_periodic (hper : ∀ i, bds i = .periodic) (hd2 : ∀ i, 2 ≤ dims i) {x : V}
    (hx : isNode dims bds x) : (edgesAt (rhgGraph dims bds pol verts) x).length = 4 := by
  obtain ⟨hb, i, hi⟩ := isNode_iff.1 hx
  obtain ⟨j, hj⟩ := other_axis i
  obtain ⟨k, hk, hkj, hall⟩ := third_axis i j hj
  rw [degree_eq hd pol hv hb hi hj hk hkj.symm hall, hper j, hper k]
  have h1 := hb j
  have h2 := hb k
  rw [hper j] at h1
  rw [hper k] at h2
  rw [nb_periodic h1 (hd2 j), nb_periodic h2 (hd2 k)]

end

/-! ### Polarity -/

theorem polarity_eq {u v : V} {j : Fin 3} (hr : ∀ m, m ≠ j → u m = v m) (hj : u j ≠ v j) :
    alternatingPolarity u v = (-1) ^ (u (j + 1)).toNat := by
  have h : ∀ m, m ≠ j → v m - u m = 0 := fun m hm => by rw [hr m hm]; omega
  have hj' : v j - u j ≠ 0 := by omega
  unfold alternatingPolarity
  have hc : j = 0 ∨ j = 1 ∨ j = 2 := by
    clear hr hj h hj'; revert j; decide
  rcases hc with rfl | rfl | rfl
  · rw [if_pos hj']; rfl
  · rw [if_neg (by rw [h 0 (by decide)]; simp), if_pos hj']; rfl
  · rw [if_neg (by rw [h 0 (by decide)]; simp), if_neg (by rw [h 1 (by decide)]; simp), if_pos hj']; rfl

theorem neg_one_pow_of_parity {a : ℤ} (h0 : 0 ≤ a) :
    ((-1 : ℤ)) ^ a.toNat = if a % 2 = 0 then 1 else -1 := by
  split_ifs with h
  · apply Even.neg_one_pow
    rw [Nat.even_iff]; omega
  · apply Odd.neg_one_pow
    rw [Nat.odd_iff]; omega

theorem inAxis_nonneg {bd d a} (h : inAxis bd d a) : 0 ≤ a := by
  cases bd <;> simp only [inAxis] at h <;> omega

section
variable {dims : Fin 3 → ℕ} {bds : Fin 3 → Bd} (hd : goodDims dims bds)
  {verts : List V} (hv : ∀ x, x ∈ verts ↔ x ∈ denested dims bds)
include hd hv

theorem weight_along {x y : V} (hb : inBox dims bds x) {j : Fin 3} (hy : y ∈ nbrsAlong dims bds x j)
    {e : Sym2 V × (ℤ × Bool)} (he : e ∈ (rhgGraph dims bds (some alternatingPolarity) verts).edges)
    (hs : e.1 = s(x, y)) : e.2.1 = if x (j + 1) % 2 = 0 then 1 else -1 := by
  have hB := rhgGraph_built dims bds (some alternatingPolarity) verts
  have hg : PyDict.get? (rhgGraph dims bds (some alternatingPolarity) verts).edges e.1 = some (e.2.1, e.2.2) :=
    (PyDict.get?_iff_mem hB.edgesNd e.1 _).2 he
  obtain ⟨⟨u, v, p', huv, hop⟩, -⟩ := hB.edgeVal _ _ _ hg
  obtain ⟨-, -, hw, -⟩ := (ops_edge hd _ hv u v e.2.1 p').1 hop
  unfold nbrsAlong at hy
  rw [Finset.mem_image] at hy
  obtain ⟨b, hbn, rfl⟩ := hy
  have hpar := nextTo_parity (mem_nb.1 hbn).2
  have hne : j + 1 ≠ j := (by decide : ∀ j : Fin 3, j + 1 ≠ j) j
  rw [hs, Sym2.eq_iff] at huv
  have hw' : e.2.1 = (-1) ^ (x (j + 1)).toNat := by
    rw [hw]
    simp only [weightOf]
    rcases huv with ⟨rfl, rfl⟩ | ⟨rfl, rfl⟩
    · rw [polarity_eq (j := j)]
      · intro m hm; simp [hm]
      · simp; omega
    · rw [polarity_eq (j := j)]
      · simp [hne]
      · intro m hm; simp [hm]
      · simp; omega
  rw [hw', neg_one_pow_of_parity (inAxis_nonneg (hb _))]

theorem polarity_balanced {x : V} (hx : isNode dims bds x)
    (h4 : (edgesAt (rhgGraph dims bds (some alternatingPolarity) verts) x).length = 4) :
    ((edgesAt (rhgGraph dims bds (some alternatingPolarity) verts) x).filter
      fun e => decide (e.2.1 = 1)).length = 2 ∧
    ((edgesAt (rhgGraph dims bds (some alternatingPolarity) verts) x).filter
      fun e => decide (e.2.1 = -1)).length = 2 := by
  obtain ⟨hb, i, hi⟩ := isNode_iff.1 hx
  set E := edgesAt (rhgGraph dims bds (some alternatingPolarity) verts) x with hE
  have hmemE : ∀ e ∈ E, e ∈ (rhgGraph dims bds (some alternatingPolarity) verts).edges := by
    intro e he
    rw [hE] at he; unfold edgesAt at he
    exact (List.mem_filter.1 he).1
  have i1 : i + 1 ≠ i := (by decide : ∀ i : Fin 3, i + 1 ≠ i) i
  have i2 : i + 2 ≠ i := (by decide : ∀ i : Fin 3, i + 2 ≠ i) i
  have i3 : i + 1 + 1 = i + 2 := (by decide : ∀ i : Fin 3, i + 1 + 1 = i + 2) i
  have i4 : i + 2 + 1 = i := (by decide : ∀ i : Fin 3, i + 2 + 1 = i) i
  have hall := (by decide : ∀ i m : Fin 3, m = i ∨ m = i + 1 ∨ m = i + 2) i
  -- weight of an edge by axis
  have key : ∀ e ∈ E, (∃ y ∈ nbrsAlong dims bds x (i + 1), e.1 = s(x, y)) ∧
        e.2.1 = (if x (i + 2) % 2 = 0 then 1 else -1) ∨
      (∃ y ∈ nbrsAlong dims bds x (i + 2), e.1 = s(x, y)) ∧ e.2.1 = (if x i % 2 = 0 then 1 else -1) := by
    intro e he
    obtain ⟨m, hm, y, hy, hey⟩ := mem_edgesAt hd _ hv hb hi he
    have hw := weight_along hd hv hb hy (hmemE e he) hey
    rcases hall m with rfl | rfl | rfl
    · exact absurd rfl hm
    · left; rw [i3] at hw; exact ⟨⟨y, hy, hey⟩, hw⟩
    · right; rw [i4] at hw; exact ⟨⟨y, hy, hey⟩, hw⟩
  have hsum : (E.filter fun e => decide (e.2.1 = 1)).length + (E.filter fun e => decide (e.2.1 = -1)).length
      = E.length := by
    have h := List.length_eq_length_filter_add (l := E) (fun e => decide (e.2.1 = 1))
    rw [h]
    congr 1
    apply congrArg
    apply List.filter_congr
    intro e he
    have : e.2.1 = 1 ∨ e.2.1 = -1 := by
      rcases key e he with ⟨_, h⟩ | ⟨_, h⟩ <;> rw [h] <;> split_ifs <;> simp
    rcases this with h | h <;> simp [h]
  have hboth : (E.filter fun e => decide (e.2.1 = 1)).length ≤ 2 ∧
      (E.filter fun e => decide (e.2.1 = -1)).length ≤ 2 := by
    rcases hi with ⟨h1, h2⟩ | ⟨h1, h2⟩
    · have h3 := h2 _ i2
      constructor
      · apply edges_along_le hd _ hb (i + 2)
        intro e he hP
        rcases key e he with ⟨_, h⟩ | ⟨h, _⟩
        · exfalso; rw [if_neg (by omega)] at h; simp [h] at hP
        · exact h
      · apply edges_along_le hd _ hb (i + 1)
        intro e he hP
        rcases key e he with ⟨h, _⟩ | ⟨_, h⟩
        · exact h
        · exfalso; rw [if_pos (by omega)] at h; simp [h] at hP
    · have h3 := h2 _ i2
      constructor
      · apply edges_along_le hd _ hb (i + 1)
        intro e he hP
        rcases key e he with ⟨h, _⟩ | ⟨_, h⟩
        · exact h
        · exfalso; rw [if_neg (by omega)] at h; simp [h] at hP
      · apply edges_along_le hd _ hb (i + 2)
        intro e he hP
        rcases key e he with ⟨_, h⟩ | ⟨h, _⟩
        · exfalso; rw [if_pos (by omega)] at h; simp [h] at hP
        · exact h
  omega

end

end Flamingpy.SurfaceCode
