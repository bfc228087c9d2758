import Verif.Proofs.MwpmGraph
import Verif.Proofs.TJoin
import Verif.Props.StabGraph
import Mathlib.Data.List.Perm.Subperm

/-!
# Matchings of the matching graph
-/

namespace Flamingpy.SurfaceCode

open Flamingpy TJoin

section
variable (bk : Backend) (lib : PathLib) (E : List (Sym2 SNode × ℚ))

/-- The virtual point of an odd stabilizer. -/
def virtOf (odd : List ℕ) (k : ℕ) : MNode := virtNode bk lib E (k, odd.idxOf k)

variable {bk lib E} {odd : List ℕ}

theorem zipIdx_idxOf {n : ℕ} (ho : odd.Nodup) : odd.zipIdx n = odd.map fun k => (k, n + odd.idxOf k) := by
  induction odd generalizing n with
  | nil => rfl
  | cons a l ih =>
    rw [List.nodup_cons] at ho
    rw [List.zipIdx_cons, List.map_cons, ih ho.2, List.idxOf_cons_self]
    congr 1
    apply List.map_congr_left
    intro k hk
    rw [List.idxOf_cons_ne]
    · congr 1; omega
    · rintro rfl; exact ho.1 hk

theorem virtuals_eq (ho : odd.Nodup) : virtuals bk lib E true odd = odd.map (virtOf bk lib E odd) := by
  unfold virtuals
  rw [if_pos rfl, zipIdx_idxOf ho, List.map_map]
  apply List.map_congr_left
  intro k _
  simp [virtOf]

/-- The nodes of the matching graph. -/
def mNodes (bk : Backend) (lib : PathLib) (E : List (Sym2 SNode × ℚ)) (op : Bool) (odd : List ℕ) : List MNode :=
  odd.map MNode.stab ++ virtuals bk lib E op odd

theorem mNodes_nodup (op : Bool) (ho : odd.Nodup) : (mNodes bk lib E op odd).Nodup := by
  unfold mNodes
  rw [List.nodup_append]
  refine ⟨ho.map fun a b h => by cases h; rfl, virtuals_nodup op odd, ?_⟩
  intro a ha b hb hab
  subst hab
  obtain ⟨k, _, rfl⟩ := List.mem_map.1 ha
  obtain ⟨p, i, h⟩ := mem_virtuals hb
  cases h

variable (bk lib E) in
/-- The three kinds of edges. -/
inductive EdgeKind (op : Bool) (odd : List ℕ) (e : Sym2 MNode) (q : ℚ × List SNode) : Prop
  | real (a b : ℕ) (ha : a ∈ odd) (hb : b ∈ odd) (hab : a < b) (he : e = s(.stab a, .stab b))
      (hq : q = (pathLength bk E (realPath lib E a b), realPath lib E a b))
  | virt (k : ℕ) (hop : op = true) (hk : k ∈ odd) (he : e = s(.stab k, virtOf bk lib E odd k))
      (hq : q = (boundLen bk lib E k, (fullPath bk lib E k).tail))
  | zero (m m' : MNode) (hop : op = true) (hm : m ∈ virtuals bk lib E op odd) (hm' : m' ∈ virtuals bk lib E op odd)
      (hne : m ≠ m') (he : e = s(m, m')) (hq : q = (0, []))

theorem mem_graphEdges {op : Bool} (hlt : odd.Pairwise (· < ·)) {e : Sym2 MNode} {q : ℚ × List SNode} :
    (e, q) ∈ graphEdges bk lib E op odd ↔ EdgeKind bk lib E op odd e q := by
  have ho : odd.Nodup := hlt.imp (fun {a b} h => Nat.ne_of_lt h)
  unfold graphEdges
  rw [List.mem_append]
  constructor
  · rintro (h | h)
    · obtain ⟨⟨a, b⟩, hp, he⟩ := List.mem_map.1 h
      obtain ⟨ha, hb, hab⟩ := (combinations2_of_lt hlt a b).1 hp
      obtain ⟨rfl, rfl⟩ := Prod.mk.inj he
      exact .real a b ha hb hab rfl rfl
    · split at h
      · rename_i hop
        rw [List.mem_append] at h
        rcases h with h | h
        · rw [zipIdx_idxOf ho, List.map_map] at h
          obtain ⟨k, hk, he⟩ := List.mem_map.1 h
          obtain ⟨rfl, rfl⟩ := Prod.mk.inj he
          refine .virt k hop hk ?_ rfl
          simp [virtOf]
        · obtain ⟨⟨m, m'⟩, hp, he⟩ := List.mem_map.1 h
          obtain ⟨rfl, rfl⟩ := Prod.mk.inj he
          have := (sym_combinations2 (virtuals_nodup (bk := bk) (lib := lib) (E := E) true odd) m m').1
            (List.mem_map.2 ⟨_, hp, rfl⟩)
          subst hop
          exact .zero m m' rfl this.1 this.2.1 this.2.2 rfl rfl
      · simp at h
  · rintro (⟨a, b, ha, hb, hab, rfl, rfl⟩ | ⟨k, hop, hk, rfl, rfl⟩ | ⟨m, m', hop, hm, hm', hne, rfl, rfl⟩)
    · left
      exact List.mem_map.2 ⟨(a, b), (combinations2_of_lt hlt a b).2 ⟨ha, hb, hab⟩, rfl⟩
    · right
      rw [if_pos hop, List.mem_append, zipIdx_idxOf ho, List.map_map]
      left
      refine List.mem_map.2 ⟨k, hk, ?_⟩
      simp [virtEntry, virtOf]
    · right
      subst hop
      rw [if_pos rfl, List.mem_append]
      right
      have := (sym_combinations2 (virtuals_nodup (bk := bk) (lib := lib) (E := E) true odd) m m').2 ⟨hm, hm', hne⟩
      obtain ⟨⟨x, y⟩, hp, he⟩ := List.mem_map.1 this
      exact List.mem_map.2 ⟨(x, y), hp, by simp only [zeroEntry]; rw [show s(x, y) = s(m, m') from he]⟩

theorem get?_graphEdges {op : Bool} (hlt : odd.Pairwise (· < ·)) {e : Sym2 MNode} {q : ℚ × List SNode} :
    PyDict.get? (graphEdges bk lib E op odd) e = some q ↔ EdgeKind bk lib E op odd e q := by
  rw [PyDict.get?_iff_mem (keys_graphEdges_nodup op (hlt.imp (fun {a b} h => Nat.ne_of_lt h))), mem_graphEdges hlt]

/-- The edges with their weights. -/
def mWeights (G : List (Sym2 MNode × (ℚ × List SNode))) : List (Sym2 MNode × ℚ) := G.map fun e => (e.1, e.2.1)

theorem keys_mWeights (G : List (Sym2 MNode × (ℚ × List SNode))) : PyDict.keys (mWeights G) = PyDict.keys G := by
  unfold mWeights PyDict.keys; rw [List.map_map]; rfl

theorem get?_mWeights (G : List (Sym2 MNode × (ℚ × List SNode))) (e : Sym2 MNode) :
    PyDict.get? (mWeights G) e = (PyDict.get? G e).map (·.1) := by
  unfold mWeights PyDict.get?
  rw [List.find?_map, Option.map_map, Option.map_map]
  rfl

theorem edgeKind_mem {op : Bool} {m m' : MNode} {q : ℚ × List SNode} (ho : odd.Nodup)
    (h : EdgeKind bk lib E op odd s(m, m') q) :
    m ∈ mNodes bk lib E op odd ∧ m' ∈ mNodes bk lib E op odd ∧ m ≠ m' := by
  unfold mNodes
  have key : ∀ x y, s(m, m') = s(x, y) → x ∈ odd.map MNode.stab ++ virtuals bk lib E op odd →
      y ∈ odd.map MNode.stab ++ virtuals bk lib E op odd → x ≠ y →
      m ∈ odd.map MNode.stab ++ virtuals bk lib E op odd ∧ m' ∈ odd.map MNode.stab ++ virtuals bk lib E op odd ∧
        m ≠ m' := by
    intro x y h hx hy hxy
    rcases Sym2.eq_iff.1 h with ⟨rfl, rfl⟩ | ⟨rfl, rfl⟩
    · exact ⟨hx, hy, hxy⟩
    · exact ⟨hy, hx, hxy.symm⟩
  rcases h with ⟨a, b, ha, hb, hab, he, hq⟩ | ⟨k, hop, hk, he, hq⟩ | ⟨x, y, hop, hx, hy, hne, he, hq⟩
  · refine key _ _ he ?_ ?_ ?_
    · exact List.mem_append_left _ (List.mem_map_of_mem ha)
    · exact List.mem_append_left _ (List.mem_map_of_mem hb)
    · intro h; have := MNode.stab.inj h; omega
  · refine key _ _ he ?_ ?_ ?_
    · exact List.mem_append_left _ (List.mem_map_of_mem hk)
    · subst hop
      rw [virtuals_eq ho]
      exact List.mem_append_right _ (List.mem_map_of_mem hk)
    · intro h; cases h
  · exact key _ _ he (List.mem_append_right _ hx) (List.mem_append_right _ hy) hne

/-! ### A matching from a pairing -/

variable (bk lib E) in
/-- The matching edges of one pair. -/
def mOf (op : Bool) (odd : List ℕ) (e : ℕ × Option ℕ) : List (MNode × MNode) :=
  match e.2 with
  | none => [(.stab e.1, virtOf bk lib E odd e.1)]
  | some u => (.stab e.1, .stab u) ::
      if op then [(virtOf bk lib E odd e.1, virtOf bk lib E odd u)] else []

/-- End points of a list of edges. -/
def ends2 (M : List (MNode × MNode)) : List MNode := M.flatMap fun m => [m.1, m.2]

theorem ends2_append (M M' : List (MNode × MNode)) : ends2 (M ++ M') = ends2 M ++ ends2 M' := by
  simp [ends2]

theorem ends2_length (M : List (MNode × MNode)) : (ends2 M).length = 2 * M.length := by
  induction M with
  | nil => rfl
  | cons m M ih =>
    have : ends2 (m :: M) = [m.1, m.2] ++ ends2 M := rfl
    rw [this, List.length_append, ih, List.length_cons]
    simp only [List.length_cons, List.length_nil]
    omega

theorem mOf_ends {op : Bool} (P : List (ℕ × Option ℕ)) (hs : ∀ e ∈ P, e.2 = none → op = true) :
    (ends2 (P.flatMap (mOf bk lib E op odd))).Perm
      ((verts P).map MNode.stab ++ if op then (verts P).map (virtOf bk lib E odd) else []) := by
  induction P with
  | nil => cases op <;> simp [ends2, verts]
  | cons e P ih =>
    have ih := ih fun e he => hs e (by simp [he])
    rw [List.flatMap_cons, ends2_append, verts_cons]
    refine (ih.append_left _).trans ?_
    obtain ⟨a, o⟩ := e
    cases o with
    | none =>
      have := hs (a, none) (by simp) rfl
      subst this
      simp only [mOf, ends2, if_true, Option.toList_none, List.cons_append, List.nil_append, List.map_cons,
        List.flatMap_cons, List.flatMap_nil]
      refine List.Perm.cons _ ?_
      exact List.perm_middle.symm
    | some u =>
      cases op with
      | false =>
        simp [mOf, ends2]
      | true =>
        simp only [mOf, ends2, if_true, Option.toList_some, List.cons_append, List.nil_append, List.map_cons,
          List.flatMap_cons, List.flatMap_nil]
        refine List.Perm.cons _ (List.Perm.cons _ ?_)
        exact (List.Perm.cons _ List.perm_middle.symm).trans List.perm_middle.symm

variable (bk lib E) in
/-- The weight of the edge between two odd stabilizers. -/
def pairLen (a b : ℕ) : ℚ :=
  if a = b then 0 else pathLength bk E (realPath lib E (min a b) (max a b))

theorem mem_verts_some {P : List (ℕ × Option ℕ)} {a u : ℕ} (h : (a, some u) ∈ P) : a ∈ verts P ∧ u ∈ verts P := by
  unfold verts
  constructor <;> exact List.mem_flatMap.2 ⟨_, h, by simp⟩

theorem verts_ne {P : List (ℕ × Option ℕ)} (hn : (verts P).Nodup) {a u : ℕ} (h : (a, some u) ∈ P) : a ≠ u := by
  unfold verts at hn
  rw [List.nodup_flatMap] at hn
  have := hn.1 _ h
  simpa using this

theorem virtOf_inj {a b : ℕ} (ha : a ∈ odd) (h : virtOf bk lib E odd a = virtOf bk lib E odd b) : a = b := by
  have := (MNode.virt.inj h).2
  exact (List.idxOf_inj ha).1 this

theorem edge_pair {op : Bool} (hlt : odd.Pairwise (· < ·)) {a b : ℕ} (ha : a ∈ odd) (hb : b ∈ odd) (hab : a ≠ b) :
    PyDict.get? (mWeights (graphEdges bk lib E op odd)) s(.stab a, .stab b) = some (pairLen bk lib E a b) := by
  rw [get?_mWeights]
  rcases Nat.lt_or_gt_of_ne hab with hl | hl
  · rw [(get?_graphEdges hlt).2 (.real a b ha hb hl rfl rfl)]
    simp [pairLen, hab, Nat.min_eq_left hl.le, Nat.max_eq_right hl.le]
  · rw [(get?_graphEdges hlt).2 (.real b a hb ha hl Sym2.eq_swap rfl)]
    simp [pairLen, hab, Nat.min_eq_right hl.le, Nat.max_eq_left hl.le]

theorem edge_virt (hlt : odd.Pairwise (· < ·)) {a : ℕ} (ha : a ∈ odd) :
    PyDict.get? (mWeights (graphEdges bk lib E true odd)) s(.stab a, virtOf bk lib E odd a) =
      some (boundLen bk lib E a) := by
  rw [get?_mWeights, (get?_graphEdges hlt).2 (.virt a rfl ha rfl rfl)]
  rfl

theorem edge_zero (hlt : odd.Pairwise (· < ·)) {a b : ℕ} (ha : a ∈ odd) (hb : b ∈ odd) (hab : a ≠ b) :
    PyDict.get? (mWeights (graphEdges bk lib E true odd)) s(virtOf bk lib E odd a, virtOf bk lib E odd b) = some 0 := by
  have ho : odd.Nodup := hlt.imp (fun {a b} h => Nat.ne_of_lt h)
  rw [get?_mWeights, (get?_graphEdges hlt).2 (.zero _ _ rfl ?_ ?_ ?_ rfl rfl)]
  · rfl
  · rw [virtuals_eq ho]; exact List.mem_map_of_mem ha
  · rw [virtuals_eq ho]; exact List.mem_map_of_mem hb
  · intro h; exact hab (virtOf_inj ha h)

theorem mem_of_get? {d : List (Sym2 MNode × ℚ)} {e : Sym2 MNode} {q : ℚ} (h : PyDict.get? d e = some q) :
    e ∈ PyDict.keys d := (PyDict.get?_isSome_iff d e).1 (by rw [h]; rfl)

theorem sum_flatMap {α M : Type} [AddCommMonoid M] (f : α → List M) (l : List α) :
    (l.flatMap f).sum = (l.map fun a => (f a).sum).sum := by
  induction l with
  | nil => rfl
  | cons a l ih => rw [List.flatMap_cons, List.sum_append, ih, List.map_cons, List.sum_cons]

/-- A pairing of the odd stabilizers is a perfect matching of the same weight. -/
theorem matching_of_pairing {op : Bool} (hlt : odd.Pairwise (· < ·)) (P : List (ℕ × Option ℕ))
    (hn : (verts P).Nodup) (hv : ∀ x, x ∈ verts P ↔ x ∈ odd) (hs : ∀ e ∈ P, e.2 = none → op = true) :
    ∃ M, IsMatching (mWeights (graphEdges bk lib E op odd)) M ∧ (ends2 M).Perm (mNodes bk lib E op odd) ∧
      matchWeight (mWeights (graphEdges bk lib E op odd)) M =
        (P.map (pw (pairLen bk lib E) (boundLen bk lib E))).sum := by
  have ho : odd.Nodup := hlt.imp (fun {a b} h => Nat.ne_of_lt h)
  have hperm : (verts P).Perm odd := (List.perm_ext_iff_of_nodup hn ho).2 hv
  have hends : (ends2 (P.flatMap (mOf bk lib E op odd))).Perm (mNodes bk lib E op odd) := by
    refine (mOf_ends P hs).trans ?_
    unfold mNodes
    refine (hperm.map _).append ?_
    cases op with
    | false => simp [virtuals]
    | true =>
      rw [if_pos rfl, virtuals_eq ho]
      exact hperm.map _
  have hP : ∀ e ∈ P, (∀ m ∈ mOf bk lib E op odd e, s(m.1, m.2) ∈ PyDict.keys (mWeights (graphEdges bk lib E op odd))) ∧
      ((mOf bk lib E op odd e).map fun m =>
        (PyDict.get? (mWeights (graphEdges bk lib E op odd)) s(m.1, m.2)).getD 0).sum =
        pw (pairLen bk lib E) (boundLen bk lib E) e := by
    rintro ⟨a, o⟩ he
    cases o with
    | none =>
      have := hs _ he rfl
      subst this
      have ha : a ∈ odd := (hv a).1 (List.mem_flatMap.2 ⟨_, he, by simp⟩)
      have hg := edge_virt (bk := bk) (lib := lib) (E := E) hlt ha
      constructor
      · intro m hm
        simp only [mOf, List.mem_singleton] at hm
        subst hm
        exact mem_of_get? hg
      · simp [mOf, hg, pw]
    | some u =>
      have ha := (hv a).1 (mem_verts_some he).1
      have hu := (hv u).1 (mem_verts_some he).2
      have hne := verts_ne hn he
      have hg := edge_pair (bk := bk) (lib := lib) (E := E) (op := op) hlt ha hu hne
      cases op with
      | false =>
        constructor
        · intro m hm
          simp only [mOf, Bool.false_eq_true, if_false, List.mem_singleton] at hm
          subst hm
          exact mem_of_get? hg
        · simp [mOf, hg, pw]
      | true =>
        have hz := edge_zero (bk := bk) (lib := lib) (E := E) hlt ha hu hne
        constructor
        · intro m hm
          simp only [mOf, if_true, List.mem_cons, List.not_mem_nil, or_false] at hm
          rcases hm with rfl | rfl
          · exact mem_of_get? hg
          · exact mem_of_get? hz
        · simp [mOf, hg, hz, pw]
  refine ⟨P.flatMap (mOf bk lib E op odd), ⟨?_, ?_⟩, hends, ?_⟩
  · intro m hm
    obtain ⟨e, he, hm⟩ := List.mem_flatMap.1 hm
    exact (hP e he).1 m hm
  · exact hends.nodup_iff.2 (mNodes_nodup op ho)
  · unfold matchWeight
    rw [List.map_flatMap, sum_flatMap]
    congr 1
    apply List.map_congr_left
    intro e he
    exact (hP e he).2

theorem isMatching_ends {op : Bool} (hlt : odd.Pairwise (· < ·)) {M : List (MNode × MNode)}
    (hM : IsMatching (mWeights (graphEdges bk lib E op odd)) M) : ends2 M ⊆ mNodes bk lib E op odd := by
  have ho : odd.Nodup := hlt.imp (fun {a b} h => Nat.ne_of_lt h)
  intro x hx
  obtain ⟨m, hm, hx⟩ := List.mem_flatMap.1 hx
  have := hM.1 m hm
  rw [keys_mWeights] at this
  obtain ⟨q, hq⟩ := Option.isSome_iff_exists.1 ((PyDict.get?_isSome_iff _ _).2 this)
  have := edgeKind_mem ho ((get?_graphEdges hlt).1 hq)
  simp only [List.mem_cons, List.not_mem_nil, or_false] at hx
  rcases hx with rfl | rfl
  · exact this.1
  · exact this.2.1

/-- If some matching is perfect then the one found is perfect, and no heavier. -/
theorem found_perfect (ml : MatchLib) {op : Bool} (hlt : odd.Pairwise (· < ·)) {M : List (MNode × MNode)}
    (hM : IsMatching (mWeights (graphEdges bk lib E op odd)) M)
    (hp : (ends2 M).Perm (mNodes bk lib E op odd)) :
    (ends2 (ml.find (mWeights (graphEdges bk lib E op odd)))).Perm (mNodes bk lib E op odd) ∧
    matchWeight (mWeights (graphEdges bk lib E op odd)) (ml.find (mWeights (graphEdges bk lib E op odd))) ≤
      matchWeight (mWeights (graphEdges bk lib E op odd)) M := by
  set W := mWeights (graphEdges bk lib E op odd)
  have h1 := ml.isMatching W
  have h2 := ml.maximum W M hM
  have hl := hp.length_eq
  rw [ends2_length] at hl
  have hsub : (ends2 (ml.find W)).Subperm (mNodes bk lib E op odd) := h1.2.subperm (isMatching_ends hlt h1)
  have hle := hsub.length_le
  rw [ends2_length] at hle
  refine ⟨hsub.perm_of_length_le (by rw [ends2_length]; omega), ml.minimal W M hM (by omega)⟩

end

end Flamingpy.SurfaceCode
