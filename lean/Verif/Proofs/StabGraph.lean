import Verif.Model.StabGraph
import Verif.Proofs.CodeFacts
import Mathlib.Data.List.Nodup
import Mathlib.Data.List.ProdSigma

/-! # The edges of the stabilizer graph -/

namespace Flamingpy.SurfaceCode

open Flamingpy

/-! ### combinations -/

theorem mem_combinations2 {α : Type} (l : List α) (a b : α) (h : (a, b) ∈ combinations2 l) :
    [a, b].Sublist l := by
  induction l with
  | nil => cases h
  | cons c l ih =>
    rw [combinations2, List.mem_append, List.mem_map] at h
    rcases h with ⟨d, hd, he⟩ | h
    · obtain ⟨rfl, rfl⟩ := Prod.mk.inj he
      exact List.Sublist.cons_cons _ (List.singleton_sublist.2 hd)
    · exact (ih h).cons _

theorem combinations2_mem {α : Type} (l : List α) (a b : α) (h : (a, b) ∈ combinations2 l) : a ∈ l ∧ b ∈ l := by
  have := mem_combinations2 l a b h
  exact ⟨this.subset (by simp), this.subset (by simp)⟩

theorem combinations2_of_lt {l : List ℕ} (hl : l.Pairwise (· < ·)) (a b : ℕ) :
    (a, b) ∈ combinations2 l ↔ a ∈ l ∧ b ∈ l ∧ a < b := by
  constructor
  · intro h
    have hs := mem_combinations2 l a b h
    have := hl.sublist hs
    obtain ⟨h1, h2⟩ := combinations2_mem l a b h
    exact ⟨h1, h2, by simpa using this⟩
  · rintro ⟨ha, hb, hab⟩
    induction l with
    | nil => cases ha
    | cons c l ih =>
      rw [List.pairwise_cons] at hl
      rw [combinations2, List.mem_append, List.mem_map]
      rcases List.mem_cons.1 ha with rfl | ha'
      · left
        rcases List.mem_cons.1 hb with rfl | hb'
        · omega
        · exact ⟨b, hb', rfl⟩
      · right
        rcases List.mem_cons.1 hb with rfl | hb'
        · have := hl.1 a ha'; omega
        · exact ih hl.2 ha' hb'

theorem sym_combinations2 {α : Type} {l : List α} (hl : l.Nodup) (a b : α) :
    s(a, b) ∈ (combinations2 l).map (fun p => s(p.1, p.2)) ↔ a ∈ l ∧ b ∈ l ∧ a ≠ b := by
  induction l with
  | nil => simp [combinations2]
  | cons c l ih =>
    rw [List.nodup_cons] at hl
    rw [combinations2, List.map_append, List.mem_append, ih hl.2]
    simp only [List.map_map, List.mem_map, Function.comp, List.mem_cons]
    constructor
    · rintro (⟨d, hd, he⟩ | ⟨h1, h2, h3⟩)
      · rw [Sym2.eq_iff] at he
        rcases he with ⟨rfl, rfl⟩ | ⟨rfl, rfl⟩
        · exact ⟨Or.inl rfl, Or.inr hd, by rintro rfl; exact hl.1 hd⟩
        · exact ⟨Or.inr hd, Or.inl rfl, by rintro rfl; exact hl.1 hd⟩
      · exact ⟨Or.inr h1, Or.inr h2, h3⟩
    · rintro ⟨h1, h2, h3⟩
      rcases h1 with rfl | h1
      · rcases h2 with rfl | h2
        · exact absurd rfl h3
        · exact Or.inl ⟨b, h2, rfl⟩
      · rcases h2 with rfl | h2
        · exact Or.inl ⟨a, h1, Sym2.eq_swap⟩
        · exact Or.inr ⟨h1, h2, h3⟩

theorem sym_combinations2_nodup {α : Type} {l : List α} (hl : l.Nodup) :
    ((combinations2 l).map fun p => s(p.1, p.2)).Nodup := by
  induction l with
  | nil => simp [combinations2]
  | cons c l ih =>
    rw [List.nodup_cons] at hl
    rw [combinations2, List.map_append, List.nodup_append]
    refine ⟨?_, ih hl.2, ?_⟩
    · rw [List.map_map]
      apply hl.2.map_on
      intro a ha b hb hab
      simp only [Function.comp, Sym2.eq_iff] at hab
      rcases hab with ⟨_, h⟩ | ⟨rfl, rfl⟩
      · exact h
      · rfl
    · intro x hx y hy
      rw [List.map_map, List.mem_map] at hx
      obtain ⟨a, _, rfl⟩ := hx
      rintro rfl
      simp only [Function.comp] at hy
      rw [sym_combinations2 hl.2] at hy
      exact hl.1 hy.1

/-! ### Building the graph -/

theorem sgAddEdge_eq (bk : Backend) (G : StabGraph) (u v : SNode) (cv : Option V)
    (h : s(u, v) ∉ PyDict.keys G.edges) :
    sgAddEdge bk G u v cv = ⟨G.nodes, G.stabs, G.lowPts, G.highPts, G.edges ++ [(s(u, v), cv)]⟩ := by
  cases bk
  · unfold sgAddEdge; simp only; rw [PyDict.set_of_not_mem _ h]
  · rfl

theorem sgAddNode_eq (bk : Backend) (G : StabGraph) (n : SNode) (h : n ∉ G.nodes) :
    sgAddNode bk G n = ⟨G.nodes ++ [n], G.stabs, G.lowPts, G.highPts, G.edges⟩ := by
  cases bk
  · unfold sgAddNode; simp only; rw [if_neg h]
  · rfl

theorem foldl_addNode (bk : Backend) (l : List SNode) (G : StabGraph) (h : (G.nodes ++ l).Nodup) :
    l.foldl (sgAddNode bk) G = ⟨G.nodes ++ l, G.stabs, G.lowPts, G.highPts, G.edges⟩ := by
  induction l generalizing G with
  | nil => simp
  | cons n l ih =>
    have hn : n ∉ G.nodes := by
      rw [List.nodup_append] at h
      intro hm
      exact h.2.2 n hm n (by simp) rfl
    rw [List.foldl_cons, sgAddNode_eq bk G n hn, ih]
    · simp
    · simpa using h

/-- Conditional edges, one per list element. -/
theorem foldl_addEdge (bk : Backend) {α : Type} (f : α → Option (SNode × SNode × Option V)) (l : List α)
    (G : StabGraph)
    (h : (PyDict.keys (G.edges ++ l.filterMap fun a => (f a).map fun t => (s(t.1, t.2.1), t.2.2))).Nodup) :
    l.foldl (fun G a => match f a with
      | none => G
      | some t => sgAddEdge bk G t.1 t.2.1 t.2.2) G =
      ⟨G.nodes, G.stabs, G.lowPts, G.highPts,
        G.edges ++ l.filterMap fun a => (f a).map fun t => (s(t.1, t.2.1), t.2.2)⟩ := by
  induction l generalizing G with
  | nil => simp
  | cons a l ih =>
    rw [List.foldl_cons]
    cases hf : f a with
    | none =>
      rw [List.filterMap_cons_none (by rw [hf]; rfl)] at h ⊢
      exact ih G h
    | some t =>
      rw [List.filterMap_cons_some (by rw [hf]; rfl)] at h ⊢
      have hn : s(t.1, t.2.1) ∉ PyDict.keys G.edges := by
        rw [PyDict.keys_append, List.nodup_append] at h
        intro hm
        exact h.2.2 _ hm _ (by simp [PyDict.keys]) rfl
      simp only
      rw [sgAddEdge_eq bk G _ _ _ hn, ih]
      · simp
      · simpa using h

theorem foldl_lowPoint (bk : Backend) (l : List V) (G : StabGraph) (hn : (G.nodes ++ l.map SNode.pt).Nodup)
    (he : (PyDict.keys (G.edges ++ l.map fun p => (s(SNode.low, .pt p), (none : Option V)))).Nodup) :
    l.foldl (addLowPoint bk) G = ⟨G.nodes ++ l.map SNode.pt, G.stabs, G.lowPts ++ l, G.highPts,
      G.edges ++ l.map fun p => (s(SNode.low, .pt p), none)⟩ := by
  induction l generalizing G with
  | nil => simp
  | cons p l ih =>
    have h1 : SNode.pt p ∉ G.nodes := by
      rw [List.nodup_append] at hn
      intro hm
      exact hn.2.2 _ hm _ (by simp) rfl
    have h2 : s(SNode.low, .pt p) ∉ PyDict.keys G.edges := by
      rw [PyDict.keys_append, List.nodup_append] at he
      intro hm
      exact he.2.2 _ hm _ (by simp [PyDict.keys]) rfl
    rw [List.foldl_cons]
    unfold addLowPoint
    rw [sgAddNode_eq _ _ _ (by exact h1), sgAddEdge_eq _ _ _ _ _ (by exact h2)]
    have := ih ⟨G.nodes ++ [SNode.pt p], G.stabs, G.lowPts ++ [p], G.highPts,
      G.edges ++ [(s(SNode.low, .pt p), none)]⟩ (by simpa using hn) (by simpa using he)
    unfold addLowPoint at this
    simp only at this ⊢
    rw [this]
    simp

theorem foldl_highPoint (bk : Backend) (l : List V) (G : StabGraph) (hn : (G.nodes ++ l.map SNode.pt).Nodup)
    (he : (PyDict.keys (G.edges ++ l.map fun p => (s(SNode.high, .pt p), (none : Option V)))).Nodup) :
    l.foldl (addHighPoint bk) G = ⟨G.nodes ++ l.map SNode.pt, G.stabs, G.lowPts, G.highPts ++ l,
      G.edges ++ l.map fun p => (s(SNode.high, .pt p), none)⟩ := by
  induction l generalizing G with
  | nil => simp
  | cons p l ih =>
    have h1 : SNode.pt p ∉ G.nodes := by
      rw [List.nodup_append] at hn
      intro hm
      exact hn.2.2 _ hm _ (by simp) rfl
    have h2 : s(SNode.high, .pt p) ∉ PyDict.keys G.edges := by
      rw [PyDict.keys_append, List.nodup_append] at he
      intro hm
      exact he.2.2 _ hm _ (by simp [PyDict.keys]) rfl
    rw [List.foldl_cons]
    unfold addHighPoint
    rw [sgAddNode_eq _ _ _ (by exact h1), sgAddEdge_eq _ _ _ _ _ (by exact h2)]
    have := ih ⟨G.nodes ++ [SNode.pt p], G.stabs, G.lowPts, G.highPts ++ [p],
      G.edges ++ [(s(SNode.high, .pt p), none)]⟩ (by simpa using hn) (by simpa using he)
    unfold addHighPoint at this
    simp only at this ⊢
    rw [this]
    simp

/-! ### The edge list -/

section
variable (sp : SetPop) (S : List (List V)) (lo hi : List V)

def lowE : List (Sym2 SNode × Option V) := lo.map fun p => (s(SNode.low, .pt p), none)
def highE : List (Sym2 SNode × Option V) := hi.map fun p => (s(SNode.high, .pt p), none)

def stabF (p : ℕ × ℕ) : Option (SNode × SNode × Option V) :=
  if commonVertices (S.getD p.1 []) (S.getD p.2 []) = [] then none
  else some (.stab p.1, .stab p.2, some (sp.pop p.1 p.2 (commonVertices (S.getD p.1 []) (S.getD p.2 []))))

def stabE : List (Sym2 SNode × Option V) :=
  (combinations2 (List.range S.length)).filterMap fun a => (stabF sp S a).map fun t => (s(t.1, t.2.1), t.2.2)

def ptF (e : ℕ × V) : Option (SNode × SNode × Option V) :=
  if e.2 ∈ S.getD e.1 [] then some (.stab e.1, .pt e.2, some e.2) else none

def ptPairs (lo hi : List V) : List (ℕ × V) :=
  (List.range S.length).flatMap fun k => (lo ++ hi).map fun p => (k, p)

def ptE : List (Sym2 SNode × Option V) :=
  (ptPairs S lo hi).filterMap fun a => (ptF S a).map fun t => (s(t.1, t.2.1), t.2.2)

def edgeList : List (Sym2 SNode × Option V) := lowE lo ++ highE hi ++ stabE sp S ++ ptE S lo hi

end

variable {sp : SetPop} {S : List (List V)} {lo hi : List V}

theorem mem_lowE {e : Sym2 SNode × Option V} : e ∈ lowE lo ↔ ∃ p ∈ lo, e = (s(SNode.low, .pt p), none) := by
  unfold lowE; rw [List.mem_map]; simp only [eq_comm]

theorem mem_highE {e : Sym2 SNode × Option V} : e ∈ highE hi ↔ ∃ p ∈ hi, e = (s(SNode.high, .pt p), none) := by
  unfold highE; rw [List.mem_map]; simp only [eq_comm]

theorem range_pairwise (n : ℕ) : (List.range n).Pairwise (· < ·) := List.pairwise_lt_range

theorem mem_stabE {e : Sym2 SNode × Option V} :
    e ∈ stabE sp S ↔ ∃ i j, i < j ∧ j < S.length ∧ commonVertices (S.getD i []) (S.getD j []) ≠ [] ∧
      e = (s(.stab i, .stab j), some (sp.pop i j (commonVertices (S.getD i []) (S.getD j [])))) := by
  unfold stabE stabF
  rw [List.mem_filterMap]
  constructor
  · rintro ⟨⟨i, j⟩, hm, he⟩
    rw [combinations2_of_lt (range_pairwise _), List.mem_range, List.mem_range] at hm
    split_ifs at he with hc
    · simp at he
    · exact ⟨i, j, hm.2.2, hm.2.1, hc, (Option.some.inj he).symm⟩
  · rintro ⟨i, j, hij, hj, hc, rfl⟩
    refine ⟨(i, j), ?_, ?_⟩
    · rw [combinations2_of_lt (range_pairwise _), List.mem_range, List.mem_range]
      exact ⟨by omega, hj, hij⟩
    · rw [if_neg hc]; rfl

theorem mem_ptPairs {e : ℕ × V} : e ∈ ptPairs S lo hi ↔ e.1 < S.length ∧ e.2 ∈ lo ++ hi := by
  unfold ptPairs
  simp only [List.mem_flatMap, List.mem_map, List.mem_range]
  constructor
  · rintro ⟨k, hk, p, hp, rfl⟩; exact ⟨hk, hp⟩
  · rintro ⟨h1, h2⟩; exact ⟨e.1, h1, e.2, h2, rfl⟩

theorem mem_ptE {e : Sym2 SNode × Option V} :
    e ∈ ptE S lo hi ↔ ∃ k p, k < S.length ∧ p ∈ lo ++ hi ∧ p ∈ S.getD k [] ∧
      e = (s(.stab k, .pt p), some p) := by
  unfold ptE ptF
  rw [List.mem_filterMap]
  constructor
  · rintro ⟨⟨k, p⟩, hm, he⟩
    rw [mem_ptPairs] at hm
    split_ifs at he with hc
    · exact ⟨k, p, hm.1, hm.2, hc, (Option.some.inj he).symm⟩
    · simp at he
  · rintro ⟨k, p, h1, h2, h3, rfl⟩
    exact ⟨(k, p), mem_ptPairs.2 ⟨h1, h2⟩, by rw [if_pos h3]; rfl⟩

/-- Keys of a filtered list of pairs. -/
theorem keys_filterMap_nodup {α : Type} (f : α → Option (SNode × SNode × Option V)) (key : α → Sym2 SNode)
    (hk : ∀ a t, f a = some t → s(t.1, t.2.1) = key a) (l : List α) (hl : (l.map key).Nodup) :
    (PyDict.keys (l.filterMap fun a => (f a).map fun t => (s(t.1, t.2.1), t.2.2))).Nodup := by
  have : PyDict.keys (l.filterMap fun a => (f a).map fun t => (s(t.1, t.2.1), t.2.2)) =
      (l.filter fun a => (f a).isSome).map key := by
    clear hl
    induction l with
    | nil => rfl
    | cons a l ih =>
      cases hf : f a with
      | none => rw [List.filterMap_cons_none (by rw [hf]; rfl), List.filter_cons_of_neg (by simp [hf]), ih]
      | some t =>
        rw [List.filterMap_cons_some (by rw [hf]; rfl), List.filter_cons_of_pos (by simp [hf]), List.map_cons, ← ih,
          ← hk a t hf]
        rfl
  rw [this]
  exact hl.sublist (List.filter_sublist.map key)

theorem ptPairs_nodup (hp : (lo ++ hi).Nodup) : (ptPairs S lo hi).Nodup := by
  unfold ptPairs
  rw [List.nodup_flatMap]
  refine ⟨fun k _ => hp.map (fun a b h => (Prod.mk.inj h).2), ?_⟩
  apply List.nodup_range.imp
  intro a b hab
  simp only [Function.onFun]
  intro x hx hy
  rw [List.mem_map] at hx hy
  obtain ⟨_, _, rfl⟩ := hx
  obtain ⟨_, _, h⟩ := hy
  exact hab (Prod.mk.inj h).1.symm

theorem stabE_keys_nodup : (PyDict.keys (stabE sp S)).Nodup := by
  unfold stabE
  apply keys_filterMap_nodup (stabF sp S) (fun p => s(.stab p.1, .stab p.2))
  · intro a t h
    unfold stabF at h
    split_ifs at h
    cases h; rfl
  · have h1 := sym_combinations2_nodup (List.nodup_range (n := S.length))
    have h2 := h1.map (f := Sym2.map SNode.stab) (Sym2.map.injective fun a b h => by cases h; rfl)
    rw [List.map_map] at h2
    exact h2

theorem ptE_keys_nodup (hp : (lo ++ hi).Nodup) : (PyDict.keys (ptE S lo hi)).Nodup := by
  unfold ptE
  apply keys_filterMap_nodup (ptF S) (fun p => s(.stab p.1, .pt p.2))
  · intro a t h
    unfold ptF at h
    split_ifs at h
    cases h; rfl
  · apply (ptPairs_nodup hp).map
    rintro ⟨a, b⟩ ⟨c, d⟩ h
    simp only [Sym2.eq_iff] at h
    rcases h with ⟨h1, h2⟩ | ⟨h1, h2⟩ <;> cases h1 <;> cases h2
    rfl

theorem edgeList_keys_nodup (hp : (lo ++ hi).Nodup) : (PyDict.keys (edgeList sp S lo hi)).Nodup := by
  have hlow : (PyDict.keys (lowE lo)).Nodup := by
    unfold lowE PyDict.keys
    rw [List.map_map]
    apply (List.nodup_append.1 hp).1.map
    intro a b h
    simp only [Function.comp, Sym2.eq_iff] at h
    rcases h with ⟨_, h⟩ | ⟨h, _⟩ <;> cases h
    rfl
  have hhigh : (PyDict.keys (highE hi)).Nodup := by
    unfold highE PyDict.keys
    rw [List.map_map]
    apply (List.nodup_append.1 hp).2.1.map
    intro a b h
    simp only [Function.comp, Sym2.eq_iff] at h
    rcases h with ⟨_, h⟩ | ⟨h, _⟩ <;> cases h
    rfl
  have kl : ∀ k, k ∈ PyDict.keys (lowE lo) → SNode.low ∈ k := by
    intro k hk
    obtain ⟨e, he, rfl⟩ := List.mem_map.1 hk
    obtain ⟨p, _, rfl⟩ := mem_lowE.1 he
    simp
  have kh : ∀ k, k ∈ PyDict.keys (highE hi) → SNode.high ∈ k ∧ SNode.low ∉ k := by
    intro k hk
    obtain ⟨e, he, rfl⟩ := List.mem_map.1 hk
    obtain ⟨p, _, rfl⟩ := mem_highE.1 he
    simp
  have ks : ∀ k, k ∈ PyDict.keys (stabE sp S) → SNode.high ∉ k ∧ SNode.low ∉ k ∧ ∀ p, SNode.pt p ∉ k := by
    intro k hk
    obtain ⟨e, he, rfl⟩ := List.mem_map.1 hk
    obtain ⟨i, j, _, _, _, rfl⟩ := mem_stabE.1 he
    simp
  have kp : ∀ k, k ∈ PyDict.keys (ptE S lo hi) → SNode.high ∉ k ∧ SNode.low ∉ k ∧ ∃ p, SNode.pt p ∈ k := by
    intro k hk
    obtain ⟨e, he, rfl⟩ := List.mem_map.1 hk
    obtain ⟨k, p, _, _, _, rfl⟩ := mem_ptE.1 he
    simp
  unfold edgeList
  simp only [PyDict.keys_append]
  rw [List.nodup_append, List.nodup_append, List.nodup_append]
  refine ⟨⟨⟨hlow, hhigh, ?_⟩, stabE_keys_nodup, ?_⟩, ptE_keys_nodup hp, ?_⟩
  · rintro a ha b hb rfl
    exact (kh a hb).2 (kl a ha)
  · rintro a ha b hb rfl
    rcases List.mem_append.1 ha with ha | ha
    · exact (ks a hb).2.1 (kl a ha)
    · exact (ks a hb).1 (kh a ha).1
  · rintro a ha b hb rfl
    rcases List.mem_append.1 ha with ha | ha
    · rcases List.mem_append.1 ha with ha | ha
      · exact (kp a hb).2.1 (kl a ha)
      · exact (kp a hb).1 (kh a ha).1
    · obtain ⟨p, hp⟩ := (kp a hb).2.2
      exact (ks a ha).2.2 p hp

/-! ### The constructor -/

theorem foldl_stabs_irrel {α : Type} (bk : Backend) (f : StabGraph → α → Option (SNode × SNode × Option V))
    (g : α → Option (SNode × SNode × Option V)) (S : List (List V)) (hfg : ∀ G a, G.stabs = S → f G a = g a)
    (l : List α) (G : StabGraph) (hG : G.stabs = S) :
    l.foldl (fun G a => match f G a with
      | none => G
      | some t => sgAddEdge bk G t.1 t.2.1 t.2.2) G =
    l.foldl (fun G a => match g a with
      | none => G
      | some t => sgAddEdge bk G t.1 t.2.1 t.2.2) G := by
  induction l generalizing G with
  | nil => rfl
  | cons a l ih =>
    rw [List.foldl_cons, List.foldl_cons, hfg G a hG]
    apply ih
    cases g a with
    | none => exact hG
    | some t => cases bk <;> exact hG

theorem connectStabs_eq (bk : Backend) (sp : SetPop) (G : StabGraph)
    (h : (PyDict.keys (G.edges ++ stabE sp G.stabs)).Nodup) :
    connectStabs bk sp G = ⟨G.nodes, G.stabs, G.lowPts, G.highPts, G.edges ++ stabE sp G.stabs⟩ := by
  unfold stabE at h
  have h1 := foldl_addEdge bk (stabF sp G.stabs) _ G h
  rw [← foldl_stabs_irrel bk (fun G a => stabF sp G.stabs a) (stabF sp G.stabs) G.stabs
    (fun G' a hG => by rw [hG]) _ G rfl] at h1
  unfold stabE
  rw [← h1]
  unfold connectStabs StabGraph.coords
  congr 1
  funext G' p
  unfold stabF
  simp only
  by_cases hc : commonVertices (G'.stabs.getD p.1 []) (G'.stabs.getD p.2 []) = []
  · rw [if_pos hc, if_pos hc]
  · rw [if_neg hc, if_neg hc]

theorem connectPoints_eq (bk : Backend) (G : StabGraph)
    (h : (PyDict.keys (G.edges ++ ptE G.stabs G.lowPts G.highPts)).Nodup) :
    connectPoints bk G = ⟨G.nodes, G.stabs, G.lowPts, G.highPts, G.edges ++ ptE G.stabs G.lowPts G.highPts⟩ := by
  unfold ptE at h
  have h1 := foldl_addEdge bk (ptF G.stabs) _ G h
  rw [← foldl_stabs_irrel bk (fun G a => ptF G.stabs a) (ptF G.stabs) G.stabs
    (fun G' a hG => by rw [hG]) _ G rfl] at h1
  unfold ptE
  rw [← h1]
  unfold connectPoints StabGraph.coords ptPairs
  congr 1
  funext G' p
  unfold ptF
  by_cases hc : p.2 ∈ G'.stabs.getD p.1 []
  · rw [if_pos hc, if_pos hc]
  · rw [if_neg hc, if_neg hc]

/-- The stabilizer graph, for both backends. -/
theorem stabGraph_eq (bk : Backend) (sp : SetPop) (code : Code) (hb : code.boundPoints.Nodup) :
    stabGraph bk sp code =
      ⟨[SNode.low, .high] ++ (List.range code.stabs.length).map SNode.stab ++ code.boundPoints.map SNode.pt,
        code.stabs, code.boundPoints.take (code.boundPoints.length / 2),
        code.boundPoints.drop (code.boundPoints.length / 2),
        edgeList sp code.stabs (code.boundPoints.take (code.boundPoints.length / 2))
          (code.boundPoints.drop (code.boundPoints.length / 2))⟩ := by
  set lo := code.boundPoints.take (code.boundPoints.length / 2) with hlo
  set hi := code.boundPoints.drop (code.boundPoints.length / 2) with hhi
  have happ : lo ++ hi = code.boundPoints := List.take_append_drop _ _
  have hnd : (lo ++ hi).Nodup := by rw [happ]; exact hb
  have hE := edgeList_keys_nodup (sp := sp) (S := code.stabs) hnd
  have hN : ([SNode.low, .high] ++ (List.range code.stabs.length).map SNode.stab ++ lo.map SNode.pt ++
      hi.map SNode.pt).Nodup := by
    rw [List.append_assoc, ← List.map_append]
    rw [List.nodup_append]
    refine ⟨?_, hnd.map fun a b h => by cases h; rfl, ?_⟩
    · rw [List.nodup_append]
      refine ⟨by simp, List.nodup_range.map fun a b h => by cases h; rfl, ?_⟩
      rintro a ha b hb rfl
      rw [List.mem_map] at hb
      obtain ⟨k, _, rfl⟩ := hb
      simp at ha
    · rintro a ha b hb rfl
      rw [List.mem_map] at hb
      obtain ⟨k, _, rfl⟩ := hb
      simp at ha
  unfold stabGraph
  simp only
  rw [← hlo, ← hhi]
  rw [sgAddNode_eq bk _ .low (by simp)]
  rw [sgAddNode_eq bk _ .high (by simp)]
  have hfold : ∀ G : StabGraph, (List.range code.stabs.length).foldl (fun G k => sgAddNode bk G (.stab k)) G =
      ((List.range code.stabs.length).map SNode.stab).foldl (sgAddNode bk) G := by
    intro G; rw [List.foldl_map]
  rw [hfold, foldl_addNode bk _ _ ?_, foldl_lowPoint bk _ _ ?_ ?_, foldl_highPoint bk _ _ ?_ ?_,
    connectStabs_eq bk sp _ ?_, connectPoints_eq bk _ ?_]
  · simp only [StabGraph.mk.injEq]
    refine ⟨?_, trivial, by simp, by simp, ?_⟩
    · rw [← happ]; simp
    · unfold edgeList lowE highE; simp
  · simp only [List.nil_append]
    exact hE
  · simp only [List.nil_append]
    refine hE.sublist (List.Sublist.map _ ?_)
    exact List.sublist_append_left _ _
  · exact hN.sublist (by simp)
  · simp only [List.nil_append]
    refine hE.sublist (List.Sublist.map _ ?_)
    unfold edgeList
    rw [List.append_assoc]
    exact List.sublist_append_left _ _
  · exact hN.sublist (by simp)
  · simp only [List.nil_append]
    refine hE.sublist (List.Sublist.map _ ?_)
    unfold edgeList
    rw [List.append_assoc, List.append_assoc]
    exact List.sublist_append_left _ _
  · refine hN.sublist ?_
    simp

end Flamingpy.SurfaceCode
