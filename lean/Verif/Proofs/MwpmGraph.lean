import Verif.Proofs.MwpmWalk
import Verif.Proofs.StabGraph
import Verif.Proofs.PyDict
import Mathlib.Data.List.Nodup

/-!
# The matching graph as a list of edges
-/

namespace Flamingpy.SurfaceCode

open Flamingpy

theorem foldlM_some {α β : Type} {f : β → α → Option β} {g : β → α → β} (l : List α)
    (h : ∀ s, ∀ a ∈ l, f s a = some (g s a)) (s : β) : l.foldlM f s = some (l.foldl g s) := by
  induction l generalizing s with
  | nil => rfl
  | cons a l ih =>
    rw [List.foldlM_cons, h s a (by simp), List.foldl_cons]
    exact ih (fun s a ha => h s a (by simp [ha])) _

section
variable (bk : Backend) (lib : PathLib) (E : List (Sym2 SNode × ℚ))

/-- The path between two odd stabilizers. -/
def realPath (a b : ℕ) : List SNode := (lib.find (withoutConnectors E) (.stab a) (.stab b)).getD []

def lowPath (k : ℕ) : List SNode := (lib.find E .low (.stab k)).getD []

def highPath (k : ℕ) : List SNode := (lib.find E .high (.stab k)).getD []

def boundLen (k : ℕ) : ℚ :=
  if pathLength bk E (lowPath lib E k) ≤ pathLength bk E (highPath lib E k) then pathLength bk E (lowPath lib E k)
  else pathLength bk E (highPath lib E k)

def fullPath (k : ℕ) : List SNode :=
  if pathLength bk E (lowPath lib E k) ≤ pathLength bk E (highPath lib E k) then lowPath lib E k
  else highPath lib E k

def boundPoint (k : ℕ) : SNode := (fullPath bk lib E k)[1]?.getD .low

def realEntry (p : ℕ × ℕ) : Sym2 MNode × (ℚ × List SNode) :=
  (s(.stab p.1, .stab p.2), (pathLength bk E (realPath lib E p.1 p.2), realPath lib E p.1 p.2))

def virtNode (e : ℕ × ℕ) : MNode := .virt (boundPoint bk lib E e.1) e.2

def virtEntry (e : ℕ × ℕ) : Sym2 MNode × (ℚ × List SNode) :=
  (s(.stab e.1, virtNode bk lib E e), (boundLen bk lib E e.1, (fullPath bk lib E e.1).tail))

def zeroEntry (e : MNode × MNode) : Sym2 MNode × (ℚ × List SNode) := (s(e.1, e.2), (0, []))

def virtuals (op : Bool) (odd : List ℕ) : List MNode := if op then odd.zipIdx.map (virtNode bk lib E) else []

def graphEdges (op : Bool) (odd : List ℕ) : List (Sym2 MNode × (ℚ × List SNode)) :=
  (combinations2 odd).map (realEntry bk lib E) ++
    if op then odd.zipIdx.map (virtEntry bk lib E) ++ (combinations2 (virtuals bk lib E true odd)).map zeroEntry else []

variable {bk lib E}

theorem virtuals_nodup (op : Bool) (odd : List ℕ) : (virtuals bk lib E op odd).Nodup := by
  unfold virtuals
  split
  · have h2 : ((odd.zipIdx.map (virtNode bk lib E)).map fun m => match m with
        | .virt _ i => i
        | .stab k => k) = List.range odd.length := by
      rw [List.map_map]
      have : ((fun m => match m with
        | MNode.virt _ i => i
        | MNode.stab k => k) ∘ virtNode bk lib E) = Prod.snd := by funext e; rfl
      rw [this, List.zipIdx_map_snd, List.range_eq_range']
    have h3 : (List.range odd.length).Nodup := List.nodup_range
    rw [← h2] at h3
    exact h3.of_map _
  · exact List.nodup_nil

theorem keys_graphEdges (op : Bool) (odd : List ℕ) : PyDict.keys (graphEdges bk lib E op odd) =
    (combinations2 odd).map (fun p => s(MNode.stab p.1, MNode.stab p.2)) ++
      if op then odd.zipIdx.map (fun e => s(MNode.stab e.1, virtNode bk lib E e)) ++
        (combinations2 (virtuals bk lib E true odd)).map (fun p => s(p.1, p.2)) else [] := by
  unfold graphEdges PyDict.keys
  cases op <;> simp only [List.map_append, List.map_map, if_true, Bool.false_eq_true, if_false] <;> rfl

theorem mem_virtuals {op : Bool} {odd : List ℕ} {m : MNode} (h : m ∈ virtuals bk lib E op odd) :
    ∃ p i, m = .virt p i := by
  unfold virtuals at h
  split at h
  · obtain ⟨e, _, rfl⟩ := List.mem_map.1 h
    exact ⟨_, _, rfl⟩
  · simp at h

theorem combinations2_map {α β : Type} (f : α → β) (l : List α) :
    combinations2 (l.map f) = (combinations2 l).map fun p => (f p.1, f p.2) := by
  induction l with
  | nil => rfl
  | cons a l ih =>
    rw [List.map_cons, combinations2, combinations2, ih, List.map_append, List.map_map, List.map_map]
    rfl

theorem keys_graphEdges_nodup (op : Bool) {odd : List ℕ} (ho : odd.Nodup) :
    (PyDict.keys (graphEdges bk lib E op odd)).Nodup := by
  rw [keys_graphEdges]
  have hreal : ((combinations2 odd).map (fun p => s(MNode.stab p.1, MNode.stab p.2))).Nodup := by
    have := sym_combinations2_nodup (ho.map (f := MNode.stab) fun a b h => by cases h; rfl)
    rw [combinations2_map, List.map_map] at this
    exact this
  cases op with
  | false => simpa using hreal
  | true =>
    simp only [if_true]
    rw [List.nodup_append]
    refine ⟨hreal, ?_, ?_⟩
    · rw [List.nodup_append]
      refine ⟨?_, sym_combinations2_nodup (virtuals_nodup true odd), ?_⟩
      · have hz : odd.zipIdx.Nodup := by
          have := ho
          rw [← List.zipIdx_map_fst 0 odd] at this
          exact this.of_map _
        apply hz.map_on
        intro x hx y hy h
        rw [Sym2.eq_iff] at h
        rcases h with ⟨h1, h2⟩ | ⟨h1, _⟩
        · have e1 := MNode.stab.inj h1
          have e2 := (MNode.virt.inj h2).2
          exact Prod.ext e1 e2
        · simp [virtNode] at h1
      · intro a ha b hb hab
        subst hab
        obtain ⟨e, _, rfl⟩ := List.mem_map.1 ha
        rw [sym_combinations2 (virtuals_nodup true odd)] at hb
        obtain ⟨p, i, hp⟩ := mem_virtuals hb.1
        cases hp
    · intro a ha b hb hab
      subst hab
      obtain ⟨p, _, rfl⟩ := List.mem_map.1 ha
      rw [List.mem_append] at hb
      rcases hb with hb | hb
      · obtain ⟨e, _, he⟩ := List.mem_map.1 hb
        rw [Sym2.eq_iff] at he
        rcases he with ⟨_, h⟩ | ⟨_, h⟩ <;> simp [virtNode] at h
      · rw [sym_combinations2 (virtuals_nodup true odd)] at hb
        obtain ⟨p, i, hp⟩ := mem_virtuals hb.1
        cases hp

theorem foldl_mgAddEdge {α : Type} (u v : α → MNode) (q : α → ℚ × List SNode) (l : List α) (G : MatchGraph)
    (h : (PyDict.keys (G.edges ++ l.map fun a => (s(u a, v a), q a))).Nodup) :
    l.foldl (fun G a => mgAddEdge G (u a) (v a) (q a).1 (q a).2) G =
      ⟨G.edges ++ l.map fun a => (s(u a, v a), q a), G.virtuals⟩ := by
  induction l generalizing G with
  | nil => simp
  | cons a l ih =>
    have hn : s(u a, v a) ∉ PyDict.keys G.edges := by
      rw [PyDict.keys_append, List.nodup_append] at h
      intro hm
      exact h.2.2 _ hm _ (by simp [PyDict.keys]) rfl
    rw [List.foldl_cons]
    have e : mgAddEdge G (u a) (v a) (q a).1 (q a).2 = ⟨G.edges ++ [(s(u a, v a), q a)], G.virtuals⟩ := by
      unfold mgAddEdge
      rw [PyDict.set_of_not_mem _ hn]
    rw [e, ih]
    · simp
    · simpa using h

theorem foldl_virtual {α : Type} (u v : α → MNode) (q : α → ℚ × List SNode) (l : List α) (G : MatchGraph)
    (h : (PyDict.keys (G.edges ++ l.map fun a => (s(u a, v a), q a))).Nodup) :
    l.foldl (fun G a => (⟨(mgAddEdge G (u a) (v a) (q a).1 (q a).2).edges, G.virtuals ++ [v a]⟩ : MatchGraph)) G =
      ⟨G.edges ++ l.map fun a => (s(u a, v a), q a), G.virtuals ++ l.map v⟩ := by
  induction l generalizing G with
  | nil => simp
  | cons a l ih =>
    have hn : s(u a, v a) ∉ PyDict.keys G.edges := by
      rw [PyDict.keys_append, List.nodup_append] at h
      intro hm
      exact h.2.2 _ hm _ (by simp [PyDict.keys]) rfl
    rw [List.foldl_cons]
    have e : (mgAddEdge G (u a) (v a) (q a).1 (q a).2).edges = G.edges ++ [(s(u a, v a), q a)] := by
      unfold mgAddEdge
      rw [PyDict.set_of_not_mem _ hn]
    rw [e, ih]
    · simp
    · simpa using h

/-- The matching graph, if all the paths exist. -/
theorem matchGraph_eq {SG : StabGraph} {w : V → ℚ} {bits : V → Bool} {odd : List ℕ} (hodd : oddStabs SG bits = odd)
    (hE : weightedEdges SG w = E) {op : Bool} (hop : (SG.lowPts ≠ [] ∨ SG.highPts ≠ []) ↔ op = true)
    (hlt : odd.Pairwise (· < ·))
    (hreal : ∀ a ∈ odd, ∀ b ∈ odd, a < b → (lib.find (withoutConnectors E) (.stab a) (.stab b)).isSome)
    (hlow : op = true → ∀ k ∈ odd, (lib.find E .low (.stab k)).isSome)
    (hhigh : op = true → ∀ k ∈ odd, (lib.find E .high (.stab k)).isSome)
    (hpt : op = true → ∀ k ∈ odd, ((fullPath bk lib E k)[1]?).isSome) :
    matchGraph bk lib SG w bits = some ⟨graphEdges bk lib E op odd, virtuals bk lib E op odd⟩ := by
  unfold matchGraph
  simp only [hodd, hE]
  have hnd := hlt.imp (fun {a b} h => Nat.ne_of_lt h)
  by_cases hnil : odd = []
  · subst hnil
    simp only [if_true]
    cases op <;> rfl
  rw [if_neg hnil]
  have hkeys := keys_graphEdges_nodup (bk := bk) (lib := lib) (E := E) op hnd
  have e1 : realEdges bk lib E odd ⟨[], []⟩ = some ⟨(combinations2 odd).map (realEntry bk lib E), []⟩ := by
    unfold realEdges
    rw [foldlM_some (g := fun G p => mgAddEdge G (.stab p.1) (.stab p.2) (pathLength bk E (realPath lib E p.1 p.2))
      (realPath lib E p.1 p.2))]
    · rw [foldl_mgAddEdge (fun p : ℕ × ℕ => MNode.stab p.1) (fun p => MNode.stab p.2)
        (fun p => (pathLength bk E (realPath lib E p.1 p.2), realPath lib E p.1 p.2))]
      · simp only [List.nil_append]
        rfl
      · simp only [List.nil_append]
        unfold graphEdges at hkeys
        rw [PyDict.keys_append, List.nodup_append] at hkeys
        exact hkeys.1
    · rintro G ⟨a, b⟩ hp
      obtain ⟨ha, hb, hab⟩ := (combinations2_of_lt hlt a b).1 hp
      obtain ⟨path, hpath⟩ := Option.isSome_iff_exists.1 (hreal a ha b hb hab)
      simp only [hpath, realPath, Option.getD_some]
      rfl
  rw [e1]
  simp only [Option.bind_eq_bind, Option.bind_some]
  cases op with
  | false =>
    rw [if_neg (by rw [hop]; simp)]
    simp [graphEdges, virtuals]
  | true =>
    rw [if_pos (by rw [hop])]
    unfold virtualEdges
    have e2 : odd.zipIdx.foldlM (virtualStep bk lib E) ⟨(combinations2 odd).map (realEntry bk lib E), []⟩ =
        some ⟨(combinations2 odd).map (realEntry bk lib E) ++ odd.zipIdx.map (virtEntry bk lib E),
          virtuals bk lib E true odd⟩ := by
      rw [foldlM_some (g := fun G e => (⟨(mgAddEdge G (.stab e.1) (virtNode bk lib E e) (boundLen bk lib E e.1)
        (fullPath bk lib E e.1).tail).edges, G.virtuals ++ [virtNode bk lib E e]⟩ : MatchGraph))]
      · rw [foldl_virtual (fun e : ℕ × ℕ => MNode.stab e.1) (fun e => virtNode bk lib E e)
          (fun e => (boundLen bk lib E e.1, (fullPath bk lib E e.1).tail))]
        · rfl
        · unfold graphEdges at hkeys
          simp only [if_true] at hkeys
          rw [← List.append_assoc, PyDict.keys_append, List.nodup_append] at hkeys
          exact hkeys.1
      · rintro G ⟨k, i⟩ he
        have hk : k ∈ odd := by
          have : k ∈ odd.zipIdx.map Prod.fst := List.mem_map.2 ⟨_, he, rfl⟩
          rwa [List.zipIdx_map_fst] at this
        obtain ⟨lp, hlp⟩ := Option.isSome_iff_exists.1 (hlow rfl k hk)
        obtain ⟨hp, hhp⟩ := Option.isSome_iff_exists.1 (hhigh rfl k hk)
        obtain ⟨pt, hpt'⟩ := Option.isSome_iff_exists.1 (hpt rfl k hk)
        have hfull : (if pathLength bk E lp ≤ pathLength bk E hp then lp else hp) = fullPath bk lib E k := by
          simp only [fullPath, lowPath, highPath, hlp, hhp, Option.getD_some]
        have hlen : (if pathLength bk E lp ≤ pathLength bk E hp then pathLength bk E lp else pathLength bk E hp) =
            boundLen bk lib E k := by
          simp only [boundLen, lowPath, highPath, hlp, hhp, Option.getD_some]
        unfold virtualStep
        simp only [hlp, hhp, Option.bind_eq_bind, Option.bind_some]
        rw [hfull, hlen, hpt']
        simp only [Option.bind_some, virtNode, boundPoint, hpt', Option.getD_some]
        rfl
    rw [e2]
    simp only [Option.bind_eq_bind, Option.bind_some]
    have e3 := foldl_mgAddEdge (fun p : MNode × MNode => p.1) (fun p => p.2) (fun _ => ((0 : ℚ), ([] : List SNode)))
      (combinations2 (virtuals bk lib E true odd))
      ⟨(combinations2 odd).map (realEntry bk lib E) ++ odd.zipIdx.map (virtEntry bk lib E), virtuals bk lib E true odd⟩
      (by
        unfold graphEdges at hkeys
        simp only [if_true] at hkeys
        rw [← List.append_assoc] at hkeys
        exact hkeys)
    simp only at e3
    rw [e3]
    simp only [graphEdges, if_true, List.append_assoc]
    rfl

end

end Flamingpy.SurfaceCode
