import Verif.Proofs.UfHeap

/-! # Histories of `union` and `find_root` -/

namespace Flamingpy.UnionFind

open Flamingpy

variable {N : Type} [DecidableEq N]

/-- Operations on the cluster trees. -/
inductive Op (N : Type) where
  | find (v : N)
  | join (u v : N)

/-- `v.find_root()`, or `union(u.find_root(), v.find_root())`. -/
def Op.run (h : Heap N) : Op N → Option (Heap N)
  | .find v => (findRoot h v).map (·.1)
  | .join u v => do
    let (h, r) ← findRoot h u
    let (h, s) ← findRoot h v
    let r ← r
    let s ← s
    pure (union h r s).1

/-- `Node(v)`, then `Root(v, parity)` for every node. -/
def startHeap (ns : List N) (p : N → Option Bool) : Heap N :=
  ns.foldl (fun h v => mkRoot h v (p v)) (newNodes ns)

/-- The nodes named in an operation. -/
def Op.nodes : Op N → List N
  | .find v => [v]
  | .join u v => [u, v]

/-- The pairs of nodes joined by a history. -/
def joins (ops : List (Op N)) : List (Sym2 N) := ops.filterMap fun o => match o with
  | .find _ => none
  | .join u v => some s(u, v)

theorem start_inv (ns : List N) (p : N → Option Bool) (hn : ns.Nodup) :
    ∃ rep dep, HInv ns p (startHeap ns p) rep dep ∧ ∀ v ∈ ns, rep v = v := by
  have key : ∀ (l done : List N) (h : Heap N) (rep : N → N) (dep : N → ℕ), (done ++ l).Nodup →
      (done ++ l).length ≤ h.nodes.length →
      HInv done p h rep dep → (∀ v ∈ done, rep v = v) →
      ∃ rep' dep', HInv (done ++ l) p (l.foldl (fun h v => mkRoot h v (p v)) h) rep' dep' ∧ ∀ v ∈ done ++ l, rep' v = v := by
    intro l
    induction l with
    | nil => intro done h rep dep _ _ H hr; exact ⟨rep, dep, by simpa using H, by simpa using hr⟩
    | cons a l ih =>
      intro done h rep dep hnd hlen H hr
      have ha : a ∉ done := fun hm => by
        rw [List.nodup_append] at hnd
        exact hnd.2.2 a hm a (by simp) rfl
      have H' := H.mkRoot (v := a) ha (by simp only [List.length_append, List.length_cons] at hlen; omega)
      have := ih (done ++ [a]) (mkRoot h a (p a)) _ _ (by simpa using hnd) (by simpa [UnionFind.mkRoot] using hlen) H'
        (fun v hv => by
          rcases List.mem_append.1 hv with hv1 | hv1
          · rw [Function.update_of_ne (by rintro rfl; exact ha hv1), hr v hv1]
          · rw [List.mem_singleton.1 hv1, Function.update_self])
      simpa using this
  have := key ns [] (newNodes ns) id (fun _ => 0) (by simpa using hn) (by simp [newNodes]) (HInv.new ns p) (by simp)
  simpa [startHeap] using this

/-- The invariant of a history. -/
theorem hist_inv (ns : List N) (p : N → Option Bool) (ops : List (Op N)) (hops : ∀ o ∈ ops, ∀ v ∈ o.nodes, v ∈ ns)
    (h : Heap N) (rep : N → N) (dep : N → ℕ) (H : HInv ns p h rep dep) (done : List (Sym2 N))
    (hrep : ∀ u ∈ ns, ∀ v ∈ ns, rep u = rep v ↔ Conn done u v) :
    ∃ h' rep' dep', ops.foldlM Op.run h = some h' ∧ HInv ns p h' rep' dep' ∧
      ∀ u ∈ ns, ∀ v ∈ ns, rep' u = rep' v ↔ Conn (joins ops ++ done) u v := by
  induction ops generalizing h rep dep done with
  | nil => exact ⟨h, rep, dep, rfl, H, by simpa [joins] using hrep⟩
  | cons o ops ih =>
    have hops' : ∀ o ∈ ops, ∀ v ∈ o.nodes, v ∈ ns := fun o ho => hops o (by simp [ho])
    have ho := hops o (by simp)
    rw [List.foldlM_cons]
    cases o with
    | find v =>
      obtain ⟨h1, e1, H1, _⟩ := H.findRoot (ho v (by simp [Op.nodes]))
      simp only [Op.run, e1, Option.map_some, Option.bind_eq_bind, Option.bind_some]
      obtain ⟨h', rep', dep', r1, r2, r3⟩ := ih hops' h1 rep dep H1 done hrep
      exact ⟨h', rep', dep', r1, r2, by simpa [joins] using r3⟩
    | join a b =>
      have ha := ho a (by simp [Op.nodes])
      have hb := ho b (by simp [Op.nodes])
      obtain ⟨h1, e1, H1, _⟩ := H.findRoot ha
      obtain ⟨h2, e2, H2, _⟩ := H1.findRoot hb
      simp only [Op.run, e1, e2, Option.bind_eq_bind, Option.bind_some]
      have hmono : ∀ {u v}, Conn done u v → Conn (s(a, b) :: done) u v := fun h => h.mono fun _ h => List.mem_cons_of_mem _ h
      have hfin : ∀ (h3 : Heap N) (rep3 : N → N) (dep3 : N → ℕ), HInv ns p h3 rep3 dep3 →
          (∀ u ∈ ns, ∀ v ∈ ns, rep3 u = rep3 v ↔ Conn (s(a, b) :: done) u v) →
          ∃ h' rep' dep', ops.foldlM Op.run h3 = some h' ∧ HInv ns p h' rep' dep' ∧
            ∀ u ∈ ns, ∀ v ∈ ns, rep' u = rep' v ↔ Conn (joins (Op.join a b :: ops) ++ done) u v := by
        intro h3 rep3 dep3 H3 hr3
        obtain ⟨h', rep', dep', r1, r2, r3⟩ := ih hops' h3 rep3 dep3 H3 _ hr3
        refine ⟨h', rep', dep', r1, r2, fun u hu v hv => (r3 u hu v hv).trans ?_⟩
        constructor <;> intro hc <;> refine hc.mono fun x hx => ?_ <;>
          simp only [joins, List.filterMap_cons, List.mem_append, List.mem_cons] at hx ⊢ <;> tauto
      by_cases hab : rep a = rep b
      · have : (UnionFind.union h2 (rep a) (rep b)).1 = h2 := by
          unfold UnionFind.union; rw [if_neg (by simpa using hab)]
        rw [this]
        refine hfin h2 rep dep H2 fun u hu v hv => (hrep u hu v hv).trans ⟨hmono, fun hc => ?_⟩
        have hcab := (hrep a ha b hb).1 hab
        rcases Conn.cons hc with h | ⟨h1, h2⟩ | ⟨h1, h2⟩
        · exact h
        · exact h1.trans (hcab.trans h2)
        · exact h1.trans (hcab.symm.trans h2)
      · obtain ⟨big, small, h3, e3, _, hcase, _, _, _, H3⟩ := H2.union (H.rep_mem a ha) (H.rep_mem b hb)
          (H.rep_rep a ha) (H.rep_rep b hb) hab
        rw [e3]
        refine hfin h3 _ _ H3 fun u hu v hv => ?_
        rw [joinRep_eq rep hab (by tauto)]
        rw [hrep u hu v hv, hrep u hu a ha, hrep v hv b hb, hrep u hu b hb, hrep v hv a ha]
        constructor
        · have hedge : Conn (s(a, b) :: done) a b := Conn.edge (by simp)
          rintro (h | ⟨h1, h2⟩ | ⟨h1, h2⟩)
          · exact hmono h
          · exact (hmono h1).trans (hedge.trans (hmono h2.symm))
          · exact (hmono h1).trans (hedge.symm.trans (hmono h2.symm))
        · intro hc
          rcases Conn.cons hc with h | ⟨h1, h2⟩ | ⟨h1, h2⟩
          · exact Or.inl h
          · exact Or.inr (Or.inl ⟨h1, h2.symm⟩)
          · exact Or.inr (Or.inr ⟨h1, h2.symm⟩)

theorem ncard_countP {ns : List N} (hn : ns.Nodup) (P : N → Prop) [DecidablePred P] :
    {v | v ∈ ns ∧ P v}.ncard = ns.countP fun v => decide (P v) := by
  have : {v | v ∈ ns ∧ P v} = ↑(ns.filter fun v => decide (P v)).toFinset := by ext v; simp
  rw [this, Set.ncard_coe_finset, List.toFinset_card_of_nodup (hn.filter _), List.countP_eq_length_filter]

end Flamingpy.UnionFind
