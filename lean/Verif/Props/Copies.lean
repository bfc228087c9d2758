import Verif.Model.Copies
import Verif.Props.EGraph

/-!
# C94: copies of graphs
-/

namespace Flamingpy.EGraph

/-! ### Specification -/

/-- The methods that a history calls on object `i`, in order. -/
def opsOn (i : ℕ) (ops : List WOp) : List Op := ops.filterMap fun
  | .on j op => if j = i then some op else none
  | _ => none

/-- No two objects have the same dictionary of macronodes. -/
def Separate (w : World) : Prop :=
  ∀ (i j : ℕ) (o p : Obj) (r : ℕ), w.objs[i]? = some o → w.objs[j]? = some p → i ≠ j → o.macroRef = some r → p.macroRef ≠ some r

/-- The operation does not make a macronode graph out of an existing object. -/
def NotShared : WOp → Prop
  | .construct _ true => False
  | _ => True

/-- The state of object `i`. -/
def state (w : World) (i : ℕ) : Option EG := (w.objs[i]?).map (view w)

/-! ### Proofs -/

theorem step_macro (g : EG) (op : Op) : (step g op).2.macroToMicro.isSome = g.macroToMicro.isSome := by
  have hidx : ∀ g : EG, (indexGenerator g).2.macroToMicro.isSome = g.macroToMicro.isSome := fun g => by rw [indexGenerator_macro]
  have hrec : ∀ (g : EG) p m, (recordMicro g p m).macroToMicro.isSome = g.macroToMicro.isSome := by
    intro g p m
    unfold recordMicro
    split_ifs
    · cases h : g.macroToMicro <;> simp [h]
    · rfl
  have hedge : ∀ (g : EG) u v, (addEdge g u v).macroToMicro = g.macroToMicro := by
    intro g u v
    unfold addEdge addNode
    dsimp only
    split_ifs <;> rfl
  have hedges : ∀ (l : List Pt) (g : EG) p, (addEdges g p l).macroToMicro = g.macroToMicro := by
    intro l
    induction l with
    | nil => exact fun _ _ => rfl
    | cons a l ih =>
      intro g p
      unfold addEdges at ih ⊢
      rw [List.foldl_cons, ih, hedge]
  have hnode : ∀ (g : EG) p, (addNode g p).macroToMicro = g.macroToMicro := by
    intro g p
    unfold addNode
    split_ifs <;> rfl
  have hupd : ∀ (g : EG) p m, (updateAttributes g p m).2.macroToMicro.isSome = g.macroToMicro.isSome := by
    intro g p m
    unfold updateAttributes
    dsimp only
    split
    · exact hrec _ _ _
    · split
      · exact hrec _ _ _
      · exact hrec _ _ _
  have hnb : ∀ (g : EG) p nb, (addNeighbors g p nb).2.macroToMicro.isSome = g.macroToMicro.isSome := by
    intro g p nb
    unfold addNeighbors
    split
    · rfl
    · rfl
    · rfl
    · dsimp only
      have h1 : (match g.toPoints with
        | some _ => ((.ok (), g) : Except PyErr Unit × EG)
        | none => match indexGenerator g with
          | (.ok _, g) => (.ok (), g)
          | (.error e, g) => (.error e, g)).2.macroToMicro.isSome = g.macroToMicro.isSome := by
        split
        · rfl
        · have := hidx g
          split <;> (rename_i h; rw [h] at this; exact this)
      split
      · rename_i h
        exact (congrArg (fun r : Except PyErr Unit × EG => r.2.macroToMicro.isSome) h).symm.trans h1
      · rename_i h
        have h2 := (congrArg (fun r : Except PyErr Unit × EG => r.2.macroToMicro.isSome) h).symm.trans h1
        split
        · rw [hedges]
          exact h2
        · exact h2
    · rw [hedges]
    · rfl
  cases op with
  | addQubit q nb m =>
    unfold step addQubit
    dsimp only
    split
    · rfl
    · split_ifs
      · rfl
      · rename_i p _ _
        have h1 := hupd (addNode g p) p m
        rw [hnode] at h1
        split
        · rename_i h
          rw [h] at h1
          exact h1
        · rename_i g1 h
          rw [h] at h1
          have h2 := hnb g1 p nb
          rw [h1] at h2
          split
          · rename_i h
            rw [h] at h2
            exact h2
          · rename_i h
            rw [h] at h2
            exact h2
  | removeQubit a =>
    have hfin : ∀ (g : EG) p, (finishRemove g p).macroToMicro.isSome = g.macroToMicro.isSome := fun g p => by simp [finishRemove]
    unfold step removeQubit
    dsimp only
    split
    · split
      · split_ifs
        · rw [hfin]; rfl
        · rfl
      · rfl
    · split
      · rfl
      · split_ifs
        · split
          · rfl
          · rw [hfin]; rfl
        · rfl
  | indexGenerator =>
    have := hidx g
    unfold step
    dsimp only
    split <;> (rename_i h; rw [h] at this; exact this)
  | adjGenerator =>
    have h1 := adjGenerator_macro g
    unfold step
    dsimp only
    split <;> (rename_i h; rw [h] at h1; rw [h1])

theorem opsOn_cons (i : ℕ) (op : WOp) (ops : List WOp) : opsOn i (op :: ops) = opsOn i [op] ++ opsOn i ops := by
  unfold opsOn
  rw [← List.filterMap_append]
  rfl

theorem view_append (w : World) (o : Obj) (os : List Obj) : view ⟨os, w.dicts⟩ o = view w o := rfl

theorem Separate.stepW {w : World} (h : Separate w) {op : WOp} (hn : NotShared op) : Separate (stepW w op) := by
  have happ : ∀ o, Separate ⟨w.objs ++ [init o false], w.dicts⟩ := by
    intro o i j a b r ha hb hij hr hr'
    simp only at ha hb
    rw [List.getElem?_append] at ha hb
    split_ifs at ha hb with h1 h2
    · exact h i j a b r ha hb hij hr hr'
    · have := List.mem_of_getElem? hb
      rw [List.mem_singleton] at this
      subst this
      cases hr'
    · have := List.mem_of_getElem? ha
      rw [List.mem_singleton] at this
      subst this
      cases hr
    · have := List.mem_of_getElem? ha
      rw [List.mem_singleton] at this
      subst this
      cases hr
  cases op with
  | on k op =>
    unfold EGraph.stepW
    dsimp only
    cases hk : w.objs[k]? with
    | none => exact h
    | some o =>
      intro i j a b r ha hb hij hr hr'
      simp only at ha hb
      rw [List.getElem?_set] at ha hb
      have hk' := (List.getElem?_eq_some_iff.1 hk).1
      have hlook : ∀ (i : ℕ) (a : Obj), (if k = i then if k < w.objs.length then
          some (⟨{ (step (view w o) op).2 with macroToMicro := none }, o.macroRef, o.graphDict⟩ : Obj) else none else w.objs[i]?) = some a →
          ∃ a', w.objs[i]? = some a' ∧ a'.macroRef = a.macroRef := by
        intro i a h
        split_ifs at h with h1
        · cases h
          exact ⟨o, h1 ▸ hk, rfl⟩
        · exact ⟨a, h, rfl⟩
      obtain ⟨a', ha', e1⟩ := hlook i a ha
      obtain ⟨b', hb', e2⟩ := hlook j b hb
      exact h i j a' b' r ha' hb' hij (e1.trans hr) (e2.trans hr')
  | copy k =>
    unfold EGraph.stepW
    dsimp only
    cases hk : w.objs[k]? with
    | none => exact h
    | some o => exact happ o
  | construct k m =>
    cases m with
    | true => exact absurd hn (by simp [NotShared])
    | false =>
      unfold EGraph.stepW
      dsimp only
      cases hk : w.objs[k]? with
      | none => exact h
      | some o => exact happ o

theorem state_append {w : World} {i : ℕ} {g : EG} (h : state w i = some g) (os : List Obj) : state ⟨w.objs ++ os, w.dicts⟩ i = some g := by
  unfold state at h ⊢
  obtain ⟨o, ho, rfl⟩ := Option.map_eq_some_iff.1 h
  have hi := (List.getElem?_eq_some_iff.1 ho).1
  simp only
  rw [List.getElem?_append_left hi, ho]
  rfl

theorem state_step {w : World} (hs : Separate w) {i : ℕ} {g : EG} (h : state w i = some g) (op : WOp) :
    state (stepW w op) i = some (run g (opsOn i [op])) := by
  cases op with
  | on k op =>
    unfold stepW
    dsimp only
    cases hk : w.objs[k]? with
    | none =>
      have : k ≠ i := by
        rintro rfl
        unfold state at h
        rw [hk] at h
        cases h
      simpa [opsOn, this, run] using h
    | some o =>
      obtain ⟨p, hp, rfl⟩ := Option.map_eq_some_iff.1 h
      have hk' := (List.getElem?_eq_some_iff.1 hk).1
      by_cases hki : k = i
      · subst hki
        obtain rfl : p = o := by rw [hk] at hp; exact (Option.some.inj hp).symm
        unfold state
        simp only [List.getElem?_set, if_true, hk', Option.map_some]
        have e : opsOn k [WOp.on k op] = [op] := by simp [opsOn]
        rw [e]
        have hm := step_macro (view w p) op
        change some (view _ _) = some (step (view w p) op).2
        congr 1
        generalize (step (view w p) op).2 = g' at hm ⊢
        unfold view at hm ⊢
        obtain ⟨n1, n2, n3, n4, n5, n6, n7⟩ := g'
        simp only at hm ⊢
        cases hr : p.macroRef with
        | none =>
          rw [hr] at hm
          cases n4 with
          | none => rfl
          | some _ => cases hm
        | some r =>
          rw [hr] at hm
          cases n4 with
          | none => cases hm
          | some md => simp [writeBack]
      · have e : opsOn i [WOp.on k op] = [] := by simp [opsOn, hki]
        rw [e]
        unfold state
        simp only [List.getElem?_set, if_neg hki]
        rw [hp]
        change some (view _ p) = some (view w p)
        congr 1
        unfold view
        congr 1
        cases hr : p.macroRef with
        | none => rfl
        | some r =>
          have hne := hs i k p o r hp hk (Ne.symm hki) hr
          simp only [Option.map_some]
          congr 1
          generalize (step _ op).2.macroToMicro = md'
          revert hne
          generalize o.macroRef = ro
          intro hne
          unfold writeBack
          split
          · rw [Function.update_of_ne]
            rintro rfl
            exact hne rfl
          · rfl
  | copy k =>
    unfold stepW
    dsimp only
    cases w.objs[k]? with
    | none => exact h
    | some o => exact state_append h _
  | construct k m =>
    unfold stepW
    dsimp only
    cases w.objs[k]? with
    | none => exact h
    | some o => exact state_append h _

/-- C94.  In a program whose objects have dictionaries of their own, and which makes copies with `copy()` or `EGraph(egraph)`, each object is at every
time as if the methods called on it had been called on it alone. -/
theorem C94_independent (ops : List WOp) : ∀ (w : World), Separate w → (∀ op ∈ ops, NotShared op) → ∀ (i : ℕ) (g : EG), state w i = some g →
    state (runW w ops) i = some (run g (opsOn i ops)) := by
  induction ops with
  | nil => exact fun w _ _ i g h => h
  | cons op ops ih =>
    intro w hs hn i g h
    rw [opsOn_cons]
    unfold run
    rw [List.foldl_append]
    exact ih _ (hs.stepW (hn op (by simp))) (fun o ho => hn o (by simp [ho])) i _ (state_step hs h op)

/-- C94.  A copy has the nodes and edges of the original at that time, and is a graph without macronodes whose indices and adjacency matrix have not
been made. -/
theorem C94_copy (w : World) (i : ℕ) (g : EG) (h : state w i = some g) (op : WOp) (ho : op = .copy i ∨ op = .construct i false) :
    state (stepW w op) w.objs.length = some ⟨g.nodes, g.edges, false, none, none, none, none⟩ := by
  obtain ⟨o, hp, rfl⟩ := Option.map_eq_some_iff.1 h
  rcases ho with rfl | rfl <;>
  · unfold stepW
    dsimp only
    rw [hp]
    unfold state
    simp only [List.getElem?_concat_length, Option.map_some]
    rfl

/-- Two macronodes of one mode each, joined by an edge. -/
def pairW : World :=
  ⟨[⟨⟨[(1 / 10, 0, 0), (9 / 10, 0, 0)], [((1 / 10, 0, 0), (9 / 10, 0, 0), 1)], true, none, none, none, none⟩, some 0, some 0⟩],
    fun _ => [((0, 0, 0), [(1 / 10, 0, 0)]), ((1, 0, 0), [(9 / 10, 0, 0)])]⟩

theorem sorted_pair : sorted [(0, 0, 0), (1, 0, 0)] = [(0, 0, 0), (1, 0, 0)] := by
  unfold sorted
  refine List.mergeSort_of_pairwise ?_
  decide +kernel

/-- A graph of two macronodes. -/
def pairG (nodes : List Pt) (edges : List (Pt × Pt × ℤ)) (l0 l1 : List Pt) : EG :=
  ⟨nodes, edges, true, some [((0, 0, 0), l0), ((1, 0, 0), l1)], none, none, none⟩

theorem index_pair (nodes : List Pt) (edges : List (Pt × Pt × ℤ)) (l0 l1 : List Pt) (h : nodes.length ≤ (l0 ++ l1).length) :
    indexGenerator (pairG nodes edges l0 l1) =
      (.ok (PyDict.ofPairs (((l0 ++ l1).take nodes.length).zip (List.range nodes.length))),
        ⟨nodes, edges, true, some [((0, 0, 0), l0), ((1, 0, 0), l1)],
          some (PyDict.ofPairs (((l0 ++ l1).take nodes.length).zip (List.range nodes.length))),
          some (PyDict.ofPairs ((PyDict.ofPairs (((l0 ++ l1).take nodes.length).zip (List.range nodes.length))).map fun e => (e.2, e.1))), none⟩) := by
  have hk : PyDict.keys [(((0, 0, 0) : Pt), l0), ((1, 0, 0), l1)] = [(0, 0, 0), (1, 0, 0)] := rfl
  have h0 : PyDict.get? [(((0, 0, 0) : Pt), l0), ((1, 0, 0), l1)] (0, 0, 0) = some l0 := by simp [PyDict.get?]
  have h1 : PyDict.get? [(((0, 0, 0) : Pt), l0), ((1, 0, 0), l1)] (1, 0, 0) = some l1 := by simp [PyDict.get?]
  unfold indexGenerator pairG
  simp only [if_true, hk, sorted_pair, List.flatMap_cons, List.flatMap_nil, h0, h1, Option.getD_some, List.append_nil, if_pos h]

/-- C94.  A graph made with `EGraph(egraph, macronodes=True)` shares its macronodes with the original: after removing or adding a qubit there, the original
cannot be indexed any more, or its adjacency matrix cannot be made, which would be possible without the operations on the other object. -/
theorem C94_shared_false : Separate pairW ∧
    (∃ g, state (runW pairW [.construct 0 true]) 0 = some g ∧ (∃ d, (indexGenerator g).1 = .ok d) ∧ ∃ a, (adjGenerator g).1 = .ok a) ∧
    (∃ g, state (runW pairW [.construct 0 true, .on 1 (.removeQubit (.tuple (9 / 10, 0, 0)))]) 0 = some g ∧
      (indexGenerator g).1 = .error .indexError) ∧
    (∃ g, state (runW pairW [.construct 0 true, .on 1 (.addQubit (.tuple [1 / 5, 0, 0]) none true)]) 0 = some g ∧
      (adjGenerator g).1 = .error .networkXError) := by
  refine ⟨?_, ?_, ?_, ?_⟩
  · intro i j o p r ho hp hij _ _
    have h1 := (List.getElem?_eq_some_iff.1 ho).1
    have h2 := (List.getElem?_eq_some_iff.1 hp).1
    simp [pairW] at h1 h2
    omega
  · refine ⟨pairG _ _ _ _, rfl, ?_, ?_⟩
    · rw [index_pair _ _ _ _ (by decide)]
      exact ⟨_, rfl⟩
    · refine ⟨[[0, 1], [1, 0]], ?_⟩
      unfold adjGenerator
      rw [index_pair _ _ _ _ (by decide)]
      decide +kernel
  · have h : ((state (runW pairW [.construct 0 true, .on 1 (.removeQubit (.tuple (9 / 10, 0, 0)))]) 0).map fun g =>
        match (indexGenerator g).1 with | .error .indexError => true | _ => false) = some true := by decide +kernel
    obtain ⟨g, hg, hd⟩ := Option.map_eq_some_iff.1 h
    refine ⟨g, hg, ?_⟩
    split at hd
    · assumption
    · cases hd
  · refine ⟨pairG [(1 / 10, 0, 0), (9 / 10, 0, 0)] [((1 / 10, 0, 0), (9 / 10, 0, 0), 1)] [(1 / 10, 0, 0), (1 / 5, 0, 0)] [(9 / 10, 0, 0)],
      by decide +kernel, ?_⟩
    unfold adjGenerator
    rw [index_pair _ _ _ _ (by decide)]
    decide +kernel

/-- The hypotheses of `C94_independent` are met by a history with copies and edits of both graphs. -/
example : Separate pairW ∧ (∀ op ∈ [WOp.copy 0, .on 0 (.removeQubit (.tuple (9 / 10, 0, 0))), .on 1 .adjGenerator], NotShared op) ∧
    opsOn 1 [WOp.copy 0, .on 0 (.removeQubit (.tuple (9 / 10, 0, 0))), .on 1 .adjGenerator] = [.adjGenerator] ∧ (state pairW 0).isSome := by
  refine ⟨C94_shared_false.1, by simp [NotShared], rfl, rfl⟩

end Flamingpy.EGraph
