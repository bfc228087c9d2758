import Verif.Model.MacroAttrs
import Verif.Props.Macronize

/-!
# C95: macronize copies the attributes
-/

namespace Flamingpy.Macronize

open Flamingpy Flamingpy.EGraph

variable {A : Type}

/-! ### Proofs -/

theorem merge_self (a : Attrs A) : merge a a = a := by
  funext k
  unfold merge
  cases h : a k <;> simp [h]

theorem merge_empty (a : Attrs A) : merge (fun _ => none) a = a := by
  funext k
  unfold merge
  cases h : a k <;> simp

/-- The nodes have the attributes of their macronodes so far. -/
def NInv (C : CanAttrs A) (d : List (Pt × List Pt)) (nattr : Pt → Attrs A) : Prop :=
  ∀ p, (∀ v, p ∈ (PyDict.get? d v).getD [] → (∀ u, p ∈ (PyDict.get? d u).getD [] → u = v) → nattr p = C.node v) ∧
    ((∀ u, p ∉ (PyDict.get? d u).getD []) → nattr p = fun _ => none)

theorem get_append (d : List (Pt × List Pt)) (k p v : Pt) :
    (PyDict.get? (append d k p) v).getD [] = (PyDict.get? d v).getD [] ++ if v = k then [p] else [] := by
  unfold append
  rw [get?_set]
  by_cases h : v = k
  · subst h
    rw [if_pos rfl, if_pos rfl]
    rfl
  · rw [if_neg (Ne.symm h), if_neg h, List.append_nil]

theorem get_ensure (d : List (Pt × List Pt)) (k v : Pt) : (PyDict.get? (ensure d k) v).getD [] = (PyDict.get? d v).getD [] := by
  unfold ensure
  split_ifs with h
  · rw [get?_set]
    by_cases h2 : k = v
    · subst h2
      rw [if_pos rfl]
      exact (List.isEmpty_iff.1 h).symm
    · rw [if_neg h2]
  · rfl

theorem NInv.congr {C : CanAttrs A} {d d' : List (Pt × List Pt)} {nattr : Pt → Attrs A} (h : NInv C d nattr)
    (hd : ∀ v, (PyDict.get? d' v).getD [] = (PyDict.get? d v).getD []) : NInv C d' nattr := by
  intro p
  simp only [hd]
  exact h p

theorem NInv.put {C : CanAttrs A} {d : List (Pt × List Pt)} {nattr : Pt → Attrs A} (h : NInv C d nattr) (k p : Pt) :
    NInv C (append d k p) (nodeAttr nattr p (C.node k)) := by
  intro q
  simp only [get_append, List.mem_append]
  unfold nodeAttr
  by_cases hq : q = p
  · subst hq
    rw [Function.update_self]
    refine ⟨fun v hv hu => ?_, fun hu => absurd (Or.inr (by simp)) (hu k)⟩
    have hk : k = v := hu k (Or.inr (by simp))
    subst hk
    by_cases hold : ∃ u, q ∈ (PyDict.get? d u).getD []
    · obtain ⟨u, hu'⟩ := hold
      have := hu u (Or.inl hu')
      subst this
      rw [(h q).1 u hu' fun w hw => hu w (Or.inl hw), merge_self]
    · push Not at hold
      rw [(h q).2 hold, merge_empty]
  · rw [Function.update_of_ne hq]
    have hno : ∀ v, q ∉ (if v = k then [p] else []) := by
      intro v hv
      split_ifs at hv
      · exact hq (List.mem_singleton.1 hv)
      · cases hv
    refine ⟨fun v hv hu => ?_, fun hu => ?_⟩
    · rcases hv with hv | hv
      · exact (h q).1 v hv fun u hu' => hu u (Or.inl hu')
      · exact absurd hv (hno v)
    · exact (h q).2 fun u hu' => hu u (Or.inl hu')

/-- The end points made for an edge. -/
def ends (disp : ℚ) (e : Pt × Pt × Bool) : Pt × Pt :=
  (add e.1 (shortened disp e.1 e.2.1 e.2.2), sub e.2.1 (shortened disp e.1 e.2.1 e.2.2))

/-- The edges have the attributes of the edges they come from so far. -/
def EInv (C : CanAttrs A) (disp : ℚ) (es : List (Pt × Pt × Bool)) (eattr : Sym2 Pt → Attrs A) : Prop :=
  ∀ x, (∀ e ∈ es, s((ends disp e).1, (ends disp e).2) = x → (∀ e' ∈ es, s((ends disp e').1, (ends disp e').2) = x → e' = e) → eattr x = C.edge e) ∧
    ((∀ e ∈ es, s((ends disp e).1, (ends disp e).2) ≠ x) → eattr x = fun _ => none)

theorem edges_inv (C : CanAttrs A) (disp : ℚ) : ∀ (es done : List (Pt × Pt × Bool)) (st : MGA A), NInv C st.m.dict st.nattr → EInv C disp done st.eattr →
    NInv C (es.foldl (edgeStepA C disp) st).m.dict (es.foldl (edgeStepA C disp) st).nattr ∧
    EInv C disp (done ++ es) (es.foldl (edgeStepA C disp) st).eattr ∧
    (es.foldl (edgeStepA C disp) st).m = es.foldl (edgeStep disp) st.m
  | [], done, st, hn, he => by
    rw [List.append_nil]
    exact ⟨hn, he, rfl⟩
  | e :: es, done, st, hn, he => by
    have hn' : NInv C (edgeStepA C disp st e).m.dict (edgeStepA C disp st e).nattr := by
      have hd : (edgeStepA C disp st e).m.dict = append (append (ensure (ensure st.m.dict e.1) e.2.1) e.1 (ends disp e).1) e.2.1 (ends disp e).2 := by
        unfold edgeStepA edgeStep
        dsimp only
        have h1 : ∀ m p, (addNode m p).dict = m.dict := by
          intro m p
          unfold addNode
          split_ifs <;> rfl
        have h2 : ∀ m p q, (addEdge m p q).dict = m.dict := by
          intro m p q
          unfold addEdge
          split_ifs <;> rfl
        rw [h2, h1, h1]
        rfl
      rw [hd]
      exact ((hn.congr fun v => (get_ensure _ _ v).trans (get_ensure _ _ v)).put e.1 _).put e.2.1 _
    have he' : EInv C disp (done ++ [e]) (edgeStepA C disp st e).eattr := by
      intro x
      have hup : (edgeStepA C disp st e).eattr = Function.update st.eattr s((ends disp e).1, (ends disp e).2)
        (merge (st.eattr s((ends disp e).1, (ends disp e).2)) (C.edge e)) := rfl
      rw [hup]
      by_cases hxe : x = s((ends disp e).1, (ends disp e).2)
      · subst hxe
        rw [Function.update_self]
        refine ⟨fun e' he' _ hu => ?_, fun hu => absurd rfl (hu e (by simp))⟩
        have : e = e' := hu e (by simp) rfl
        subst this
        by_cases hold : ∃ e' ∈ done, s((ends disp e').1, (ends disp e').2) = s((ends disp e).1, (ends disp e).2)
        · obtain ⟨e', h1, h2⟩ := hold
          have := hu e' (by simp [h1]) h2
          subst this
          rw [(he _).1 e' h1 rfl fun w hw hw' => hu w (by simp [hw]) hw', merge_self]
        · push Not at hold
          rw [(he _).2 hold, merge_empty]
      · rw [Function.update_of_ne hxe]
        refine ⟨fun e' he' hx hu => ?_, fun hu => (he x).2 fun e' he' => hu e' (by simp [he'])⟩
        rcases List.mem_append.1 he' with h1 | h1
        · exact (he x).1 e' h1 hx fun w hw hw' => hu w (by simp [hw]) hw'
        · rw [List.mem_singleton] at h1
          subst h1
          exact absurd hx.symm hxe
    obtain ⟨h1, h2, h3⟩ := edges_inv C disp es (done ++ [e]) (edgeStepA C disp st e) hn' he'
    rw [List.append_assoc] at h2
    exact ⟨h1, h2, h3⟩

/-- One added node of the padding. -/
def padOne (v : Pt) (m : MG) (i : ℕ) : MG := { addNode m (bump v i) with dict := append (addNode m (bump v i)).dict v (bump v i) }

/-- One added node of the padding, with its attributes. -/
def padOneA (C : CanAttrs A) (v : Pt) (st : MGA A) (i : ℕ) : MGA A :=
  ⟨padOne v st.m i, nodeAttr st.nattr (bump v i) (C.node v), st.eattr⟩

theorem pad_inv (C : CanAttrs A) (v : Pt) : ∀ (l : List ℕ) (st : MGA A), NInv C st.m.dict st.nattr →
    NInv C (l.foldl (padOneA C v) st).m.dict (l.foldl (padOneA C v) st).nattr ∧ (l.foldl (padOneA C v) st).eattr = st.eattr ∧
    (l.foldl (padOneA C v) st).m = l.foldl (padOne v) st.m
  | [], st, h => ⟨h, rfl, rfl⟩
  | i :: l, st, h => by
    have hd : (padOneA C v st i).m.dict = append st.m.dict v (bump v i) := by
      have h1 : ∀ m p, (addNode m p).dict = m.dict := by
        intro m p
        unfold addNode
        split_ifs <;> rfl
      change append (addNode st.m (bump v i)).dict v (bump v i) = _
      rw [h1]
    have h' : NInv C (padOneA C v st i).m.dict (padOneA C v st i).nattr := by
      rw [hd]
      exact h.put v _
    obtain ⟨h1, h2, h3⟩ := pad_inv C v l (padOneA C v st i) h'
    exact ⟨h1, h2, h3⟩

theorem pads_inv (C : CanAttrs A) : ∀ (vs : List Pt) (st : MGA A), NInv C st.m.dict st.nattr →
    (vs.foldlM (padStepA C) st).map (·.m) = vs.foldlM padStep st.m ∧
    ∀ st', vs.foldlM (padStepA C) st = some st' → NInv C st'.m.dict st'.nattr ∧ st'.eattr = st.eattr
  | [], st, h => by
    refine ⟨rfl, fun st' h' => ?_⟩
    cases h'
    exact ⟨h, rfl⟩
  | v :: vs, st, h => by
    rw [List.foldlM_cons, List.foldlM_cons]
    cases hg : PyDict.get? st.m.dict v with
    | none =>
      have e1 : padStepA C st v = none := by unfold padStepA; rw [hg]
      have e2 : padStep st.m v = none := by unfold padStep; rw [hg]
      rw [e1, e2]
      exact ⟨rfl, fun st' h' => by cases h'⟩
    | some l =>
      obtain ⟨h1, h2, h3⟩ := pad_inv C v (List.range (4 - l.length)) st h
      have e1 : padStepA C st v = some ((List.range (4 - l.length)).foldl (padOneA C v) st) := by
        unfold padStepA
        rw [hg]
        rfl
      have e2 : padStep st.m v = some ((List.range (4 - l.length)).foldl (padOne v) st.m) := by
        unfold padStep
        rw [hg]
        rfl
      rw [e1, e2, ← h3]
      generalize (List.range (4 - l.length)).foldl (padOneA C v) st = st1 at h1 h2 ⊢
      obtain ⟨h4, h5⟩ := pads_inv C vs st1 h1
      exact ⟨h4, fun st' h' => ⟨(h5 st' h').1, (h5 st' h').2.trans h2⟩⟩

theorem NInv.start (C : CanAttrs A) : NInv C [] fun _ _ => none := by
  intro p
  refine ⟨fun v hv => ?_, fun _ => rfl⟩
  simp [PyDict.get?] at hv

theorem EInv.start (C : CanAttrs A) (disp : ℚ) : EInv C disp [] fun _ _ => none := fun _ => ⟨fun e he => absurd he (List.not_mem_nil), fun _ => rfl⟩

/-- The end of the function: the perfect points. -/
def finish (G : CanGraph) (r : Option (MGA A)) : Except PyErr (MGA A) :=
  match r with
  | none => .error .keyError
  | some st =>
    match G.perfectPoints with
    | none => .ok st
    | some [] => .ok st
    | some pts =>
      match pts.mapM fun p => PyDict.get? st.m.dict p with
      | none => .error .keyError
      | some ls => .ok { st with m := { st.m with perfectPoints := some ls.flatten } }

/-- The end of the function: the perfect points. -/
def finish0 (G : CanGraph) (r : Option MG) : Except PyErr MG :=
  match r with
  | none => .error .keyError
  | some m =>
    match G.perfectPoints with
    | none => .ok m
    | some [] => .ok m
    | some pts =>
      match pts.mapM fun p => PyDict.get? m.dict p with
      | none => .error .keyError
      | some ls => .ok { m with perfectPoints := some ls.flatten }

theorem finish_map (G : CanGraph) (r : Option (MGA A)) : (finish G r).map (·.m) = finish0 G (r.map (·.m)) ∧
    ∀ st, finish G r = .ok st → ∃ st1, r = some st1 ∧ st.m.dict = st1.m.dict ∧ st.nattr = st1.nattr ∧ st.eattr = st1.eattr := by
  cases r with
  | none => exact ⟨rfl, fun st h => by cases h⟩
  | some st1 =>
    rw [Option.map_some]
    unfold finish finish0
    dsimp only
    split
    · refine ⟨rfl, fun st h => ?_⟩
      cases h
      exact ⟨_, rfl, rfl, rfl, rfl⟩
    · refine ⟨rfl, fun st h => ?_⟩
      cases h
      exact ⟨_, rfl, rfl, rfl, rfl⟩
    · split
      · exact ⟨rfl, fun st h => by cases h⟩
      · refine ⟨rfl, fun st h => ?_⟩
        cases h
        exact ⟨_, rfl, rfl, rfl, rfl⟩

theorem macronizeA_spec (C : CanAttrs A) (G : CanGraph) (pad : Bool) (disp : ℚ) :
    (macronizeA C G pad disp).map (·.m) = macronize G pad disp ∧
    ∀ st, macronizeA C G pad disp = .ok st → NInv C st.m.dict st.nattr ∧ EInv C disp G.edges st.eattr := by
  unfold macronizeA macronize
  by_cases c1 : disp ≥ 1 / 2 ∨ disp < 0
  · rw [if_pos c1, if_pos c1]
    exact ⟨rfl, fun st h => by cases h⟩
  rw [if_neg c1, if_neg c1]
  by_cases c2 : disp = 0 ∧ G.edges ≠ []
  · rw [if_pos c2, if_pos c2]
    exact ⟨rfl, fun st h => by cases h⟩
  rw [if_neg c2, if_neg c2]
  obtain ⟨h1, h2, h3⟩ := edges_inv C disp G.edges [] ⟨{ nodes := [], edges := [], dict := [] }, fun _ _ => none, fun _ _ => none⟩
    (NInv.start C) (EInv.start C disp)
  dsimp only at h3 ⊢
  rw [← h3]
  generalize G.edges.foldl (edgeStepA C disp) _ = st0 at h1 h2 ⊢
  have key : (if pad then G.nodes.foldlM (padStepA C) st0 else some st0).map (·.m) = (if pad then G.nodes.foldlM padStep st0.m else some st0.m) ∧
      ∀ st', (if pad then G.nodes.foldlM (padStepA C) st0 else some st0) = some st' → NInv C st'.m.dict st'.nattr ∧ st'.eattr = st0.eattr := by
    cases pad with
    | false =>
      refine ⟨rfl, fun st' h => ?_⟩
      cases h
      exact ⟨h1, rfl⟩
    | true => exact pads_inv C G.nodes st0 h1
  obtain ⟨k1, k2⟩ := key
  obtain ⟨f1, f2⟩ := finish_map G (if pad then G.nodes.foldlM (padStepA C) st0 else some st0)
  rw [k1] at f1
  refine ⟨f1, fun st h => ?_⟩
  obtain ⟨st1, e1, e2, e3, e4⟩ := f2 st h
  obtain ⟨n1, n2⟩ := k2 st1 e1
  rw [e2, e3, e4, n2]
  exact ⟨n1, h2⟩

theorem edges_sublist (disp : ℚ) : ∀ (es : List (Pt × Pt × Bool)) (m : MG),
    (es.foldl (edgeStep disp) m).edges.Sublist (m.edges ++ es.map (ends disp))
  | [], m => by simp
  | e :: es, m => by
    have h1 : (edgeStep disp m e).edges.Sublist (m.edges ++ [ends disp e]) := by
      unfold edgeStep
      dsimp only
      have h1 : ∀ m p, (addNode m p).edges = m.edges := by
        intro m p
        unfold addNode
        split_ifs <;> rfl
      unfold addEdge
      split_ifs
      · rw [h1, h1]
        exact List.sublist_append_left _ _
      · simp only
        rw [h1, h1]
        exact List.Sublist.refl _
    rw [List.foldl_cons, List.map_cons, ← List.singleton_append, ← List.append_assoc]
    exact (edges_sublist disp es _).trans (h1.append (List.Sublist.refl _))

theorem padOne_edges (v : Pt) : ∀ (l : List ℕ) (m : MG), (l.foldl (padOne v) m).edges = m.edges
  | [], _ => rfl
  | i :: l, m => by
    rw [List.foldl_cons, padOne_edges v l]
    change (addNode m _).edges = _
    unfold addNode
    split_ifs <;> rfl

theorem pad_edges : ∀ (vs : List Pt) (m m' : MG), vs.foldlM padStep m = some m' → m'.edges = m.edges
  | [], m, m', h => by cases h; rfl
  | v :: vs, m, m', h => by
    rw [List.foldlM_cons] at h
    obtain ⟨m1, h1, h2⟩ := Option.bind_eq_some_iff.1 h
    rw [pad_edges vs m1 m' h2]
    unfold padStep at h1
    split at h1
    · cases h1
    · cases h1
      exact padOne_edges v _ m

theorem macronize_edges {G : CanGraph} {pad : Bool} {disp : ℚ} {m : MG} (h : macronize G pad disp = .ok m) :
    m.edges.Sublist (G.edges.map (ends disp)) := by
  unfold macronize at h
  by_cases c1 : disp ≥ 1 / 2 ∨ disp < 0
  · rw [if_pos c1] at h; cases h
  rw [if_neg c1] at h
  by_cases c2 : disp = 0 ∧ G.edges ≠ []
  · rw [if_pos c2] at h; cases h
  rw [if_neg c2] at h
  have hs := edges_sublist disp G.edges { nodes := [], edges := [], dict := [] }
  rw [List.nil_append] at hs
  dsimp only at h
  generalize G.edges.foldl (edgeStep disp) _ = m0 at hs h
  have key : ∀ m1, (if pad then G.nodes.foldlM padStep m0 else some m0) = some m1 → m1.edges = m0.edges := by
    cases pad with
    | false => intro m1 h; cases h; rfl
    | true => exact pad_edges G.nodes m0
  change finish0 G (if pad then G.nodes.foldlM padStep m0 else some m0) = .ok m at h
  generalize (if pad then G.nodes.foldlM padStep m0 else some m0) = r at key h
  cases r with
  | none => cases h
  | some m1 =>
    rw [← key m1 rfl] at hs
    unfold finish0 at h
    dsimp only at h
    split at h
    · cases h; exact hs
    · cases h; exact hs
    · split at h
      · cases h
      · cases h; exact hs

/-! ### The property -/

/-- **C95.** Attributes do not matter for the graph: forgetting them is `macronize`, errors included. -/
theorem C95_graph (C : CanAttrs A) (G : CanGraph) (pad : Bool) (disp : ℚ) :
    (macronizeA C G pad disp).map (·.m) = macronize G pad disp := (macronizeA_spec C G pad disp).1

/-- **C95.** All attributes are preserved.  For every lattice graph and displacement as in C20 and whatever attributes its nodes and edges carry,
`macronize` succeeds, every micronode (of the padding too) has exactly the attributes of its macronode, and the edges of the result, in order,
have exactly the attributes of the edges of the input. -/
theorem C95_attributes (C : CanAttrs A) {G : CanGraph} (h : Lattice G) {pad : Bool} {disp : ℚ} (h0 : 0 < disp)
    (h1 : disp ≤ 49 / 100)
    (hp : pad = true → (disp ≤ 4 / 100 ∨ 6 / 100 ≤ disp) ∧ ∀ v ∈ G.nodes, 1 ≤ degree G v ∧ degree G v ≤ 4)
    (hpp : G.perfectPoints = none) :
    ∃ st, macronizeA C G pad disp = .ok st ∧
      (∀ v, ∀ p ∈ micros st.m v, st.nattr p = C.node v) ∧
      List.Forall₂ (fun e f => st.eattr s(f.1, f.2) = C.edge e) G.edges st.m.edges := by
  obtain ⟨m, hm, _, _, _, hround, _, _, _, _, _, hnd, _, t, _, _, _, hedges⟩ := C20_macronize h h0 h1 hp hpp
  obtain ⟨e1, e2⟩ := macronizeA_spec C G pad disp
  cases hr : macronizeA C G pad disp with
  | error err => rw [hr, hm] at e1; cases e1
  | ok st =>
    rw [hr, hm] at e1
    have hst : st.m = m := by cases e1; rfl
    obtain ⟨hn, he⟩ := e2 st hr
    refine ⟨st, rfl, fun v p hpv => ?_, ?_⟩
    · have hg : ∀ u, p ∈ (PyDict.get? st.m.dict u).getD [] → u = v := by
        intro u hu
        rw [hst] at hu hpv
        rw [← (hround u p hu).2, (hround v p hpv).2]
      exact (hn p).1 v hpv hg
    · have hs := macronize_edges hm
      have hlen : m.edges.length = (G.edges.map (ends disp)).length := by rw [hedges, List.length_map, List.length_map]
      have heq := hs.eq_of_length hlen
      rw [hst, heq, List.forall₂_map_right_iff, List.forall₂_same]
      intro e hme
      refine (he _).1 e hme rfl fun e' hme' hs' => ?_
      by_contra hne
      rw [heq, List.nodup_flatMap] at hnd
      have hpw := List.pairwise_map.1 hnd.2
      have : Std.Symm fun a b => Function.onFun List.Disjoint (fun e : Pt × Pt => [e.1, e.2]) (ends disp a) (ends disp b) :=
        ⟨fun a b hab => List.Disjoint.symm hab⟩
      have hd := hpw.forall hme hme' (Ne.symm hne)
      have : (ends disp e).1 ∈ [(ends disp e').1, (ends disp e').2] := by
        have : (ends disp e).1 ∈ s((ends disp e').1, (ends disp e').2) := by rw [hs']; exact Sym2.mem_mk_left _ _
        rcases Sym2.mem_iff.1 this with h | h <;> rw [h] <;> simp
      exact hd (by simp) this

/-! ### Examples -/

/-- Three nodes and two edges with different attributes, padded: the micronodes of the middle node have its attribute, the edges theirs. -/
example : ∃ st, macronizeA (⟨fun v k => if k = "x" then some v.1 else none, fun e k => if k = "weight" then some (5 - e.1.1) else none⟩ : CanAttrs ℚ)
    pathG true (1 / 10) = .ok st ∧ (∀ p ∈ micros st.m (1, 0, 0), st.nattr p "x" = some 1 ∧ st.nattr p "y" = none) ∧
    st.m.edges.map (fun f => st.eattr s(f.1, f.2) "weight") = [some 5, some 4] := by
  obtain ⟨st, h1, h2, h3⟩ := C95_attributes (⟨fun v k => if k = "x" then some v.1 else none,
    fun e k => if k = "weight" then some (5 - e.1.1) else none⟩ : CanAttrs ℚ) lattice_pathG (pad := true) (disp := 1 / 10) (by norm_num) (by norm_num)
    (fun _ => ⟨Or.inr (by norm_num), by decide +kernel⟩) rfl
  refine ⟨st, h1, fun p hp => ?_, ?_⟩
  · rw [h2 _ p hp]
    simp
  · simp only [pathG] at h3
    generalize st.m.edges = es at h3
    rcases h3 with _ | ⟨a1, _ | ⟨a2, _ | _⟩⟩
    rw [List.map_cons, List.map_cons, a1, a2]
    norm_num

end Flamingpy.Macronize
