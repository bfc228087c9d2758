import Verif.Spec.DrawRecovery
import Verif.Proofs.MwpmWeight
import Verif.Props.Readouts

/-!
# Lemmas for the recovery drawing
-/

namespace Flamingpy.Viz

open Flamingpy Flamingpy.SurfaceCode TJoin

/-! ### The loops -/

/-- Specification: the position of a node. -/
noncomputable def posOf (code : Code) (n : SNode) : Fin 3 → ℚ := (nodePos code n).getD 0

theorem pathStep_fold (code : Code) : ∀ (p : List SNode) (st : List (Fin 3 → ℚ) × List ℚ × List ℚ × List ℚ),
    (∀ n ∈ p, (nodePos code n).isSome) →
    p.foldlM (pathStep code) st = some (st.1 ++ (p.filter isMarked).map (posOf code), st.2.1 ++ p.map fun n => posOf code n 0,
      st.2.2.1 ++ p.map fun n => posOf code n 1, st.2.2.2 ++ p.map fun n => posOf code n 2)
  | [], st, _ => by simp
  | n :: p, st, h => by
    obtain ⟨x, hx⟩ := Option.isSome_iff_exists.1 (h n (by simp))
    have hp : posOf code n = x := by unfold posOf; rw [hx]; rfl
    rw [List.foldlM_cons]
    have e : pathStep code st n = some (if isMarked n then st.1 ++ [x] else st.1, st.2.1 ++ [x 0], st.2.2.1 ++ [x 1], st.2.2.2 ++ [x 2]) := by
      unfold pathStep
      rw [hx]
      rfl
    rw [e]
    simp only [Option.bind_eq_bind, Option.bind_some]
    rw [pathStep_fold code p _ fun n hn => h n (by simp [hn])]
    by_cases hm : isMarked n <;> simp [hm, hp]

/-- The line of a path. -/
noncomputable def lineOf (code : Code) (p : List SNode) : List ℚ × List ℚ × List ℚ :=
  (p.map fun n => posOf code n 0, p.map fun n => posOf code n 1, p.map fun n => posOf code n 2)

/-- The path of a pair. -/
def pairPath (G : MatchGraph) (m : MNode × MNode) : List SNode := ((PyDict.get? G.edges s(m.1, m.2)).map (·.2)).getD []

/-- Pairs that are drawn. -/
def isDrawn (G : MatchGraph) (m : MNode × MNode) : Bool := decide (¬ (m.1 ∈ G.virtuals ∧ m.2 ∈ G.virtuals))

theorem drawPair_fold (code : Code) (G : MatchGraph) : ∀ (M : List (MNode × MNode)) (d : Drawing),
    (∀ m ∈ M, isDrawn G m = true → s(m.1, m.2) ∈ PyDict.keys G.edges ∧ ∀ n ∈ pairPath G m, (nodePos code n).isSome) →
    M.foldlM (drawPair code G) d = some
      ⟨d.markers ++ (((M.filter (isDrawn G)).flatMap (pairPath G)).filter isMarked).map (posOf code),
        d.lines ++ (M.filter (isDrawn G)).map fun m => lineOf code (pairPath G m)⟩
  | [], d, _ => by simp
  | m :: M, d, h => by
    rw [List.foldlM_cons]
    by_cases hm : isDrawn G m = true
    · obtain ⟨hk, hp⟩ := h m (by simp) hm
      obtain ⟨q, hq⟩ := Option.isSome_iff_exists.1 ((PyDict.get?_isSome_iff _ _).2 hk)
      have hpp : pairPath G m = q.2 := by unfold pairPath; rw [hq]; rfl
      have e : drawPair code G d m = some ⟨d.markers ++ ((pairPath G m).filter isMarked).map (posOf code),
          d.lines ++ [lineOf code (pairPath G m)]⟩ := by
        unfold drawPair
        have hm' := hm
        unfold isDrawn at hm'
        rw [decide_eq_true_eq] at hm'
        rw [if_neg hm', hq]
        simp only [Option.bind_eq_bind, Option.bind_some]
        rw [pathStep_fold code q.2 _ (by rw [← hpp]; exact hp), hpp]
        rfl
      rw [e]
      simp only [Option.bind_eq_bind, Option.bind_some]
      rw [drawPair_fold code G M _ fun m' hm' => h m' (by simp [hm'])]
      simp [hm]
    · have e : drawPair code G d m = some d := by
        unfold drawPair
        rw [if_pos (by unfold isDrawn at hm; rw [decide_eq_true_eq, not_not] at hm; exact hm)]
      rw [e]
      simp only [Option.bind_eq_bind, Option.bind_some]
      rw [drawPair_fold code G M _ fun m' hm' => h m' (by simp [hm'])]
      simp [hm]

theorem pathStep_none (code : Code) : ∀ (p : List SNode) (st : List (Fin 3 → ℚ) × List ℚ × List ℚ × List ℚ),
    (∃ n ∈ p, nodePos code n = none) → p.foldlM (pathStep code) st = none
  | [], _, h => by simp at h
  | n :: p, st, h => by
    rw [List.foldlM_cons]
    cases hx : nodePos code n with
    | none =>
      have : pathStep code st n = none := by unfold pathStep; rw [hx]; rfl
      rw [this]; rfl
    | some x =>
      cases hs : pathStep code st n with
      | none => rfl
      | some st' =>
        simp only [Option.bind_eq_bind, Option.bind_some]
        refine pathStep_none code p st' ?_
        obtain ⟨m, hm, hm'⟩ := h
        rcases List.mem_cons.1 hm with rfl | hm
        · rw [hx] at hm'; cases hm'
        · exact ⟨m, hm, hm'⟩

theorem drawPair_none (code : Code) (G : MatchGraph) : ∀ (M : List (MNode × MNode)) (d : Drawing),
    (∃ m ∈ M, isDrawn G m = true ∧ ∃ n ∈ pairPath G m, nodePos code n = none) → M.foldlM (drawPair code G) d = none
  | [], _, h => by simp at h
  | m :: M, d, h => by
    rw [List.foldlM_cons]
    cases hs : drawPair code G d m with
    | none => rfl
    | some d' =>
      simp only [Option.bind_eq_bind, Option.bind_some]
      refine drawPair_none code G M d' ?_
      obtain ⟨m', hm, hd, n, hn, hn'⟩ := h
      rcases List.mem_cons.1 hm with rfl | hm
      · exfalso
        unfold drawPair at hs
        unfold isDrawn at hd
        rw [decide_eq_true_eq] at hd
        rw [if_neg hd] at hs
        unfold pairPath at hn
        cases hq : PyDict.get? G.edges s(m'.1, m'.2) with
        | none => rw [hq] at hn; simp at hn
        | some q =>
          rw [hq] at hs hn
          simp only [Option.bind_eq_bind, Option.bind_some] at hs
          rw [pathStep_none code q.2 _ ⟨n, hn, hn'⟩] at hs
          cases hs
      · exact ⟨m', hm, hd, n, hn, hn'⟩

/-! ### Positions -/

section
variable {code : Code} (h : IsCode code)

/-- The nodes of the decoder graph that have a position. -/
def Placed (code : Code) (n : SNode) : Prop := (∃ k < code.stabs.length, n = .stab k) ∨ ∃ p ∈ code.boundPoints, n = .pt p

include h in
theorem posOf_stab {k : ℕ} (hk : k < code.stabs.length) : ∃ c : V, nodePos code (.stab k) = some (fun i => (c i : ℚ)) ∧
    midpoint ((physical code).getD k []) = some (fun i => (c i : ℚ)) ∧ (∀ i, c i % 2 = match code.ec with
        | .primal => 1
        | .dual => 0) ∧
      ∀ x, x ∈ code.stabs.getD k [] ↔
        x ∈ PyDict.keys code.graph.nodes ∧ adjacent code.dims (boundsOf code.ec code.boundaries) x c := by
  obtain ⟨h1, h2, h3⟩ := C71_midpoint h
  obtain ⟨c, hc, _, hp, hx⟩ := h3 k hk
  refine ⟨c, ?_, hc, hp, hx⟩
  change ((physical code)[k]?).bind midpoint = _
  have : (physical code)[k]? = some ((physical code).getD k []) := by
    rw [List.getD_eq_getElem?_getD, List.getElem?_eq_getElem (by rw [h1]; exact hk)]
    rfl
  rw [this]
  exact hc

include h in
theorem placed_isSome {n : SNode} (hn : Placed code n) : (nodePos code n).isSome := by
  rcases hn with ⟨k, hk, rfl⟩ | ⟨p, _, rfl⟩
  · obtain ⟨c, hc, _⟩ := posOf_stab h hk
    rw [hc]; rfl
  · rfl

theorem nextTo_odd {bd : Bd} {d : ℕ} {a b : ℤ} (hn : nextTo bd d a b) : a % 2 ≠ b % 2 := by
  rcases hn with h | h | ⟨_, ⟨h1, h2⟩ | ⟨h1, h2⟩⟩ <;> omega

include h in
theorem bound_in_stab {p : V} (hp : p ∈ code.boundPoints) : ∃ k < code.stabs.length, p ∈ code.stabs.getD k [] := by
  have hs : p ∈ code.syndrome := by
    rcases h.ok.1.bound_cases with ⟨_, h2⟩ | ⟨_, lo, hi, h2, _, _, h3, h4⟩
    · rw [h2] at hp; cases hp
    · rw [h2, List.mem_append] at hp
      rcases hp with hp | hp
      · exact ((h3 p).1 hp).1
      · exact ((h4 p).1 hp).1
  have hc := h.ok.1.count_eq h.ok.2 hs
  have : 0 < code.stabs.countP (fun s => decide (p ∈ s)) := by rw [hc]; split <;> norm_num
  obtain ⟨s, hs1, hs2⟩ := List.countP_pos_iff.1 this
  obtain ⟨k, hk, rfl⟩ := List.getElem_of_mem hs1
  exact ⟨k, hk, by rw [List.getD_eq_getElem _ _ hk]; simpa using hs2⟩

include h in
theorem bound_ne_mid {p : V} (hp : p ∈ code.boundPoints) {k : ℕ} (hk : k < code.stabs.length) :
    posOf code (.pt p) ≠ posOf code (.stab k) := by
  obtain ⟨c, hc, _, hpar, _⟩ := posOf_stab h hk
  have e1 : posOf code (.stab k) = fun i => (c i : ℚ) := by unfold posOf; rw [hc]; rfl
  have e2 : posOf code (.pt p) = fun i => (p i : ℚ) := rfl
  rw [e1, e2]
  intro he
  have hpc : p = c := funext fun i => by have := congrFun he i; exact_mod_cast this
  obtain ⟨k', hk', hpk⟩ : ∃ k' < code.stabs.length, p ∈ code.stabs.getD k' [] := bound_in_stab h hp
  obtain ⟨c', _, _, hpar', hx⟩ := posOf_stab h hk'
  obtain ⟨_, i, hi, _⟩ := (hx p).1 hpk
  apply nextTo_odd hi
  rw [hpc, hpar i, hpar' i]

include h in
theorem posOf_inj {a b : SNode} (ha : Placed code a) (hb : Placed code b) (he : posOf code a = posOf code b) : a = b := by
  rcases ha with ⟨i, hi, rfl⟩ | ⟨p, hp, rfl⟩ <;> rcases hb with ⟨j, hj, rfl⟩ | ⟨q, hq, rfl⟩
  · obtain ⟨c, hc, hc', _⟩ := posOf_stab h hi
    obtain ⟨d, hd, hd', _⟩ := posOf_stab h hj
    unfold posOf at he
    rw [hc, hd] at he
    simp only [Option.getD_some] at he
    obtain ⟨h1, h2, _⟩ := C71_midpoint h
    have hi' : i < ((physical code).map midpoint).length := by rw [List.length_map, h1]; exact hi
    have hj' : j < ((physical code).map midpoint).length := by rw [List.length_map, h1]; exact hj
    have : i = j := (h2.getElem_inj_iff (hi := hi') (hj := hj')).1 (by
      rw [List.getElem_map, List.getElem_map]
      rw [List.getD_eq_getElem _ _ (by rw [h1]; exact hi)] at hc'
      rw [List.getD_eq_getElem _ _ (by rw [h1]; exact hj)] at hd'
      rw [hc', hd', he])
    rw [this]
  · exact absurd he.symm (bound_ne_mid h hq hi)
  · exact absurd he (bound_ne_mid h hp hj)
  · have : p = q := funext fun i => by
      have := congrFun he i
      unfold posOf nodePos at this
      simpa using this
    rw [this]

include h in
/-- An edge that stands for a qubit joins two places that the qubit touches. -/
theorem edge_touch (sp : SetPop) {a b : SNode} {x : V} (he : (s(a, b), some x) ∈ codeEdges sp code) :
    Placed code a ∧ Placed code b ∧ OnPiece code x (posOf code a) (posOf code b) := by
  have hmid : ∀ {i j : ℕ}, i ≠ j → i < code.stabs.length → j < code.stabs.length → x ∈ code.stabs.getD i [] → x ∈ code.stabs.getD j [] →
      code.boundaries = .open → ∀ l, (x l : ℚ) = (posOf code (.stab i) l + posOf code (.stab j) l) / 2 := by
    intro i j hij hi hj hxi hxj hop
    obtain ⟨c, hc, _, hpar, hcx⟩ := posOf_stab h hi
    obtain ⟨c', hc', _, hpar', hcx'⟩ := posOf_stab h hj
    have e1 : posOf code (.stab i) = fun l => (c l : ℚ) := by unfold posOf; rw [hc]; rfl
    have e2 : posOf code (.stab j) = fun l => (c' l : ℚ) := by unfold posOf; rw [hc']; rfl
    have hcc : c ≠ c' := by
      intro e
      have := posOf_inj h (a := .stab i) (b := .stab j) (.inl ⟨i, hi, rfl⟩) (.inl ⟨j, hj, rfl⟩) (by rw [e1, e2, e])
      exact hij (SNode.stab.inj this)
    have hper : ∀ l, boundsOf code.ec code.boundaries l ≠ .periodic := by
      rw [hop]
      cases code.ec <;> decide
    obtain ⟨_, l1, hn1, ho1⟩ := (hcx x).1 hxi
    obtain ⟨_, l2, hn2, ho2⟩ := (hcx' x).1 hxj
    have hl : l1 = l2 := by
      by_contra hne
      apply nextTo_odd hn1
      rw [ho2 l1 hne, hpar, hpar']
    subst hl
    intro l
    rw [e1, e2]
    simp only
    by_cases hll : l = l1
    · subst hll
      have hd : c l ≠ c' l := by
        intro e
        apply hcc
        funext l'
        by_cases hl' : l' = l
        · rw [hl', e]
        · rw [← ho1 l' hl', ho2 l' hl']
      have : 2 * x l = c l + c' l := by
        rcases hn1 with h1 | h1 | ⟨h1, _⟩
        · rcases hn2 with h2 | h2 | ⟨h2, _⟩
          · omega
          · omega
          · exact absurd h2 (hper l)
        · rcases hn2 with h2 | h2 | ⟨h2, _⟩
          · omega
          · omega
          · exact absurd h2 (hper l)
        · exact absurd h1 (hper l)
      have : (2 : ℚ) * x l = c l + c' l := by exact_mod_cast this
      linarith
    · rw [← ho1 l hll, ← ho2 l hll]
      ring
  have hst : ∀ {k : ℕ}, k < code.stabs.length → x ∈ code.stabs.getD k [] → Touches code x (posOf code (.stab k)) := by
    intro k hk hx
    obtain ⟨c, hc, _, _, hcx⟩ := posOf_stab h hk
    refine Or.inr ⟨c, ?_, ((hcx x).1 hx).2⟩
    unfold posOf; rw [hc]; rfl
  rcases mem_codeEdges.1 he with ⟨p, hp, h1⟩ | ⟨p, hp, h1⟩ | ⟨i, j, hij, hj, hc, h1⟩ | ⟨k, p, hk, hp, hpk, h1⟩
  · cases (Prod.mk.inj h1).2
  · cases (Prod.mk.inj h1).2
  · obtain ⟨h2, h3⟩ := Prod.mk.inj h1
    have hx := sp.mem i j _ hc
    rw [← Option.some.inj h3] at hx
    unfold commonVertices at hx
    rw [List.mem_filter, decide_eq_true_eq] at hx
    rcases Sym2.eq_iff.1 h2 with ⟨rfl, rfl⟩ | ⟨rfl, rfl⟩
    · exact ⟨.inl ⟨i, by omega, rfl⟩, .inl ⟨j, hj, rfl⟩, hst (by omega) hx.1, hst hj hx.2,
        fun hop => .inr (.inr (hmid (by omega) (by omega) hj hx.1 hx.2 hop))⟩
    · exact ⟨.inl ⟨j, hj, rfl⟩, .inl ⟨i, by omega, rfl⟩, hst hj hx.2, hst (by omega) hx.1,
        fun hop => .inr (.inr (hmid (by omega) hj (by omega) hx.2 hx.1 hop))⟩
  · obtain ⟨h2, h3⟩ := Prod.mk.inj h1
    obtain rfl := Option.some.inj h3
    rcases Sym2.eq_iff.1 h2 with ⟨rfl, rfl⟩ | ⟨rfl, rfl⟩
    · exact ⟨.inl ⟨k, hk, rfl⟩, .inr ⟨x, hp, rfl⟩, hst hk hpk, .inl rfl, fun _ => .inr (.inl rfl)⟩
    · exact ⟨.inr ⟨x, hp, rfl⟩, .inl ⟨k, hk, rfl⟩, .inl rfl, hst hk hpk, fun _ => .inl rfl⟩

theorem edge_real (sp : SetPop) {a b : SNode} (hk : s(a, b) ∈ PyDict.keys (codeEdges sp code)) (ha : a ≠ .low ∧ a ≠ .high) (hb : b ≠ .low ∧ b ≠ .high) :
    ∃ x, (s(a, b), some x) ∈ codeEdges sp code := by
  obtain ⟨⟨e, cv⟩, hm, he⟩ := List.mem_map.1 hk
  simp only at he
  subst he
  cases cv with
  | some x => exact ⟨x, hm⟩
  | none =>
    rcases (edge_none sp hm).1 with ⟨h1, _⟩ | ⟨h1, _⟩
    · rcases Sym2.mem_iff.1 h1 with h1 | h1
      · exact absurd h1.symm ha.1
      · exact absurd h1.symm hb.1
    · rcases Sym2.mem_iff.1 h1 with h1 | h1
      · exact absurd h1.symm ha.2
      · exact absurd h1.symm hb.2

/-- The node at a position. -/
noncomputable def nodeAt (code : Code) (a : Fin 3 → ℚ) : SNode := by
  classical
  exact if hn : ∃ n, Placed code n ∧ posOf code n = a then hn.choose else .low

include h in
theorem nodeAt_posOf {n : SNode} (hn : Placed code n) : nodeAt code (posOf code n) = n := by
  classical
  have hex : ∃ m, Placed code m ∧ posOf code m = posOf code n := ⟨n, hn, rfl⟩
  unfold nodeAt
  rw [dif_pos hex]
  exact posOf_inj h hex.choose_spec.1 hn hex.choose_spec.2

/-- The qubit of a piece of a line. -/
noncomputable def qubitOf (code : Code) (E : List (Sym2 SNode × Option V)) (a b : Fin 3 → ℚ) : V :=
  ((PyDict.get? E s(nodeAt code a, nodeAt code b)).getD none).getD 0

theorem qubitOf_comm (E : List (Sym2 SNode × Option V)) (a b : Fin 3 → ℚ) : qubitOf code E a b = qubitOf code E b a := by
  unfold qubitOf
  rw [Sym2.eq_swap]

theorem points_lineOf (p : List SNode) : points (lineOf code p) = p.map (posOf code) := by
  unfold points lineOf
  induction p with
  | nil => rfl
  | cons n p ih =>
    simp only [List.map_cons, List.zip_cons_cons] at ih ⊢
    rw [ih]
    congr 1
    funext i
    fin_cases i <;> rfl

include h in
theorem path_segs (sp : SetPop) : ∀ (p : List SNode), (p.IsChain fun a b => s(a, b) ∈ PyDict.keys (codeEdges sp code)) →
    (∀ n ∈ p, n ≠ .low ∧ n ≠ .high) →
    (∀ s ∈ segs (p.map (posOf code)), OnPiece code (qubitOf code (codeEdges sp code) s.1 s.2) s.1 s.2) ∧
    pathCvs (codeEdges sp code) p = (segs (p.map (posOf code))).map fun s => some (qubitOf code (codeEdges sp code) s.1 s.2)
  | [], _, _ => ⟨by simp [segs], rfl⟩
  | [a], _, _ => ⟨by simp [segs], rfl⟩
  | a :: b :: p, hc, hn => by
    rw [List.isChain_cons_cons] at hc
    obtain ⟨x, hx⟩ := edge_real sp hc.1 (hn a (by simp)) (hn b (by simp))
    obtain ⟨h1, h2, h3⟩ := edge_touch h sp hx
    have hg : PyDict.get? (codeEdges sp code) s(a, b) = some (some x) :=
      (PyDict.get?_iff_mem (h.ok.1.codeEdges_nodup h.ok.2 sp) _ _).2 hx
    have hq : qubitOf code (codeEdges sp code) (posOf code a) (posOf code b) = x := by
      unfold qubitOf
      rw [nodeAt_posOf h h1, nodeAt_posOf h h2, hg]
      rfl
    obtain ⟨i1, i2⟩ := path_segs sp (b :: p) hc.2 fun n hn' => hn n (by simp [hn'])
    have hs : segs ((a :: b :: p).map (posOf code)) = (posOf code a, posOf code b) :: segs ((b :: p).map (posOf code)) := rfl
    rw [hs]
    refine ⟨fun s hs' => ?_, ?_⟩
    · rcases List.mem_cons.1 hs' with rfl | hs'
      · simp only [hq]; exact h3
      · exact i1 s hs'
    · simp only [pathCvs, hg, i2, List.map_cons, hq, Option.getD_some]

include h in
theorem path_placed (sp : SetPop) {p : List SNode} (hc : p.IsChain fun a b => s(a, b) ∈ PyDict.keys (codeEdges sp code))
    (hn : ∀ n ∈ p, n ≠ .low ∧ n ≠ .high) (hl : 2 ≤ p.length) : ∀ n ∈ p, Placed code n := by
  induction p with
  | nil => simp at hl
  | cons a p ih =>
    cases p with
    | nil => simp at hl
    | cons b p =>
      rw [List.isChain_cons_cons] at hc
      obtain ⟨x, hx⟩ := edge_real sp hc.1 (hn a (by simp)) (hn b (by simp))
      obtain ⟨h1, h2, _⟩ := edge_touch h sp hx
      intro n hn'
      rcases List.mem_cons.1 hn' with rfl | hn'
      · exact h1
      · cases p with
        | nil => rw [List.mem_singleton] at hn'; exact hn' ▸ h2
        | cons c p => exact ih hc.2 (fun n h' => hn n (by simp at h' ⊢; tauto)) (by simp) n hn'

/-! ### Paths to the boundary do not pass a connector -/

theorem walkWeight_append {E : List (Sym2 SNode × ℚ)} (c : SNode) (B : List SNode) : ∀ A : List SNode,
    walkWeight E (A ++ c :: B) = walkWeight E (A ++ [c]) + walkWeight E (c :: B)
  | [] => by
    have : walkWeight E [c] = 0 := rfl
    rw [List.nil_append, List.nil_append, this, zero_add]
  | [a] => by
    have : walkWeight E [c] = 0 := rfl
    simp only [List.cons_append, List.nil_append, walkWeight_cons, this, add_zero]
  | a :: b :: A => by
    have ih := walkWeight_append (E := E) c B (b :: A)
    simp only [List.cons_append, walkWeight_cons] at ih ⊢
    rw [ih, add_assoc]

section
variable (bk : Backend) (sp : SetPop) {w : V → ℚ} (hw : ∀ x ∈ code.syndrome, 0 < w x)

local notation "EE" => weightedEdges (stabGraph bk sp code) w

include h hw in
/-- A walk of weight zero from the low connector stays at the low side. -/
theorem zero_walk : ∀ (p : List SNode) (n : SNode), (n = .low ∨ ∃ q ∈ code.boundPoints.take (code.boundPoints.length / 2), n = .pt q) →
    ((n :: p).IsChain fun a b => s(a, b) ∈ PyDict.keys EE) → walkWeight EE (n :: p) = 0 → SNode.high ∉ n :: p
  | [], n, hn, _, _ => by
    rw [List.mem_singleton]
    rcases hn with rfl | ⟨q, _, rfl⟩ <;> simp
  | m :: p, n, hn, hc, h0 => by
    have hw0 : ∀ x ∈ code.syndrome, 0 ≤ w x := fun x hx => (hw x hx).le
    have hE := h.edges_nonneg bk sp hw0
    rw [List.isChain_cons_cons] at hc
    rw [walkWeight_cons] at h0
    have hk := hc.1
    rw [keys_weightedEdges, (h.stabGraph bk sp).1] at hk
    obtain ⟨⟨e, cv⟩, hm, he⟩ := List.mem_map.1 hk
    simp only at he
    subst he
    have hwt := (h.edge_weight bk sp (w := w) hm).2
    have hp0 := walkWeight_nonneg hE (m :: p)
    cases cv with
    | some x =>
      have := hw x (h.ok.1.edge_effect h.ok.2 sp hm).1
      rw [hwt] at h0
      change w x + _ = 0 at h0
      linarith
    | none =>
      have h0' : walkWeight EE (m :: p) = 0 := by
        rw [hwt] at h0
        change (0 : ℚ) + _ = 0 at h0
        linarith
      have hnd := h.ok.1.bound_nodup h.ok.2
      have hdis : ∀ q, q ∈ code.boundPoints.take (code.boundPoints.length / 2) → q ∈ code.boundPoints.drop (code.boundPoints.length / 2) → False := by
        intro q h1 h2
        rw [← List.take_append_drop (code.boundPoints.length / 2) code.boundPoints, List.nodup_append] at hnd
        exact hnd.2.2 q h1 q h2 rfl
      have hm' : m = .low ∨ ∃ q ∈ code.boundPoints.take (code.boundPoints.length / 2), m = .pt q := by
        rcases mem_codeEdges.1 hm with ⟨p', hp', h1⟩ | ⟨p', hp', h1⟩ | ⟨i, j, _, _, _, h1⟩ | ⟨k, p', _, _, _, h1⟩
        · rcases Sym2.eq_iff.1 (Prod.mk.inj h1).1 with ⟨rfl, rfl⟩ | ⟨rfl, rfl⟩
          · exact .inr ⟨p', hp', rfl⟩
          · exact .inl rfl
        · exfalso
          rcases Sym2.eq_iff.1 (Prod.mk.inj h1).1 with ⟨rfl, rfl⟩ | ⟨rfl, rfl⟩
          · rcases hn with hn | ⟨q, _, hn⟩ <;> cases hn
          · rcases hn with hn | ⟨q, hq, hn⟩
            · cases hn
            · obtain rfl := SNode.pt.inj hn
              exact hdis _ hq hp'
        · cases (Prod.mk.inj h1).2
        · cases (Prod.mk.inj h1).2
      have ih := zero_walk p m hm' hc.2 h0'
      rw [List.mem_cons, not_or]
      refine ⟨?_, ih⟩
      rcases hn with rfl | ⟨q, _, rfl⟩ <;> simp

theorem walk_split {E : List (Sym2 SNode × ℚ)} {a b c : SNode} {A B : List SNode} (hp : IsWalk E a b (A ++ c :: B)) :
    IsWalk E c b (c :: B) ∧ ((A ++ [c]).IsChain fun x y => s(x, y) ∈ PyDict.keys E) := by
  obtain ⟨_, h2, h3⟩ := hp
  have h4 := List.isChain_append.1 h3
  refine ⟨⟨rfl, ?_, h4.2.1⟩, ?_⟩
  · rw [← h2, List.getLast?_append_of_ne_nil _ (by simp)]
  · have : A ++ c :: B = (A ++ [c]) ++ B := by simp
    rw [this] at h3
    exact (List.isChain_append.1 h3).1

include h hw in
/-- With positive weights and exact lengths, a simple shortest path to the boundary only begins with a connector. -/
theorem full_free (lib : PathLib) (hs : ∀ E s t p, (∀ e ∈ E, 0 ≤ e.2) → s ≠ t → lib.find E s t = some p → p.Nodup)
    (hi : bk = .networkx ∨ ∀ x ∈ code.syndrome, ∃ n : ℤ, w x = n) (ho : code.boundaries = .open) {k : ℕ} (hk : k < code.stabs.length) :
    ∀ n ∈ (fullPath bk lib EE k).tail, n ≠ .low ∧ n ≠ .high := by
  have hw0 : ∀ x ∈ code.syndrome, 0 ≤ w x := fun x hx => (hw x hx).le
  have hE := h.edges_nonneg bk sp hw0
  obtain ⟨l1, l2, l3⟩ := h.lowPath_spec bk lib sp hw0 ho hk
  obtain ⟨g1, g2, g3⟩ := h.highPath_spec bk lib sp hw0 ho hk
  have n1 := hs _ _ _ _ hE (by simp) l1
  have n2 := hs _ _ _ _ hE (by simp) g1
  have hx := pathLength_exact h bk sp hi
  unfold fullPath
  rw [hx, hx]
  split
  · rename_i hle
    cases hp : lowPath lib EE k with
    | nil => simp
    | cons c rest =>
      rw [hp] at l2 n1 hle
      obtain rfl : c = .low := Option.some.inj l2.1
      rw [List.nodup_cons] at n1
      intro n hn
      rw [List.tail_cons] at hn
      refine ⟨fun e => n1.1 (e ▸ hn), fun e => ?_⟩
      subst e
      obtain ⟨A, B, rfl⟩ := List.append_of_mem hn
      have hsp := walk_split (A := SNode.low :: A) (B := B) (c := .high) (by simpa using l2)
      have h1 := g3 _ hsp.1
      have h2 := walkWeight_append (E := EE) .high B (SNode.low :: A)
      rw [List.cons_append] at h2
      rw [h2] at hle
      have h3 := walkWeight_nonneg hE (SNode.low :: A ++ [SNode.high])
      have h4 : walkWeight EE (SNode.low :: A ++ [SNode.high]) = 0 := by linarith
      exact zero_walk h bk sp hw (A ++ [SNode.high]) .low (.inl rfl) hsp.2 h4 (by simp)
  · rename_i hle
    cases hp : highPath lib EE k with
    | nil => simp
    | cons c rest =>
      rw [hp] at g2 n2 hle
      obtain rfl : c = .high := Option.some.inj g2.1
      rw [List.nodup_cons] at n2
      intro n hn
      rw [List.tail_cons] at hn
      refine ⟨fun e => ?_, fun e => n2.1 (e ▸ hn)⟩
      subst e
      obtain ⟨A, B, rfl⟩ := List.append_of_mem hn
      have hsp := walk_split (A := SNode.high :: A) (B := B) (c := .low) (by simpa using g2)
      have h1 := l3 _ hsp.1
      have h2 := walkWeight_append (E := EE) .low B (SNode.high :: A)
      rw [List.cons_append] at h2
      rw [h2] at hle
      have h3 := walkWeight_nonneg hE (SNode.high :: A ++ [SNode.low])
      linarith

end

end

end Flamingpy.Viz
