import Verif.Proofs.MwpmMatch

/-!
# The MWPM decoder on a surface code
-/

namespace Flamingpy.SurfaceCode

open Flamingpy TJoin

section
variable {code : Code} (h : IsCode code) (bk : Backend) (lib : PathLib) (sp : SetPop) {w : V → ℚ}
  (hw : ∀ x ∈ code.syndrome, 0 ≤ w x)

local notation "SG" => stabGraph bk sp code
local notation "EE" => weightedEdges (stabGraph bk sp code) w

include h in
theorem IsCode.op_iff : ((SG).lowPts ≠ [] ∨ (SG).highPts ≠ []) ↔ decide (code.boundaries = .open) = true := by
  obtain ⟨_, _, h3, h4⟩ := h.stabGraph bk sp
  rw [h3, h4, decide_eq_true_eq]
  constructor
  · intro hne
    rcases h.ok.1.bound_cases with ⟨_, h2⟩ | ⟨h1, _⟩
    · rw [h2] at hne; simp at hne
    · exact h1
  · intro hb
    left
    obtain ⟨x, hx, hxe⟩ := slice_point h hb (Or.inl rfl)
    apply List.ne_nil_of_mem (a := x)
    refine ((C27_low_high h hb).2.1 x).2 ⟨hx, ?_⟩
    revert hxe
    cases code.ec <;> exact fun h => h

include h hw in
theorem IsCode.edges_nonneg : ∀ e ∈ EE, 0 ≤ e.2 := by
  intro e he
  unfold weightedEdges at he
  obtain ⟨⟨a, cv⟩, hm, rfl⟩ := List.mem_map.1 he
  rw [(h.stabGraph bk sp).1] at hm
  cases cv with
  | none => simp
  | some x => exact hw x (h.ok.1.edge_effect h.ok.2 sp hm).1

theorem withoutConnectors_nonneg {E : List (Sym2 SNode × ℚ)} (hE : ∀ e ∈ E, 0 ≤ e.2) :
    ∀ e ∈ withoutConnectors E, 0 ≤ e.2 := fun e he => hE e (List.mem_of_mem_filter he)

include h hw in
theorem IsCode.realPath_spec {a b : ℕ} (ha : a < code.stabs.length) (hb : b < code.stabs.length) (hab : a ≠ b) :
    lib.find (withoutConnectors EE) (.stab a) (.stab b) = some (realPath lib EE a b) ∧
    IsWalk (withoutConnectors EE) (.stab a) (.stab b) (realPath lib EE a b) ∧
    ∀ p, IsWalk (withoutConnectors EE) (.stab a) (.stab b) p →
      walkWeight (withoutConnectors EE) (realPath lib EE a b) ≤ walkWeight (withoutConnectors EE) p := by
  have hnn := withoutConnectors_nonneg (h.edges_nonneg bk sp hw)
  have hne : SNode.stab a ≠ SNode.stab b := fun e => hab (SNode.stab.inj e)
  cases hf : lib.find (withoutConnectors EE) (.stab a) (.stab b) with
  | none =>
    obtain ⟨p, hp⟩ := C29_connected h bk sp w ha hb
    exact absurd hp (lib.complete _ _ _ hnn hne hf p)
  | some p =>
    have := lib.sound _ _ _ _ hnn hne hf
    simp only [realPath, hf, Option.getD_some]
    exact ⟨trivial, this.1, this.2⟩

include h hw in
theorem IsCode.lowPath_spec (ho : code.boundaries = .open) {k : ℕ} (hk : k < code.stabs.length) :
    lib.find EE .low (.stab k) = some (lowPath lib EE k) ∧ IsWalk EE .low (.stab k) (lowPath lib EE k) ∧
    ∀ p, IsWalk EE .low (.stab k) p → walkWeight EE (lowPath lib EE k) ≤ walkWeight EE p := by
  have hnn := h.edges_nonneg bk sp hw
  cases hf : lib.find EE .low (.stab k) with
  | none =>
    obtain ⟨p, hp⟩ := (C29_connectors h ho bk sp w hk).1
    exact absurd hp (lib.complete _ _ _ hnn (by simp) hf p)
  | some p =>
    have := lib.sound _ _ _ _ hnn (by simp) hf
    simp only [lowPath, hf, Option.getD_some]
    exact ⟨trivial, this.1, this.2⟩

include h hw in
theorem IsCode.highPath_spec (ho : code.boundaries = .open) {k : ℕ} (hk : k < code.stabs.length) :
    lib.find EE .high (.stab k) = some (highPath lib EE k) ∧ IsWalk EE .high (.stab k) (highPath lib EE k) ∧
    ∀ p, IsWalk EE .high (.stab k) p → walkWeight EE (highPath lib EE k) ≤ walkWeight EE p := by
  have hnn := h.edges_nonneg bk sp hw
  cases hf : lib.find EE .high (.stab k) with
  | none =>
    obtain ⟨p, hp⟩ := (C29_connectors h ho bk sp w hk).2
    exact absurd hp (lib.complete _ _ _ hnn (by simp) hf p)
  | some p =>
    have := lib.sound _ _ _ _ hnn (by simp) hf
    simp only [highPath, hf, Option.getD_some]
    exact ⟨trivial, this.1, this.2⟩

include h hw in
theorem IsCode.fullPath_spec (ho : code.boundaries = .open) {k : ℕ} (hk : k < code.stabs.length) :
    (∃ c, (c = SNode.low ∨ c = .high) ∧ IsWalk EE c (.stab k) (fullPath bk lib EE k)) ∧
    boundLen bk lib EE k = pathLength bk EE (fullPath bk lib EE k) := by
  obtain ⟨_, h1, _⟩ := h.lowPath_spec bk lib sp hw ho hk
  obtain ⟨_, h2, _⟩ := h.highPath_spec bk lib sp hw ho hk
  unfold fullPath boundLen
  split
  · exact ⟨⟨_, Or.inl rfl, h1⟩, rfl⟩
  · exact ⟨⟨_, Or.inr rfl, h2⟩, rfl⟩

theorem isWalk_two {E : List (Sym2 SNode × ℚ)} {a b : SNode} (hab : a ≠ b) {p : List SNode} (hp : IsWalk E a b p) :
    ∃ c l, p = a :: c :: l ∧ s(a, c) ∈ PyDict.keys E ∧ IsWalk E c b (c :: l) := by
  cases p with
  | nil => cases hp.1
  | cons x p =>
    obtain rfl : x = a := Option.some.inj hp.1
    cases p with
    | nil => exact absurd (by simpa using hp.2.1) hab
    | cons c l =>
      have := isWalk_uncons hp
      exact ⟨c, l, rfl, this.1, this.2⟩

/-- The odd stabilizers. -/
theorem mem_oddStabs {bits : V → Bool} {k : ℕ} (h : IsCode code) :
    k ∈ oddStabs SG bits ↔ k < code.stabs.length ∧ parity bits (code.stabs.getD k []) = true := by
  unfold oddStabs StabGraph.coords
  rw [(h.stabGraph bk sp).2.1, List.mem_filter, List.mem_range]

theorem oddStabs_pairwise (G : StabGraph) (bits : V → Bool) : (oddStabs G bits).Pairwise (· < ·) :=
  List.pairwise_lt_range.filter _

include h hw in
theorem IsCode.matchGraph (bits : V → Bool) :
    matchGraph bk lib SG w bits = some ⟨graphEdges bk lib EE (decide (code.boundaries = .open)) (oddStabs SG bits),
      virtuals bk lib EE (decide (code.boundaries = .open)) (oddStabs SG bits)⟩ := by
  apply matchGraph_eq rfl rfl (h.op_iff bk sp) (oddStabs_pairwise _ _)
  · intro a ha b hb hab
    rw [mem_oddStabs bk sp h] at ha hb
    rw [(h.realPath_spec bk lib sp hw ha.1 hb.1 (Nat.ne_of_lt hab)).1]; rfl
  · intro ho k hk
    rw [mem_oddStabs bk sp h] at hk
    rw [(h.lowPath_spec bk lib sp hw (by simpa using ho) hk.1).1]; rfl
  · intro ho k hk
    rw [mem_oddStabs bk sp h] at hk
    rw [(h.highPath_spec bk lib sp hw (by simpa using ho) hk.1).1]; rfl
  · intro ho k hk
    rw [mem_oddStabs bk sp h] at hk
    obtain ⟨⟨c, hc, hwalk⟩, _⟩ := h.fullPath_spec bk lib sp hw (by simpa using ho) hk.1
    obtain ⟨d, l, he, _⟩ := isWalk_two (by rcases hc with rfl | rfl <;> simp) hwalk
    rw [he]; rfl

/-! ### Pairing -/

include h in
theorem IsCode.stab_nodup {k : ℕ} (hk : k < code.stabs.length) : (code.stabs.getD k []).Nodup := by
  rw [List.getD_eq_getElem _ _ hk]
  exact ((C25_only_syndrome h).2.1 _ (List.getElem_mem hk)).1

/-- The qubits carrying a one. -/
def onesOf (code : Code) (bits : V → Bool) : Finset V := (code.syndrome.filter bits).toFinset

theorem mem_onesOf {bits : V → Bool} {x : V} : x ∈ onesOf code bits ↔ x ∈ code.syndrome ∧ bits x = true := by
  unfold onesOf; rw [List.mem_toFinset, List.mem_filter]

include h in
theorem IsCode.odd_ones (bits : V → Bool) (k : ℕ) :
    k ∈ (oddStabs SG bits).toFinset ↔ Odd ((onesOf code bits).filter fun q => k ∈ stabsOf code.stabs q).card := by
  rw [List.mem_toFinset, mem_oddStabs bk sp h]
  by_cases hk : k < code.stabs.length
  · have : ((onesOf code bits).filter fun q => k ∈ stabsOf code.stabs q) =
        ((code.stabs.getD k []).filter bits).toFinset := by
      ext x
      rw [Finset.mem_filter, mem_onesOf, mem_stabsOf', List.mem_toFinset, List.mem_filter]
      refine ⟨fun ⟨⟨_, h2⟩, h3⟩ => ⟨h3, h2⟩, fun ⟨h1, h2⟩ => ⟨⟨h.ok.1.mem_syndrome_of_stab h1, h2⟩, h1⟩⟩
    rw [this, List.toFinset_card_of_nodup ((h.stab_nodup hk).filter _), parity_mem]
    simp [hk]
  · have : ((onesOf code bits).filter fun q => k ∈ stabsOf code.stabs q) = ∅ := by
      rw [Finset.filter_eq_empty_iff]
      intro x _ hx
      exact hk (mem_stabsOf.1 hx).1
    rw [this]
    simp [hk]

include h in
theorem IsCode.ends_cases {q : V} (hq : q ∈ code.syndrome) :
    ((∃ t, stabsOf code.stabs q = {t}) ∨ ∃ t u, t ≠ u ∧ stabsOf code.stabs q = {t, u}) ∧
    (∀ t, stabsOf code.stabs q = {t} → code.boundaries = .open ∧ q ∈ code.boundPoints) := by
  have hc := h.ok.1.stabsOf_card h.ok.2 hq
  constructor
  · split_ifs at hc
    · exact Or.inl (Finset.card_eq_one.1 hc)
    · obtain ⟨t, u, hne, he⟩ := Finset.card_eq_two.1 hc
      exact Or.inr ⟨t, u, hne, he⟩
  · intro t ht
    rw [ht, Finset.card_singleton] at hc
    have hb : q ∈ code.boundPoints := by
      by_contra hb
      rw [if_neg hb] at hc
      omega
    exact ⟨((h.ok.1.mem_bound q).1 hb).2.1, hb⟩

include h in
/-- The matching found is perfect. -/
theorem IsCode.perfect (ml : MatchLib) (bits : V → Bool) :
    (ends2 (ml.find (mWeights (graphEdges bk lib EE (decide (code.boundaries = .open)) (oddStabs SG bits))))).Perm
      (mNodes bk lib EE (decide (code.boundaries = .open)) (oddStabs SG bits)) := by
  have hlt := oddStabs_pairwise SG bits
  obtain ⟨P, h1, h2, h3, _⟩ := tjoin (ends := stabsOf code.stabs) (w := fun _ : V => (0 : ℚ)) (D := fun _ _ => 0)
    (B := fun _ => 0) (hasB := code.boundaries = .open) (valid := fun _ => True) (fun _ _ => rfl) (fun _ => rfl)
    (onesOf code bits) (fun _ _ => le_refl 0) (fun q hq => (h.ends_cases (mem_onesOf.1 hq).1).1)
    (fun _ _ _ _ => trivial) (fun _ _ _ _ _ _ _ _ => by simp) (fun _ _ _ _ _ _ _ => by simp)
    (fun q hq t ht => ⟨((h.ends_cases (mem_onesOf.1 hq).1).2 t ht).1, le_refl 0⟩)
    (oddStabs SG bits).toFinset (h.odd_ones bk sp bits)
  obtain ⟨M, hM1, hM2, _⟩ := matching_of_pairing (bk := bk) (lib := lib) (E := EE)
    (op := decide (code.boundaries = .open)) hlt P h1 (fun x => by rw [h2, List.mem_toFinset])
    (fun e he hn => by simpa using h3 e he hn)
  exact (found_perfect ml hlt hM1 hM2).1

/-! ### Effect of the matched paths -/

include h in
theorem IsCode.edge_ne {a b : SNode} {cv : Option V} (he : (s(a, b), cv) ∈ (SG).edges) : a ≠ b := by
  rw [(h.stabGraph bk sp).1] at he
  have key : ∀ x y : SNode, s(a, b) = s(x, y) → x ≠ y → a ≠ b := by
    intro x y h hxy
    rcases Sym2.eq_iff.1 h with ⟨rfl, rfl⟩ | ⟨rfl, rfl⟩
    · exact hxy
    · exact hxy.symm
  rcases mem_codeEdges.1 he with ⟨p, _, h1⟩ | ⟨p, _, h1⟩ | ⟨i, j, hij, hj, hc, h1⟩ | ⟨k, p, hk, hp, hpk, h1⟩
  · exact key _ _ (Prod.mk.inj h1).1 (by simp)
  · exact key _ _ (Prod.mk.inj h1).1 (by simp)
  · exact key _ _ (Prod.mk.inj h1).1 (by simp; omega)
  · exact key _ _ (Prod.mk.inj h1).1 (by simp)

/-- Effect of a qubit on the `k`-th stabilizer. -/
def effK (code : Code) (k : ℕ) : Option V → ZMod 2
  | some x => if x ∈ code.stabs.getD k [] then 1 else 0
  | none => 0

def nodeK (k : ℕ) (a : SNode) : ZMod 2 := if a = .stab k then 1 else 0

def effNone : Option V → ZMod 2
  | some _ => 0
  | none => 1

def nodeConn : SNode → ZMod 2
  | .low => 1
  | .high => 1
  | _ => 0

include h in
theorem IsCode.effK_edge (k : ℕ) (a b : SNode) (cv : Option V) (he : (s(a, b), cv) ∈ (SG).edges) :
    effK code k cv = nodeK k a + nodeK k b := by
  have hne := h.edge_ne bk sp he
  rw [(h.stabGraph bk sp).1] at he
  unfold nodeK
  cases cv with
  | none =>
    have := (edge_none sp he).2 k
    rw [Sym2.mem_iff, not_or] at this
    rw [if_neg (Ne.symm this.1), if_neg (Ne.symm this.2)]
    rfl
  | some x =>
    have h2 := (h.ok.1.edge_effect h.ok.2 sp he).2.1 k
    rw [Sym2.mem_iff] at h2
    simp only [effK]
    by_cases h3 : a = .stab k
    · have hb : b ≠ .stab k := by rw [← h3]; exact hne.symm
      rw [if_pos (h2.2 (Or.inl h3.symm)), if_pos h3, if_neg hb]; rfl
    · by_cases h4 : b = .stab k
      · rw [if_neg h3, if_pos h4, if_pos (h2.2 (Or.inr h4.symm))]; rfl
      · rw [if_neg h3, if_neg h4, if_neg]
        · rfl
        · intro hx
          rcases h2.1 hx with h5 | h5
          · exact h3 h5.symm
          · exact h4 h5.symm

include h in
theorem IsCode.effNone_edge (a b : SNode) (cv : Option V) (he : (s(a, b), cv) ∈ (SG).edges) :
    effNone cv = nodeConn a + nodeConn b := by
  rw [(h.stabGraph bk sp).1] at he
  have key : ∀ x y : SNode, s(a, b) = s(x, y) → nodeConn a + nodeConn b = nodeConn x + nodeConn y := by
    intro x y h
    rcases Sym2.eq_iff.1 h with ⟨rfl, rfl⟩ | ⟨rfl, rfl⟩
    · rfl
    · rw [add_comm]
  rcases mem_codeEdges.1 he with ⟨p, _, h1⟩ | ⟨p, _, h1⟩ | ⟨i, j, hij, hj, hc, h1⟩ | ⟨k, p, hk, hp, hpk, h1⟩
  all_goals
    obtain ⟨h2, rfl⟩ := Prod.mk.inj h1
    rw [key _ _ h2]
    rfl

/-- The effect of a walk: the ends are toggled; connectors are entered and left. -/
theorem IsCode.walk_effect (h : IsCode code) {a c : SNode} {p : List SNode} (hp : IsWalk EE a c p) :
    (∀ k, ((pathCvs (SG).edges p).map (effK code k)).sum = nodeK k a + nodeK k c) ∧
    ((pathCvs (SG).edges p).map effNone).sum = nodeConn a + nodeConn c := by
  have hch : p.IsChain fun a b => s(a, b) ∈ PyDict.keys (SG).edges :=
    hp.2.2.imp fun _ _ h => by rw [← keys_weightedEdges (SG) w]; exact h
  exact ⟨fun k => pathCvs_sum (h.effK_edge bk sp k) hch hp.1 hp.2.1, pathCvs_sum (h.effNone_edge bk sp) hch hp.1 hp.2.1⟩

theorem isWalk_withoutConnectors {E : List (Sym2 SNode × ℚ)} {a c : SNode} {p : List SNode}
    (hp : IsWalk (withoutConnectors E) a c p) : IsWalk E a c p :=
  ⟨hp.1, hp.2.1, chain_withoutConnectors hp.2.2⟩

/-- Effect of an end point of a matching edge. -/
def matchK (k : ℕ) (m : MNode) : ZMod 2 := if m = .stab k then 1 else 0

/-- The qubits toggled for a matched pair. -/
def matchCvs (bk : Backend) (lib : PathLib) (E : List (Sym2 SNode × ℚ)) (G : StabGraph) (op : Bool) (odd : List ℕ)
    (m : MNode × MNode) : List (Option V) :=
  if m.1 ∈ virtuals bk lib E op odd ∧ m.2 ∈ virtuals bk lib E op odd then []
  else pathCvs G.edges ((PyDict.get? (graphEdges bk lib E op odd) s(m.1, m.2)).map (·.2)|>.getD [])

theorem conn_neighbor {c d : SNode} (hc : c = .low ∨ c = .high) (hcd : s(c, d) ∈ PyDict.keys (codeEdges sp code)) :
    ∃ p, d = .pt p ∧ (s(c, d), none) ∈ codeEdges sp code := by
  obtain ⟨⟨e, cv⟩, he, h0⟩ := List.mem_map.1 hcd
  simp only at h0
  subst h0
  have key : ∀ x y : SNode, s(c, d) = s(x, y) → (x = .low ∨ x = .high) → (y ≠ .low ∧ y ≠ .high) → d = y := by
    intro x y h hx hy
    rcases Sym2.eq_iff.1 h with ⟨rfl, rfl⟩ | ⟨rfl, rfl⟩
    · rfl
    · rcases hc with hc | hc <;> simp [hc] at hy
  rcases mem_codeEdges.1 he with ⟨p, hp, h1⟩ | ⟨p, hp, h1⟩ | ⟨i, j, hij, hj, hcv, h1⟩ | ⟨k, p, hk, hp, hpk, h1⟩
  · obtain ⟨h2, rfl⟩ := Prod.mk.inj h1
    exact ⟨p, key _ _ h2 (Or.inl rfl) (by simp), he⟩
  · obtain ⟨h2, rfl⟩ := Prod.mk.inj h1
    exact ⟨p, key _ _ h2 (Or.inr rfl) (by simp), he⟩
  · exfalso
    have h2 := (Prod.mk.inj h1).1
    rcases Sym2.eq_iff.1 h2 with ⟨rfl, rfl⟩ | ⟨rfl, rfl⟩ <;> simp at hc
  · exfalso
    have h2 := (Prod.mk.inj h1).1
    rcases Sym2.eq_iff.1 h2 with ⟨rfl, rfl⟩ | ⟨rfl, rfl⟩ <;> simp at hc

include h hw in
/-- The path of a virtual edge, without the connector. -/
theorem IsCode.tail_spec (ho : code.boundaries = .open) {k : ℕ} (hk : k < code.stabs.length) :
    ∃ c d l p, fullPath bk lib EE k = c :: d :: l ∧ d = SNode.pt p ∧ (c = SNode.low ∨ c = .high) ∧
      (s(c, d), none) ∈ (SG).edges ∧ IsWalk EE d (.stab k) (fullPath bk lib EE k).tail := by
  obtain ⟨⟨c, hc, hwalk⟩, _⟩ := h.fullPath_spec bk lib sp hw ho hk
  obtain ⟨d, l, he, hcd, hl⟩ := isWalk_two (by rcases hc with rfl | rfl <;> simp) hwalk
  have hcd' : s(c, d) ∈ PyDict.keys (codeEdges sp code) := by
    rw [keys_weightedEdges, (h.stabGraph bk sp).1] at hcd; exact hcd
  obtain ⟨p, hd, hm⟩ := conn_neighbor sp hc hcd'
  refine ⟨c, d, l, p, he, hd, hc, by rw [(h.stabGraph bk sp).1]; exact hm, ?_⟩
  rw [he]; exact hl

include h hw in
theorem IsCode.match_spec {bits : V → Bool} {m m' : MNode} {q : ℚ × List SNode}
    (hk : EdgeKind bk lib EE (decide (code.boundaries = .open)) (oddStabs SG bits) s(m, m') q) :
    q.2.IsChain (fun a b => s(a, b) ∈ PyDict.keys (SG).edges) ∧
    (∀ k, ((pathCvs (SG).edges q.2).map (effK code k)).sum = matchK k m + matchK k m') ∧
    ((pathCvs (SG).edges q.2).map effNone).sum = 0 := by
  have hchain : ∀ {a c : SNode} {p : List SNode}, IsWalk EE a c p →
      p.IsChain fun a b => s(a, b) ∈ PyDict.keys (SG).edges := fun hp =>
    hp.2.2.imp fun _ _ h => by rw [← keys_weightedEdges (SG) w]; exact h
  have swap : ∀ x y : MNode, s(m, m') = s(x, y) → ∀ k, matchK k m + matchK k m' = matchK k x + matchK k y := by
    intro x y h k
    rcases Sym2.eq_iff.1 h with ⟨rfl, rfl⟩ | ⟨rfl, rfl⟩
    · rfl
    · rw [add_comm]
  rcases hk with ⟨a, b, ha, hb, hab, he, hq⟩ | ⟨k, hop, hk, he, hq⟩ | ⟨x, y, hop, hx, hy, hne, he, hq⟩
  · subst hq
    rw [mem_oddStabs bk sp h] at ha hb
    have hwk := isWalk_withoutConnectors (h.realPath_spec bk lib sp hw ha.1 hb.1 (Nat.ne_of_lt hab)).2.1
    obtain ⟨h1, h2⟩ := h.walk_effect bk sp hwk
    refine ⟨hchain hwk, fun k => ?_, ?_⟩
    · rw [h1 k, swap _ _ he]; simp [nodeK, matchK]
    · rw [h2]; rfl
  · subst hq
    rw [mem_oddStabs bk sp h] at hk
    obtain ⟨c, d, l, p, _, hd, _, _, hwk⟩ := h.tail_spec bk lib sp hw (by simpa using hop) hk.1
    obtain ⟨h1, h2⟩ := h.walk_effect bk sp hwk
    refine ⟨hchain hwk, fun k => ?_, ?_⟩
    · rw [h1 k, swap _ _ he, hd]; simp [nodeK, matchK, virtOf, virtNode]
    · rw [h2, hd]; rfl
  · subst hq
    refine ⟨by simp, fun k => ?_, by simp [pathCvs]⟩
    rw [swap _ _ he]
    obtain ⟨p, i, rfl⟩ := mem_virtuals hx
    obtain ⟨p', i', rfl⟩ := mem_virtuals hy
    simp [pathCvs, matchK]

include h hw in
/-- The decoder toggles the qubits along all matched paths. -/
theorem IsCode.recovery_eq (bits : V → Bool) {M : List (MNode × MNode)}
    (hM : IsMatching (mWeights (graphEdges bk lib EE (decide (code.boundaries = .open)) (oddStabs SG bits))) M) :
    matchingRecovery SG ⟨graphEdges bk lib EE (decide (code.boundaries = .open)) (oddStabs SG bits),
      virtuals bk lib EE (decide (code.boundaries = .open)) (oddStabs SG bits)⟩ M =
      some ((M.flatMap (matchCvs bk lib EE SG (decide (code.boundaries = .open)) (oddStabs SG bits))).foldl
        toggle []) := by
  unfold matchingRecovery
  simp only [Option.bind_eq_bind]
  set op := decide (code.boundaries = .open)
  set odd := oddStabs SG bits with hodd
  have hlt : odd.Pairwise (· < ·) := oddStabs_pairwise SG bits
  rw [foldlM_some (g := fun s m => (matchCvs bk lib EE SG op odd m).foldl toggle s)]
  · congr 1
    rw [List.foldl_flatMap]
  · intro s m hm
    have hk := hM.1 m hm
    rw [keys_mWeights] at hk
    obtain ⟨q, hq⟩ := Option.isSome_iff_exists.1 ((PyDict.get?_isSome_iff _ _).2 hk)
    unfold matchCvs
    by_cases hv : m.1 ∈ virtuals bk lib EE op odd ∧ m.2 ∈ virtuals bk lib EE op odd
    · rw [if_pos hv, if_pos hv]; rfl
    · rw [if_neg hv, if_neg hv, hq]
      simp only [Option.bind_some, Option.map_some, Option.getD_some]
      exact togglePath_eq _ _ (h.match_spec bk lib sp hw ((get?_graphEdges hlt).1 hq)).1 s

include h hw in
theorem IsCode.matchCvs_spec (bits : V → Bool) {m : MNode × MNode}
    (hkey : s(m.1, m.2) ∈ PyDict.keys (mWeights (graphEdges bk lib EE (decide (code.boundaries = .open)) (oddStabs SG bits)))) :
    (∀ k, ((matchCvs bk lib EE SG (decide (code.boundaries = .open)) (oddStabs SG bits) m).map (effK code k)).sum =
      matchK k m.1 + matchK k m.2) ∧
    ((matchCvs bk lib EE SG (decide (code.boundaries = .open)) (oddStabs SG bits) m).map effNone).sum = 0 ∧
    (∀ x, some x ∈ matchCvs bk lib EE SG (decide (code.boundaries = .open)) (oddStabs SG bits) m →
      x ∈ code.syndrome ∧ ∃ e, (e, some x) ∈ codeEdges sp code) := by
  have hlt := oddStabs_pairwise SG bits
  have hk := hkey
  rw [keys_mWeights] at hk
  obtain ⟨q, hq⟩ := Option.isSome_iff_exists.1 ((PyDict.get?_isSome_iff _ _).2 hk)
  obtain ⟨h1, h2, h3⟩ := h.match_spec bk lib sp hw ((get?_graphEdges hlt).1 hq)
  unfold matchCvs
  split
  · rename_i hv
    obtain ⟨p, i, hp⟩ := mem_virtuals hv.1
    obtain ⟨p', i', hp'⟩ := mem_virtuals hv.2
    exact ⟨fun k => by rw [hp, hp']; simp [matchK], rfl, fun x hx => by simp at hx⟩
  · rw [hq]
    simp only [Option.map_some, Option.getD_some]
    refine ⟨h2, h3, fun x hx => ?_⟩
    obtain ⟨e, he⟩ := pathCvs_mem h1 hx
    rw [(h.stabGraph bk sp).1] at he
    exact ⟨(h.ok.1.edge_effect h.ok.2 sp he).1, e, he⟩

/-- Number of end points equal to a stabilizer. -/
theorem sum_matchK (k : ℕ) (M : List (MNode × MNode)) :
    (M.map fun m => matchK k m.1 + matchK k m.2).sum = ((ends2 M).map (matchK k)).sum := by
  unfold ends2
  rw [List.map_flatMap, sum_flatMap]
  simp

theorem sum_indicator {α : Type} [DecidableEq α] {l : List α} (hl : l.Nodup) (a : α) :
    (l.map fun b => if b = a then (1 : ZMod 2) else 0).sum = if a ∈ l then 1 else 0 := by
  induction l with
  | nil => simp
  | cons b l ih =>
    rw [List.nodup_cons] at hl
    rw [List.map_cons, List.sum_cons, ih hl.2]
    by_cases hb : b = a
    · subst hb
      simp [hl.1]
    · simp [hb, Ne.symm hb]

include h hw in
/-- The decoder returns a set of syndrome qubits with the observed syndrome. -/
theorem IsCode.recovery_spec (bits : V → Bool) {M : List (MNode × MNode)}
    (hM : IsMatching (mWeights (graphEdges bk lib EE (decide (code.boundaries = .open)) (oddStabs SG bits))) M)
    (hP : (ends2 M).Perm (mNodes bk lib EE (decide (code.boundaries = .open)) (oddStabs SG bits))) :
    ∃ R : List V, matchingRecovery SG ⟨graphEdges bk lib EE (decide (code.boundaries = .open)) (oddStabs SG bits),
      virtuals bk lib EE (decide (code.boundaries = .open)) (oddStabs SG bits)⟩ M = some (R.map some) ∧ R.Nodup ∧
      (∀ x ∈ R, x ∈ code.syndrome ∧ ∃ e, (e, some x) ∈ codeEdges sp code) ∧
      (∀ k < code.stabs.length, parity (fun x => decide (x ∈ R)) (code.stabs.getD k []) =
        parity bits (code.stabs.getD k [])) ∧
      (R.map w).sum ≤ ((M.flatMap (matchCvs bk lib EE SG (decide (code.boundaries = .open))
          (oddStabs SG bits))).map (cvWeight w)).sum := by
  set L := M.flatMap (matchCvs bk lib EE SG (decide (code.boundaries = .open)) (oddStabs SG bits)) with hL
  have hspec : ∀ m ∈ M, _ := fun m hm => h.matchCvs_spec bk lib sp hw bits (hM.1 m hm)
  have hnd : (L.foldl toggle []).Nodup := toggles_nodup L List.nodup_nil
  have hnone : none ∉ L.foldl toggle [] := by
    have h1 := toggles_sum2 effNone L []
    rw [hL, List.map_flatMap, sum_flatMap] at h1
    have h2 : (M.map fun a => ((matchCvs bk lib EE SG (decide (code.boundaries = .open)) (oddStabs SG bits) a).map
        effNone).sum) = M.map fun _ => 0 := List.map_congr_left fun m hm => (hspec m hm).2.1
    rw [h2] at h1
    simp only [List.map_nil, List.sum_nil, zero_add, List.map_const', List.sum_replicate, smul_zero] at h1
    rw [← hL] at h1
    have h3 : effNone = fun b => if b = none then (1 : ZMod 2) else 0 := by funext b; cases b <;> rfl
    rw [h3, sum_indicator hnd none] at h1
    intro hn
    rw [if_pos hn] at h1
    exact absurd h1 (by decide)
  obtain ⟨R, hR⟩ : ∃ R : List V, L.foldl toggle [] = R.map some := by
    refine ⟨(L.foldl toggle []).filterMap id, ?_⟩
    have : ∀ l : List (Option V), none ∉ l → l = (l.filterMap id).map some := by
      intro l
      induction l with
      | nil => simp
      | cons a l ih =>
        intro hn
        cases a with
        | none => simp at hn
        | some a => simp at hn ⊢; exact ih hn
    exact this _ hnone
  have hRn : R.Nodup := by rw [hR] at hnd; exact hnd.of_map _
  have hRs : ∀ x ∈ R, x ∈ code.syndrome ∧ ∃ e, (e, some x) ∈ codeEdges sp code := by
    intro x hx
    have : some x ∈ L.foldl toggle [] := by rw [hR]; exact List.mem_map_of_mem hx
    rcases toggles_mem L this with h1 | h1
    · simp at h1
    · rw [hL] at h1
      obtain ⟨m, hm, hx⟩ := List.mem_flatMap.1 h1
      exact (hspec m hm).2.2 x hx
  refine ⟨R, ?_, hRn, hRs, ?_, ?_⟩
  · rw [h.recovery_eq bk lib sp hw bits hM, ← hL, hR]
  · intro k hk
    have h1 := toggles_sum2 (effK code k) L []
    rw [hL, List.map_flatMap, sum_flatMap] at h1
    have h2 : (M.map fun a => ((matchCvs bk lib EE SG (decide (code.boundaries = .open)) (oddStabs SG bits) a).map
        (effK code k)).sum) = M.map fun m => matchK k m.1 + matchK k m.2 :=
      List.map_congr_left fun m hm => (hspec m hm).1 k
    rw [h2, sum_matchK, (hP.map _).sum_eq] at h1
    unfold matchK at h1
    rw [sum_indicator (mNodes_nodup _ ((oddStabs_pairwise SG bits).imp (fun {a b} h => Nat.ne_of_lt h)))] at h1
    have h3 : MNode.stab k ∈ mNodes bk lib EE (decide (code.boundaries = .open)) (oddStabs SG bits) ↔
        parity bits (code.stabs.getD k []) = true := by
      unfold mNodes
      rw [List.mem_append, List.mem_map]
      constructor
      · rintro (⟨j, hj, he⟩ | hv)
        · obtain rfl := MNode.stab.inj he
          exact ((mem_oddStabs bk sp h).1 hj).2
        · obtain ⟨p, i, hp⟩ := mem_virtuals hv
          cases hp
      · intro hp
        exact Or.inl ⟨k, (mem_oddStabs bk sp h).2 ⟨hk, hp⟩, rfl⟩
    rw [← hL, hR, List.map_map] at h1
    have h4 : (R.map (effK code k ∘ some)).sum = ((R.filter fun x => decide (x ∈ code.stabs.getD k [])).length : ZMod 2) := by
      clear h1 hR hnd hnone hRn hRs
      induction R with
      | nil => simp
      | cons x R ih =>
        rw [List.map_cons, List.sum_cons, ih, List.filter_cons]
        simp only [Function.comp, effK]
        generalize code.stabs.getD k [] = S
        by_cases hx : x ∈ S
        · simp [hx, add_comm]
        · simp [hx]
    have h5 : ((code.stabs.getD k []).filter fun x => decide (x ∈ R)).length =
        (R.filter fun x => decide (x ∈ code.stabs.getD k [])).length := by
      apply List.Perm.length_eq
      rw [List.perm_ext_iff_of_nodup ((h.stab_nodup hk).filter _) (hRn.filter _)]
      intro x
      simp [and_comm]
    rw [parity_mem, h5, Bool.eq_iff_iff, decide_eq_true_eq, ← h3]
    rw [h4] at h1
    simp only [List.map_nil, List.sum_nil, zero_add] at h1
    rw [← ZMod.natCast_eq_one_iff_odd, h1]
    split_ifs with h6
    · exact ⟨fun _ => h6, fun _ => rfl⟩
    · exact ⟨fun e => absurd e (by decide), fun e => absurd e h6⟩
  · have h1 := toggles_sum_le (cvWeight w) L [] (by
      intro x hx
      cases x with
      | none => exact le_refl 0
      | some x =>
        obtain ⟨m, hm, hx⟩ := List.mem_flatMap.1 hx
        exact hw x ((hspec m hm).2.2 x hx).1)
    rw [hR, List.map_map] at h1
    simpa [Function.comp_def, cvWeight] using h1

include h hw in
/-- The decoder returns a set of syndrome qubits with the observed syndrome. -/
theorem IsCode.decoder_spec (ml : MatchLib) (bits : V → Bool) :
    ∃ R : List V, mwpmDecoder bk lib ml SG w bits = some (R.map some) ∧ R.Nodup ∧
      (∀ x ∈ R, x ∈ code.syndrome ∧ ∃ e, (e, some x) ∈ codeEdges sp code) ∧
      (∀ k < code.stabs.length, parity (fun x => decide (x ∈ R)) (code.stabs.getD k []) =
        parity bits (code.stabs.getD k [])) ∧
      (R.map w).sum ≤ (((ml.find (mWeights (graphEdges bk lib EE (decide (code.boundaries = .open))
        (oddStabs SG bits)))).flatMap (matchCvs bk lib EE SG (decide (code.boundaries = .open))
          (oddStabs SG bits))).map (cvWeight w)).sum := by
  have e : mwpmDecoder bk lib ml SG w bits = matchingRecovery SG
      ⟨graphEdges bk lib EE (decide (code.boundaries = .open)) (oddStabs SG bits),
        virtuals bk lib EE (decide (code.boundaries = .open)) (oddStabs SG bits)⟩ (ml.find (mWeights (graphEdges bk lib EE (decide (code.boundaries = .open)) (oddStabs SG bits)))) := by
    unfold mwpmDecoder
    rw [h.matchGraph bk lib sp hw bits]
    rfl
  rw [e]
  exact h.recovery_spec bk lib sp hw bits (ml.isMatching (mWeights (graphEdges bk lib EE (decide (code.boundaries = .open)) (oddStabs SG bits)))) (h.perfect bk lib sp ml bits)

end

end Flamingpy.SurfaceCode
