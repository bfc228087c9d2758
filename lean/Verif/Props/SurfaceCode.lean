import Verif.Proofs.CodeFacts

/-!
# C25-C27, C30-C33, C52, C54: the surface code, recovery and the success check

`IsCode code`: `code` was returned by the constructor (any error complex, boundaries, polarity, sizes at
least two, any iteration order of the Python sets involved).
-/

namespace Flamingpy.SurfaceCode

open Flamingpy

/-! ### The constructor and C54 -/

/-- For sizes at least two the constructor raises nothing. -/
theorem C54_constructor_total (o : SetOrder) (ec : Ec) (b : Boundaries) {dims : Fin 3 → ℕ}
    (hd : ∀ i, 2 ≤ dims i) (pol : Option (V → V → ℤ)) :
    ∃ code, surfaceCode o ec b dims pol = some code ∧ code.dims = dims ∧ code.ec = ec ∧ code.boundaries = b := by
  obtain ⟨code, h1, h2, h3, h4, _⟩ := surfaceCode_ok o ec b hd pol
  exact ⟨code, h1, h2, h3, h4⟩

/-- The graph of the code is the RHG lattice of its size and boundaries with the polarity given by the
user (so that C22-C24 describe it). -/
theorem C54_graph (o : SetOrder) (ec : Ec) (b : Boundaries) (dims : Fin 3 → ℕ)
    (pol : Option (V → V → ℤ)) {code : Code} (h : surfaceCode o ec b dims pol = some code) :
    ∃ verts, verts.Perm (denested dims (boundsOf ec b)) ∧ code.graph = rhgGraph dims (boundsOf ec b) pol verts := by
  unfold surfaceCode at h
  simp only at h
  split_ifs at h
  obtain rfl := Option.some.inj h
  exact ⟨_, o.perm 0 _, rfl⟩

/-- The seven documented names, and nothing else, give boundary triples; non-strings are rejected. -/
theorem C54_str_to_bound (s : String) (t : Fin 3 → Bd) :
    strToBoundArg .other = .error .typeError ∧
    (strToBoundArg (.str s) = .ok (some t) ↔
      (s = "open_primal" ∧ t = ![.primal, .dual, .primal]) ∨
      (s = "open_dual" ∧ t = ![.primal, .dual, .dual]) ∨
      (s = "primal" ∧ t = ![.primal, .primal, .primal]) ∨
      (s = "dual" ∧ t = ![.dual, .dual, .dual]) ∨
      (s = "periodic" ∧ t = ![.periodic, .periodic, .periodic]) ∨
      (s = "periodic_primal" ∧ t = ![.periodic, .periodic, .primal]) ∨
      (s = "periodic_dual" ∧ t = ![.periodic, .periodic, .dual])) := by
  refine ⟨rfl, ?_⟩
  simp only [strToBoundArg, Except.ok.injEq]
  unfold strToBound
  rw [PyDict.get?_iff_mem (by decide)]
  simp only [List.mem_cons, List.not_mem_nil, or_false, Prod.mk.injEq]

/-- Exactly the documented combinations of error complex and boundaries are accepted, and a distance
that is an integer or a triple. -/
theorem C54_arguments (o : SetOrder) (d : Distance) (ec b : String) (pol : Option (V → V → ℤ)) :
    (ec ∉ ["primal", "dual"] ∨ b ∉ ["open", "toric", "periodic"] →
      surfaceCodeArgs o d ec b pol = .error .valueError) ∧
    (ec ∈ ["primal", "dual"] → b ∈ ["open", "toric", "periodic"] → ∀ n, d = .int n → 2 ≤ n →
      ∃ code, surfaceCodeArgs o d ec b pol = .ok (some code) ∧ ∀ i, code.dims i = n) ∧
    (ec ∈ ["primal", "dual"] → b ∈ ["open", "toric", "periodic"] → ∀ x y z, d = .seq [x, y, z] →
      2 ≤ x → 2 ≤ y → 2 ≤ z →
      ∃ code, surfaceCodeArgs o d ec b pol = .ok (some code) ∧ code.dims = ![x, y, z]) := by
  have hk : ec ∈ ["primal", "dual"] → b ∈ ["open", "toric", "periodic"] → ∃ e b', parseKind ec b = .ok (e, b') := by
    intro h1 h2
    simp only [List.mem_cons, List.not_mem_nil, or_false] at h1 h2
    rcases h1 with rfl | rfl <;> rcases h2 with rfl | rfl | rfl <;> exact ⟨_, _, rfl⟩
  refine ⟨?_, ?_, ?_⟩
  · intro h
    have : parseKind ec b = .error .valueError := by
      simp only [List.mem_cons, List.not_mem_nil, or_false, not_or] at h
      unfold parseKind
      rcases h with ⟨h1, h2⟩ | ⟨h1, h2, h3⟩
      · rw [if_neg h1, if_neg h2]
        split <;> first | rfl | (rename_i hh; simp at hh)
      · rw [if_neg h1, if_neg h2, if_neg h3]
    unfold surfaceCodeArgs
    rw [this]; rfl
  · rintro h1 h2 n rfl hn
    obtain ⟨e, b', hp⟩ := hk h1 h2
    obtain ⟨code, hc, hd, _⟩ := C54_constructor_total o e b' (dims := fun _ => n) (fun _ => hn) pol
    refine ⟨code, ?_, fun i => by rw [hd]⟩
    unfold surfaceCodeArgs
    rw [hp]
    show Except.ok (surfaceCode o e b' (fun _ => n) pol) = _
    rw [hc]
  · rintro h1 h2 x y z rfl hx hy hz
    obtain ⟨e, b', hp⟩ := hk h1 h2
    obtain ⟨code, hc, hd, _⟩ := C54_constructor_total o e b' (dims := ![x, y, z])
      (by rw [forall3]; exact ⟨hx, hy, hz⟩) pol
    refine ⟨code, ?_, hd⟩
    unfold surfaceCodeArgs
    rw [hp]
    show Except.ok (surfaceCode o e b' (fun i => [x, y, z][i.val]'i.isLt) pol) = _
    rw [← hc]
    congr 2
    funext i
    revert i
    rw [forall3]
    exact ⟨rfl, rfl, rfl⟩

/-! ### C25 -/

/-- Every syndrome qubit is in exactly two stabilizers, or is a boundary point and in exactly one. -/
theorem C25_checked_twice {code : Code} (h : IsCode code) {x : V} (hx : x ∈ code.syndrome) :
    (x ∉ code.boundPoints ∧ code.stabs.countP (fun s => decide (x ∈ s)) = 2) ∨
    (x ∈ code.boundPoints ∧ code.stabs.countP (fun s => decide (x ∈ s)) = 1) := by
  have := h.ok.1.count_eq h.ok.2 hx
  split_ifs at this with hb
  · exact Or.inr ⟨hb, this⟩
  · exact Or.inl ⟨hb, this⟩

/-- The syndrome qubits are all the nodes of the error complex' type. -/
theorem C25_all {code : Code} (h : IsCode code) (x : V) :
    x ∈ code.syndrome ↔ x ∈ PyDict.keys code.graph.nodes ∧ evens x = (match code.ec with
      | .primal => 1
      | .dual => 2) := by
  have hok := h.ok.1
  rw [hok.syndrome, hok.graphNodes, mem_qubits]
  have key : (∃ i, FaceAt code.ec x i) ↔ evens x = (match code.ec with
      | .primal => 1
      | .dual => 2) := by
    unfold FaceAt
    cases code.ec
    · rw [evens_one_iff]; rfl
    · simp only [evens_two_iff]; rfl
  rw [key]
  unfold isNode
  cases code.ec <;> simp only <;> tauto

/-- The stabilizers are, one for one and in this order, the sets of lattice points around the cells: the
points of the box whose coordinates are all odd (primal) or all even (dual). -/
theorem C25_cells {code : Code} (h : IsCode code) :
    ∃ centres : List V, centres.Nodup ∧
      (∀ c, c ∈ centres ↔ inBox code.dims (boundsOf code.ec code.boundaries) c ∧ ∀ i, c i % 2 = (match code.ec with
        | .primal => 1
        | .dual => 0)) ∧
      List.Forall₂ (fun c s => s.Nodup ∧ ∀ x, x ∈ s ↔ x ∈ code.syndrome ∧
        adjacent code.dims (boundsOf code.ec code.boundaries) x c) centres code.stabs := by
  have hok := h.ok.1
  refine ⟨centers code.ec code.dims (boundsOf code.ec code.boundaries), centers_nodup _ _ _, ?_, ?_⟩
  · intro c
    rw [mem_centers_iff_cells, mem_cells]
    cases code.ec <;> rfl
  · have hall := hok.stabs
    have hmem : ∀ c ∈ centers code.ec code.dims (boundsOf code.ec code.boundaries),
        c ∈ cells code.ec code.dims (boundsOf code.ec code.boundaries) := fun c hc => mem_centers_iff_cells.1 hc
    generalize centers code.ec code.dims (boundsOf code.ec code.boundaries) = l at hall hmem
    generalize code.stabs = m at hall
    clear h
    revert hmem
    induction hall with
    | nil => intro _; exact List.Forall₂.nil
    | cons hab _ ih =>
      intro hmem
      refine List.Forall₂.cons ⟨hab.1, fun x => ?_⟩ (ih fun c hc => hmem c (by simp [hc]))
      rw [stabAt_mem hab (hmem _ (by simp)), Finset.mem_filter, hok.syndrome]

/-- The boundaries along the three axes of a code. -/
theorem C25_boundaries {code : Code} :
    boundsOf code.ec code.boundaries = match code.ec, code.boundaries with
      | .primal, .open => ![.primal, .dual, .dual]
      | .dual, .open => ![.primal, .dual, .primal]
      | .primal, .toric => ![.periodic, .periodic, .dual]
      | .dual, .toric => ![.periodic, .periodic, .primal]
      | _, .periodic => ![.periodic, .periodic, .periodic] := boundsOf_table _ _

/-- The stabilizers are made of syndrome qubits only, without repetition, and the boundary points are
syndrome qubits. -/
theorem C25_only_syndrome {code : Code} (h : IsCode code) :
    code.syndrome.Nodup ∧ (∀ s ∈ code.stabs, s.Nodup ∧ ∀ x ∈ s, x ∈ code.syndrome) ∧
      ∀ x ∈ code.boundPoints, x ∈ code.syndrome := by
  have hok := h.ok.1
  refine ⟨hok.syndromeNd, ?_, fun x hx => ((hok.mem_bound x).1 hx).1⟩
  intro s hs
  obtain ⟨c, hc, hr⟩ := hok.stab_center hs
  refine ⟨hr.1, fun x hx => ?_⟩
  rw [hok.syndrome]
  exact (Finset.mem_filter.1 ((stabAt_mem hr hc x).1 hx)).1

/-! ### C26 -/

theorem stab_overlap {code : Code} (hok : CodeOk code) {q : V}
    (hq : q ∈ PyDict.keys code.graph.nodes) {s : List V} (hs : s ∈ code.stabs) :
    ∃ c ∈ cells code.ec code.dims (boundsOf code.ec code.boundaries),
      StabAt code.dims (boundsOf code.ec code.boundaries) c s ∧
      (s.filter fun x => decide (s(q, x) ∈ PyDict.keys code.graph.edges)).length =
        ((qubits code.ec code.dims (boundsOf code.ec code.boundaries)).filter fun x =>
          adjacent code.dims (boundsOf code.ec code.boundaries) x c ∧
          adjacent code.dims (boundsOf code.ec code.boundaries) q x).card := by
  obtain ⟨c, hc, hr⟩ := hok.stab_center hs
  refine ⟨c, hc, hr, ?_⟩
  rw [← List.countP_eq_length_filter, countP_finset hr.1 (stabAt_mem hr hc), Finset.filter_filter]
  congr 1
  apply Finset.filter_congr
  intro x hx
  apply and_congr_right
  intro _
  rw [hok.graphEdges]
  exact ⟨fun h => h.2.2, fun h => ⟨(hok.graphNodes q).1 hq, qubit_isNode hx, h⟩⟩

/-- Every node is joined to an even number of qubits of each stabilizer (in fact zero or two). -/
theorem C26_even_overlap {code : Code} (h : IsCode code) {q : V}
    (hq : q ∈ PyDict.keys code.graph.nodes) {s : List V} (hs : s ∈ code.stabs) :
    (s.filter fun x => decide (s(q, x) ∈ PyDict.keys code.graph.edges)).length = 0 ∨
    (s.filter fun x => decide (s(q, x) ∈ PyDict.keys code.graph.edges)).length = 2 := by
  obtain ⟨c, hc, _, he⟩ := stab_overlap h.ok.1 hq hs
  rw [he]
  exact stab_even ((h.ok.1.graphNodes q).1 hq) hc

theorem parity_swap (l s : List V) (r : V → V → Bool) (vals : V → Bool)
    (h : ∀ q ∈ l, Even (s.filter (r q)).length) :
    parity (fun x => parity vals (l.filter fun q => r q x)) s = false := by
  induction l with
  | nil =>
    rw [parity_mem]; simp [parity]
  | cons q l ih =>
    have e : (fun x => parity vals ((q :: l).filter fun q => r q x)) =
        fun x => xor (r q x && vals q) (parity vals (l.filter fun q => r q x)) := by
      funext x
      rw [List.filter_cons]
      by_cases hr : r q x
      · simp only [hr, if_true, Bool.true_and]
        rw [parity_eq, List.foldl_cons, ← b2z_inj, b2z_foldl, b2z_xor, b2z_xor, parity_eq, b2z_foldl]
        simp [b2z_eq_zero.2]
      · simp [hr]
    rw [e, parity_xor, ih fun q' hq' => h q' (by simp [hq']), Bool.xor_false]
    cases hv : vals q
    · rw [parity_mem]; simp
    · simp only [Bool.and_true]
      rw [parity_mem]
      have := h q (by simp)
      simpa using this

/-- Outcomes that are the parity of arbitrary values on the neighbours have trivial syndrome. -/
theorem C26_noiseless {code : Code} (h : IsCode code) (vals bits : V → Bool)
    (hb : ∀ x ∈ code.syndrome, bits x = parity vals (neighbors code x)) : trivialSyndrome code bits := by
  intro s hs
  have hsub := ((C25_only_syndrome h).2.1 s hs).2
  have e : parity bits s = parity (fun x => parity vals (neighbors code x)) s := by
    unfold parity
    congr 1
    apply List.map_congr_left
    intro x hx
    rw [hb x (hsub x hx)]
    rfl
  rw [e]
  apply parity_swap (r := fun q x => decide (s(x, q) ∈ PyDict.keys code.graph.edges))
  intro q hq
  have := C26_even_overlap h hq hs
  have e2 : (s.filter fun x => decide (s(x, q) ∈ PyDict.keys code.graph.edges)) =
      s.filter fun x => decide (s(q, x) ∈ PyDict.keys code.graph.edges) := by
    congr 1; funext x; rw [Sym2.eq_swap]
  rw [e2]
  rcases this with h | h <;> rw [h] <;> decide

/-! ### C27 -/

/-- Open boundaries: the first half of the boundary points is the lowest slice of syndrome qubits
along the open axis (x for primal, y for dual), the second half the highest slice. -/
theorem C27_low_high {code : Code} (h : IsCode code) (hb : code.boundaries = .open) :
    code.boundPoints.Nodup ∧
    (∀ x, x ∈ code.boundPoints.take (code.boundPoints.length / 2) ↔
      x ∈ code.syndrome ∧ (match code.ec with
        | .primal => x 0 = 0
        | .dual => x 1 = 1)) ∧
    (∀ x, x ∈ code.boundPoints.drop (code.boundPoints.length / 2) ↔
      x ∈ code.syndrome ∧ (match code.ec with
        | .primal => x 0 = 2 * code.dims 0 - 2
        | .dual => x 1 = 2 * code.dims 1 - 1)) := by
  obtain ⟨hok, hd⟩ := h.ok
  rcases hok.bound_cases with ⟨h1, _⟩ | ⟨_, lo, hi, e, nl, nh, ml, mh⟩
  · exact absurd hb h1
  · have hlen : lo.length = hi.length := by
      have hs := hok.slices_card hd hb
      rw [← List.toFinset_card_of_nodup nl, ← List.toFinset_card_of_nodup nh]
      convert hs using 2
      · ext x; rw [List.mem_toFinset, ml, hok.syndrome, Finset.mem_filter]
      · ext x; rw [List.mem_toFinset, mh, hok.syndrome, Finset.mem_filter]
    have hhalf : code.boundPoints.length / 2 = lo.length := by
      rw [e, List.length_append]; omega
    have hne : lowF code.ec ≠ highF code.ec (code.dims (openAxis code.ec)) := by
      have := hd (openAxis code.ec)
      generalize code.dims (openAxis code.ec) = d at *
      cases code.ec <;> simp only [lowF, highF] <;> omega
    refine ⟨?_, ?_, ?_⟩
    · rw [e]
      apply nl.append nh
      intro x hx hx'
      exact hne (((ml x).1 hx).2.symm.trans ((mh x).1 hx').2)
    · intro x
      rw [hhalf, e, List.take_left', ml]
      · cases code.ec <;> rfl
      · rfl
    · intro x
      rw [hhalf, e, List.drop_left', mh]
      · cases code.ec <;> rfl
      · rfl

/-- The other boundary conditions have no boundary points. -/
theorem C27_periodic {code : Code} (h : IsCode code) (hb : code.boundaries ≠ .open) : code.boundPoints = [] := by
  rcases h.ok.1.bound_cases with ⟨_, h2⟩ | ⟨h1, _⟩
  · exact h2
  · exact absurd h1 hb

/-! ### C30 -/

/-- `recovery` toggles exactly the listed qubits. -/
theorem C30_recovery (nodes qs : List V) (hq : ∀ q ∈ qs, q ∈ nodes) (hn : qs.Nodup) (bits : V → Bool) :
    ∃ bits', recovery nodes (qs.map some) bits = some bits' ∧
      ∀ x, bits' x = if x ∈ qs then !bits x else bits x := by
  refine ⟨_, recovery_nodup nodes qs hq hn bits, fun x => ?_⟩
  by_cases hx : x ∈ qs <;> simp [hx]

/-- The order in which the set is traversed is irrelevant. -/
theorem C30_order (nodes qs qs' : List V) (hq : ∀ q ∈ qs, q ∈ nodes) (hp : qs'.Perm qs)
    (bits : V → Bool) : recovery nodes (qs.map some) bits = recovery nodes (qs'.map some) bits := by
  rw [recovery_list nodes qs hq, recovery_list nodes qs' fun q h => hq q (hp.mem_iff.1 h)]
  simp only [hp.count_eq]

/-- Applying the same recovery again restores the state. -/
theorem C30_twice (nodes qs : List V) (hq : ∀ q ∈ qs, q ∈ nodes) (bits : V → Bool) :
    (recovery nodes (qs.map some) bits).bind (recovery nodes (qs.map some)) = some bits := by
  rw [recovery_list nodes qs hq, Option.bind_some, recovery_list nodes qs hq]
  congr 1
  funext x
  rw [Bool.xor_assoc, Bool.xor_self, Bool.xor_false]

/-- The parity of a stabilizer changes iff it contains an odd number of the flipped qubits. -/
theorem C30_parity (nodes qs : List V) (hq : ∀ q ∈ qs, q ∈ nodes) (hn : qs.Nodup) (bits bits' : V → Bool)
    (h : recovery nodes (qs.map some) bits = some bits') (s : List V) :
    (parity bits' s ≠ parity bits s) ↔ Odd (s.filter fun x => decide (x ∈ qs)).length := by
  rw [recovery_nodup nodes qs hq hn] at h
  obtain rfl := Option.some.inj h
  rw [parity_xor, parity_mem fun x => decide (x ∈ qs)]
  by_cases ho : Odd (s.filter fun x => decide (x ∈ qs)).length
  · simp [ho]
  · simp [ho]

/-- A recovery set with an entry that is not a node of the graph raises. -/
theorem C30_keyerror (nodes : List V) (qs qs' : List V) (q : Option V) (hq : ∀ v, q = some v → v ∉ nodes)
    (bits : V → Bool) : recovery nodes (qs.map some ++ q :: qs'.map some) bits = none := by
  unfold recovery
  rw [List.foldlM_append]
  generalize List.foldlM (m := Option) _ bits (qs.map some) = r
  cases r with
  | none => rfl
  | some b =>
    rw [Option.bind_eq_bind, Option.bind_some, List.foldlM_cons]
    cases q with
    | none => rfl
    | some v => simp only [if_neg (hq v rfl)]; rfl

/-! ### C31 -/

theorem truth_entry {code : Code} (hok : CodeOk code) (hd : ∀ i, 2 ≤ code.dims i) {bits : V → Bool}
    (ht : trivialSyndrome code bits) {i : Fin 3} (hi : i ∈ planesToCheck code.ec code.boundaries) {k : ℕ}
    (hk : k < code.dims i) :
    sheetParity code bits i (lowF code.ec + 2 * k) = sheetParity code bits i (lowF code.ec) := by
  obtain ⟨h1, h2⟩ := checked_axis _ _ i hi
  rw [← b2z_inj, hok.sheet, hok.sheet]
  exact plane_eq hd _ i h1 h2 ((hok.trivial_iff bits).1 ht) k hk

/-- With trivial syndrome, all entries of the sanity-check list of a plane direction agree; there are as
many as the size of the code in that direction. -/
theorem C31_parallel_planes {code : Code} (h : IsCode code) {bits : V → Bool} (ht : trivialSyndrome code bits)
    {i : Fin 3} (hi : i ∈ planesToCheck code.ec code.boundaries) :
    (truthDict code bits i).length = code.dims i ∧
      ∃ b, (∀ t ∈ truthDict code bits i, t = b) ∧ (truthList code bits false i) = [b] := by
  obtain ⟨hok, hd⟩ := h.ok
  unfold truthDict
  rw [if_pos hi]
  unfold truthList
  rw [sheets_full, sheets_first]
  refine ⟨by simp, !sheetParity code bits i (lowF code.ec), ?_, rfl⟩
  intro t ht'
  simp only [List.map_map, List.mem_map, List.mem_range, Function.comp] at ht'
  obtain ⟨k, hk, rfl⟩ := ht'
  rw [truth_entry hok hd ht hi hk]

/-- What an entry of the list says: its plane carries an even number of ones. -/
theorem C31_entry {code : Code} (h : IsCode code) (bits : V → Bool)
    {i : Fin 3} (hi : i ∈ planesToCheck code.ec code.boundaries) {k : ℕ} (hk : k < code.dims i) :
    (truthDict code bits i)[k]? = some (decide (Even ((planeQubits code i (planeCoord code k)).countP bits))) := by
  obtain ⟨hok, hd⟩ := h.ok
  unfold truthDict
  rw [if_pos hi]
  unfold truthList
  rw [sheets_full]
  simp only [List.map_map, List.getElem?_map, List.getElem?_range hk, Option.map_some, Function.comp]
  congr 1
  have hc : planeCoord code k = lowF code.ec + 2 * k := by
    unfold planeCoord lowF; cases code.ec <;> simp only <;> omega
  rw [hc]
  have hp : parity bits (planeQubits code i (lowF code.ec + 2 * k)) = sheetParity code bits i (lowF code.ec + 2 * k) := by
    rw [← b2z_inj, hok.sheet, parity_eq]
    unfold plane
    apply b2z_foldl_finset (hok.syndromeNd.filter _)
    intro x
    simp only [planeQubits, List.mem_filter, decide_eq_true_eq, Finset.mem_filter, hok.syndrome]
  rw [← hp, parity_mem, List.countP_eq_length_filter, ← decide_not, decide_eq_decide, Nat.not_odd_iff_even]

/-- The verdict is the same with and without the sanity check. -/
theorem C31_verdict {code : Code} (h : IsCode code) (bits : V → Bool) :
    ∃ b, checkCorrection code bits true = some b ∧ checkCorrection code bits false = some b :=
  ⟨_, check_eq h.ok.2 bits true, check_eq h.ok.2 bits false⟩

/-! ### C32 -/

/-- Flipping the syndrome qubits joined to a node changes no stabilizer parity, no inspected plane and
hence not the verdict. -/
theorem C32_trivial_error {code : Code} (h : IsCode code) {q : V} (hq : q ∈ PyDict.keys code.graph.nodes)
    (bits bits' : V → Bool)
    (hb : ∀ x ∈ code.syndrome, bits' x = xor (bits x) (decide (s(q, x) ∈ PyDict.keys code.graph.edges))) :
    (∀ s ∈ code.stabs, parity bits' s = parity bits s) ∧
    (∀ i, truthDict code bits' i = truthDict code bits i) ∧
    (∀ sanity, checkCorrection code bits' sanity = checkCorrection code bits sanity) := by
  obtain ⟨hok, hd⟩ := h.ok
  have hsheet : ∀ i ∈ planesToCheck code.ec code.boundaries, ∀ f : ℤ, f % 2 = facePar code.ec →
      sheetParity code bits' i f = sheetParity code bits i f := by
    intro i hi f hf
    obtain ⟨h1, h2⟩ := checked_axis _ _ i hi
    rw [← b2z_inj, hok.sheet, hok.sheet]
    unfold plane
    have e : ∀ x ∈ (qubits code.ec code.dims (boundsOf code.ec code.boundaries)).filter (fun x => x i = f),
        b2z (bits' x) = b2z (bits x) +
          if adjacent code.dims (boundsOf code.ec code.boundaries) q x then 1 else 0 := by
      intro x hx
      rw [Finset.mem_filter] at hx
      rw [hb x ((hok.syndrome x).2 hx.1), b2z_xor]
      congr 1
      have : s(q, x) ∈ PyDict.keys code.graph.edges ↔ adjacent code.dims (boundsOf code.ec code.boundaries) q x := by
        rw [hok.graphEdges]
        exact ⟨fun h => h.2.2, fun h => ⟨(hok.graphNodes q).1 hq, qubit_isNode hx.1, h⟩⟩
      unfold b2z
      simp only [decide_eq_true_eq, this]
    rw [Finset.sum_congr rfl e, Finset.sum_add_distrib, ← Finset.sum_filter, Finset.filter_filter,
      Finset.sum_const, nsmul_eq_mul, mul_one]
    have := plane_even hd ((hok.graphNodes q).1 hq) i h1 hf
    rcases this with h | h <;> rw [h]
    · simp
    · rw [two_zero, add_zero]
  have hlow : ∀ k : ℕ, (lowF code.ec + 2 * (k : ℤ)) % 2 = facePar code.ec := by
    intro k; cases code.ec <;> simp only [lowF, facePar, cellPar] <;> omega
  refine ⟨?_, ?_, ?_⟩
  · intro s hs
    have hsub := ((C25_only_syndrome h).2.1 s hs).2
    have e : parity bits' s = parity (fun x => xor (bits x) (decide (s(q, x) ∈ PyDict.keys code.graph.edges))) s := by
      unfold parity
      congr 1
      apply List.map_congr_left
      intro x hx
      exact hb x (hsub x hx)
    rw [e, parity_xor, parity_mem fun x => decide (s(q, x) ∈ PyDict.keys code.graph.edges)]
    have := C26_even_overlap h hq hs
    rcases this with h | h <;> simp [h, (by decide : ¬ Odd 2)]
  · intro i
    unfold truthDict
    split_ifs with hi
    · unfold truthList
      apply List.map_congr_left
      intro f hf
      rw [sheets_full, List.mem_map] at hf
      obtain ⟨k, _, rfl⟩ := hf
      rw [hsheet i hi _ (hlow k)]
    · rfl
  · intro sanity
    rw [check_eq hd, check_eq hd]
    have : ∀ i ∈ planesToCheck code.ec code.boundaries,
        (!sheetParity code bits' i (lowF code.ec)) = !sheetParity code bits i (lowF code.ec) := by
      intro i hi
      rw [hsheet i hi _ (by simpa using hlow 0)]
    congr 1
    rw [Bool.eq_iff_iff, List.all_eq_true, List.all_eq_true]
    exact ⟨fun h i hi => this i hi ▸ h i hi, fun h i hi => (this i hi).symm ▸ h i hi⟩

/-! ### C33 -/

theorem weight_eq {code : Code} (hok : CodeOk code) (bits : V → Bool) :
    weight code bits = ((qubits code.ec code.dims (boundsOf code.ec code.boundaries)).filter
      fun x => b2z (bits x) ≠ 0).card := by
  unfold weight
  rw [show code.syndrome.countP bits = code.syndrome.countP fun x => decide (bits x = true) by simp,
    countP_finset hok.syndromeNd hok.syndrome]
  simp only [b2z_ne_zero]

/-- A pattern with trivial syndrome that the check rejects has at least as many ones as the code is long
in one of the checked directions. -/
theorem C33_lower {code : Code} (h : IsCode code) {bits : V → Bool} (ht : trivialSyndrome code bits)
    {sanity : Bool} (hr : checkCorrection code bits sanity = some false) :
    ∃ i ∈ planesToCheck code.ec code.boundaries, code.dims i ≤ weight code bits := by
  obtain ⟨hok, hd⟩ := h.ok
  rw [check_eq hd] at hr
  have hr := Option.some.inj hr
  rw [List.all_eq_false] at hr
  obtain ⟨i, hi, hp⟩ := hr
  obtain ⟨h1, h2⟩ := checked_axis _ _ i hi
  refine ⟨i, hi, ?_⟩
  rw [weight_eq hok]
  apply ones_ge hd _ i h1 h2 ((hok.trivial_iff bits).1 ht)
  rw [← hok.sheet, b2z_ne_zero]
  simpa using hp

/-- In each checked direction there is such a pattern with exactly as many ones as the code is long. -/
theorem C33_exists {code : Code} (h : IsCode code) {i : Fin 3}
    (hi : i ∈ planesToCheck code.ec code.boundaries) :
    ∃ bits, trivialSyndrome code bits ∧ (∀ sanity, checkCorrection code bits sanity = some false) ∧
      weight code bits = code.dims i := by
  obtain ⟨hok, hd⟩ := h.ok
  obtain ⟨h1, h2⟩ := checked_axis _ _ i hi
  obtain ⟨c0, hc0⟩ : ∃ c0, c0 ∈ cells code.ec code.dims (boundsOf code.ec code.boundaries) := by
    refine ⟨fun _ => match code.ec with
      | .primal => 1
      | .dual => 2, mem_cells.2 ⟨?_, ?_⟩⟩
    · intro j
      have := hd j
      cases code.ec <;> simp only [inAxis] <;> split <;> omega
    · intro j; cases code.ec <;> rfl
  refine ⟨fun x => decide (line code.ec c0 i x ≠ 0), ?_, ?_, ?_⟩
  all_goals
    have e : (fun x => b2z (decide (line code.ec c0 i x ≠ 0))) = line code.ec c0 i := by
      funext x; unfold line b2z; split_ifs <;> simp_all
  · show ∀ s ∈ code.stabs, _
    rw [hok.trivial_iff, e]
    exact line_par hd hc0 i h2
  · intro sanity
    rw [check_eq hd]
    congr 1
    rw [List.all_eq_false]
    refine ⟨i, hi, ?_⟩
    have : b2z (sheetParity code (fun x => decide (line code.ec c0 i x ≠ 0)) i (lowF code.ec)) ≠ 0 := by
      rw [hok.sheet, e, line_plane hc0 i]
      · decide
      · exact ((faces_iff (ec := code.ec) (hd i) h2 (lowF code.ec)).2 ⟨0, by have := hd i; omega, by simp⟩).1
      · cases code.ec <;> rfl
    rw [b2z_ne_zero] at this
    simpa using this
  · rw [weight_eq hok]
    have e' : ∀ x, b2z (decide (line code.ec c0 i x ≠ 0)) = line code.ec c0 i x := fun x => congrFun e x
    simp only [e']
    exact line_card hd hc0 i h2

/-- Equal sizes `d`: the least weight of a rejected pattern with trivial syndrome is `d`. -/
theorem C33_distance {code : Code} (h : IsCode code) {d : ℕ} (hd : ∀ i, code.dims i = d) :
    IsLeast {w | ∃ bits, trivialSyndrome code bits ∧ checkCorrection code bits false = some false ∧
      weight code bits = w} d := by
  constructor
  · obtain ⟨i, hi⟩ : ∃ i, i ∈ planesToCheck code.ec code.boundaries := by
      cases code.ec <;> cases code.boundaries <;> exact ⟨_, List.mem_cons_self⟩
    obtain ⟨bits, h1, h2, h3⟩ := C33_exists h hi
    exact ⟨bits, h1, h2 false, by rw [h3, hd]⟩
  · rintro w ⟨bits, h1, h2, rfl⟩
    obtain ⟨i, _, h3⟩ := C33_lower h h1 h2
    rwa [hd] at h3

/-! ### C52 -/

/-- `correct` returns True iff after the recovery each inspected first plane carries an even number of
ones; if the residual pattern has trivial syndrome, iff that holds for all the parallel planes. -/
theorem C52_correct {code : Code} (h : IsCode code) (decoder : (V → Bool) → Option (List (Option V)))
    (sanity : Bool) (bits bits' : V → Bool) (ok : Bool) (hc : correct code decoder sanity bits = some (bits', ok)) :
    (∃ qs, decoder bits = some qs ∧ recovery (PyDict.keys code.graph.nodes) qs bits = some bits') ∧
    (ok = true ↔ ∀ i ∈ planesToCheck code.ec code.boundaries,
      Even ((planeQubits code i (planeCoord code 0)).countP bits')) ∧
    (trivialSyndrome code bits' →
      (ok = true ↔ ∀ i ∈ planesToCheck code.ec code.boundaries, ∀ k < code.dims i,
        Even ((planeQubits code i (planeCoord code k)).countP bits'))) := by
  obtain ⟨hok, hd⟩ := h.ok
  unfold correct at hc
  rw [Option.bind_eq_bind, Option.bind_eq_some_iff] at hc
  obtain ⟨qs, hqs, hc⟩ := hc
  rw [Option.bind_eq_bind, Option.bind_eq_some_iff] at hc
  obtain ⟨b1, hr, hc⟩ := hc
  rw [Option.bind_eq_bind, Option.bind_eq_some_iff] at hc
  obtain ⟨ok1, hk, hc⟩ := hc
  obtain ⟨rfl, rfl⟩ := Prod.mk.inj (Option.some.inj hc)
  refine ⟨⟨qs, hqs, hr⟩, ?_⟩
  rw [check_eq hd] at hk
  have hk := Option.some.inj hk
  have hp : ∀ i ∈ planesToCheck code.ec code.boundaries, ∀ k < code.dims i,
      ((!sheetParity code b1 i (lowF code.ec + 2 * k)) = true ↔
        Even ((planeQubits code i (planeCoord code k)).countP b1)) := by
    intro i hi k hk
    have h1 := C31_entry h b1 hi hk
    unfold truthDict at h1
    rw [if_pos hi] at h1
    unfold truthList at h1
    rw [sheets_full] at h1
    simp only [List.map_map, List.getElem?_map, List.getElem?_range hk, Option.map_some, Function.comp] at h1
    rw [Option.some.inj h1, decide_eq_true_eq]
  have h0 : ok1 = true ↔ ∀ i ∈ planesToCheck code.ec code.boundaries,
      Even ((planeQubits code i (planeCoord code 0)).countP b1) := by
    rw [← hk, List.all_eq_true]
    apply forall_congr'
    intro i
    apply imp_congr_right
    intro hi
    rw [← hp i hi 0 (by have := hd i; omega)]
    simp
  refine ⟨h0, fun ht => h0.trans ?_⟩
  apply forall_congr'
  intro i
  apply imp_congr_right
  intro hi
  constructor
  · intro he k hk
    rw [← hp i hi k hk, truth_entry hok hd ht hi hk]
    rw [← hp i hi 0 (by have := hd i; omega)] at he
    simpa using he
  · intro he
    exact he 0 (by have := hd i; omega)

/-- `correct` raises exactly when the recovery set contains something that is not a node. -/
theorem C52_total {code : Code} (h : IsCode code) (decoder : (V → Bool) → Option (List (Option V)))
    (sanity : Bool) (bits : V → Bool) (qs : List V) (hdec : decoder bits = some (qs.map some))
    (hq : ∀ q ∈ qs, q ∈ PyDict.keys code.graph.nodes) : ∃ r, correct code decoder sanity bits = some r := by
  unfold correct
  rw [hdec, Option.bind_eq_bind, Option.bind_some, recovery_list _ _ hq, Option.bind_eq_bind, Option.bind_some,
    check_eq h.ok.2]
  exact ⟨_, rfl⟩

/-! ### Concrete cases -/

/-- Python sets iterated in insertion order. -/
def idOrder : SetOrder := ⟨fun _ l => l, fun _ _ => List.Perm.refl _⟩

-- codes of every kind exist, in particular the distance-3 open one
example (ec : Ec) (b : Boundaries) : ∃ code, IsCode code ∧ code.ec = ec ∧ code.boundaries = b ∧
    ∀ i, code.dims i = 3 := by
  obtain ⟨code, h, h1, h2, h3⟩ := C54_constructor_total idOrder ec b (dims := fun _ => 3) (by simp) none
  exact ⟨code, ⟨idOrder, ec, b, _, none, by simp, h⟩, h2, h3, by simp [h1]⟩

-- the smallest open code, computed
example : (surfaceCode idOrder .primal .open (fun _ => 2) none).map
    (fun c => (c.stabs.length, c.syndrome.length, c.boundPoints.length)) = some (4, 12, 8) := by
  decide +kernel

example : (surfaceCode idOrder .dual .toric (fun _ => 2) none).map
    (fun c => (c.stabs.map List.length, c.syndrome.length, c.boundPoints)) =
      some ([5, 5, 5, 5, 5, 5, 5, 5], 20, []) := by
  decide +kernel

example : surfaceCodeArgs idOrder (.int 3) "primal" "closed" none = .error .valueError := by
  exact (C54_arguments idOrder (.int 3) "primal" "closed" none).1 (Or.inr (by decide))

end Flamingpy.SurfaceCode
