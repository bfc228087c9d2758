import Verif.Proofs.Weights
import Verif.Props.Gkp
import Verif.Props.StabGraph

/-!
# C42: decoding weights are well formed
-/

namespace Flamingpy.Weights

open Flamingpy Flamingpy.SurfaceCode

/-- Number of neighbours labelled as p-squeezed. -/
def squeezedNeighbors (code : Code) (a : Attrs) (q : V) : ℕ :=
  (neighbors code q).countP fun v => decide (a.state v = some "p")

theorem squeezed_eq (code : Code) (a : Attrs) (q : V) :
    squeezedNeighbors code a q = (adjOf code.graph q).countP fun v => a.state v == some "p" := by
  unfold squeezedNeighbors neighbors adjOf
  apply List.countP_congr
  intro v _
  simp

/-- The options make sense for blueprint weights: a positive noise parameter and homodyne values, or
stored non-negative probabilities; an integer multiplier at least one; all nodes labelled. -/
structure BlueprintOk (code : Code) (o : Opts) (a : Attrs) : Prop where
  labelled : ∀ v ∈ PyDict.keys code.graph.nodes, ∃ s, a.state v = some s
  stored : o.probPrecomputed = true → ∀ q ∈ code.syndrome, ∃ p, a.pPhaseCond q = some p ∧ 0 ≤ p
  computed : o.probPrecomputed = false →
    (∃ d, o.delta = some d ∧ 0 < d) ∧ ∀ q ∈ code.syndrome, ∃ x, a.homValP q = some x
  multiplier : o.integer = true → 1 ≤ o.multiplier

/-- The probability that a qubit with at most one squeezed neighbour is wrong, according to the options. -/
noncomputable def qubitProb (code : Code) (o : Opts) (a : Attrs) (q : V) : ℝ :=
  if o.probPrecomputed then (a.pPhaseCond q).getD 0
  else Gkp.zErrCond (((neighbors code q).length + 1) * o.delta.getD 0) ((a.homValP q).getD 0)

theorem assign_of_nodes {code : Code} (SG : StabGraph) {decoder : String} {o : Opts} {a : Attrs}
    {w w' : V → Option ℝ} (h : assignNodes code decoder o a w = .ok w') :
    assignWeights code SG decoder o a w = .ok (w', assignEdges SG w') := by
  unfold assignWeights
  rw [h]
  rfl

/-- Uniform weights for any decoder but Union-Find: one for each syndrome qubit, no other node touched. -/
theorem C42_uniform (code : Code) (SG : StabGraph) (decoder : String) (hdec : decoder ≠ "UF") (o : Opts)
    (ho : o.method = "uniform") (a : Attrs) (w : V → Option ℝ) :
    ∃ w' E, assignWeights code SG decoder o a w = .ok (w', E) ∧
      ∀ q, w' q = if q ∈ code.syndrome then some 1 else w q := by
  have hA : assignNodes code decoder o a w = .ok fun q => if q ∈ code.syndrome then some 1 else w q := by
    unfold assignNodes
    rw [if_neg (by rw [ho]; decide), if_pos ho, if_neg hdec]
    exact setAll_ok _ (fun _ => 1) _ _ fun _ _ => rfl
  exact ⟨_, _, assign_of_nodes SG hA, fun q => rfl⟩

/-- Union-Find weights: -1 (erased) for two or more squeezed neighbours, 2 otherwise. -/
theorem C42_union_find (code : Code) (SG : StabGraph) (o : Opts) (ho : o.method = "uniform") (a : Attrs)
    (w : V → Option ℝ) :
    ∃ w' E, assignWeights code SG "UF" o a w = .ok (w', E) ∧
      ∀ q, w' q = if q ∈ code.syndrome then some (if 2 ≤ squeezedNeighbors code a q then -1 else 2) else w q := by
  have hA : assignNodes code "UF" o a w =
      .ok fun q => if q ∈ code.syndrome then some (ufWeight a code.graph q) else w q := by
    unfold assignNodes
    rw [if_neg (by rw [ho]; decide), if_pos ho, if_pos rfl]
    exact setAll_ok _ (ufWeight a code.graph) _ _ fun _ _ => rfl
  refine ⟨_, _, assign_of_nodes SG hA, fun q => ?_⟩
  · congr 2
    unfold ufWeight
    rw [← squeezed_eq]
    simp only
    by_cases h : 2 ≤ squeezedNeighbors code a q
    · rw [if_pos h, if_neg (by omega)]
    · rw [if_neg h, if_pos (by omega)]

/-- Blueprint weights are refused for Union-Find. -/
theorem C42_incompatible (code : Code) (SG : StabGraph) (o : Opts) (ho : o.method = "blueprint") (a : Attrs)
    (w : V → Option ℝ) : assignWeights code SG "UF" o a w = .error .incompatible := by
  unfold assignWeights assignNodes
  rw [if_pos ho, if_neg (by decide), if_pos rfl]
  rfl

theorem blueprintWeight_ok {code : Code} (h : IsCode code) (o : Opts) (a : Attrs) (hb : BlueprintOk code o a)
    {q : V} (hq : q ∈ code.syndrome) :
    0 ≤ qubitProb code o a q ∧ squeezedNeighbors code a q ≤ 4 ∧
    blueprintWeight o a code.graph q = .ok (
      if squeezedNeighbors code a q ≤ 1 then toWeight o (clip (qubitProb code o a q))
      else if squeezedNeighbors code a q = 2 then toWeight o (1 / 4)
      else if squeezedNeighbors code a q = 3 then toWeight o (1 / 3)
      else toWeight o (2 / 5)) := by
  have hnode : q ∈ PyDict.keys code.graph.nodes :=
    (h.ok.1.graphNodes q).2 (qubit_isNode ((h.ok.1.syndrome q).1 hq))
  have hle : squeezedNeighbors code a q ≤ 4 := by
    rw [squeezed_eq]; exact List.countP_le_length.trans (adj_length h hnode)
  have hp : errProb o a (adjOf code.graph q) q = .ok (qubitProb code o a q) ∧ 0 ≤ qubitProb code o a q := by
    unfold errProb qubitProb
    cases hpre : o.probPrecomputed with
    | true =>
      obtain ⟨p, hp, h0⟩ := hb.stored hpre q hq
      simp only [if_true, hp, need, Option.getD_some]
      exact ⟨trivial, h0⟩
    | false =>
      obtain ⟨⟨d, hd, hd0⟩, hx⟩ := hb.computed hpre
      obtain ⟨x, hx⟩ := hx q hq
      simp only [Bool.false_eq_true, if_false, hd, hx, need, Option.getD_some]
      refine ⟨rfl, (Gkp.C04_probability _ _ _ _ ?_ (by norm_num)).1⟩
      positivity
  refine ⟨hp.2, hle, ?_⟩
  have hc := pCount_ok a (adjOf code.graph q) fun v hv => by
    unfold adjOf at hv
    rw [List.mem_filter] at hv
    obtain ⟨s, hs⟩ := hb.labelled v hv.1
    simp [hs]
  rw [← squeezed_eq] at hc
  unfold blueprintWeight
  simp only [hc]
  change (if _ then _ else _) = _
  by_cases h1 : squeezedNeighbors code a q ≤ 1
  · rw [if_pos (by omega), if_pos h1, hp.1]
    rfl
  · rw [if_neg (by omega), if_neg h1]
    have : squeezedNeighbors code a q = 2 ∨ squeezedNeighbors code a q = 3 ∨ squeezedNeighbors code a q = 4 := by
      omega
    rcases this with h2 | h2 | h2 <;> rw [h2] <;>
      simp [PyDict.get?, weightDict, need]

theorem assignNodes_blueprint {code : Code} (h : IsCode code) (o : Opts) (ho : o.method = "blueprint") (a : Attrs)
    (hb : BlueprintOk code o a) (w : V → Option ℝ) :
    assignNodes code "MWPM" o a w = .ok fun q => if q ∈ code.syndrome then some (
      if squeezedNeighbors code a q ≤ 1 then toWeight o (clip (qubitProb code o a q))
      else if squeezedNeighbors code a q = 2 then toWeight o (1 / 4)
      else if squeezedNeighbors code a q = 3 then toWeight o (1 / 3)
      else toWeight o (2 / 5)) else w q := by
  unfold assignNodes
  rw [if_pos ho, if_pos rfl]
  exact setAll_ok _ _ _ _ fun q hq => (blueprintWeight_ok h o a hb hq).2.2

/-- Blueprint weights for MWPM: no exception on any RHG lattice, and the stated values. -/
theorem C42_blueprint_values {code : Code} (h : IsCode code) (SG : StabGraph) (o : Opts)
    (ho : o.method = "blueprint") (a : Attrs) (hb : BlueprintOk code o a) (w : V → Option ℝ) :
    ∃ w' E, assignWeights code SG "MWPM" o a w = .ok (w', E) ∧
      (∀ q, q ∉ code.syndrome → w' q = w q) ∧
      ∀ q ∈ code.syndrome, o.integer = false →
        (squeezedNeighbors code a q ≤ 1 → 0 < qubitProb code o a q →
          w' q = some (-Real.log (min (qubitProb code o a q) (1 / 2)))) ∧
        (squeezedNeighbors code a q ≤ 1 → qubitProb code o a q = 0 →
          w' q = some (1022 * Real.log 2)) ∧
        (squeezedNeighbors code a q = 2 → w' q = some (Real.log 4)) ∧
        (squeezedNeighbors code a q = 3 → w' q = some (Real.log 3)) ∧
        (squeezedNeighbors code a q = 4 → w' q = some (Real.log (5 / 2))) := by
  refine ⟨_, _, assign_of_nodes SG (assignNodes_blueprint h o ho a hb w), ?_, ?_⟩
  · intro q hq
    simp [hq]
  · intro q hq hint
    simp only [hq, if_true]
    have hw : ∀ p, toWeight o p = -Real.log p := by
      intro p; unfold toWeight; simp [hint]
    simp only [hw]
    refine ⟨fun h1 h2 => ?_, fun h1 h2 => ?_, fun h1 => ?_, fun h1 => ?_, fun h1 => ?_⟩
    · rw [if_pos h1]
      unfold clip
      simp only
      have : min (qubitProb code o a q) 0.5 ≠ 0 := (lt_min h2 (by norm_num)).ne'
      rw [if_neg this]
      norm_num
    · rw [if_pos h1, h2]
      unfold clip
      simp only
      have : min (0 : ℝ) 0.5 = 0 := min_eq_left (by norm_num)
      rw [if_pos this]
      unfold smallestNumber
      rw [Real.log_pow, Real.log_inv]
      norm_num
    · rw [if_neg (by omega), if_pos h1, ← Real.log_inv]; norm_num
    · rw [if_neg (by omega), if_neg (by omega), if_pos h1, ← Real.log_inv]; norm_num
    · rw [if_neg (by omega), if_neg (by omega), if_neg (by omega), ← Real.log_inv]; norm_num

/-- Blueprint weights are at least `log 2`; with the integer option they are positive integers, each within
one half of the multiplied logarithm. -/
theorem C42_blueprint_bound {code : Code} (h : IsCode code) (SG : StabGraph) (o : Opts)
    (ho : o.method = "blueprint") (a : Attrs) (hb : BlueprintOk code o a) (w : V → Option ℝ) :
    ∃ w' E, assignWeights code SG "MWPM" o a w = .ok (w', E) ∧
      ∀ q ∈ code.syndrome, ∃ r, w' q = some r ∧ Real.log 2 ≤ r ∧
        (o.integer = true → ∃ n : ℕ, 1 ≤ n ∧ r = n) := by
  refine ⟨_, _, assign_of_nodes SG (assignNodes_blueprint h o ho a hb w), ?_⟩
  · intro q hq
    simp only [hq, if_true]
    refine ⟨_, rfl, ?_⟩
    have h0 := clip_spec (blueprintWeight_ok h o a hb hq).1
    split_ifs
    · exact toWeight_ge o h0.1 h0.2 hb.multiplier
    · exact toWeight_ge o (by norm_num) (by norm_num) hb.multiplier
    · exact toWeight_ge o (by norm_num) (by norm_num) hb.multiplier
    · exact toWeight_ge o (by norm_num) (by norm_num) hb.multiplier

/-- With the integer option every weight is the non-integer weight times the multiplier, rounded to a
nearest integer. -/
theorem C42_integer {code : Code} (h : IsCode code) (SG : StabGraph) (o o' : Opts)
    (ho : o.method = "blueprint") (a : Attrs) (hb : BlueprintOk code o a) (hi : o.integer = true)
    (ho' : o' = ⟨o.method, false, o.multiplier, o.probPrecomputed, o.delta⟩) (w : V → Option ℝ) :
    ∃ w₁ E₁ w₂ E₂, assignWeights code SG "MWPM" o a w = .ok (w₁, E₁) ∧
      assignWeights code SG "MWPM" o' a w = .ok (w₂, E₂) ∧
      ∀ q ∈ code.syndrome, ∃ (n : ℤ) (r : ℝ), w₁ q = some (n : ℝ) ∧ w₂ q = some r ∧
        |(n : ℝ) - o.multiplier * r| ≤ 1 / 2 := by
  have hb' : BlueprintOk code o' a := by
    subst ho'
    exact ⟨hb.labelled, hb.stored, hb.computed, fun h => by cases h⟩
  have hq' : qubitProb code o' a = qubitProb code o a := by subst ho'; rfl
  refine ⟨_, _, _, _, assign_of_nodes SG (assignNodes_blueprint h o ho a hb w),
    assign_of_nodes SG (assignNodes_blueprint h o' (by subst ho'; exact ho) a hb' w), ?_⟩
  · intro q hq
    have hw : ∀ p, toWeight o p = (pyRound (-o.multiplier * Real.log p) : ℝ) := by
      intro p; unfold toWeight; simp [hi]
    have hw' : ∀ p, toWeight o' p = -Real.log p := by
      intro p; unfold toWeight; subst ho'; simp
    have hn : ∀ p, |((pyRound (-o.multiplier * Real.log p) : ℤ) : ℝ) - o.multiplier * (-Real.log p)| ≤ 1 / 2 := by
      intro p
      have := pyRound_near (-o.multiplier * Real.log p)
      rwa [neg_mul, ← mul_neg] at this ⊢
    simp only [hq, if_true, hw, hw', hq']
    split_ifs <;> exact ⟨_, _, rfl, rfl, hn _⟩

/-- A larger probability never gives a larger (non-integer) weight. -/
theorem C42_monotone (o : Opts) (hi : o.integer = false) {p p' : ℝ} (h0 : smallestNumber ≤ p) (h : p ≤ p') :
    toWeight o (clip p') ≤ toWeight o (clip p) := by
  have hs : 0 < smallestNumber := by unfold smallestNumber; positivity
  have hc : ∀ x, smallestNumber ≤ x → clip x = min x 0.5 := by
    intro x hx
    unfold clip
    have : min x 0.5 ≠ 0 := (lt_min (hs.trans_le hx) (by norm_num)).ne'
    simp [this]
  unfold toWeight
  rw [hc p h0, hc p' (h0.trans h)]
  simp only [hi, Bool.false_eq_true, if_false, neg_le_neg_iff]
  exact Real.log_le_log (lt_min (hs.trans_le h0) (by norm_num)) (min_le_min_right _ h)

/-- The stabilizer graph gets the weights of the qubits of its edges, and 0 on edges at a connector. -/
theorem C42_edges {code : Code} (h : IsCode code) (bk : Backend) (sp : SetPop) (decoder : String) (o : Opts)
    (a : Attrs) (w w' : V → Option ℝ) (E : List (Sym2 SNode × Option ℝ))
    (hok : assignWeights code (stabGraph bk sp code) decoder o a w = .ok (w', E)) :
    E.map (·.1) = (stabGraph bk sp code).edges.map (·.1) ∧
    ∀ k (hk : k < (stabGraph bk sp code).edges.length) (hk' : k < E.length),
      E[k].2 = match ((stabGraph bk sp code).edges[k]).2 with
        | some x => w' x
        | none => some 0 := by
  have hE : E = assignEdges (stabGraph bk sp code) w' := by
    unfold assignWeights at hok
    cases hn : assignNodes code decoder o a w with
    | error e => rw [hn] at hok; cases hok
    | ok v =>
      rw [hn] at hok
      have := Except.ok.inj hok
      rw [Prod.mk.injEq] at this
      rw [← this.2, this.1]
  subst hE
  refine ⟨by unfold assignEdges; rw [List.map_map]; rfl, fun k hk hk' => ?_⟩
  simp only [assignEdges, List.getElem_map]
  have hc := C28_connectors h bk sp (List.getElem_mem hk)
  generalize (stabGraph bk sp code).edges[k] = e at hc ⊢
  obtain ⟨e, x⟩ := e
  cases x with
  | some x => rfl
  | none =>
    have := hc.1 rfl
    exact if_pos this.symm

/-- So for MWPM no edge of the stabilizer graph has a missing or negative weight, and every edge that
carries a qubit has a positive one. -/
theorem C42_edges_nonneg {code : Code} (h : IsCode code) (bk : Backend) (sp : SetPop) (o : Opts)
    (a : Attrs) (ho : o.method = "uniform" ∨ (o.method = "blueprint" ∧ BlueprintOk code o a)) (w : V → Option ℝ) :
    ∃ w' E, assignWeights code (stabGraph bk sp code) "MWPM" o a w = .ok (w', E) ∧
      E.length = (stabGraph bk sp code).edges.length ∧
      ∀ k (hk : k < (stabGraph bk sp code).edges.length) (hk' : k < E.length),
        ∃ r, E[k].2 = some r ∧ 0 ≤ r ∧ (((stabGraph bk sp code).edges[k]).2 ≠ none → Real.log 2 ≤ r) := by
  have : ∃ w' E, assignWeights code (stabGraph bk sp code) "MWPM" o a w = .ok (w', E) ∧
      ∀ q ∈ code.syndrome, ∃ r, w' q = some r ∧ Real.log 2 ≤ r := by
    rcases ho with ho | ⟨ho, hb⟩
    · obtain ⟨w', E, h1, h2⟩ := C42_uniform code (stabGraph bk sp code) "MWPM" (by decide) o ho a w
      refine ⟨w', E, h1, fun q hq => ⟨1, by simp [h2, hq], ?_⟩⟩
      have : Real.log 2 < 0.6931471808 := Real.log_two_lt_d9
      linarith
    · obtain ⟨w', E, h1, h2⟩ := C42_blueprint_bound h (stabGraph bk sp code) o ho a hb w
      refine ⟨w', E, h1, fun q hq => ?_⟩
      obtain ⟨r, hr, hl, _⟩ := h2 q hq
      exact ⟨r, hr, hl⟩
  obtain ⟨w', E, h1, h2⟩ := this
  have he := C42_edges h bk sp "MWPM" o a w w' E h1
  refine ⟨w', E, h1, by simpa using congrArg List.length he.1, fun k hk hk' => ?_⟩
  rw [he.2 k hk hk']
  cases hx : ((stabGraph bk sp code).edges[k]).2 with
  | none => exact ⟨0, rfl, le_rfl, fun h => absurd rfl h⟩
  | some x =>
    have hmem : (((stabGraph bk sp code).edges[k]).1, some x) ∈ (stabGraph bk sp code).edges := by
      rw [← hx]; exact List.getElem_mem hk
    obtain ⟨r, hr, hl⟩ := h2 x (C28_toggles h bk sp hmem fun _ => false).1
    refine ⟨r, hr, ?_, fun _ => hl⟩
    have := Real.log_pos (show (1 : ℝ) < 2 by norm_num)
    linarith

/-! ### Concrete cases -/

-- integer blueprint weights with a mixture of labels on a distance-3 code: the hypotheses hold
example : ∃ code, IsCode code ∧ BlueprintOk code
    ⟨"blueprint", true, 100, false, some 0.1⟩
    ⟨fun v => some (if v 0 = 1 then "p" else "GKP"), fun _ => some 1.7, fun _ => none⟩ := by
  obtain ⟨code, h, -, -, -⟩ := C54_constructor_total idOrder .primal .open (dims := fun _ => 3) (by simp) none
  refine ⟨code, ⟨idOrder, .primal, .open, _, none, by simp, h⟩, ?_, ?_, ?_, ?_⟩
  · intro v _; exact ⟨_, rfl⟩
  · intro h; cases h
  · intro _; exact ⟨⟨0.1, rfl, by norm_num⟩, fun _ _ => ⟨_, rfl⟩⟩
  · intro _; norm_num

-- a stored probability of zero is allowed
example : ∃ code, IsCode code ∧ BlueprintOk code ⟨"blueprint", false, 1, true, none⟩
    ⟨fun _ => some "GKP", fun _ => none, fun _ => some 0⟩ := by
  obtain ⟨code, h, -, -, -⟩ := C54_constructor_total idOrder .dual .toric (dims := fun _ => 2) (by simp) none
  refine ⟨code, ⟨idOrder, .dual, .toric, _, none, by simp, h⟩, ?_, ?_, ?_, ?_⟩
  · intro v _; exact ⟨_, rfl⟩
  · intro _ q _; exact ⟨0, rfl, le_rfl⟩
  · intro h; cases h
  · intro h; cases h

end Flamingpy.Weights
