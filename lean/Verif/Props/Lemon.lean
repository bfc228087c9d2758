import Verif.Proofs.LemonCode
import Verif.Props.Mwpm
import Verif.Proofs.LemonLibs

/-!
# C66: the lemon matching backend

`lemonMatching ll nodes E` is the result of `min_weight_matching` for a graph with edge weights `E` and node order `nodes`;
`lemonDecoder bk lib ll no (stabGraph bk sp code) w bits` is the recovery set of `mwpm_decoder(backend="lemon")`.
`ll : LemonLib` is any implementation of LEMON's maximum weight perfect matching.
-/

namespace Flamingpy.SurfaceCode

open Flamingpy

/-- For any graph with nonnegative weights in which some perfect matching weighs less than `2 ^ 62`: lemon returns a perfect
matching of the graph (no pair that is not an edge), and none is lighter by more than the relative precision of
single-precision numbers. -/
theorem C66_perfect (ll : LemonLib) {nodes : List MNode} (hn : nodes.Nodup) {E : List (Sym2 MNode × ℚ)}
    (hE : ∀ e ∈ E, 0 ≤ e.2) {M₀ : List (MNode × MNode)} (hM₀ : ∀ m ∈ M₀, s(m.1, m.2) ∈ PyDict.keys E)
    (hP₀ : (M₀.flatMap fun m => [m.1, m.2]).Perm nodes) (hw : matchWeight E M₀ < 2 ^ 62) :
    ∃ M, lemonMatching ll nodes E = some M ∧ (∀ m ∈ M, s(m.1, m.2) ∈ PyDict.keys E) ∧
      (M.flatMap fun m => [m.1, m.2]).Perm nodes ∧
      ∀ M', (∀ m ∈ M', s(m.1, m.2) ∈ PyDict.keys E) → (M'.flatMap fun m => [m.1, m.2]).Perm nodes →
        (1 - 1 / 2 ^ 24) * matchWeight E M ≤ (1 + 1 / 2 ^ 24) * matchWeight E M' := by
  obtain ⟨M, h1, h2, h3, h4⟩ := lemon_spec ll hn hE hM₀ hP₀ hw
  refine ⟨M, h1, h2.1, h3, fun M' hM' hP' => ?_⟩
  have h5 := h4 M' hP'
  have h6 := rWeight_err hE h2.1
  have h7 := rWeight_err hE hM'
  rw [abs_le] at h6 h7
  have h8 := h6.1
  have h9 := h7.2
  linarith

/-- With integer weights and a perfect matching lighter than `2 ^ 24` the result has least weight. -/
theorem C66_least (ll : LemonLib) (no : NodeOrder) {E : List (Sym2 MNode × ℚ)} (hE : ∀ e ∈ E, ∃ n : ℕ, e.2 = n)
    {M₀ : List (MNode × MNode)} (hM₀ : IsMatching E M₀)
    (hP₀ : (M₀.flatMap fun m => [m.1, m.2]).Perm (no.nodes E)) (hw : matchWeight E M₀ < 2 ^ 24) :
    ∃ M, lemonMatching ll (no.nodes E) E = some M ∧ IsMatching E M ∧
      (M.flatMap fun m => [m.1, m.2]).Perm (no.nodes E) ∧
      ∀ M', IsMatching E M' → (M'.flatMap fun m => [m.1, m.2]).Perm (no.nodes E) →
        matchWeight E M ≤ matchWeight E M' := by
  obtain ⟨M, h1, h2⟩ := lemon_optimal ll no hE hM₀ hP₀ hw
  have hl := h2.2.1 M₀ hM₀
  have hp : ∀ {M' : List (MNode × MNode)}, (ends2 M').Perm (no.nodes E) → 2 * M'.length = (no.nodes E).length :=
    fun h => by rw [← h.length_eq, ends2_length]
  have h0 := hp hP₀
  have hP : (ends2 M).Perm (no.nodes E) := (matching_subperm no h2.1).perm_of_length_le (by rw [ends2_length]; omega)
  refine ⟨M, h1, h2.1, hP, fun M' hM' hP' => h2.2.2 M' hM' ?_⟩
  have h3 := hp hP
  have h4 : 2 * M'.length = (no.nodes E).length := hp hP'
  omega

section
variable {code : Code} (h : IsCode code) (bk : Backend) (lib : PathLib) (ll : LemonLib) (no : NodeOrder) (sp : SetPop)
  {w : V → ℚ} (hw : ∀ x ∈ code.syndrome, 0 ≤ w x)

local notation "SG" => stabGraph bk sp code
local notation "EE" => weightedEdges (stabGraph bk sp code) w

include h hw in
theorem IsCode.lemonDecoder_eq (bits : V → Bool) : lemonDecoder bk lib ll no SG w bits =
    (lemonMatching ll (no.nodes (mWeights (graphEdges bk lib EE (decide (code.boundaries = .open)) (oddStabs SG bits))))
      (mWeights (graphEdges bk lib EE (decide (code.boundaries = .open)) (oddStabs SG bits)))).bind
      (matchingRecovery SG ⟨graphEdges bk lib EE (decide (code.boundaries = .open)) (oddStabs SG bits),
        virtuals bk lib EE (decide (code.boundaries = .open)) (oddStabs SG bits)⟩) := by
  unfold lemonDecoder
  rw [h.matchGraph bk lib sp hw bits]
  rfl

include h hw in
/-- The matching found on the matching graph of a code. -/
theorem IsCode.lemon_found {K : ℚ} (hK : ∀ x ∈ code.syndrome, w x ≤ K) (hs : code.syndrome.length * K < 2 ^ 62)
    (bits : V → Bool) :
    ∃ M, lemonDecoder bk lib ll no SG w bits =
        matchingRecovery SG ⟨graphEdges bk lib EE (decide (code.boundaries = .open)) (oddStabs SG bits),
          virtuals bk lib EE (decide (code.boundaries = .open)) (oddStabs SG bits)⟩ M ∧
      IsMatching (mWeights (graphEdges bk lib EE (decide (code.boundaries = .open)) (oddStabs SG bits))) M ∧
      (ends2 M).Perm (mNodes bk lib EE (decide (code.boundaries = .open)) (oddStabs SG bits)) ∧
      ∀ M', IsMatching (mWeights (graphEdges bk lib EE (decide (code.boundaries = .open)) (oddStabs SG bits))) M' →
        (ends2 M').Perm (mNodes bk lib EE (decide (code.boundaries = .open)) (oddStabs SG bits)) →
        (1 - 1 / 2 ^ 24) * matchWeight (mWeights (graphEdges bk lib EE (decide (code.boundaries = .open))
          (oddStabs SG bits))) M ≤
        (1 + 1 / 2 ^ 24) * matchWeight (mWeights (graphEdges bk lib EE (decide (code.boundaries = .open))
          (oddStabs SG bits))) M' := by
  have hlt := oddStabs_pairwise SG bits
  have hnn := h.edges_nonneg bk sp hw
  obtain ⟨M₀, h1, h2, h3⟩ := h.exists_cheap bk lib sp hw hK bits
  have hperm := nodes_perm bk lib sp (w := w) no bits h1 h2
  have hlen : (code.syndrome.filter bits).length * K ≤ code.syndrome.length * K := by
    rcases Nat.eq_zero_or_pos code.syndrome.length with h0 | h0
    · have : (code.syndrome.filter bits).length = 0 := by
        have := List.length_filter_le bits code.syndrome
        omega
      rw [h0, this]
    · have : 0 ≤ K := (hw _ (List.getElem_mem h0)).trans (hK _ (List.getElem_mem h0))
      have h5 : ((code.syndrome.filter bits).length : ℚ) ≤ code.syndrome.length := by
        exact_mod_cast List.length_filter_le _ _
      exact mul_le_mul_of_nonneg_right h5 this
  set W := mWeights (graphEdges bk lib EE (decide (code.boundaries = .open)) (oddStabs SG bits)) with hW
  have hE : ∀ e ∈ W, 0 ≤ e.2 := by
    intro e he
    rcases edge_cases hlt he with h0 | ⟨p, hp⟩
    · rw [h0]
    · rw [hp]; exact (pathLength_bounds bk hnn p).1
  obtain ⟨M, m1, m2, m3, m4⟩ := C66_perfect ll (no.nodup W) hE h1.1 (h2.trans hperm)
    ((h3.trans hlen).trans_lt hs)
  have m3' : (ends2 M).Perm (no.nodes W) := m3
  refine ⟨M, ?_, ⟨m2, m3'.nodup_iff.2 (no.nodup W)⟩, m3'.trans hperm.symm, fun M' a b => m4 M' a.1 (b.trans hperm)⟩
  rw [h.lemonDecoder_eq bk lib ll no sp hw, ← hW, m1]
  rfl

end

/-- With the lemon backend the recovery clears the syndrome, for nonnegative weights of which the largest times the
number of qubits is below `2 ^ 62`. -/
theorem C66_clears {code : Code} (h : IsCode code) (bk : Backend) (lib : PathLib) (ll : LemonLib) (no : NodeOrder)
    (sp : SetPop) (w : V → ℚ) (hw : ∀ x ∈ code.syndrome, 0 ≤ w x) {K : ℚ} (hK : ∀ x ∈ code.syndrome, w x ≤ K)
    (hs : code.syndrome.length * K < 2 ^ 62) (bits : V → Bool) :
    ∃ R bits', lemonDecoder bk lib ll no (stabGraph bk sp code) w bits = some R ∧ R.Nodup ∧
      (∀ q ∈ R, ∃ x ∈ code.syndrome, q = some x) ∧
      recovery (PyDict.keys code.graph.nodes) R bits = some bits' ∧ trivialSyndrome code bits' := by
  obtain ⟨M, m1, m2, m3, _⟩ := h.lemon_found bk lib ll no sp hw hK hs bits
  obtain ⟨R, h1, h2, h3, h4, _⟩ := h.recovery_spec bk lib sp hw bits m2 m3
  refine ⟨R.map some, _, m1.trans h1, h2.map (Option.some_injective _), ?_,
    recovery_nodup _ R (fun q hq => h.syndrome_node (h3 q hq).1) h2 bits, ?_⟩
  · intro q hq
    obtain ⟨x, hx, rfl⟩ := List.mem_map.1 hq
    exact ⟨x, (h3 x hx).1, rfl⟩
  · intro s hs
    obtain ⟨k, hk, rfl⟩ := List.getElem_of_mem hs
    have := h4 k hk
    rw [List.getD_eq_getElem _ _ hk] at this
    rw [parity_xor, this, Bool.xor_self]

/-- Fractional weights: if path lengths are exact and qubits shared by the same two stabilizers weigh the same, no pattern
with the same syndrome is lighter than the recovery set by more than the precision of the conversion. -/
theorem C66_near {code : Code} (h : IsCode code) (bk : Backend) (lib : PathLib) (ll : LemonLib) (no : NodeOrder)
    (sp : SetPop) (w : V → ℚ) (hw : ∀ x ∈ code.syndrome, 0 ≤ w x) {K : ℚ} (hK : ∀ x ∈ code.syndrome, w x ≤ K)
    (hs : code.syndrome.length * K < 2 ^ 62) (hi : bk = .networkx ∨ ∀ x ∈ code.syndrome, ∃ n : ℤ, w x = n)
    (hpar : ∀ i j, i ≠ j → ∀ x y, x ∈ code.stabs.getD i [] → x ∈ code.stabs.getD j [] →
      y ∈ code.stabs.getD i [] → y ∈ code.stabs.getD j [] → w x = w y)
    (bits : V → Bool) :
    ∃ R : List V, lemonDecoder bk lib ll no (stabGraph bk sp code) w bits = some (R.map some) ∧ R.Nodup ∧
      (∀ s ∈ code.stabs, parity (fun x => decide (x ∈ R)) s = parity bits s) ∧
      ∀ bits', (∀ s ∈ code.stabs, parity bits' s = parity bits s) →
        (1 - 1 / 2 ^ 24) * (R.map w).sum ≤ (1 + 1 / 2 ^ 24) * ((code.syndrome.filter bits').map w).sum := by
  have hex := pathLength_exact h bk sp hi
  obtain ⟨M, m1, m2, m3, m4⟩ := h.lemon_found bk lib ll no sp hw hK hs bits
  obtain ⟨R, h1, h2, h3, h4, h5⟩ := h.recovery_spec bk lib sp hw bits m2 m3
  refine ⟨R, m1.trans h1, h2, ?_, ?_⟩
  · intro s hs
    obtain ⟨k, hk, rfl⟩ := List.getElem_of_mem hs
    have := h4 k hk
    rwa [List.getD_eq_getElem _ _ hk] at this
  · intro bits' hs
    have hle := h.matching_le bk lib sp hw hex hpar matchLib_exists.some bits bits' (fun k hk => by
      rw [List.getD_eq_getElem _ _ hk]; exact hs _ (List.getElem_mem hk))
    unfold onesOf at hle
    rw [List.sum_toFinset _ ((C25_only_syndrome h).1.filter _)] at hle
    have h6 := m4 _ (matchLib_exists.some.isMatching _) (h.perfect bk lib sp matchLib_exists.some bits)
    have h7 := h5.trans (h.cvs_le bk lib sp hw hex bits m2)
    calc _ ≤ (1 - 1 / 2 ^ 24) * _ := mul_le_mul_of_nonneg_left h7 (by norm_num)
      _ ≤ (1 + 1 / 2 ^ 24) * _ := h6
      _ ≤ _ := mul_le_mul_of_nonneg_left hle (by norm_num)

/-- Integer weights: if the largest weight times the number of qubits is below `2 ^ 24`, the lemon backend is one of the
matching routines of C34 - C37 (one for all codes, weights and errors), so everything proved for these holds for lemon. -/
theorem C66_exact (ll : LemonLib) (no : NodeOrder) : ∃ ml : MatchLib, ∀ {code : Code}, IsCode code →
    ∀ (bk : Backend) (lib : PathLib) (sp : SetPop) (w : V → ℚ) (K : ℕ),
      (∀ x ∈ code.syndrome, ∃ n : ℕ, w x = n ∧ n ≤ K) → code.syndrome.length * K < 2 ^ 24 → ∀ bits : V → Bool,
      lemonDecoder bk lib ll no (stabGraph bk sp code) w bits = mwpmDecoder bk lib ml (stabGraph bk sp code) w bits := by
  obtain ⟨ml, hml⟩ := lemon_lib ll no
  refine ⟨ml, fun {code} h bk lib sp w K hwK hs bits => ?_⟩
  have hw : ∀ x ∈ code.syndrome, 0 ≤ w x := fun x hx => by
    obtain ⟨n, hn, _⟩ := hwK x hx; rw [hn]; exact Nat.cast_nonneg n
  have hlt := oddStabs_pairwise (stabGraph bk sp code) bits
  obtain ⟨M₀, h1, h2, h3⟩ := h.exists_cheap bk lib sp hw (K := K) (fun x hx => by
    obtain ⟨n, hn, hle⟩ := hwK x hx; rw [hn]; exact_mod_cast hle) bits
  have hperm := nodes_perm bk lib sp (w := w) no bits h1 h2
  have hnat : ∀ e ∈ weightedEdges (stabGraph bk sp code) w, ∃ n : ℕ, e.2 = n := by
    intro e he
    obtain ⟨⟨e, cv⟩, hmem, rfl⟩ := List.mem_map.1 he
    rw [(h.stabGraph bk sp).1] at hmem
    cases cv with
    | none => exact ⟨0, by simp⟩
    | some x =>
      obtain ⟨n, hn, _⟩ := hwK x (h.ok.1.edge_effect h.ok.2 sp hmem).1
      exact ⟨n, hn⟩
  rw [h.lemonDecoder_eq bk lib ll no sp hw]
  have e : mwpmDecoder bk lib ml (stabGraph bk sp code) w bits = matchingRecovery (stabGraph bk sp code)
      ⟨graphEdges bk lib (weightedEdges (stabGraph bk sp code) w) (decide (code.boundaries = .open))
          (oddStabs (stabGraph bk sp code) bits),
        virtuals bk lib (weightedEdges (stabGraph bk sp code) w) (decide (code.boundaries = .open))
          (oddStabs (stabGraph bk sp code) bits)⟩
      (ml.find (mWeights (graphEdges bk lib (weightedEdges (stabGraph bk sp code) w)
        (decide (code.boundaries = .open)) (oddStabs (stabGraph bk sp code) bits)))) := by
    unfold mwpmDecoder
    rw [h.matchGraph bk lib sp hw bits]
    rfl
  rw [e]
  set W := mWeights (graphEdges bk lib (weightedEdges (stabGraph bk sp code) w)
    (decide (code.boundaries = .open)) (oddStabs (stabGraph bk sp code) bits)) with hW
  have hE : ∀ e ∈ W, ∃ n : ℕ, e.2 = n := by
    intro e he
    rcases edge_cases hlt he with h0 | ⟨p, hp⟩
    · exact ⟨0, by rw [h0]; simp⟩
    · rw [hp]; exact pathLength_nat bk hnat p
  have hsmall : matchWeight W M₀ < 2 ^ 24 := by
    refine h3.trans_lt ?_
    have h5 : ((code.syndrome.filter bits).length * K : ℕ) < 2 ^ 24 :=
      (Nat.mul_le_mul_right _ (List.length_filter_le _ _)).trans_lt hs
    exact_mod_cast h5
  obtain ⟨M, h4, h5⟩ := lemon_optimal ll no hE h1 (h2.trans hperm) hsmall
  rw [h4, hml W M h4 h5]
  rfl

/-- With unit weights and fewer than `2 ^ 24` qubits, the lemon backend corrects every error on fewer than half as many
qubits as the code is long in each checked direction. -/
theorem C66_corrects {code : Code} (h : IsCode code) (bk : Backend) (lib : PathLib) (ll : LemonLib) (no : NodeOrder)
    (sp : SetPop) (hsize : code.syndrome.length < 2 ^ 24) (bits : V → Bool)
    (hlow : ∀ i ∈ planesToCheck code.ec code.boundaries, 2 * weight code bits < code.dims i) (sanity : Bool) :
    ∃ bits', correct code (lemonDecoder bk lib ll no (stabGraph bk sp code) fun _ => 1) sanity bits = some (bits', true) := by
  obtain ⟨ml, hml⟩ := C66_exact ll no
  have : lemonDecoder bk lib ll no (stabGraph bk sp code) (fun _ => 1) =
      mwpmDecoder bk lib ml (stabGraph bk sp code) fun _ => 1 :=
    funext fun b => hml h bk lib sp _ 1 (fun _ _ => ⟨1, by simp, le_refl _⟩) (by omega) b
  rw [this]
  exact C36_corrects h bk lib ml sp bits hlow sanity

/-- A graph on four nodes with two perfect matchings, of weights `2 ^ 24 + 1` and `2 ^ 24`. -/
def tieGraph : List (Sym2 MNode × ℚ) :=
  [(s(.stab 0, .stab 1), 2 ^ 24 + 1), (s(.stab 2, .stab 3), 0), (s(.stab 0, .stab 2), 2 ^ 24), (s(.stab 1, .stab 3), 0)]

/-- Beyond `2 ^ 24` integers are rounded: the matching returned need not have least weight. -/
theorem C66_rounding : ∃ (ll : LemonLib) (M M' : List (MNode × MNode)),
    lemonMatching ll ((List.range 4).map .stab) tieGraph = some M ∧ IsMatching tieGraph M' ∧
    (M'.flatMap fun m => [m.1, m.2]).Perm ((List.range 4).map .stab) ∧
    matchWeight tieGraph M' < matchWeight tieGraph M := by
  set nodes : List MNode := (List.range 4).map .stab with hnodes
  set adj := lemonAdjacency nodes tieGraph
  set W : ℕ → ℕ → ℚ := fun i j => ((adj.map fun row => row.map float32).flatten).getD (i * 4 + j) 0 with hW
  have hrun : ∀ ll : LemonLib, lemonMwpm ll adj = ll.run 4 W := fun ll => rfl
  have hget : ∀ i (hi : i < 4) j (hj : j < 4), W i j = entry tieGraph s(.stab i, .stab j) := by
    intro i hi j hj
    rw [hW]
    simp only
    rw [getD_flatten 0 4 _ (by simp [adj, lemonAdjacency, hnodes]) i j hj]
    simp [adj, lemonAdjacency, hnodes, List.getD_eq_getElem?_getD, hi, hj, entry]
  have hE : ∀ e ∈ tieGraph, 0 ≤ e.2 := by
    intro e he
    simp only [tieGraph, List.mem_cons, List.not_mem_nil, or_false] at he
    rcases he with rfl | rfl | rfl | rfl <;> norm_num
  have g01 : PyDict.get? tieGraph s(MNode.stab 0, MNode.stab 1) = some (2 ^ 24 + 1) := by
    simp [tieGraph, PyDict.get?]
  have g02 : PyDict.get? tieGraph s(MNode.stab 0, MNode.stab 2) = some (2 ^ 24) := by
    simp [tieGraph, PyDict.get?]
  have g23 : PyDict.get? tieGraph s(MNode.stab 2, MNode.stab 3) = some 0 := by
    simp [tieGraph, PyDict.get?]
  have g13 : PyDict.get? tieGraph s(MNode.stab 1, MNode.stab 3) = some 0 := by
    simp [tieGraph, PyDict.get?]
  have k03 : s(MNode.stab 0, MNode.stab 3) ∉ PyDict.keys tieGraph := by
    simp [tieGraph, PyDict.keys]
  have w01 : W 0 1 = -2 ^ 24 := by
    rw [hget 0 (by norm_num) 1 (by norm_num)]
    unfold entry
    rw [g01]
    exact float32_tie
  have w23 : W 2 3 = 0 := by
    rw [hget 2 (by norm_num) 3 (by norm_num)]
    unfold entry
    rw [g23]
    simp [float32]
  have w02 : W 0 2 = -2 ^ 24 := by
    rw [hget 0 (by norm_num) 2 (by norm_num)]
    unfold entry
    rw [g02]
    have := float32_int (n := -2 ^ 24) (by norm_num)
    simp only [Option.map_some, Option.getD_some]
    norm_num at this ⊢
    exact this
  have w03 : W 0 3 ≤ -2 ^ 24 := by
    rw [hget 0 (by norm_num) 3 (by norm_num)]
    exact (entry_none k03).trans (by norm_num)
  obtain ⟨ll, hll⟩ := lemonLib_with 4 W [(0, 1), (2, 3)] ⟨by decide, by decide⟩ (by
    intro M' hM'
    have h0 : (0 : ℕ) ∈ M'.flatMap fun e => [e.1, e.2] := hM'.2.symm.subset (by simp)
    obtain ⟨e, he, he0⟩ := List.mem_flatMap.1 h0
    obtain ⟨h1, h2⟩ := hM'.1 e he
    obtain ⟨a, b⟩ := e
    simp only [List.mem_cons, List.not_mem_nil, or_false] at he0 h1 h2
    obtain rfl : a = 0 := by omega
    have hab : W 0 b ≤ -2 ^ 24 := by
      have : b = 1 ∨ b = 2 ∨ b = 3 := by omega
      rcases this with rfl | rfl | rfl
      · exact w01.le
      · exact w02.le
      · exact w03
    have hsum : -W 0 b ≤ (M'.map fun e => -W e.1 e.2).sum := List.single_le_sum (fun x hx => by
      obtain ⟨⟨i, j⟩, hij, rfl⟩ := List.mem_map.1 hx
      have h5 := hM'.1 _ hij
      simp only at h5 ⊢
      rw [hget i (by omega) j (by omega)]
      have := entry_nonpos hE s(.stab i, .stab j)
      linarith) _ (List.mem_map_of_mem (f := fun e : ℕ × ℕ => -W e.1 e.2) he)
    rw [sum_neg_map] at hsum
    simp only [List.map_cons, List.map_nil, List.sum_cons, List.sum_nil, w01, w23]
    linarith)
  refine ⟨ll, [(.stab 0, .stab 1), (.stab 2, .stab 3)], [(.stab 0, .stab 2), (.stab 1, .stab 3)], ?_, ?_, ?_, ?_⟩
  · unfold lemonMatching
    rw [hrun, hll]
    rfl
  · constructor
    · simp [tieGraph, PyDict.keys]
    · decide
  · decide
  · simp only [matchWeight, List.map_cons, List.map_nil, List.sum_cons, List.sum_nil, g01, g02, g13, g23,
      Option.getD_some]
    norm_num

/-! ### The assumptions can be met -/

example : Nonempty LemonLib ∧ Nonempty NodeOrder := ⟨lemonLib_exists, nodeOrder_exists⟩

/-- The codes with two cells in every direction have far fewer than `2 ^ 24` qubits (the distance hypothesis is met in the
example for C36). -/
example (ec : Ec) (b : Boundaries) : ∃ code, surfaceCode idOrder ec b (fun _ => 2) none = some code ∧ IsCode code ∧
    code.syndrome.length * 1 < 2 ^ 24 := by
  obtain ⟨code, hc, _⟩ := surfaceCode_ok idOrder ec b (dims := fun _ => 2) (fun _ => by norm_num) none
  refine ⟨code, hc, ⟨_, _, _, _, _, fun _ => by norm_num, hc⟩, ?_⟩
  have : ((surfaceCode idOrder ec b (fun _ => 2) none).map fun c => decide (c.syndrome.length < 300)) = some true := by
    cases ec <;> cases b <;> decide +kernel
  rw [hc, Option.map_some, Option.some.injEq, decide_eq_true_eq] at this
  omega

end Flamingpy.SurfaceCode
