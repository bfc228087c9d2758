import Verif.Props.UfErasureRate
import Verif.Props.UfCvThreshold
import Verif.Proofs.GaussEdge

/-!
# C99: swap-outs of a `CVLayer` and Union-Find

A qubit with one p-squeezed neighbour is as reliable as one without: its bit is the parity of the position of the neighbour, which all qubits
around that neighbour share.
-/

namespace Flamingpy.Trial

open Flamingpy Flamingpy.SurfaceCode Flamingpy.UnionFind Flamingpy.Weights Flamingpy.Sim MeasureTheory ProbabilityTheory

/-- The bits are those of some values of the nodes, except those of erased qubits. -/
def NoiselessOff (code : Code) (w : V → ℚ) (bits : V → Bool) : Prop :=
  ∃ vals : V → Bool, ∀ x ∈ code.syndrome, w x ≠ -1 → bits x = parity vals (neighbors code x)

/-- C99.  Union-Find corrects all bits that are noiseless outside the erased qubits, whatever the values of the nodes, if and only if no
pattern of erased qubits is a logical operator. -/
theorem C99_iff {code : Code} (h : IsCode code)
    (hd : ∀ i, boundsOf code.ec code.boundaries i = .periodic → 3 ≤ code.dims i) (bk : Backend) (sp : SetPop)
    (cl : CompLib SNode) (sl : SpanLib SNode (Option V)) (io : IterOrder SNode) (w : V → ℚ) (fuel : ℕ)
    (hf : 2 * (stabGraph bk sp code).edges.length + 1 ≤ fuel) (hB : ∀ x ∈ code.boundPoints, w x ≠ -1) (sanity : Bool) :
    (∀ bits, NoiselessOff code w bits →
        ∃ bits', correct code (ufDecoder cl sl io fuel (stabGraph bk sp code) w) sanity bits = some (bits', true)) ↔
      ¬ LogicalErased code w := by
  have hL : ¬ LogicalErased code w ↔ ∀ L, OnErased code w L → trivialSyndrome code L → Noiseless code L := by
    unfold LogicalErased
    push Not
    rfl
  rw [hL]
  constructor
  · intro hall
    refine (C97_iff h hd bk sp cl sl io w fuel hf hB sanity).1 fun bits hE => hall bits ⟨fun _ => false, fun x hx hne => ?_⟩
    have h0 : parity (fun _ => false) (neighbors code x) = false := by rw [parity_mem]; simp
    rw [h0, Bool.eq_false_iff]
    exact fun hb => hne (hE x hx hb)
  · rintro hL bits ⟨vals, hv⟩
    set c : V → Bool := fun x => parity vals (neighbors code x) with hc
    set D : V → Bool := fun x => xor (bits x) (c x) with hD
    have hE : OnErased code w D := fun x hx hb => by
      by_contra hne
      simp only [hD, hc, hv x hx hne, Bool.xor_self] at hb
      cases hb
    have hct : trivialSyndrome code c := ((C57_verdict h c false).2 ⟨vals, fun x _ => rfl⟩).1
    have hpar : ∀ s ∈ code.stabs, parity bits s = parity D s := fun s hs => by
      rw [hD, parity_xor, hct s hs, Bool.xor_false]
    obtain ⟨R, h1, h2, h3, h4⟩ := C97_recovery h hd bk sp cl sl io w D fuel hf hE hB
    rw [← uf_congr h bk sp cl sl io w fuel hpar] at h1
    have hrec := recovery_nodup (PyDict.keys code.graph.nodes) R (fun q hq => h.syndrome_node (h3 q hq).1) h2 bits
    have hDR : OnErased code w fun x => xor (D x) (decide (x ∈ R)) := fun x hx hb => by
      by_cases hxR : x ∈ R
      · exact (h3 x hxR).2
      · exact hE x hx (by simpa [hxR] using hb)
    have htr : trivialSyndrome code fun x => xor (bits x) (decide (x ∈ R)) := fun s hs => by
      rw [parity_xor, hpar s hs, h4 s hs, Bool.xor_self]
    have hcor : correct code (ufDecoder cl sl io fuel (stabGraph bk sp code) w) sanity bits =
        some (fun x => xor (bits x) (decide (x ∈ R)), (planesToCheck code.ec code.boundaries).all fun i =>
          !sheetParity code (fun x => xor (bits x) (decide (x ∈ R))) i (lowF code.ec)) := by
      unfold correct
      rw [h1, Option.bind_eq_bind, Option.bind_some, hrec, Option.bind_eq_bind, Option.bind_some, check_eq h.ok.2]
      rfl
    obtain ⟨v₂, hv₂⟩ := hL _ hDR fun s hs => by rw [parity_xor, h4 s hs, Bool.xor_self]
    have hok := (C57_correct h _ hcor htr).2 ⟨fun y => xor (v₂ y) (vals y), fun x hx => by
      rw [parity_xor, ← hv₂ x hx]
      simp only [hD, hc]
      cases bits x <;> cases decide (x ∈ R) <;> cases parity vals (neighbors code x) <;> rfl⟩
    exact ⟨_, hcor.trans (by rw [hok])⟩

/-- C99 for `correct`: qubits with at most one p-squeezed neighbour are noiseless. -/
theorem C99_total {code : Code} (h : IsCode code) (hb : code.boundaries ≠ .open)
    (hd : ∀ i, boundsOf code.ec code.boundaries i = .periodic → 3 ≤ code.dims i) (X : Libs) {o : Opts}
    (ho : o.method = "uniform") (a : Attrs) (weights : V → Option ℝ) (sanity : Bool) :
    (∀ bits vals : V → Bool, (∀ x ∈ code.syndrome, squeezedNeighbors code a x < 2 → bits x = parity vals (neighbors code x)) →
        ∃ bits' w, correctAll X code "UF" o a weights sanity bits = some (bits', w, true)) ↔
      ∀ L, (∀ x ∈ code.syndrome, L x = true → 2 ≤ squeezedNeighbors code a x) → trivialSyndrome code L → Noiseless code L := by
  obtain ⟨w, w', hw, he⟩ := uf_correctAll h X ho a weights sanity
  have hm : ∀ x ∈ code.syndrome, (w' x = -1 ↔ 2 ≤ squeezedNeighbors code a x) := by
    intro x hx
    rw [hw x hx]
    split_ifs with hc
    · simp [hc]
    · simp only [hc, iff_false]; norm_num
  have hlog : ¬ LogicalErased code w' ↔
      ∀ L, (∀ x ∈ code.syndrome, L x = true → 2 ≤ squeezedNeighbors code a x) → trivialSyndrome code L → Noiseless code L := by
    unfold LogicalErased
    push Not
    refine forall_congr' fun L => ?_
    have : OnErased code w' L ↔ ∀ x ∈ code.syndrome, L x = true → 2 ≤ squeezedNeighbors code a x :=
      forall₂_congr fun x hx => by rw [hm x hx]
    rw [this]
  rw [← hlog, ← C99_iff h hd X.bk X.sp X.comps X.span X.iter w' _ le_rfl (eraseW_bound h hb _) sanity]
  have hoff : ∀ b, NoiselessOff code w' b ↔
      ∃ vals : V → Bool, ∀ x ∈ code.syndrome, squeezedNeighbors code a x < 2 → b x = parity vals (neighbors code x) := fun b =>
    exists_congr fun vals => forall₂_congr fun x hx => by
      have := hm x hx
      rw [Ne, this, not_le]
  refine forall_congr' fun b => ?_
  rw [hoff, exists_imp, he b]
  refine forall_congr' fun _ => forall_congr' fun _ => ?_
  constructor
  · rintro ⟨b', w₂, hb⟩
    rw [Option.map_eq_some_iff] at hb
    obtain ⟨⟨b'', ok⟩, h1, h2⟩ := hb
    simp only [Prod.mk.injEq] at h2
    exact ⟨b'', by rw [h1, h2.2.2]⟩
  · rintro ⟨b', hb⟩
    exact ⟨b', w, by rw [hb]; rfl⟩

/-- Qubits are erased if two or more of their neighbours are among the given modes. -/
def swapErased (code : Code) (pts : List V) (A : Finset ℕ) : Finset V :=
  code.syndrome.toFinset.filter fun x => 2 ≤ squeezedNeighbors code (swapAttrs pts A) x

/-- C99 for `correct` with p-squeezed modes. -/
theorem C99_correct {code : Code} (h : IsCode code) (hb : code.boundaries ≠ .open)
    (hd : ∀ i, boundsOf code.ec code.boundaries i = .periodic → 3 ≤ code.dims i) (X : Libs) {o : Opts}
    (ho : o.method = "uniform") {pts : List V} {A : Finset ℕ} (hA : ¬ LogicalErased code (eraseW (swapErased code pts A)))
    {B : Finset V} {vals : V → Bool} (hv : ∀ x ∈ code.syndrome, squeezedNeighbors code (swapAttrs pts A) x < 2 →
      decide (x ∈ B) = parity vals (neighbors code x)) : ¬ Fails X code "UF" o (swapAttrs pts A) B := by
  rintro ⟨bits', w₂, hF⟩
  obtain ⟨w, w', hw, he⟩ := uf_correctAll h X ho (swapAttrs pts A) (fun _ => none) false
  have hm : ∀ x ∈ code.syndrome, (w' x = -1 ↔ eraseW (swapErased code pts A) x = -1) := by
    intro x hx
    rw [hw x hx, eraseW]
    have : x ∈ swapErased code pts A ↔ 2 ≤ squeezedNeighbors code (swapAttrs pts A) x := by simp [swapErased, hx]
    simp only [this]
  have hA' : ¬ LogicalErased code w' := by
    rintro ⟨L, l1, l2, l3⟩
    exact hA ⟨L, fun x hx hLx => (hm x hx).1 (l1 x hx hLx), l2, l3⟩
  have hB : ∀ x ∈ code.boundPoints, w' x ≠ -1 := eraseW_bound h hb _
  obtain ⟨b', hc⟩ := (C99_iff h hd X.bk X.sp X.comps X.span X.iter w' _ le_rfl hB false).2 hA' (fun x => decide (x ∈ B))
    ⟨vals, fun x hx hne => hv x hx (by
      by_contra hc
      exact hne (by rw [hw x hx, if_pos (not_lt.1 hc)]))⟩
  rw [he, hc] at hF
  simp at hF

/-! ### The outcomes of a `CVLayer` -/

/-- The outcome of a qubit as in `swapFlips`. -/
noncomputable def swapOutcome (code : Code) (pts : List V) (delta : ℝ) (A G : Finset ℕ) (z : ℕ → ℝ) (x : V) : ℝ :=
  swapP delta A G (pts.idxOf x) * z (pts.length + pts.idxOf x) +
    ∑ y ∈ pts.toFinset, Noise.edgeWeight code x y * (swapQ delta A G (pts.idxOf y) * z (pts.idxOf y))

theorem mem_swapFlips {code : Code} {pts : List V} {delta : ℝ} {A G : Finset ℕ} {z : ℕ → ℝ} {x : V} (hx : x ∈ code.syndrome) :
    x ∈ swapFlips code pts delta A G z ↔ Gkp.gkpBinner (swapOutcome code pts delta A G z x) = 1 := by
  simp [swapFlips, swapOutcome, hx]

/-- Noise that is not from squeezed modes. -/
noncomputable def restNoise (code : Code) (pts : List V) (delta : ℝ) (A G : Finset ℕ) (z : ℕ → ℝ) (x : V) : ℝ :=
  swapP delta A G (pts.idxOf x) * z (pts.length + pts.idxOf x) +
    ∑ y ∈ pts.toFinset.filter (fun y => pts.idxOf y ∉ A), Noise.edgeWeight code x y * (swapQ delta A G (pts.idxOf y) * z (pts.idxOf y))

theorem binner_small {x : ℝ} (h : |x| < √Real.pi / 2) : Gkp.gkpBinner x = 0 := by
  by_contra hc
  have h1 := binner_abs hc
  have h2 : x ^ 2 < (√Real.pi / 2) ^ 2 := sq_lt_sq' (by linarith [(abs_lt.1 h).1]) (abs_lt.1 h).2
  rw [div_pow, Real.sq_sqrt Real.pi_pos.le] at h2
  linarith

theorem edgeWeight_pm {code : Code} (hw : ∀ x y w, PyDict.get? code.graph.edges s(x, y) = some w → w.1 = 1 ∨ w.1 = -1) {x y : V}
    (hxy : s(x, y) ∈ PyDict.keys code.graph.edges) : Noise.edgeWeight code x y = 1 ∨ Noise.edgeWeight code x y = -1 := by
  have h1 := Noise.edgeWeight_sq hw x y
  rw [if_pos hxy] at h1
  have h2 : Noise.edgeWeight code x y ^ 2 = 1 := by exact_mod_cast h1
  exact sq_eq_sq_iff_eq_or_eq_neg.1 (h2.trans (one_pow 2).symm)

/-- An outcome with little noise besides the positions of the squeezed modes, which are not close to the edges of the bins: the bit of a
qubit with at most one squeezed neighbour is that of some values of the nodes. -/
theorem swap_bit {code : Code} (h : IsCode code)
    (hw : ∀ x y w, PyDict.get? code.graph.edges s(x, y) = some w → w.1 = 1 ∨ w.1 = -1) {pts : List V}
    (hpts : pts.Perm (PyDict.keys code.graph.nodes)) {delta η : ℝ} {A G : Finset ℕ} {z : ℕ → ℝ} (hη : η ≤ √Real.pi / 2) {m : ℕ → ℤ}
    {x : V} (hx : x ∈ code.syndrome) (hsq : squeezedNeighbors code (swapAttrs pts A) x < 2) (hr : |restNoise code pts delta A G z x| < η)
    (hm : ∀ y ∈ neighbors code x, pts.idxOf y ∈ A →
      |swapQ delta A G (pts.idxOf y) * z (pts.idxOf y) - m (pts.idxOf y) * √Real.pi| ≤ √Real.pi / 2 - η) :
      decide (x ∈ swapFlips code pts delta A G z) =
        parity (fun y => decide (pts.idxOf y ∈ A ∧ m (pts.idxOf y) % 2 = 1)) (neighbors code x) := by
  classical
  have hnd : (neighbors code x).Nodup := h.ok.1.nodesNd.filter _
  have hmem : ∀ y, y ∈ neighbors code x ↔ s(x, y) ∈ PyDict.keys code.graph.edges ∧ y ∈ pts := fun y => by
    unfold neighbors
    rw [List.mem_filter, hpts.mem_iff, decide_eq_true_iff, and_comm]
  set T := (neighbors code x).toFinset.filter fun y => pts.idxOf y ∈ A with hT
  have hTc : T.card < 2 := by
    have : squeezedNeighbors code (swapAttrs pts A) x = T.card := by
      unfold squeezedNeighbors
      rw [List.countP_eq_length_filter, ← List.toFinset_card_of_nodup (hnd.filter _), hT]
      congr 1
      ext y
      simp [swapAttrs]
    omega
  have hsplit : swapOutcome code pts delta A G z x = restNoise code pts delta A G z x +
      ∑ y ∈ T, Noise.edgeWeight code x y * (swapQ delta A G (pts.idxOf y) * z (pts.idxOf y)) := by
    unfold swapOutcome restNoise
    rw [add_assoc, add_right_inj, ← Finset.sum_filter_add_sum_filter_not pts.toFinset (fun y => pts.idxOf y ∉ A), add_right_inj]
    symm
    refine Finset.sum_subset (fun y hy => ?_) fun y hy hyT => ?_
    · rw [hT, Finset.mem_filter, List.mem_toFinset, hmem] at hy
      simp [hy.1.2, hy.2]
    · simp only [Finset.mem_filter, List.mem_toFinset, not_not] at hy
      have hne : s(x, y) ∉ PyDict.keys code.graph.edges := fun hc => hyT (by
        rw [hT, Finset.mem_filter, List.mem_toFinset, hmem]
        exact ⟨⟨hc, hy.1⟩, hy.2⟩)
      have := Noise.edgeWeight_sq hw x y
      rw [if_neg hne, sq_eq_zero_iff] at this
      rw [this, zero_mul]
  have hpar : parity (fun y => decide (pts.idxOf y ∈ A ∧ m (pts.idxOf y) % 2 = 1)) (neighbors code x) =
      decide (Odd (T.filter fun y => m (pts.idxOf y) % 2 = 1).card) := by
    rw [parity_mem, ← List.toFinset_card_of_nodup (hnd.filter _), hT, Finset.filter_filter]
    congr 3
    ext y
    simp
  rw [hpar, decide_eq_decide, mem_swapFlips hx, hsplit]
  rcases Nat.lt_or_ge 0 T.card with hpos | hzero
  · obtain ⟨y, hy⟩ := Finset.card_eq_one.1 (by omega : T.card = 1)
    have hyT : y ∈ T := by rw [hy]; exact Finset.mem_singleton_self _
    obtain ⟨hyn, hyA⟩ := Finset.mem_filter.1 hyT
    rw [List.mem_toFinset] at hyn
    have hmy := hm _ hyn hyA
    rw [hmem] at hyn
    rw [hy, Finset.sum_singleton]
    set q := swapQ delta A G (pts.idxOf y) * z (pts.idxOf y) with hq
    set e := restNoise code pts delta A G z x with he
    set n := m (pts.idxOf y) with hn
    have hodd : Odd (({y} : Finset V).filter fun y => m (pts.idxOf y) % 2 = 1).card ↔ n % 2 = 1 := by
      rw [Finset.filter_singleton]
      by_cases hc : m (pts.idxOf y) % 2 = 1
      · simp [hc, hn]
      · simp [hc, hn]
    rw [hodd]
    rcases edgeWeight_pm hw hyn.1 with h1 | h1
    · rw [h1, show e + ((1 : ℤ) : ℝ) * q = (n : ℝ) * √Real.pi + (e + (q - n * √Real.pi)) by push_cast; ring, (Gkp.binner_add n _).1,
        binner_small ((abs_add_le _ _).trans_lt (by linarith))]
      omega
    · rw [h1, show e + ((-1 : ℤ) : ℝ) * q = ((-n : ℤ) : ℝ) * √Real.pi + (e + -(q - n * √Real.pi)) by push_cast; ring,
        (Gkp.binner_add (-n) _).1, binner_small ((abs_add_le _ _).trans_lt (by rw [abs_neg]; linarith))]
      omega
  · rw [Finset.card_eq_zero.1 (by omega : T.card = 0)]
    simp [binner_small (lt_of_lt_of_le hr hη)]

/-- The same for all qubits. -/
theorem swap_bits {code : Code} (h : IsCode code)
    (hw : ∀ x y w, PyDict.get? code.graph.edges s(x, y) = some w → w.1 = 1 ∨ w.1 = -1) {pts : List V}
    (hpts : pts.Perm (PyDict.keys code.graph.nodes)) {delta η : ℝ} {A G : Finset ℕ} {z : ℕ → ℝ} (hη : η ≤ √Real.pi / 2) {m : ℕ → ℤ}
    (hrest : ∀ x ∈ code.syndrome, |restNoise code pts delta A G z x| < η)
    (hm : ∀ i < pts.length, i ∈ A → |swapQ delta A G i * z i - m i * √Real.pi| ≤ √Real.pi / 2 - η) :
    ∀ x ∈ code.syndrome, squeezedNeighbors code (swapAttrs pts A) x < 2 →
      decide (x ∈ swapFlips code pts delta A G z) =
        parity (fun y => decide (pts.idxOf y ∈ A ∧ m (pts.idxOf y) % 2 = 1)) (neighbors code x) :=
  fun x hx hsq => swap_bit h hw hpts hη hx hsq (hrest x hx) fun y hy hyA =>
    hm _ (List.idxOf_lt_length_of_mem (hpts.mem_iff.2 (List.mem_filter.1 hy).1)) hyA

/-- Specification: the probability that a logical operator is erased, if every mode is independently squeezed with probability `p`. -/
noncomputable def swapLogical (code : Code) (pts : List V) (p : ℝ) : ℝ :=
  hitProb p (Finset.range pts.length) fun A => LogicalErased code (eraseW (swapErased code pts A))

theorem rest_small {code : Code} (h : IsCode code)
    (hw : ∀ x y w, PyDict.get? code.graph.edges s(x, y) = some w → w.1 = 1 ∨ w.1 = -1) {pts : List V}
    (hpts : pts.Perm (PyDict.keys code.graph.nodes)) {delta R : ℝ} (hd : 0 < delta) (hR : 0 < R) {A G : Finset ℕ} {z : ℕ → ℝ}
    (h1 : ∀ i < pts.length, |z i| < R) (h2 : ∀ i < pts.length, |z (pts.length + i)| < R) :
    ∀ x ∈ code.syndrome, |restNoise code pts delta A G z x| < 5 * (√(delta / 2) * R) := by
  classical
  intro x hx
  have hs : 0 < √(delta / 2) := Real.sqrt_pos.2 (by positivity)
  have hxp : x ∈ pts := hpts.mem_iff.2 (h.syndrome_node hx)
  have a1 : |swapP delta A G (pts.idxOf x) * z (pts.length + pts.idxOf x)| < √(delta / 2) * R := by
    rw [abs_mul]
    have h0 : |swapP delta A G (pts.idxOf x)| ≤ √(delta / 2) := by
      unfold swapP
      split_ifs
      · rw [abs_of_pos hs]
      · rw [abs_zero]; exact hs.le
    exact (mul_le_mul_of_nonneg_right h0 (abs_nonneg _)).trans_lt (mul_lt_mul_of_pos_left (h2 _ (List.idxOf_lt_length_of_mem hxp)) hs)
  have hsub : ∑ y ∈ pts.toFinset.filter (fun y => pts.idxOf y ∉ A),
        (Noise.edgeWeight code x y : ℝ) * (swapQ delta A G (pts.idxOf y) * z (pts.idxOf y)) =
      ∑ y ∈ (neighbors code x).toFinset.filter (fun y => pts.idxOf y ∉ A),
        (Noise.edgeWeight code x y : ℝ) * (swapQ delta A G (pts.idxOf y) * z (pts.idxOf y)) := by
    symm
    refine Finset.sum_subset (fun y hy => ?_) fun y hy hyT => ?_
    · rw [Finset.mem_filter, List.mem_toFinset] at hy
      unfold neighbors at hy
      simp [hpts.mem_iff, (List.mem_filter.1 hy.1).1, hy.2]
    · rw [Finset.mem_filter, List.mem_toFinset] at hy
      have hne : s(x, y) ∉ PyDict.keys code.graph.edges := fun hc => hyT (by
        rw [Finset.mem_filter, List.mem_toFinset]
        unfold neighbors
        exact ⟨List.mem_filter.2 ⟨hpts.mem_iff.1 hy.1, by simpa using hc⟩, hy.2⟩)
      have := Noise.edgeWeight_sq hw x y
      rw [if_neg hne, sq_eq_zero_iff] at this
      rw [this, zero_mul]
  have a2 : |∑ y ∈ pts.toFinset.filter (fun y => pts.idxOf y ∉ A),
      (Noise.edgeWeight code x y : ℝ) * (swapQ delta A G (pts.idxOf y) * z (pts.idxOf y))| ≤ 4 * (√(delta / 2) * R) := by
    rw [hsub]
    refine (Finset.abs_sum_le_sum_abs _ _).trans ?_
    refine (Finset.sum_le_card_nsmul _ _ (√(delta / 2) * R) fun y hy => ?_).trans ?_
    · rw [Finset.mem_filter, List.mem_toFinset] at hy
      have hyn := hy.1
      unfold neighbors at hyn
      have hyp : y ∈ pts := hpts.mem_iff.2 (List.mem_filter.1 hyn).1
      have hq : |swapQ delta A G (pts.idxOf y)| ≤ √(delta / 2) := by
        unfold swapQ
        rw [if_neg hy.2]
        split_ifs
        · rw [abs_of_pos hs]
        · rw [abs_zero]; exact hs.le
      have hwt : |(Noise.edgeWeight code x y : ℝ)| = 1 := by
        rcases edgeWeight_pm hw (x := x) (y := y) (by simpa using (List.mem_filter.1 hyn).2) with e | e <;> simp [e]
      rw [abs_mul, abs_mul, hwt, one_mul]
      exact mul_le_mul hq (h1 _ (List.idxOf_lt_length_of_mem hyp)).le (abs_nonneg _) hs.le
    · rw [nsmul_eq_mul]
      have : (((neighbors code x).toFinset.filter fun y => pts.idxOf y ∉ A).card : ℝ) ≤ 4 := by
        exact_mod_cast (Finset.card_filter_le _ _).trans (neighbors_card h x)
      exact mul_le_mul_of_nonneg_right this (by positivity)
  unfold restNoise
  refine (abs_add_le _ _).trans_lt ?_
  linarith

/-- Rare deviates. -/
theorem bad_prob (N : ℕ) {s η R : ℝ} {K : ℕ} (hη : 0 < η) (hs : 0 < s) (hR : 0 < R) (hK0 : 0 < K) (hK : K * (2 * η) ≤ √Real.pi) :
    (Measure.infinitePi fun _ : ℕ => gaussianReal 0 1).real
      {z | ∃ i < N, R ≤ |z i| ∨ R ≤ |z (N + i)| ∨ z i ∈ Gkp.nearEdge s η ∩ {x | |x| < R}} ≤
      N * (2 / R ^ 2 + Real.exp (R * (√Real.pi / s) + (√Real.pi / s) ^ 2 / 2) / K) := by
  set ν := Measure.infinitePi fun _ : ℕ => gaussianReal 0 1 with hν
  have hco : ∀ (i : ℕ) {S : Set ℝ}, MeasurableSet S → ν.real {z | z i ∈ S} = (gaussianReal 0 1).real S := fun i S hS => by
    have := (measurePreserving_eval_infinitePi (fun _ : ℕ => gaussianReal 0 1) i).measureReal_preimage hS.nullMeasurableSet
    exact this
  have hsub : {z : ℕ → ℝ | ∃ i < N, R ≤ |z i| ∨ R ≤ |z (N + i)| ∨ z i ∈ Gkp.nearEdge s η ∩ {x | |x| < R}} ⊆
      ⋃ i ∈ Finset.range N, ({z | z i ∈ {x : ℝ | R ≤ |x|}} ∪ ({z | z (N + i) ∈ {x : ℝ | R ≤ |x|}} ∪
        {z | z i ∈ Gkp.nearEdge s η ∩ {x | |x| < R}})) := by
    rintro z ⟨i, hi, hz⟩
    simp only [Set.mem_iUnion]
    exact ⟨i, Finset.mem_range.2 hi, hz⟩
  refine (measureReal_mono hsub (measure_ne_top _ _)).trans ((measureReal_biUnion_finset_le _ _).trans ?_)
  refine (Finset.sum_le_card_nsmul _ _ _ fun i _ => ?_).trans (by rw [Finset.card_range, nsmul_eq_mul])
  have hm1 : MeasurableSet {x : ℝ | R ≤ |x|} := measurableSet_le measurable_const (by fun_prop)
  have hm2 : MeasurableSet (Gkp.nearEdge s η ∩ {x | |x| < R}) :=
    (Gkp.measurable_nearEdge s η).inter (measurableSet_lt (by fun_prop) measurable_const)
  refine (measureReal_union_le _ _).trans ?_
  have h3 := measureReal_union_le (μ := ν) {z | z (N + i) ∈ {x : ℝ | R ≤ |x|}} {z | z i ∈ Gkp.nearEdge s η ∩ {x | |x| < R}}
  have e1 := hco i hm1
  have e2 := hco (N + i) hm1
  have e3 := hco i hm2
  rw [e2, e3] at h3
  rw [e1]
  have t := Gkp.gauss_tail hR
  have hKr : (0 : ℝ) < K := by exact_mod_cast hK0
  have t2 := Gkp.nearEdge_prob hη hs hR.le hK
  rw [mul_comm, ← le_div_iff₀ hKr] at t2
  have : (2 : ℝ) / R ^ 2 = 1 / R ^ 2 + 1 / R ^ 2 := by ring
  linarith

/-- Unless some deviates are rare, the bits are those of some values of the nodes, except those of erased qubits. -/
theorem good_bits {code : Code} (h : IsCode code)
    (hw : ∀ x y w, PyDict.get? code.graph.edges s(x, y) = some w → w.1 = 1 ∨ w.1 = -1)
    {pts : List V} (hpts : pts.Perm (PyDict.keys code.graph.nodes)) {delta R : ℝ} (hd : 0 < delta) (hR : 0 < R)
    (hη : 5 * (√(delta / 2) * R) ≤ √Real.pi / 2) {A G : Finset ℕ} {z : ℕ → ℝ}
    (hno : ¬ ∃ i < pts.length, R ≤ |z i| ∨ R ≤ |z (pts.length + i)| ∨
      z i ∈ Gkp.nearEdge (1 / √(2 * delta)) (5 * (√(delta / 2) * R)) ∩ {x | |x| < R}) :
    ∃ vals : V → Bool, ∀ x ∈ code.syndrome, squeezedNeighbors code (swapAttrs pts A) x < 2 →
      decide (x ∈ swapFlips code pts delta A G z) = parity vals (neighbors code x) := by
  push Not at hno
  have hm : ∀ i, ∃ m : ℤ, i < pts.length → i ∈ A → |swapQ delta A G i * z i - m * √Real.pi| ≤ √Real.pi / 2 - 5 * (√(delta / 2) * R) := by
    intro i
    by_cases hi : i < pts.length ∧ i ∈ A
    · obtain ⟨z1, -, z2⟩ := hno i hi.1
      have : z i ∉ Gkp.nearEdge (1 / √(2 * delta)) (5 * (√(delta / 2) * R)) := fun hc => z2 ⟨hc, z1⟩
      unfold Gkp.nearEdge at this
      simp only [Set.mem_ofPred_eq, not_forall, not_lt] at this
      obtain ⟨m, hm⟩ := this
      exact ⟨m, fun _ _ => by rw [swapQ, if_pos hi.2]; exact hm⟩
    · exact ⟨0, fun h1 h2 => absurd ⟨h1, h2⟩ hi⟩
  choose m hm using hm
  exact ⟨_, swap_bits h hw hpts hη (rest_small h hw hpts hd hR (fun i hi => (hno i hi).1) fun i hi => (hno i hi).2.1) fun i hi hiA => hm i hi hiA⟩

theorem swap_numbers {delta r : ℝ} (hd : 0 < delta) (hr0 : 0 < r) (hsmall : r < 1 / 10) (hr2 : √delta = r ^ 2) :
    ∃ K : ℕ, 0 < K ∧ 0 < 5 * (√(delta / 2) * (1 / r)) ∧ 5 * (√(delta / 2) * (1 / r)) ≤ √Real.pi / 2 ∧
      K * (2 * (5 * (√(delta / 2) * (1 / r)))) ≤ √Real.pi ∧
      2 / (1 / r) ^ 2 + Real.exp (1 / r * (√Real.pi / (1 / √(2 * delta))) + (√Real.pi / (1 / √(2 * delta))) ^ 2 / 2) / K ≤ 14 * r := by
  have hs2 : 0 < √(2 : ℝ) := by positivity
  have hs2lo : (1.414 : ℝ) ≤ √2 := Real.le_sqrt_of_sq_le (by norm_num)
  have hs2hi : √(2 : ℝ) ≤ 1.415 := Real.sqrt_le_iff.2 ⟨by norm_num, by norm_num⟩
  have hpilo : (1.77 : ℝ) ≤ √Real.pi := Real.le_sqrt_of_sq_le (by have := Real.pi_gt_d2; norm_num at this ⊢; linarith)
  have hpihi : √Real.pi ≤ (1.775 : ℝ) := Real.sqrt_le_iff.2 ⟨by norm_num, by have := Real.pi_lt_d2; norm_num at this ⊢; linarith⟩
  have e1 : √(delta / 2) = r ^ 2 / √2 := by rw [Real.sqrt_div hd.le, hr2]
  have e2 : √(2 * delta) = √2 * r ^ 2 := by rw [Real.sqrt_mul (by norm_num), hr2]
  have hη : 5 * (√(delta / 2) * (1 / r)) = 5 * r / √2 := by
    rw [e1]
    field_simp
  have hη2 : 5 * r / √2 ≤ √Real.pi / 2 := by
    have h1 : 5 * r / √2 ≤ 0.5 / 1.414 := div_le_div₀ (by norm_num) (by linarith) (by norm_num) hs2lo
    norm_num at h1 hpilo ⊢
    linarith
  have hK1 : (⌊1 / (5 * r)⌋₊ : ℝ) ≤ 1 / (5 * r) := Nat.floor_le (by positivity)
  have hK2 : 1 / (10 * r) ≤ (⌊1 / (5 * r)⌋₊ : ℝ) := by
    have := Nat.lt_floor_add_one (1 / (5 * r))
    have h10 : 1 ≤ 1 / (10 * r) := by rw [le_div_iff₀ (by positivity)]; linarith
    have : 1 / (5 * r) = 2 * (1 / (10 * r)) := by field_simp; norm_num
    linarith
  generalize ⌊1 / (5 * r)⌋₊ = K at hK1 hK2
  have hKpos : (0 : ℝ) < K := lt_of_lt_of_le (by positivity) hK2
  refine ⟨K, by exact_mod_cast hKpos, by rw [hη]; positivity, by rw [hη]; exact hη2, ?_, ?_⟩
  · rw [hη]
    refine (mul_le_mul_of_nonneg_right hK1 (by positivity)).trans ?_
    rw [show 1 / (5 * r) * (2 * (5 * r / √2)) = 2 / √2 by field_simp]
    have h1 : 2 / √2 ≤ 2 / 1.414 := div_le_div₀ (by norm_num) le_rfl (by norm_num) hs2lo
    norm_num at h1 hpilo ⊢
    linarith
  · have et : √Real.pi / (1 / √(2 * delta)) = √Real.pi * √2 * r ^ 2 := by rw [e2]; field_simp
    rw [et]
    have hps : √Real.pi * √2 ≤ 1.775 * 1.415 := mul_le_mul hpihi hs2hi hs2.le (by norm_num)
    have hps0 : 0 ≤ √Real.pi * √2 := by positivity
    generalize √Real.pi * √2 = c at hps hps0
    have a1 : 1 / r * (c * r ^ 2) = c * r := by field_simp
    have a2 : c * r ≤ 1.775 * 1.415 * (1 / 10) := mul_le_mul hps hsmall.le hr0.le (by norm_num)
    have ar : r ^ 2 ≤ (1 / 10) ^ 2 := pow_le_pow_left₀ hr0.le hsmall.le 2
    have a3 : c * r ^ 2 ≤ 1.775 * 1.415 * (1 / 10) ^ 2 := mul_le_mul hps ar (by positivity) (by norm_num)
    have a4 : (c * r ^ 2) ^ 2 ≤ (1.775 * 1.415 * (1 / 10) ^ 2) ^ 2 := pow_le_pow_left₀ (by positivity) a3 2
    have h1 : 1 / r * (c * r ^ 2) + (c * r ^ 2) ^ 2 / 2 ≤ 0.26 := by
      rw [a1]
      norm_num at a2 a4 ⊢
      linarith
    have hexp : Real.exp (1 / r * (c * r ^ 2) + (c * r ^ 2) ^ 2 / 2) ≤ 1.37 := by
      refine (Real.exp_le_exp.2 h1).trans ?_
      have h2 := Real.add_one_le_exp (-0.26 : ℝ)
      have h3 : Real.exp (0.26 : ℝ) = (Real.exp (-0.26 : ℝ))⁻¹ := by rw [← Real.exp_neg]; norm_num
      rw [h3, inv_le_comm₀ (Real.exp_pos _) (by norm_num)]
      refine le_trans ?_ h2
      norm_num
    have hdiv : Real.exp (1 / r * (c * r ^ 2) + (c * r ^ 2) ^ 2 / 2) / K ≤ 13.7 * r := by
      rw [div_le_iff₀ hKpos]
      have e : 1 / (10 * r) * (13.7 * r) = 1.37 := by field_simp; norm_num
      have := mul_le_mul_of_nonneg_right hK2 (by positivity : 0 ≤ 13.7 * r)
      linarith
    have h2R : 2 / (1 / r) ^ 2 ≤ 0.2 * r := by
      rw [show 2 / (1 / r) ^ 2 = 2 * r * r by field_simp]
      exact mul_le_mul_of_nonneg_right (by linarith) hr0.le
    linarith

/-- The failure probability of any decoder, given that it corrects bits that are noiseless outside the qubits with two or more squeezed
neighbours unless `E`. -/
theorem swap_bound {code : Code} (h : IsCode code)
    (hw : ∀ x y w, PyDict.get? code.graph.edges s(x, y) = some w → w.1 = 1 ∨ w.1 = -1) (X : Libs) {name : String} {o : Opts}
    {pts : List V} (hpts : pts.Perm (PyDict.keys code.graph.nodes)) {E : Finset ℕ → Prop}
    (hbits : ∀ (A : Finset ℕ) (B : Finset V), (∃ vals : V → Bool, ∀ x ∈ code.syndrome, squeezedNeighbors code (swapAttrs pts A) x < 2 →
      decide (x ∈ B) = parity vals (neighbors code x)) → ¬ E A → ¬ Fails X code name o (swapAttrs pts A) B)
    {delta p g : ℝ} (hd : 0 < delta) (hp : 0 ≤ p) (hg : 0 ≤ g) (hpg : p + g ≤ 1) :
    swapFailure X code pts delta p g name o ≤ hitProb p (Finset.range pts.length) E + 14 * pts.length * √(√delta) := by
  classical
  set r := √(√delta) with hr
  set N := pts.length with hN
  set ν := Measure.infinitePi fun _ : ℕ => gaussianReal 0 1 with hν
  have hr0 : 0 < r := Real.sqrt_pos.2 (Real.sqrt_pos.2 hd)
  have hr2 : √delta = r ^ 2 := (Real.sq_sqrt (Real.sqrt_nonneg _)).symm
  have hone : ∀ A G : Finset ℕ, ¬ E A →
      ν.real {z | Fails X code name o (swapAttrs pts A) (swapFlips code pts delta A G z)} ≤ 14 * N * r := by
    intro A G hA
    rcases Nat.eq_zero_or_pos N with h0 | hpos
    · have hempty : {z | Fails X code name o (swapAttrs pts A) (swapFlips code pts delta A G z)} = ∅ := by
        ext z
        simp only [Set.mem_ofPred_eq, Set.mem_empty_iff_false, iff_false]
        intro hF
        refine hbits A _ ?_ hA hF
        exact good_bits h hw hpts hd (R := √Real.pi / 2 / (5 * √(delta / 2))) (by positivity)
          (by rw [← mul_assoc, mul_div_cancel₀ _ (by positivity)]) fun ⟨i, hi, _⟩ => by omega
      rw [hempty, measureReal_empty]
      positivity
    · have hN1 : (1 : ℝ) ≤ N := by exact_mod_cast hpos
      rcases le_or_gt (1 / 10) r with hbig | hsmall
      · refine measureReal_le_one.trans ?_
        nlinarith
      · obtain ⟨K, hKpos, hη, hη2, hK, hb13⟩ := swap_numbers hd hr0 hsmall hr2
        have hR : 0 < 1 / r := by positivity
        have hsub : {z | Fails X code name o (swapAttrs pts A) (swapFlips code pts delta A G z)} ⊆
            {z | ∃ i < N, 1 / r ≤ |z i| ∨ 1 / r ≤ |z (N + i)| ∨
              z i ∈ Gkp.nearEdge (1 / √(2 * delta)) (5 * (√(delta / 2) * (1 / r))) ∩ {x | |x| < 1 / r}} := fun z hz => by
          by_contra hno
          exact hbits A _ (good_bits h hw hpts hd hR hη2 hno) hA hz
        refine (measureReal_mono hsub (measure_ne_top _ _)).trans ?_
        refine (bad_prob N hη (by positivity) hR hKpos hK).trans ?_
        rw [mul_comm 14 (N : ℝ), mul_assoc]
        exact mul_le_mul_of_nonneg_left hb13 (by positivity)
  have hW : ∀ A G : Finset ℕ, 0 ≤ p ^ A.card * g ^ G.card * (1 - p - g) ^ (N - A.card - G.card) := fun A G => by
    have : 0 ≤ 1 - p - g := by linarith
    positivity
  have hAG : ∀ A G : Finset ℕ, ν.real {z | Fails X code name o (swapAttrs pts A) (swapFlips code pts delta A G z)} ≤
      (if E A then 1 else 0) + 14 * N * r := by
    intro A G
    split_ifs with hA
    · exact measureReal_le_one.trans (le_add_of_nonneg_right (by positivity))
    · rw [zero_add]
      exact hone A G hA
  unfold swapFailure
  refine (Finset.sum_le_sum fun A _ => Finset.sum_le_sum fun G _ => mul_le_mul_of_nonneg_left (hAG A G) (hW A G)).trans ?_
  simp only [mul_add, Finset.sum_add_distrib]
  refine add_le_add ?_ ?_
  · unfold hitProb patternProb
    refine Finset.sum_le_sum fun A hA => ?_
    rw [← Finset.sum_mul, gkp_weights p g hA, Finset.card_range]
    by_cases hE : E A
    · rw [if_pos hE, if_pos hE, mul_one]
    · rw [if_neg hE, if_neg hE, mul_zero]
  · simp only [← Finset.sum_mul]
    rw [swapFailure_weights, one_mul]

/-- C99.  For finite squeezing, the failure probability of Union-Find is at most the probability that the swap-outs erase a logical operator,
plus a term that vanishes with `delta`. -/
theorem C99_bound {code : Code} (h : IsCode code) (hb : code.boundaries ≠ .open)
    (hd3 : ∀ i, boundsOf code.ec code.boundaries i = .periodic → 3 ≤ code.dims i)
    (hw : ∀ x y w, PyDict.get? code.graph.edges s(x, y) = some w → w.1 = 1 ∨ w.1 = -1) (X : Libs) {o : Opts}
    (ho : o.method = "uniform") {pts : List V} (hpts : pts.Perm (PyDict.keys code.graph.nodes)) {delta p g : ℝ} (hd : 0 < delta)
    (hp : 0 ≤ p) (hg : 0 ≤ g) (hpg : p + g ≤ 1) :
    swapFailure X code pts delta p g "UF" o ≤ swapLogical code pts p + 14 * pts.length * √(√delta) :=
  swap_bound h hw X hpts (fun _ _ ⟨_, hv⟩ hA => C99_correct h hb hd3 X ho hA hv) hd hp hg hpg

/-! ### The probability that a logical operator is erased -/

/-- All qubits of a set are erased. -/
theorem erased_union {code : Code} (h : IsCode code) {pts : List V} (hpts : pts.Perm (PyDict.keys code.graph.nodes)) {p : ℝ}
    (h0 : 0 ≤ p) (h1 : p ≤ 1) {𝒮 : Finset (Finset V)} {F : Finset ℕ → Prop}
    (hF : ∀ A, F A → ∃ S ∈ 𝒮, S ⊆ swapErased code pts A) :
    hitProb p (Finset.range pts.length) F ≤ ∑ S ∈ 𝒮, (6 * √p) ^ S.card := by
  classical
  set nb : V → Finset ℕ := fun x => (neighbors code x).toFinset.image fun y => pts.idxOf y with hnb
  have hmemp : ∀ x, ∀ y ∈ neighbors code x, y ∈ pts := fun x y hy => by
    unfold neighbors at hy
    exact hpts.mem_iff.2 (List.mem_filter.1 hy).1
  have hnbr : ∀ x, nb x ⊆ Finset.range pts.length := fun x i hi => by
    obtain ⟨y, hy, rfl⟩ := Finset.mem_image.1 hi
    exact Finset.mem_range.2 (List.idxOf_lt_length_of_mem (hmemp x y (List.mem_toFinset.1 hy)))
  have hnb4 : ∀ x, (nb x).card ≤ 4 := fun x => Finset.card_image_le.trans (neighbors_card h x)
  have hdeg : ∀ (S : Finset V) (i : ℕ), (S.filter fun x => i ∈ nb x).card ≤ 4 := fun S i => by
    rcases (S.filter fun x => i ∈ nb x).eq_empty_or_nonempty with he | ⟨x₀, hx₀⟩
    · rw [he]; simp
    · obtain ⟨y₀, hy₀, e₀⟩ := Finset.mem_image.1 (Finset.mem_filter.1 hx₀).2
      refine (Finset.card_le_card fun x hx => ?_).trans (neighbors_card h y₀)
      obtain ⟨y, hy, e⟩ := Finset.mem_image.1 (Finset.mem_filter.1 hx).2
      have hy := List.mem_toFinset.1 hy
      have : y = y₀ := (List.idxOf_inj (hmemp x y hy)).1 (e.trans e₀.symm)
      subst this
      exact List.mem_toFinset.2 ((mem_neighbors_comm h).1 hy)
  -- two squeezed neighbours of every qubit
  set un : (S : Finset V) → ((x : V) → x ∈ S → Finset ℕ) → Finset ℕ := fun S c => S.attach.biUnion fun x => c x.1 x.2 with hun
  set fam : Finset (Finset ℕ) := 𝒮.biUnion fun S => (S.pi fun x => (nb x).powersetCard 2).image (un S) with hfam
  have hq0 : 0 ≤ √p := Real.sqrt_nonneg _
  have hq1 : √p ≤ 1 := Real.sqrt_le_one.2 h1
  have hfs : ∀ B ∈ fam, B ⊆ Finset.range pts.length := fun B hB => by
    obtain ⟨S, -, hB⟩ := Finset.mem_biUnion.1 hB
    obtain ⟨c, hc, rfl⟩ := Finset.mem_image.1 hB
    refine Finset.biUnion_subset.2 fun x _ => ?_
    exact (Finset.mem_powersetCard.1 (Finset.mem_pi.1 hc x.1 x.2)).1.trans (hnbr _)
  refine (hitProb_union h0 h1 _ hfs fun A hA => ?_).trans ?_
  · obtain ⟨S, hS, hSA⟩ := hF A hA
    have hex : ∀ x ∈ S, ∃ P ∈ (nb x).powersetCard 2, P ⊆ A := fun x hx => by
      have hx2 := (Finset.mem_filter.1 (hSA hx)).2
      have hcard : squeezedNeighbors code (swapAttrs pts A) x ≤ (nb x ∩ A).card := by
        unfold squeezedNeighbors
        have hnd : (neighbors code x).Nodup := h.ok.1.nodesNd.filter _
        rw [List.countP_eq_length_filter, ← List.toFinset_card_of_nodup (hnd.filter _)]
        rw [← Finset.card_image_of_injOn (f := fun y => pts.idxOf y)]
        · refine Finset.card_le_card fun i hi => ?_
          obtain ⟨y, hy, rfl⟩ := Finset.mem_image.1 hi
          rw [List.mem_toFinset, List.mem_filter] at hy
          refine Finset.mem_inter.2 ⟨Finset.mem_image_of_mem _ (List.mem_toFinset.2 hy.1), ?_⟩
          simpa [swapAttrs] using hy.2
        · intro y hy y' hy' he
          exact (List.idxOf_inj (hmemp x y (List.mem_filter.1 (List.mem_toFinset.1 hy)).1)).1 he
      obtain ⟨P, hP, hPc⟩ := Finset.exists_subset_card_eq (hx2.trans hcard)
      exact ⟨P, Finset.mem_powersetCard.2 ⟨hP.trans Finset.inter_subset_left, hPc⟩, hP.trans Finset.inter_subset_right⟩
    choose c hc hcA using hex
    refine ⟨un S c, Finset.mem_biUnion.2 ⟨S, hS, Finset.mem_image_of_mem _ (Finset.mem_pi.2 fun x hx => hc x hx)⟩, ?_⟩
    exact Finset.biUnion_subset.2 fun x _ => hcA x.1 x.2
  · refine (sum_biUnion_le _ _ _ fun B => pow_nonneg h0 _).trans (Finset.sum_le_sum fun S hS => ?_)
    have hterm : ∀ c ∈ S.pi fun x => (nb x).powersetCard 2, p ^ (un S c).card ≤ √p ^ S.card := by
      intro c hc
      have hcard : S.card ≤ 2 * (un S c).card := by
        have hdc : ∑ x ∈ S.attach, (c x.1 x.2).card ≤ ∑ i ∈ un S c, 4 := by
          have e : ∀ x ∈ S.attach, (c x.1 x.2).card = ∑ i ∈ un S c, if i ∈ c x.1 x.2 then 1 else 0 := by
            intro x hx
            rw [Finset.sum_boole, Nat.cast_id]
            congr 1
            ext i
            rw [Finset.mem_filter]
            exact ⟨fun hi => ⟨Finset.mem_biUnion.2 ⟨x, hx, hi⟩, hi⟩, fun hi => hi.2⟩
          rw [Finset.sum_congr rfl e, Finset.sum_comm]
          refine Finset.sum_le_sum fun i _ => ?_
          rw [Finset.sum_boole, Nat.cast_id, ← Finset.card_map ⟨Subtype.val, Subtype.val_injective⟩]
          refine (Finset.card_le_card fun x hx => ?_).trans (hdeg S i)
          obtain ⟨y, hy, rfl⟩ := Finset.mem_map.1 hx
          exact Finset.mem_filter.2 ⟨y.2, (Finset.mem_powersetCard.1 (Finset.mem_pi.1 hc y.1 y.2)).1 (Finset.mem_filter.1 hy).2⟩
        have e2 : ∑ x ∈ S.attach, (c x.1 x.2).card = ∑ x ∈ S.attach, 2 :=
          Finset.sum_congr rfl fun x _ => (Finset.mem_powersetCard.1 (Finset.mem_pi.1 hc x.1 x.2)).2
        rw [e2, Finset.sum_const, Finset.sum_const, Finset.card_attach, smul_eq_mul, smul_eq_mul] at hdc
        omega
      calc p ^ (un S c).card = √p ^ (2 * (un S c).card) := by rw [pow_mul, Real.sq_sqrt h0]
        _ ≤ _ := pow_le_pow_of_le_one hq0 hq1 hcard
    have himg : ∑ B ∈ (S.pi fun x => (nb x).powersetCard 2).image (un S), p ^ B.card ≤
        ∑ c ∈ S.pi fun x => (nb x).powersetCard 2, p ^ (un S c).card :=
      Finset.sum_image_le_of_nonneg fun c _ => pow_nonneg h0 _
    refine himg.trans ((Finset.sum_le_sum hterm).trans ?_)
    rw [Finset.sum_const, Finset.card_pi, nsmul_eq_mul, mul_pow]
    refine mul_le_mul_of_nonneg_right ?_ (by positivity)
    have : ∏ x ∈ S, ((nb x).powersetCard 2).card ≤ 6 ^ S.card := by
      rw [← Finset.prod_const]
      refine Finset.prod_le_prod' fun x _ => ?_
      rw [Finset.card_powersetCard]
      exact (Nat.choose_le_choose 2 (hnb4 x)).trans (by decide)
    exact_mod_cast this

/-- C99.  Below a swap-out probability of 1/900, the probability that the swap-outs erase a logical operator decreases exponentially with the
size of the code. -/
theorem C99_logical {code : Code} (h : IsCode code) {pts : List V} (hpts : pts.Perm (PyDict.keys code.graph.nodes)) {p : ℝ}
    (h0 : 0 ≤ p) (h1 : p < 1 / 900) {d : ℕ} (hd : ∀ i ∈ planesToCheck code.ec code.boundaries, d ≤ code.dims i) :
    swapLogical code pts p ≤ 2 * code.syndrome.length / 5 * ((30 * √p) ^ d / (1 - 30 * √p)) := by
  have hq : √p < 1 / 30 := by
    rw [Real.sqrt_lt' (by norm_num)]
    norm_num
    linarith
  have hsum := longTrails_sum h (q := 6 * √p) (by positivity) (by linarith) d
  rw [show 5 * (6 * √p) = 30 * √p by ring] at hsum
  exact (erased_union h hpts h0 (by linarith) (𝒮 := longTrails code d)
    fun A hA => logical_trail h hd hA).trans hsum

/-- C99.  Threshold for swap-outs with Union-Find: if modes are squeezed with a probability below 1/900, the failure probability is as small as
desired for codes without open boundaries that are large enough and states that are good enough for the code. -/
theorem C99_threshold {p : ℝ} (h0 : 0 ≤ p) (h1 : p < 1 / 900) (m : ℕ) {ε : ℝ} (hε : 0 < ε) : ∃ d₀ : ℕ, ∀ d, d₀ ≤ d → ∀ code : Code,
    IsCode code → code.boundaries ≠ .open → (∀ x y w, PyDict.get? code.graph.edges s(x, y) = some w → w.1 = 1 ∨ w.1 = -1) →
    (∀ i, d ≤ code.dims i ∧ code.dims i ≤ m * d) → ∀ delta, 0 < delta → 28 * code.graph.nodes.length * √(√delta) < ε →
    ∀ (X : Libs) (o : Opts) (pts : List V), o.method = "uniform" → pts.Perm (PyDict.keys code.graph.nodes) → ∀ g, 0 ≤ g → p + g ≤ 1 →
      swapFailure X code pts delta p g "UF" o < ε := by
  have hq : √p < 1 / 30 := by
    rw [Real.sqrt_lt' (by norm_num)]
    norm_num
    linarith
  obtain ⟨d₀, hd₀⟩ := rate_limit (r := 3 * √p) (by positivity) (by linarith) m (half_pos hε)
  refine ⟨max d₀ 3, fun d hd code h hb hw hdims delta hdel hsm X o pts ho hpts g hg hpg => ?_⟩
  have h3 := periodic_three (code := code) (le_of_max_le_right hd) fun i _ => (hdims i).1
  have hlog := (C99_logical h hpts h0 h1 fun i _ => (hdims i).1).trans_lt (by
    have := hd₀ d (le_of_max_le_left hd) code h hdims
    rwa [show 10 * (3 * √p) = 30 * √p by ring] at this)
  have hlen : pts.length = code.graph.nodes.length := by
    rw [hpts.length_eq]
    unfold PyDict.keys
    exact List.length_map _
  have := C99_bound h hb h3 hw X ho hpts hdel h0 hg hpg
  rw [hlen] at this
  linarith

/-- C99.  The mean number of errors of simulations. -/
theorem C99_simulation {p : ℝ} (h0 : 0 ≤ p) (h1 : p < 1 / 900) {ε : ℝ} (hε : 0 < ε) :
    ∃ d₀ : ℕ, ∀ d, d₀ ≤ d → ∀ code : Code, IsCode code → code.boundaries ≠ .open →
    (∀ x y w, PyDict.get? code.graph.edges s(x, y) = some w → w.1 = 1 ∨ w.1 = -1) → (∀ i, code.dims i = d) →
    ∀ delta, 0 < delta → 28 * code.graph.nodes.length * √(√delta) < ε →
    ∀ (X : Libs) (o : Opts), o.method = "uniform" → ∀ (pts : List V) (L₀ : Noise.Layer V), Noise.OnCode code pts delta (some p) .initial none L₀ →
    ∀ {Ω : Type} [MeasurableSpace Ω] (μ : Measure Ω) (Z : ℕ × ℕ × ℕ → Ω → ℝ), Noise.NormalIid Z μ →
    ∀ (num : ℕ × ℕ → Ω → ℕ) (choice : ℕ × ℕ → Ω → ℕ → List ℕ), Noise.SwapRng pts.length p num choice μ →
    IndepFun (fun ω j => (num j ω, choice j ω)) (fun ω j => Z j ω) μ →
    ∀ (u : ℕ → ℕ → ℕ → ℝ) (b : ℕ → ℕ → ℕ → ℤ) (trials size : ℕ), 0 < size → ∀ errors : Ω → ℤ,
    (∀ ω, ∃ err, monteCarlo (ecTrial X code "UF" o (cvModel code pts)) trials size
      (fun r => ((L₀, fun k => (Noise.squeezedDraw (num (r, k) ω) (choice (r, k) ω), ⟨fun i => Z (r, k, i) ω, u r k, b r k⟩)),
        fun _ => none)) = some err ∧ errors ω = err 0) →
    ∫ ω, (errors ω : ℝ) ∂μ ≤ trials * ε := by
  have hp1 : p ≤ 1 := by linarith
  obtain ⟨d₀, hd₀⟩ := C99_threshold h0 h1 1 hε
  refine ⟨d₀, fun d hdd code h hbd hw hdims delta hd hsm X o ho pts L₀ hL Ω _ μ Z hZ num choice hC hind u b trials size hs errors he => ?_⟩
  have : IsProbabilityMeasure μ := hZ.indep.isProbabilityMeasure
  rw [C68_mean h X hp1 hL hd (Or.inr rfl) ho trials hs hZ hC hind u b errors he]
  refine (Finset.sum_le_card_nsmul _ _ ε fun t _ => ?_).trans (by rw [Finset.card_range, nsmul_eq_mul])
  rw [← Noise.swapGkpProb_closed hp1]
  have hb := swapGkpProb_bounds h0 hp1 (t / size + 1)
  exact (hd₀ d hdd code h hbd hw (fun i => by rw [hdims i, one_mul]; exact ⟨le_rfl, le_rfl⟩) delta hd hsm X o pts ho hL.perm _ hb.1 hb.2).le

/-! ### The hypotheses can be met -/

-- a code on which one mode is squeezed: nothing is erased, and Union-Find corrects the flips of the qubits around that mode
example (X : Libs) : ∃ (code : Code) (pts : List V) (y x : V), IsCode code ∧ code.boundaries = .periodic ∧
    pts.Perm (PyDict.keys code.graph.nodes) ∧ ¬ LogicalErased code (eraseW (swapErased code pts {pts.idxOf y})) ∧
    x ∈ code.syndrome ∧ y ∈ neighbors code x ∧
    ¬ Fails X code "UF" {} (swapAttrs pts {pts.idxOf y}) (code.syndrome.toFinset.filter fun x => y ∈ neighbors code x) := by
  classical
  obtain ⟨code, hc⟩ := C54_constructor_total idOrder .primal .periodic (dims := fun _ => 4) (by simp) none
  obtain ⟨hc, hdim, hec, hb⟩ := hc
  have h : IsCode code := ⟨idOrder, .primal, .periodic, _, none, by simp, hc⟩
  have hface : FaceAt code.ec ![0, 1, 1] 0 := by rw [hec]; decide
  have hx : (![0, 1, 1] : V) ∈ code.syndrome := by
    refine (h.ok.1.syndrome _).2 (mem_qubits.2 ⟨?_, 0, hface⟩)
    rw [hdim, hb, hec]
    intro j
    rw [boundsOf_table]
    fin_cases j <;> simp [inAxis]
  have hy : (![0, 0, 1] : V) ∈ neighbors code ![0, 1, 1] := by
    rw [neighbors_eq h.ok.1 hx hface, Finset.mem_biUnion]
    refine ⟨1, by decide, ?_⟩
    rw [hdim, hb, hec]
    decide
  set y : V := ![0, 0, 1] with hyd
  set pts := PyDict.keys code.graph.nodes with hpts
  have hnd : ∀ x, (neighbors code x).Nodup := fun x => h.ok.1.nodesNd.filter _
  have hle : ∀ x, squeezedNeighbors code (swapAttrs pts {pts.idxOf y}) x ≤ 1 := fun x => by
    unfold squeezedNeighbors
    rw [List.countP_eq_length_filter, ← List.toFinset_card_of_nodup ((hnd x).filter _)]
    refine Finset.card_le_one.2 fun u hu v hv => ?_
    have key : ∀ u, u ∈ ((neighbors code x).filter fun v => decide ((swapAttrs pts {pts.idxOf y}).state v = some "p")).toFinset → u = y := by
      intro u hu
      rw [List.mem_toFinset, List.mem_filter] at hu
      have hup : u ∈ pts := (List.mem_filter.1 hu.1).1
      have : pts.idxOf u = pts.idxOf y := by simpa [swapAttrs] using hu.2
      exact (List.idxOf_inj hup).1 this
    rw [key u hu, key v hv]
  have hempty : swapErased code pts {pts.idxOf y} = ∅ := by
    unfold swapErased
    exact Finset.filter_eq_empty_iff.2 fun x _ => by have := hle x; omega
  have hlog : ¬ LogicalErased code (eraseW (swapErased code pts {pts.idxOf y})) := by
    rw [hempty]
    rintro ⟨L, l1, -, l3⟩
    refine l3 ⟨fun _ => false, fun x hx => ?_⟩
    have h0 : parity (fun _ => false) (neighbors code x) = false := by rw [parity_mem]; simp
    rw [h0, Bool.eq_false_iff]
    intro hL
    simpa using onErased_iff.1 l1 x hx hL
  refine ⟨code, pts, y, _, h, hb, List.Perm.refl _, hlog, hx, hy, ?_⟩
  refine C99_correct h (by rw [hb]; decide) (fun i _ => by simp [hdim]) X rfl hlog (vals := fun v => decide (v = y)) fun x hx _ => ?_
  rw [parity_mem, ← List.toFinset_card_of_nodup ((hnd x).filter _), List.toFinset_filter]
  by_cases hyx : y ∈ neighbors code x
  · have : (neighbors code x).toFinset.filter (fun v => decide (v = y) = true) = {y} := by
      ext v; simp; rintro rfl; exact hyx
    rw [this]
    simp [hx, hyx]
  · have : (neighbors code x).toFinset.filter (fun v => decide (v = y) = true) = ∅ := by
      ext v; simp; rintro hv rfl; exact hyx hv
    rw [this]
    simp [hyx]

-- codes of every large size with alternating polarity, one mode in a thousand is squeezed
example (X : Libs) : ∃ d₀ : ℕ, ∀ d, d₀ ≤ d → ∃ (code : Code) (pts : List V) (delta : ℝ), IsCode code ∧ code.dims = (fun _ => d) ∧ 0 < delta ∧
    swapFailure X code pts delta (1 / 1000) (999 / 1000) "UF" {} < 1 / 100 := by
  obtain ⟨d₀, hd₀⟩ := C99_threshold (p := 1 / 1000) (by norm_num) (by norm_num) 1 (ε := 1 / 100) (by norm_num)
  refine ⟨max d₀ 3, fun d hd => ?_⟩
  have h3 : 3 ≤ d := le_of_max_le_right hd
  have h2 : ∀ _ : Fin 3, 2 ≤ d := fun _ => by omega
  obtain ⟨code, hc, hdim, hec, hb⟩ := C54_constructor_total idOrder .primal .periodic (dims := fun _ => d) h2 (some alternatingPolarity)
  have h : IsCode code := ⟨idOrder, _, _, _, _, h2, hc⟩
  have hpm := Noise.pm_weights h2 hc fun u v => by
    simp only [weightOf, alternatingPolarity]
    split_ifs
    · exact neg_one_pow_eq_or ℤ _
    · exact neg_one_pow_eq_or ℤ _
    · exact neg_one_pow_eq_or ℤ _
    · exact Or.inl rfl
  set N : ℝ := 28 * code.graph.nodes.length + 1 with hN
  have hN0 : 0 < N := by positivity
  refine ⟨code, PyDict.keys code.graph.nodes, (1 / (100 * N)) ^ 4, h, hdim, by positivity, ?_⟩
  refine hd₀ d (le_of_max_le_left hd) code h (by rw [hb]; decide) hpm (by simp [hdim]) _ (by positivity) ?_ X {} _ rfl (List.Perm.refl _) _
    (by norm_num) (by norm_num)
  have e : √(√((1 / (100 * N)) ^ 4)) = 1 / (100 * N) := by
    rw [show (1 / (100 * N)) ^ 4 = ((1 / (100 * N)) ^ 2) ^ 2 by ring, Real.sqrt_sq (by positivity), Real.sqrt_sq (by positivity)]
  rw [e, show (28 * code.graph.nodes.length : ℝ) = N - 1 by rw [hN]; ring, mul_one_div, div_lt_div_iff₀ (by positivity) (by norm_num)]
  nlinarith

end Flamingpy.Trial
