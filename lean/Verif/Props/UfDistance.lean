import Verif.Proofs.UfPlane
import Verif.Props.UnionFind
import Verif.Props.EndToEnd

/-!
# C60: what Union-Find is guaranteed to correct

Erased qubits are those with weight -1, that is, with at least two p-squeezed neighbours.  Error patterns of `t` flipped
qubits that are not erased, and any flips of `s` erased qubits, are corrected if `2 t + s` is smaller than the size of the
code.  On open codes erased qubits on the boundary count twice: clusters of odd parity that touch the boundary are grown in the
first round, although the decoder never grows them later.
-/

namespace Flamingpy.Trial

open Flamingpy Flamingpy.SurfaceCode Flamingpy.UnionFind Flamingpy.Weights Flamingpy.Sim

/-- The number of flipped qubits that are not erased. -/
def flips (code : Code) (w : V → ℚ) (bits : V → Bool) : ℕ := code.syndrome.countP fun x => bits x && decide (w x ≠ -1)

/-- The number of erased qubits. -/
def erasures (code : Code) (w : V → ℚ) : ℕ := code.syndrome.countP fun x => decide (w x = -1)

/-- The number of erased qubits on the boundary. -/
def boundErasures (code : Code) (w : V → ℚ) : ℕ := code.boundPoints.countP fun x => decide (w x = -1)

/-- C60.  For every code whose periodic axes have size at least three, any weights, iteration orders and library choices: if
`2 t + s + b` is smaller than the size of the code in each checked direction, with `t` flipped qubits that are not
erased, `s` erased qubits and `b` of them on the boundary, then the correction with Union-Find succeeds. -/
theorem C60_corrects {code : Code} (h : IsCode code)
    (hd : ∀ i, boundsOf code.ec code.boundaries i = .periodic → 3 ≤ code.dims i) (bk : Backend) (sp : SetPop)
    (cl : CompLib SNode) (sl : SpanLib SNode (Option V)) (io : IterOrder SNode) (w : V → ℚ) (bits : V → Bool) (fuel : ℕ)
    (hf : 2 * (stabGraph bk sp code).edges.length + 1 ≤ fuel)
    (hlow : ∀ i ∈ planesToCheck code.ec code.boundaries,
      2 * flips code w bits + erasures code w + boundErasures code w < code.dims i) (sanity : Bool) :
    ∃ bits', correct code (ufDecoder cl sl io fuel (stabGraph bk sp code) w) sanity bits = some (bits', true) := by
  have hle := realE_le (bk := bk) (sp := sp) (code := code) (w := w) (bits := bits)
  obtain ⟨R, s, odd, s', e1, e2, her, h1, h2, h3, h4⟩ := uf_exact h bk sp w bits cl sl io fuel (by omega)
  have hsyn : ∀ x ∈ R, x ∈ code.syndrome := fun x hx => by
    obtain ⟨e, _, he⟩ := h3 x hx
    exact (h.ok.1.edge_effect h.ok.2 sp he).1
  have hrec := recovery_nodup (PyDict.keys code.graph.nodes) R (fun q hq => h.syndrome_node (hsyn q hq)) h2 bits
  set bits' : V → Bool := fun x => xor (bits x) (decide (x ∈ R)) with hb'
  have htriv : trivialSyndrome code bits' := by
    intro s hs
    obtain ⟨k, hk, rfl⟩ := List.getElem_of_mem hs
    have := h4 k hk
    rw [List.getD_eq_getElem _ _ hk] at this
    rw [hb', parity_xor, this, Bool.xor_self]
  refine ⟨bits', ?_⟩
  unfold correct
  rw [h1, Option.bind_eq_bind, Option.bind_some, hrec, Option.bind_eq_bind, Option.bind_some, check_eq h.ok.2]
  have : ((planesToCheck code.ec code.boundaries).all fun i => !sheetParity code bits' i (lowF code.ec)) = true := by
    rw [List.all_eq_true]
    intro i hi
    rw [uf_low h bk sp w bits hd cl io e1 e2 her h3 htriv hi (hlow i hi)]
    rfl
  rw [this]
  rfl

/-- Without erasures: any error on fewer than half as many qubits as the code is long. -/
theorem C60_flips {code : Code} (h : IsCode code) (bk : Backend) (sp : SetPop)
    (cl : CompLib SNode) (sl : SpanLib SNode (Option V)) (io : IterOrder SNode) (w : V → ℚ)
    (hw : ∀ x ∈ code.syndrome, w x ≠ -1) (bits : V → Bool) (fuel : ℕ)
    (hf : 2 * (stabGraph bk sp code).edges.length + 1 ≤ fuel)
    (hlow : ∀ i ∈ planesToCheck code.ec code.boundaries, 2 * weight code bits < code.dims i) (sanity : Bool) :
    ∃ bits', correct code (ufDecoder cl sl io fuel (stabGraph bk sp code) w) sanity bits = some (bits', true) := by
  by_cases hd : ∀ i, boundsOf code.ec code.boundaries i = .periodic → 3 ≤ code.dims i
  · refine C60_corrects h hd bk sp cl sl io w bits fuel hf (fun i hi => ?_) sanity
    have e1 : flips code w bits ≤ weight code bits := by
      unfold flips weight
      exact List.countP_mono_left fun x _ hx => by simp at hx; exact hx.1
    have e2 : erasures code w = 0 := by
      unfold erasures
      rw [List.countP_eq_zero]
      intro x hx
      simpa using hw x hx
    have e3 : boundErasures code w = 0 := by
      unfold boundErasures
      rw [List.countP_eq_zero]
      intro x hx
      simpa using hw x ((h.ok.1.mem_bound x).1 hx).1
    have := hlow i hi
    omega
  · push Not at hd
    obtain ⟨i, hi, hlt⟩ := hd
    have hic : i ∈ planesToCheck code.ec code.boundaries := by
      rw [boundsOf_table] at hi
      clear hlt
      revert hi
      cases code.ec <;> cases code.boundaries <;> revert i <;> decide
    have h0 : weight code bits = 0 := by
      have := hlow i hic
      omega
    have hz : ∀ x ∈ code.syndrome, bits x = false := by
      intro x hx
      have := List.countP_eq_zero.1 h0 x hx
      simpa using this
    have hv := (C57_verdict h bits sanity).2 ⟨fun _ => false, fun x hx => by
      rw [hz x hx]
      unfold parity
      generalize neighbors code x = l
      induction l with
      | nil => rfl
      | cons a l ih => simpa using ih⟩
    refine ⟨bits, ?_⟩
    unfold correct
    rw [uf_trivial h bk sp cl sl io w hf hv.1, Option.bind_eq_bind, Option.bind_some, recovery_syndrome h List.nodup_nil (by simp),
      Option.bind_eq_bind, Option.bind_some]
    simp only [List.not_mem_nil, decide_false, Bool.xor_false]
    rw [hv.2]
    rfl

/-- On codes without open boundaries: `2 t + s` smaller than the size. -/
theorem C60_periodic {code : Code} (h : IsCode code) (hb : code.boundaries ≠ .open)
    (hd : ∀ i, boundsOf code.ec code.boundaries i = .periodic → 3 ≤ code.dims i) (bk : Backend) (sp : SetPop)
    (cl : CompLib SNode) (sl : SpanLib SNode (Option V)) (io : IterOrder SNode) (w : V → ℚ) (bits : V → Bool) (fuel : ℕ)
    (hf : 2 * (stabGraph bk sp code).edges.length + 1 ≤ fuel)
    (hlow : ∀ i ∈ planesToCheck code.ec code.boundaries, 2 * flips code w bits + erasures code w < code.dims i)
    (sanity : Bool) :
    ∃ bits', correct code (ufDecoder cl sl io fuel (stabGraph bk sp code) w) sanity bits = some (bits', true) :=
  C60_corrects h hd bk sp cl sl io w bits fuel hf (fun i hi => by
    have : boundErasures code w = 0 := by
      unfold boundErasures
      rw [C27_periodic h hb]
      rfl
    have := hlow i hi
    omega) sanity

theorem uf_correctAll {code : Code} (h : IsCode code) (X : Libs) {o : Opts} (ho : o.method = "uniform") (a : Attrs)
    (weights : V → Option ℝ) (sanity : Bool) :
    ∃ (w : V → Option ℝ) (w' : V → ℚ), (∀ x ∈ code.syndrome, w' x = if 2 ≤ squeezedNeighbors code a x then -1 else 2) ∧
      ∀ bits, correctAll X code "UF" o a weights sanity bits =
        (correct code (ufDecoder X.comps X.span X.iter (2 * (stabGraph X.bk X.sp code).edges.length + 1)
          (stabGraph X.bk X.sp code) w') sanity bits).map fun r => (r.1, w, r.2) := by
  obtain ⟨w, hw, hs, -, -, h1⟩ := weights_ok h (name := "UF") (o := o) (a := a) (Or.inr ⟨rfl, ho⟩) weights
  refine ⟨w, fun q => X.float.fl ((w q).getD 0), fun x hx => ?_, fun bits => ?_⟩
  · simp only [h1 rfl x hx, Option.getD_some]
    split_ifs
    · have := X.float.int (-1)
      simpa using this
    · have := X.float.int 2
      simpa using this
  · rw [correctAll_of hw hs]
    have : decoderFunc X code "UF" (fun q => X.float.fl ((w q).getD 0)) = ufDecoder X.comps X.span X.iter
        (2 * (stabGraph X.bk X.sp code).edges.length + 1) (stabGraph X.bk X.sp code) (fun q => X.float.fl ((w q).getD 0)) := by
      funext b
      unfold decoderFunc
      simp only [if_neg (show ¬ ("UF" = "MWPM") by decide), if_true]
    rw [this]

/-- C60 for `correct`: erased qubits are those with two or more p-squeezed neighbours. -/
theorem C60_total {code : Code} (h : IsCode code)
    (hd : ∀ i, boundsOf code.ec code.boundaries i = .periodic → 3 ≤ code.dims i) (X : Libs) {o : Opts}
    (ho : o.method = "uniform") (a : Attrs) (weights : V → Option ℝ) (sanity : Bool) {bits : V → Bool}
    (hlow : ∀ i ∈ planesToCheck code.ec code.boundaries,
      2 * (code.syndrome.countP fun x => bits x && decide (squeezedNeighbors code a x < 2)) +
        (code.syndrome.countP fun x => decide (2 ≤ squeezedNeighbors code a x)) +
        (code.boundPoints.countP fun x => decide (2 ≤ squeezedNeighbors code a x)) < code.dims i) :
    ∃ bits' w, correctAll X code "UF" o a weights sanity bits = some (bits', w, true) := by
  obtain ⟨w, w', hw, he⟩ := uf_correctAll h X ho a weights sanity
  have he := he bits
  have hm : ∀ x ∈ code.syndrome, (w' x = -1 ↔ 2 ≤ squeezedNeighbors code a x) := by
    intro x hx
    rw [hw x hx]
    split_ifs with hc
    · simp [hc]
    · simp only [hc, iff_false]; norm_num
  obtain ⟨b, hb⟩ := C60_corrects h hd X.bk X.sp X.comps X.span X.iter w' bits _ le_rfl (fun i hi => by
    refine lt_of_le_of_lt (le_of_eq ?_) (hlow i hi)
    unfold flips erasures boundErasures
    congr 1
    · congr 1
      · congr 1
        refine List.countP_congr fun x hx => ?_
        have := hm x hx
        simp only [Bool.and_eq_true, decide_eq_true_eq, ne_eq, this, not_le]
      · refine List.countP_congr fun x hx => ?_
        simp only [decide_eq_true_eq, hm x hx]
    · refine List.countP_congr fun x hx => ?_
      simp only [decide_eq_true_eq, hm x ((h.ok.1.mem_bound x).1 hx).1]) sanity
  exact ⟨b, w, by rw [he, hb]; rfl⟩

/-- C60 for `correct` without p-squeezed states. -/
theorem C60_total_flips {code : Code} (h : IsCode code) (X : Libs) {o : Opts} (ho : o.method = "uniform") {a : Attrs}
    (ha : ∀ x, a.state x ≠ some "p") (weights : V → Option ℝ) (sanity : Bool) {bits : V → Bool}
    (hlow : ∀ i ∈ planesToCheck code.ec code.boundaries, 2 * weight code bits < code.dims i) :
    ∃ bits' w, correctAll X code "UF" o a weights sanity bits = some (bits', w, true) := by
  obtain ⟨w, w', hw, he⟩ := uf_correctAll h X ho a weights sanity
  have he := he bits
  obtain ⟨b, hb⟩ := C60_flips h X.bk X.sp X.comps X.span X.iter w' (fun x hx => by
    rw [hw x hx, if_neg]
    · norm_num
    · have : squeezedNeighbors code a x = 0 := by
        unfold squeezedNeighbors
        rw [List.countP_eq_zero]
        intro v _
        simpa using ha v
      omega) bits _ le_rfl hlow sanity
  exact ⟨b, w, by rw [he, hb]; rfl⟩

/-- C60 for simulations of independent errors: if in every trial fewer syndrome qubits are hit than half the size of the code in each
checked direction, Union-Find counts no errors. -/
theorem C60_iid {code : Code} (h : IsCode code) (X : Libs) {o : Opts} (ho : o.method = "uniform") (p : ℝ) (trials : ℕ)
    {size : ℕ} (hs : 0 < size) (s : ℕ → (Noise.Attrs V × (ℕ → ℝ)) × (V → Option ℝ))
    (hst : ∀ r < size, ∀ x, (s r).1.1.state x ≠ some "p")
    (hlow : ∀ r < size, ∀ k, ∀ i ∈ planesToCheck code.ec code.boundaries,
      2 * (code.syndrome.countP fun x => decide ((s r).1.2 (k * (PyDict.keys code.graph.nodes).length +
        (PyDict.keys code.graph.nodes).idxOf x) < p)) < code.dims i) :
    ∃ err, monteCarlo (ecTrial X code "UF" o (iidModel code p)) trials size s = some err ∧ err 0 = 0 := by
  set n := (PyDict.keys code.graph.nodes).length with hn
  obtain ⟨err, e1, -, -, e4⟩ := sim_inv (trial := ecTrial X code "UF" o (iidModel code p))
    (Inv := fun s => (∀ x, s.1.1.state x ≠ some "p") ∧ ∀ k, ∀ i ∈ planesToCheck code.ec code.boundaries,
      2 * (code.syndrome.countP fun x => decide (s.1.2 (k * n + (PyDict.keys code.graph.nodes).idxOf x) < p)) < code.dims i)
    (good := fun b => b = true) (fun s hi => by
      obtain ⟨b, w, ok, h1, h2, -⟩ := ecTrial_of (X := X) h (name := "UF") (o := o) (N := iidModel code p) (s := s) rfl
        (Or.inr ⟨rfl, ho⟩)
      have hstate : (Noise.iidApply p s.1.2 (PyDict.keys code.graph.nodes) s.1.1).state = s.1.1.state :=
        (Noise.C44_apply p s.1.2 (PyDict.keys code.graph.nodes) h.ok.1.nodesNd s.1.1).2.2.1
      refine ⟨_, _, h1, ?_, fun x => ?_, fun k i hpl => ?_⟩
      · obtain ⟨b', w', h3⟩ := C60_total_flips h X ho (a := (iidModel code p).attrs
            (Noise.iidApply p s.1.2 (PyDict.keys code.graph.nodes) s.1.1, fun i => s.1.2 (n + i)))
          (fun x => by
            show (Noise.iidApply p s.1.2 (PyDict.keys code.graph.nodes) s.1.1).state x ≠ _
            rw [hstate]
            exact hi.1 x) s.2 false
          (bits := (iidModel code p).bits (Noise.iidApply p s.1.2 (PyDict.keys code.graph.nodes) s.1.1,
            fun i => s.1.2 (n + i))) (fun i hpl => by
          have := hi.2 0 i hpl
          refine lt_of_le_of_lt (le_of_eq ?_) this
          unfold weight
          congr 1
          refine List.countP_congr fun x hx => ?_
          have hx' := h.syndrome_node hx
          have hk := List.idxOf_lt_length_of_mem hx'
          have hb := (Noise.C44_apply p s.1.2 (PyDict.keys code.graph.nodes) h.ok.1.nodesNd s.1.1).1 _ hk
          rw [List.getElem_idxOf] at hb
          change decide ((Noise.iidApply p s.1.2 (PyDict.keys code.graph.nodes) s.1.1).bit x = some 1) = true ↔ _
          rw [hb]
          simp)
        rw [h2] at h3
        simp only [Option.some.injEq, Prod.mk.injEq] at h3
        exact h3.2.2
      · show (Noise.iidApply p s.1.2 (PyDict.keys code.graph.nodes) s.1.1).state x ≠ _
        rw [hstate]
        exact hi.1 x
      · have := hi.2 (k + 1) i hpl
        refine lt_of_le_of_lt (le_of_eq ?_) this
        congr 1
        refine List.countP_congr fun x hx => ?_
        change decide (s.1.2 (n + _) < p) = true ↔ _
        rw [show n + (k * n + (PyDict.keys code.graph.nodes).idxOf x) =
          (k + 1) * n + (PyDict.keys code.graph.nodes).idxOf x by ring]) trials hs s (fun r hr => ⟨hst r hr, hlow r hr⟩)
  exact ⟨err, e1, e4 fun b hb => hb⟩

/-! ### The hypotheses can be met -/

-- one flip and one erasure on a toric code of size four, whichever the qubits are
example (X : Libs) (x y : V) : ∃ code, IsCode code ∧ code.boundaries = .toric ∧ ∃ bits',
    correct code (ufDecoder X.comps X.span X.iter (2 * (stabGraph X.bk X.sp code).edges.length + 1) (stabGraph X.bk X.sp code)
      fun z => if z = y then -1 else 2) false (fun z => decide (z = x)) = some (bits', true) := by
  obtain ⟨code, hc⟩ := C54_constructor_total idOrder .primal .toric (dims := fun _ => 4) (by simp) none
  obtain ⟨hc, hd, -, hb⟩ := hc
  have h : IsCode code := ⟨idOrder, .primal, .toric, _, none, by simp, hc⟩
  refine ⟨code, h, hb, C60_periodic h (by rw [hb]; decide) (by rw [hd]; simp) _ _ _ _ _ _ _ _ le_rfl (fun i _ => ?_) _⟩
  have hn := h.ok.1.syndromeNd
  have e1 : flips code (fun z => if z = y then -1 else 2) (fun z => decide (z = x)) ≤ 1 := by
    refine le_trans ?_ (List.nodup_iff_count_le_one.1 hn x)
    unfold flips List.count
    exact List.countP_mono_left fun z _ hz => by simp at hz; simp [hz.1]
  have e2 : erasures code (fun z => if z = y then -1 else 2) ≤ 1 := by
    refine le_trans ?_ (List.nodup_iff_count_le_one.1 hn y)
    unfold erasures List.count
    refine List.countP_mono_left fun z _ hz => ?_
    by_contra hne
    have : ¬ z = y := by simpa using hne
    simp only [this, if_false, decide_eq_true_eq] at hz
    norm_num at hz
  rw [hd]
  simp only
  omega

-- a single flip on an open code of size three
example (X : Libs) (x : V) : ∃ code, IsCode code ∧ code.boundaries = .open ∧ ∃ bits' w,
    correctAll X code "UF" {} ⟨fun _ => none, fun _ => none, fun _ => none⟩ (fun _ => none) false (fun z => decide (z = x)) =
      some (bits', w, true) := by
  obtain ⟨code, hc⟩ := C54_constructor_total idOrder .dual .open (dims := fun _ => 3) (by simp) none
  obtain ⟨hc, hd, -, hb⟩ := hc
  have h : IsCode code := ⟨idOrder, .dual, .open, _, none, by simp, hc⟩
  refine ⟨code, h, hb, C60_total_flips h X rfl (by simp) _ _ (fun i _ => ?_)⟩
  have e1 : weight code (fun z => decide (z = x)) ≤ 1 := by
    refine le_trans ?_ (List.nodup_iff_count_le_one.1 h.ok.1.syndromeNd x)
    unfold weight List.count
    exact List.countP_mono_left fun z _ hz => by simpa using hz
  rw [hd]
  simp only
  omega

end Flamingpy.Trial
