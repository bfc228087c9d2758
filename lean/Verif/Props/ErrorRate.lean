import Verif.Proofs.IidTrial
import Verif.Proofs.Bernoulli

/-!
# C61: the error rate reported by a simulation of independent errors

The random numbers are independent and uniform on [0, 1) (`UniformIid`), `U (r, i)` is the `i`-th number drawn by rank `r`.
-/

namespace Flamingpy.Trial

open Flamingpy Flamingpy.SurfaceCode Flamingpy.UnionFind Flamingpy.Weights Flamingpy.Sim MeasureTheory ProbabilityTheory

variable {Ω : Type*} [MeasurableSpace Ω] {μ : Measure Ω} [IsProbabilityMeasure μ]

open Classical in
/-- The failure probability of a decoder if every syndrome qubit is flipped with probability `p`, independently: the
sum over all sets of flipped qubits for which `correct` returns `False`. -/
noncomputable def failureRate (X : Libs) (code : Code) (name : String) (o : Opts) (a : Weights.Attrs) (p : ℝ) : ℝ :=
  ∑ S ∈ code.syndrome.toFinset.powerset,
    if ∃ bits' w, correctAll X code name o a (fun _ => none) false (fun x => decide (x ∈ S)) = some (bits', w, false)
    then p ^ S.card * (1 - p) ^ (code.syndrome.toFinset.card - S.card) else 0

omit [IsProbabilityMeasure μ] in
/-- C61.  The bits set by `IidNoise.apply_noise` are independent, and each is 1 with the given probability. -/
theorem C61_bits {U : ℕ → Ω → ℝ} (hU : UniformIid U μ) {p : ℝ} (h0 : 0 ≤ p) (h1 : p ≤ 1) {P : Type} [DecidableEq P]
    (nodes : List P) (hn : nodes.Nodup) (a : Noise.Attrs P) (bits : P → Bool) :
    μ.real {ω | ∀ x ∈ nodes, (Noise.iidApply p (fun i => U i ω) nodes a).bit x = some (if bits x then 1 else 0)} =
      p ^ (nodes.countP fun x => bits x) * (1 - p) ^ (nodes.countP fun x => !bits x) := by
  have h := hU.pattern h0 h1 nodes.toFinset (nodes.toFinset.filter fun x => bits x = true) (Finset.filter_subset _ _)
    (fun x => nodes.idxOf x) (fun x hx y hy e => (List.idxOf_inj (by simpa using hx)).1 e)
  have hset : {ω | ∀ x ∈ nodes, (Noise.iidApply p (fun i => U i ω) nodes a).bit x = some (if bits x then 1 else 0)} =
      {ω | ∀ x ∈ nodes.toFinset, U (nodes.idxOf x) ω < p ↔ x ∈ nodes.toFinset.filter fun x => bits x = true} := by
    ext ω
    simp only [Set.mem_ofPred_eq, List.mem_toFinset]
    refine forall₂_congr fun x hx => ?_
    have hb := (Noise.C44_apply p (fun i => U i ω) nodes hn a).1 _ (List.idxOf_lt_length_of_mem hx)
    rw [List.getElem_idxOf] at hb
    rw [hb, Finset.mem_filter]
    by_cases h : U (nodes.idxOf x) ω < p <;> cases hbx : bits x <;> simp [h, hx]
  have hc : ∀ f : P → Bool, (nodes.toFinset.filter fun x => f x = true).card = nodes.countP f := by
    intro f
    rw [List.countP_eq_length_filter, ← List.toFinset_card_of_nodup (hn.filter _)]
    congr 1
    ext x
    simp
  have hsum : nodes.countP (fun x => !bits x) = nodes.length - nodes.countP fun x => bits x := by
    have := List.length_eq_countP_add_countP (fun x => bits x) (l := nodes)
    simp only [Bool.not_eq_true, Bool.decide_eq_false] at this
    omega
  rw [hset, h, hc fun x => bits x, List.toFinset_card_of_nodup hn, hsum]

theorem index_inj {code : Code} (h : IsCode code) {trials size : ℕ} (hs : 0 < size) :
    Set.InjOn (fun x : Fin trials × V => ((x.1 : ℕ) % size, (x.1 : ℕ) / size * (PyDict.keys code.graph.nodes).length +
      (PyDict.keys code.graph.nodes).idxOf x.2)) {x | x.2 ∈ code.syndrome.toFinset} := by
  rintro ⟨t, x⟩ hx ⟨t', x'⟩ hx' e
  simp only [Set.mem_ofPred_eq, List.mem_toFinset] at hx hx'
  have m := h.syndrome_node hx
  have m' := h.syndrome_node hx'
  have l := List.idxOf_lt_length_of_mem m
  have l' := List.idxOf_lt_length_of_mem m'
  simp only [Prod.mk.injEq] at e
  obtain ⟨e1, e2⟩ := e
  have hd : ∀ (a i n : ℕ), i < n → (a * n + i) / n = a ∧ (a * n + i) % n = i := by
    intro a i n hi
    have hn : 0 < n := by omega
    refine ⟨?_, ?_⟩
    · rw [Nat.add_comm, Nat.add_mul_div_right _ _ hn, Nat.div_eq_of_lt hi, Nat.zero_add]
    · rw [Nat.add_comm, Nat.add_mul_mod_self_right, Nat.mod_eq_of_lt hi]
  have a1 := hd ((t : ℕ) / size) _ _ l
  have a2 := hd ((t' : ℕ) / size) _ _ l'
  rw [e2] at a1
  have e3 : (t : ℕ) / size = t' / size := a1.1.symm.trans a2.1
  have e4 := a1.2.symm.trans a2.2
  have : (t : ℕ) = t' := by
    rw [← Nat.div_add_mod (t : ℕ) size, ← Nat.div_add_mod (t' : ℕ) size, e1, e3]
  rw [Prod.mk.injEq]
  exact ⟨Fin.ext this, (List.idxOf_inj m).1 e4⟩

theorem failureRate_eq (X : Libs) (code : Code) (name : String) (o : Opts) (a : Weights.Attrs) (p : ℝ) :
    failureRate X code name o a p = hitProb p code.syndrome.toFinset (Fails X code name o a) := rfl

/-- C61.  For every code, both decoders, any number of trials and ranks, whatever the libraries do: the number of errors
returned by the simulation has the binomial distribution of `trials` independent trials that fail with the failure
probability of the decoder. -/
theorem C61_binomial {code : Code} (h : IsCode code) (X : Libs) {name : String} (hn : name = "MWPM" ∨ name = "UF")
    {o : Opts} (ho : o.method = "uniform") {p : ℝ} (h0 : 0 ≤ p) (h1 : p ≤ 1) {U : ℕ × ℕ → Ω → ℝ} (hU : UniformIid U μ)
    (A : Noise.Attrs V) (w : V → Option ℝ) (trials : ℕ) {size : ℕ} (hs : 0 < size) (k : ℕ) :
    μ.real {ω | ∃ err, monteCarlo (ecTrial X code name o (iidModel code p)) trials size
        (fun r => ((A, fun i => U (r, i) ω), w)) = some err ∧ err 0 = k} =
      trials.choose k * failureRate X code name o ⟨A.state, A.homP, fun _ => none⟩ p ^ k *
        (1 - failureRate X code name o ⟨A.state, A.homP, fun _ => none⟩ p) ^ (trials - k) := by
  have hb := (hU.binomial h0 h1 code.syndrome.toFinset _ (index_inj h (trials := trials) hs)
    (Fails X code name o ⟨A.state, A.homP, fun _ => none⟩) k).2
  rw [failureRate_eq, ← hb]
  congr 1
  ext ω
  obtain ⟨err, e1, e2⟩ := iid_errors h X hn ho p A (fun r i => U (r, i) ω) w trials hs
  simp only [Set.mem_ofPred_eq]
  constructor
  · rintro ⟨err', e3, e4⟩
    rw [e1] at e3
    rw [← Option.some.inj e3, e2, Nat.cast_inj] at e4
    rw [← e4]
    rfl
  · intro e3
    refine ⟨err, e1, ?_⟩
    rw [e2, Nat.cast_inj, ← e3]
    rfl

/-- C61.  The error rate `errors / trials` is an unbiased estimate of the failure probability. -/
theorem C61_mean {code : Code} (h : IsCode code) (X : Libs) {name : String} (hn : name = "MWPM" ∨ name = "UF")
    {o : Opts} (ho : o.method = "uniform") {p : ℝ} (h0 : 0 ≤ p) (h1 : p ≤ 1) {U : ℕ × ℕ → Ω → ℝ} (hU : UniformIid U μ)
    (A : Noise.Attrs V) (w : V → Option ℝ) (trials : ℕ) {size : ℕ} (hs : 0 < size) (errors : Ω → ℤ)
    (he : ∀ ω, ∃ err, monteCarlo (ecTrial X code name o (iidModel code p)) trials size
      (fun r => ((A, fun i => U (r, i) ω), w)) = some err ∧ errors ω = err 0) :
    ∫ ω, (errors ω : ℝ) ∂μ = trials * failureRate X code name o ⟨A.state, A.homP, fun _ => none⟩ p := by
  classical
  set a : Weights.Attrs := ⟨A.state, A.homP, fun _ => none⟩
  set E : Fin trials → Set Ω := fun t => {ω | Fails X code name o a (hits code p fun i =>
    U ((t : ℕ) % size, (t : ℕ) / size * (PyDict.keys code.graph.nodes).length + i) ω)} with hE
  have hE1 : ∀ t, MeasurableSet (E t) ∧ μ.real (E t) = failureRate X code name o a p := by
    intro t
    have := hU.single h0 h1 code.syndrome.toFinset (fun x => ((t : ℕ) % size,
      (t : ℕ) / size * (PyDict.keys code.graph.nodes).length + (PyDict.keys code.graph.nodes).idxOf x)) (by
        intro x hx y hy e
        have := index_inj h (trials := trials) hs (x₁ := (t, x)) (x₂ := (t, y)) (by simpa using hx) (by simpa using hy) e
        exact (Prod.mk.inj this).2) (Fails X code name o a)
    rw [failureRate_eq]
    refine ⟨?_, ?_⟩
    · convert this.1 using 1
      ext ω
      simp only [hE, Set.mem_ofPred_eq, hits]
    · rw [← this.2]
      congr 1
  have hsum : ∀ ω, (errors ω : ℝ) = ∑ t, (E t).indicator (fun _ => (1 : ℝ)) ω := by
    intro ω
    obtain ⟨err, e1, e2⟩ := he ω
    obtain ⟨err', e3, e4⟩ := iid_errors h X hn ho p A (fun r i => U (r, i) ω) w trials hs
    rw [e1] at e3
    rw [e2, Option.some.inj e3, e4, Finset.card_filter]
    push_cast
    refine Finset.sum_congr rfl fun t _ => ?_
    rw [Set.indicator_apply]
    rfl
  simp_rw [hsum]
  rw [integral_finsetSum]
  · simp_rw [integral_indicator_const (1 : ℝ) (hE1 _).1, (hE1 _).2]
    simp
  · intro t _
    exact (integrable_const (1 : ℝ)).indicator (hE1 t).1

/-- The decoder fails only if at least half of the shortest checked direction is flipped. -/
theorem fails_card {code : Code} (h : IsCode code) (X : Libs) {name : String} (hn : name = "MWPM" ∨ name = "UF")
    {o : Opts} (ho : o.method = "uniform") {a : Weights.Attrs}
    (ha : ∀ x, a.state x ≠ some "p") {d : ℕ} (hd : ∀ i ∈ planesToCheck code.ec code.boundaries, d ≤ code.dims i)
    {B : Finset V} (hB : B ⊆ code.syndrome.toFinset) (hf : Fails X code name o a B) : (d + 1) / 2 ≤ B.card := by
  by_contra hc
  obtain ⟨b, w, hf⟩ := hf
  have hwt : weight code (fun x => decide (x ∈ B)) = B.card := by
    unfold weight
    rw [List.countP_eq_length_filter, ← List.toFinset_card_of_nodup (h.ok.1.syndromeNd.filter _)]
    congr 1
    ext x
    simp only [List.mem_toFinset, List.mem_filter, decide_eq_true_eq, and_iff_right_iff_imp]
    intro hx
    exact List.mem_toFinset.1 (hB hx)
  have hlow : ∀ i ∈ planesToCheck code.ec code.boundaries, 2 * weight code (fun x => decide (x ∈ B)) < code.dims i := by
    intro i hi
    rw [hwt]
    have := hd i hi
    omega
  have : ∃ bits' w, correctAll X code name o a (fun _ => none) false (fun x => decide (x ∈ B)) = some (bits', w, true) := by
    rcases hn with rfl | rfl
    · exact correctAll_low h X ho a _ false hlow
    · exact C60_total_flips h X ho ha _ false hlow
  obtain ⟨b', w', h3⟩ := this
  rw [hf] at h3
  simp at h3

/-- C61.  The failure probability is at most the probability that at least half as many qubits are flipped as the code is long
in some checked direction. -/
theorem C61_bound {code : Code} (h : IsCode code) (X : Libs) {name : String} (hn : name = "MWPM" ∨ name = "UF")
    {o : Opts} (ho : o.method = "uniform") {p : ℝ} (h0 : 0 ≤ p) (h1 : p ≤ 1) {a : Weights.Attrs}
    (ha : ∀ x, a.state x ≠ some "p") {d : ℕ} (hd : ∀ i ∈ planesToCheck code.ec code.boundaries, d ≤ code.dims i) :
    failureRate X code name o a p ≤ ∑ k ∈ Finset.Icc ((d + 1) / 2) code.syndrome.length,
        code.syndrome.length.choose k * p ^ k * (1 - p) ^ (code.syndrome.length - k) ∧
      failureRate X code name o a p ≤ code.syndrome.length.choose ((d + 1) / 2) * p ^ ((d + 1) / 2) := by
  have hlen : code.syndrome.toFinset.card = code.syndrome.length := List.toFinset_card_of_nodup h.ok.1.syndromeNd
  have hle : failureRate X code name o a p ≤ hitProb p code.syndrome.toFinset fun B => (d + 1) / 2 ≤ B.card := by
    rw [failureRate_eq]
    exact hitProb_mono h0 h1 _ fun B hB hf => fails_card h X hn ho ha hd hB hf
  refine ⟨?_, ?_⟩
  · rw [hitProb_card, hlen] at hle
    exact hle
  · have := hitProb_tail_le h0 h1 code.syndrome.toFinset ((d + 1) / 2)
    rw [hlen] at this
    exact hle.trans this

/-- Errors whose sum satisfies all stabilizers but is not a noiseless pattern (a logical operator) cannot both be corrected. -/
theorem C58_logical {code : Code} (h : IsCode code) (X : Libs) {name : String} {o : Opts} {a : Weights.Attrs}
    (hv : Valid code name o a) (weights : V → Option ℝ) (sanity : Bool) (bits bits₂ : V → Bool)
    (ht : trivialSyndrome code fun x => xor (bits x) (bits₂ x))
    (hl : ¬ ∃ vals : V → Bool, ∀ x ∈ code.syndrome, xor (bits x) (bits₂ x) = parity vals (neighbors code x)) :
    ∃ bits' bits₂' w ok ok₂, correctAll X code name o a weights sanity bits = some (bits', w, ok) ∧
      correctAll X code name o a weights sanity bits₂ = some (bits₂', w, ok₂) ∧ ¬ (ok = true ∧ ok₂ = true) := by
  obtain ⟨w, hw, hs, hpos, -, -⟩ := weights_ok h hv weights
  have hn : name = "MWPM" ∨ name = "UF" := by rcases hv with ⟨h, -⟩ | ⟨h, -⟩ <;> simp [h]
  have hpar : ∀ s ∈ code.stabs, parity bits s = parity bits₂ s := by
    intro s hs
    have := ht s hs
    rw [parity_xor] at this
    simpa using this
  obtain ⟨R, bits', h1, h2, h3, h4, h5⟩ := decoder_clears h X hn (w := fun q => X.float.fl ((w q).getD 0))
    (fun e q hq => X.float.nonneg _ (hpos e q hq)) bits
  have h1' := (decoder_congr h X name (fun q => X.float.fl ((w q).getD 0)) hpar).symm.trans h1
  obtain ⟨c1, w1, ok1, e1, -, -, v1, -⟩ := C58_correct h X hv weights sanity bits
  obtain ⟨c2, w2, ok2, e2, -, -, v2, -⟩ := C58_correct h X hv weights sanity bits₂
  have key : ∀ (c d : V → Bool) (u : V → Option ℝ) (ok : Bool), correctAll X code name o a weights sanity d = some (c, u, ok) →
      decoderFunc X code name (fun q => X.float.fl ((w q).getD 0)) d = some R →
      u = w ∧ c = fun x => xor (d x) (decide (some x ∈ R)) := by
    intro c d u ok e hd
    rw [correctAll_of hw hs] at e
    unfold correct at e
    rw [hd, Option.bind_eq_bind, Option.bind_some, recovery_syndrome h h2 h3 d, Option.bind_eq_bind, Option.bind_some] at e
    cases hch : checkCorrection code (fun x => xor (d x) (decide (some x ∈ R))) sanity with
    | none => rw [hch] at e; cases e
    | some r =>
      rw [hch] at e
      simp only [Option.bind_eq_bind, Option.bind_some, Option.pure_def, Option.map_some, Option.some.injEq,
        Prod.mk.injEq] at e
      exact ⟨e.2.1.symm, e.1.symm⟩
  obtain ⟨rfl, k1⟩ := key c1 bits w1 ok1 e1 h1
  obtain ⟨rfl, k2⟩ := key c2 bits₂ w2 ok2 e2 h1'
  refine ⟨c1, c2, _, ok1, ok2, e1, e2, fun ⟨t1, t2⟩ => hl ?_⟩
  obtain ⟨u1, hu1⟩ := v1.1 t1
  obtain ⟨u2, hu2⟩ := v2.1 t2
  refine ⟨fun y => xor (u1 y) (u2 y), fun x hx => ?_⟩
  rw [parity_xor, ← hu1 x hx, ← hu2 x hx, k1, k2]
  simp only
  cases bits x <;> cases bits₂ x <;> cases decide (some x ∈ R) <;> rfl

/-- C61.  The exponent of the bound is exact: for a code whose shortest checked direction has size `d`, the failure
probability is at least the probability of one particular set of `(d + 1) / 2` flipped qubits. -/
theorem C61_lower {code : Code} (h : IsCode code) (X : Libs) {name : String} (hn : name = "MWPM" ∨ name = "UF")
    {o : Opts} (ho : o.method = "uniform") {p : ℝ} (h0 : 0 ≤ p) (h1 : p ≤ 1) {a : Weights.Attrs}
    (ha : ∀ x, a.state x ≠ some "p") {d : ℕ} (hd : ∀ i ∈ planesToCheck code.ec code.boundaries, d ≤ code.dims i)
    (hex : ∃ i ∈ planesToCheck code.ec code.boundaries, code.dims i = d) :
    p ^ ((d + 1) / 2) * (1 - p) ^ (code.syndrome.length - (d + 1) / 2) ≤ failureRate X code name o a p := by
  classical
  have hlen : code.syndrome.toFinset.card = code.syndrome.length := List.toFinset_card_of_nodup h.ok.1.syndromeNd
  have hv : Valid code name o a := by
    rcases hn with rfl | rfl
    · exact Or.inl ⟨rfl, Or.inl ho⟩
    · exact Or.inr ⟨rfl, ho⟩
  obtain ⟨i, hi, hdi⟩ := hex
  obtain ⟨L, hL1, hL2, hL3⟩ := C33_exists h hi
  set LS := code.syndrome.toFinset.filter fun x => L x = true with hLS
  have hLc : LS.card = d := by
    rw [← hdi, ← hL3]
    unfold weight
    rw [List.countP_eq_length_filter, ← List.toFinset_card_of_nodup (h.ok.1.syndromeNd.filter _)]
    congr 1
    ext x
    simp [hLS]
  have hLsub : LS ⊆ code.syndrome.toFinset := Finset.filter_subset _ _
  obtain ⟨S, hS, hSc⟩ := Finset.exists_subset_card_eq (s := LS) (n := (d + 1) / 2) (by omega)
  have hxor : ∀ x ∈ code.syndrome, xor (decide (x ∈ S)) (decide (x ∈ LS \ S)) = L x := by
    intro x hx
    have hxL : x ∈ LS ↔ L x = true := by simp [hLS, hx]
    by_cases h1 : x ∈ S
    · have := hxL.1 (hS h1)
      simp [h1, this]
    · simp only [h1, decide_false, Bool.false_xor, Finset.mem_sdiff, hxL, not_false_eq_true, and_true]
      cases L x <;> rfl
  have hsyn : ∀ s ∈ code.stabs, ∀ x ∈ s, x ∈ code.syndrome := fun s hs x hx => ((C25_only_syndrome h).2.1 s hs).2 x hx
  obtain ⟨b1, b2, w, ok1, ok2, e1, e2, e3⟩ := C58_logical h X hv (fun _ => none) false (fun x => decide (x ∈ S))
    (fun x => decide (x ∈ LS \ S)) (fun s hs => by
      rw [← hL1 s hs]
      unfold parity
      congr 1
      exact List.map_congr_left fun x hx => hxor x (hsyn s hs x hx)) (fun ⟨vals, hvals⟩ => by
      have := ((C57_verdict h L false).2 ⟨vals, fun x hx => by rw [← hxor x hx]; exact hvals x hx⟩).2
      rw [hL2 false] at this
      simp at this)
  -- a set of this size that fails
  obtain ⟨B, hB, hBc, hBf⟩ : ∃ B ⊆ code.syndrome.toFinset, B.card = (d + 1) / 2 ∧ Fails X code name o a B := by
    cases ok1 with
    | false => exact ⟨S, hS.trans hLsub, hSc, b1, w, e1⟩
    | true =>
      have hok2 : ok2 = false := by cases ok2 <;> simp_all
      subst hok2
      have hcc : (LS \ S).card = d - (d + 1) / 2 := by rw [Finset.card_sdiff_of_subset hS, hLc, hSc]
      refine ⟨LS \ S, Finset.sdiff_subset.trans hLsub, ?_, b2, w, e2⟩
      by_contra hne
      -- the smaller half is corrected
      have hwt : weight code (fun x => decide (x ∈ LS \ S)) = (LS \ S).card := by
        unfold weight
        rw [List.countP_eq_length_filter, ← List.toFinset_card_of_nodup (h.ok.1.syndromeNd.filter _)]
        congr 1
        ext x
        simp only [List.mem_toFinset, List.mem_filter, decide_eq_true_eq, and_iff_right_iff_imp]
        intro hx
        exact List.mem_toFinset.1 (hLsub (Finset.sdiff_subset hx))
      have hlow : ∀ i ∈ planesToCheck code.ec code.boundaries,
          2 * weight code (fun x => decide (x ∈ LS \ S)) < code.dims i := by
        intro i hi
        rw [hwt, hcc]
        have := hd i hi
        omega
      have : ∃ bits' w, correctAll X code name o a (fun _ => none) false (fun x => decide (x ∈ LS \ S)) =
          some (bits', w, true) := by
        rcases hn with rfl | rfl
        · exact correctAll_low h X ho a _ false hlow
        · exact C60_total_flips h X ho ha _ false hlow
      obtain ⟨b', w', h3⟩ := this
      rw [e2] at h3
      simp at h3
  rw [failureRate_eq]
  unfold hitProb
  have hnn : ∀ B ∈ code.syndrome.toFinset.powerset,
      0 ≤ if Fails X code name o a B then patternProb p code.syndrome.toFinset B else 0 := fun B _ => by
    have := patternProb_nonneg h0 h1 code.syndrome.toFinset B
    split_ifs <;> simp [this]
  have := Finset.single_le_sum hnn (Finset.mem_powerset.2 hB)
  rw [if_pos hBf] at this
  refine le_trans (le_of_eq ?_) (this.trans (le_of_eq (Finset.sum_congr rfl fun B _ => by congr)))
  rw [patternProb, hBc, hlen]

/-! ### The hypotheses can be met -/

-- independent uniform numbers exist
theorem uniformIid_exists : ∃ (Ω : Type) (_ : MeasurableSpace Ω) (μ : Measure Ω) (_ : IsProbabilityMeasure μ)
    (U : ℕ × ℕ → Ω → ℝ), UniformIid U μ := by
  have : IsProbabilityMeasure (volume.restrict (Set.Ico (0 : ℝ) 1)) := ⟨by simp⟩
  refine ⟨ℕ × ℕ → ℝ, inferInstance, Measure.infinitePi fun _ => volume.restrict (Set.Ico (0 : ℝ) 1), inferInstance,
    fun j ω => ω j, fun j => measurable_pi_apply j, ?_, fun j => ?_⟩
  · exact iIndepFun_infinitePi (X := fun _ x => x) fun _ => measurable_id
  · exact (measurePreserving_eval_infinitePi _ j).map_eq

-- a simulation on a code of size five: the mean error rate is at most C(n, 3) p ^ 3
example (p : ℝ) (h0 : 0 ≤ p) (h1 : p ≤ 1) (trials : ℕ) : ∃ (Ω : Type) (_ : MeasurableSpace Ω) (μ : Measure Ω)
    (U : ℕ × ℕ → Ω → ℝ) (code : Code) (X : Libs) (errors : Ω → ℤ), UniformIid U μ ∧ IsCode code ∧ code.dims = (fun _ => 5) ∧
    (∀ ω, ∃ err, monteCarlo (ecTrial X code "UF" {} (iidModel code p)) trials 4
      (fun r => ((⟨fun _ => none, fun _ => none, fun _ => none, fun _ => none⟩, fun i => U (r, i) ω), fun _ => none)) =
        some err ∧ errors ω = err 0) ∧
    ∫ ω, (errors ω : ℝ) ∂μ ≤ trials * (code.syndrome.length.choose 3 * p ^ 3) := by
  obtain ⟨Ω, i1, μ, i2, U, hU⟩ := uniformIid_exists
  obtain ⟨X, -⟩ := libs_exist .networkx
  obtain ⟨code, hc⟩ := C54_constructor_total idOrder .primal .open (dims := fun _ => 5) (by simp) none
  obtain ⟨hc, hd, -, hb⟩ := hc
  have h : IsCode code := ⟨idOrder, .primal, .open, _, none, by simp, hc⟩
  have hex : ∀ ω, ∃ e : ℤ, ∃ err, monteCarlo (ecTrial X code "UF" {} (iidModel code p)) trials 4
      (fun r => ((⟨fun _ => none, fun _ => none, fun _ => none, fun _ => none⟩, fun i => U (r, i) ω), fun _ => none)) =
        some err ∧ e = err 0 := by
    intro ω
    obtain ⟨err, e, -⟩ := C59_iid h X (Or.inr rfl) (o := {}) rfl p trials (size := 4) (by norm_num)
      (fun r => ((⟨fun _ => none, fun _ => none, fun _ => none, fun _ => none⟩, fun i => U (r, i) ω), fun _ => none))
    exact ⟨_, err, e, rfl⟩
  choose errors herr using hex
  refine ⟨Ω, i1, μ, U, code, X, errors, hU, h, hd, herr, ?_⟩
  rw [C61_mean h X (Or.inr rfl) rfl h0 h1 hU _ _ trials (by norm_num) errors herr]
  refine mul_le_mul_of_nonneg_left ?_ (Nat.cast_nonneg _)
  have := (C61_bound h X (Or.inr rfl) (o := {}) rfl h0 h1 (a := ⟨fun _ => none, fun _ => none, fun _ => none⟩) (by simp)
    (d := 5) (fun i _ => by rw [hd])).2
  simpa using this

end Flamingpy.Trial
