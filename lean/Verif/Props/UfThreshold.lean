import Verif.Proofs.UfCount
import Verif.Props.Threshold

/-!
# C85: a threshold for the Union-Find decoder

The decoder fails only if all qubits of one of a few sets of `2 ^ k` qubits are flipped or erased (`C85_sets`), where the number of
sets is at most `n * 2 ^ (65 * 2 ^ k)` for `n` syndrome qubits, and `k` grows with the size of the code.  So for every
noise under which `m` given qubits are all bad with a probability of at most `r ^ m` the failure probability is at most `n * (2 ^ 65 r) ^ (2 ^ k)`
(`C85_noise`), and if `2 ^ 65 r < 1` it goes to zero as the code grows.
-/

namespace Flamingpy.Trial

open Flamingpy Flamingpy.SurfaceCode Flamingpy.UnionFind Flamingpy.Weights Flamingpy.Sim MeasureTheory ProbabilityTheory Filter

theorem two_sigma (k : ℕ) : 2 * sigma k = k ^ 2 + 13 * k := by
  induction k with
  | zero => rfl
  | succ j ih =>
    rw [sigma, Nat.mul_add, Nat.mul_add, ih]
    ring

theorem reach_eq (k : ℕ) : 2 * reach k = 2 ^ ((k ^ 2 + 15 * k) / 2 + 1) := by
  have h : (k ^ 2 + 15 * k) / 2 = k + sigma k := by
    have := two_sigma k
    omega
  unfold reach scale
  rw [h, ← pow_add, pow_succ]
  ring

/-- The decoder succeeds if nothing is left after `k` scales. -/
theorem uf_sparse_correct {code : Code} (h : IsCode code) (bk : Backend) (sp : SetPop) (cl : CompLib SNode) (sl : SpanLib SNode (Option V))
    (io : IterOrder SNode) (w : V → ℚ) (bits : V → Bool) (fuel : ℕ) (hf : 2 * (stabGraph bk sp code).edges.length + 1 ≤ fuel)
    {k : ℕ} (hlow : ∀ i ∈ planesToCheck code.ec code.boundaries, 2 * reach k + 8 ≤ code.dims i)
    (hd : ∀ i, boundsOf code.ec code.boundaries i = .periodic → 3 ≤ code.dims i)
    (hk : Sparse.El (codeEs sp code) (badEdges sp code w bits) (fun j => 2 * scale j) (fun j => 48 * reach j) k = ∅) (sanity : Bool) :
    ∃ bits', correct code (ufDecoder cl sl io fuel (stabGraph bk sp code) w) sanity bits = some (bits', true) := by
  have hle := realE_le (bk := bk) (sp := sp) (code := code) (w := w) (bits := bits)
  obtain ⟨R, s, odd, s', e1, e2, her, h1, h2, h3, h4⟩ := uf_exact h bk sp w bits cl sl io fuel (by omega)
  have hsyn : ∀ x ∈ R, x ∈ code.syndrome := fun x hx => by
    obtain ⟨e, _, he⟩ := h3 x hx
    exact (h.ok.1.edge_effect h.ok.2 sp he).1
  have hrec := recovery_nodup (PyDict.keys code.graph.nodes) R (fun q hq => h.syndrome_node (hsyn q hq)) h2 bits
  set bits' : V → Bool := fun x => xor (bits x) (decide (x ∈ R)) with hb'
  have htriv : trivialSyndrome code bits' := by
    intro s hs
    obtain ⟨k, hk, rfl⟩ := List.getElem_of_mem hs
    have := h4 k hk
    rw [List.getD_eq_getElem _ _ hk] at this
    rw [hb', parity_xor, this, Bool.xor_self]
  refine ⟨bits', ?_⟩
  unfold correct
  rw [h1, Option.bind_eq_bind, Option.bind_some, hrec, Option.bind_eq_bind, Option.bind_some, check_eq h.ok.2]
  have : ((planesToCheck code.ec code.boundaries).all fun i => !sheetParity code bits' i (lowF code.ec)) = true := by
    rw [List.all_eq_true]
    intro i hi
    rw [uf_sparse h bk sp w bits hd cl io e1 e2 h3 htriv hi scales_ok hk (hlow i hi)]
    rfl
  rw [this]
  rfl

theorem periodic_three {code : Code} {d : ℕ} (h3 : 3 ≤ d) (hlow : ∀ i ∈ planesToCheck code.ec code.boundaries, d ≤ code.dims i) :
    ∀ i, boundsOf code.ec code.boundaries i = .periodic → 3 ≤ code.dims i := by
  intro i hi
  refine h3.trans (hlow i ?_)
  rw [boundsOf_table] at hi
  clear hlow
  revert hi
  cases code.ec <;> cases code.boundaries <;> revert i <;> decide

/-- C85.  For every code that is large enough in the checked directions there are at most `n * 2 ^ (65 * 2 ^ k)` sets of `2 ^ k` of its `n` syndrome
qubits such that, whatever the libraries do and whatever the states, weights and bits are, Union-Find makes a logical error only if all qubits of one of
the sets are flipped or have at least two p-squeezed neighbours. -/
theorem C85_sets {code : Code} (h : IsCode code) (X : Libs) {k : ℕ}
    (hk : ∀ i ∈ planesToCheck code.ec code.boundaries, 2 ^ ((k ^ 2 + 15 * k) / 2 + 1) + 8 ≤ code.dims i) :
    ∃ 𝒯 : Finset (Finset V), 𝒯.card ≤ code.syndrome.length * 2 ^ (65 * 2 ^ k) ∧ (∀ T ∈ 𝒯, T.card = 2 ^ k ∧ ∀ x ∈ T, x ∈ code.syndrome) ∧
      ∀ (o : Opts) (a : Weights.Attrs) (weights : V → Option ℝ) (sanity : Bool) (bits bits' : V → Bool) (w : V → Option ℝ),
        o.method = "uniform" → correctAll X code "UF" o a weights sanity bits = some (bits', w, false) →
        ∃ T ∈ 𝒯, ∀ x ∈ T, bits x = true ∨ 2 ≤ squeezedNeighbors code a x := by
  rw [← reach_eq] at hk
  have hd := periodic_three (d := 2 * reach k + 8) (by omega) hk
  obtain ⟨c1, c2⟩ := family_spec h X.sp hd k
  refine ⟨family X.sp code k, c1, c2, fun o a weights sanity bits bits' w ho hc => ?_⟩
  obtain ⟨w1, w', hw, he⟩ := uf_correctAll h X ho a weights sanity
  have he := he bits
  by_cases hE : Sparse.El (codeEs X.sp code) (badEdges X.sp code w' bits) (fun j => 2 * scale j) (fun j => 48 * reach j) k = ∅
  · obtain ⟨b, hb⟩ := uf_sparse_correct h X.bk X.sp X.comps X.span X.iter w' bits _ le_rfl hk hd hE sanity
    rw [he, hb] at hc
    simp at hc
  · obtain ⟨T, hT, hbad⟩ := family_left h X.sp hd k hE
    refine ⟨T, hT, fun x hx => (hbad x hx).imp_right fun hx1 => ?_⟩
    rw [hw x ((c2 T hT).2 x hx)] at hx1
    by_contra hc2
    rw [if_neg hc2] at hx1
    norm_num at hx1

theorem sets_sum {n k : ℕ} {𝒯 : Finset (Finset V)} {r : ℝ} (h0 : 0 ≤ r) (h1 : 𝒯.card ≤ n * 2 ^ (65 * 2 ^ k)) (h2 : ∀ T ∈ 𝒯, T.card = 2 ^ k) :
    ∑ T ∈ 𝒯, r ^ T.card ≤ n * (2 ^ 65 * r) ^ (2 ^ k) := by
  rw [Finset.sum_congr rfl fun T hT => by rw [h2 T hT], Finset.sum_const, nsmul_eq_mul]
  refine (mul_le_mul_of_nonneg_right (Nat.cast_le.2 h1) (by positivity)).trans (le_of_eq ?_)
  push_cast
  rw [mul_pow, ← pow_mul]
  ring

/-- C85.  Random states and bits: if any `m` syndrome qubits are all bad with a probability of at most `r ^ m`, Union-Find makes a logical
error with a probability of at most `n * (2 ^ 65 r) ^ (2 ^ k)`. -/
theorem C85_noise {code : Code} (h : IsCode code) (X : Libs) {o : Opts} (ho : o.method = "uniform") {k : ℕ}
    (hk : ∀ i ∈ planesToCheck code.ec code.boundaries, 2 ^ ((k ^ 2 + 15 * k) / 2 + 1) + 8 ≤ code.dims i)
    {Ω : Type*} [MeasurableSpace Ω] {μ : Measure Ω} [IsProbabilityMeasure μ] (a : Ω → Weights.Attrs) (weights : Ω → V → Option ℝ)
    (bits : Ω → V → Bool) (sanity : Bool) {r : ℝ} (h0 : 0 ≤ r)
    (hr : ∀ T : Finset V, (∀ x ∈ T, x ∈ code.syndrome) →
      μ.real {ω | ∀ x ∈ T, bits ω x = true ∨ 2 ≤ squeezedNeighbors code (a ω) x} ≤ r ^ T.card) :
    μ.real {ω | ∃ bits' w, correctAll X code "UF" o (a ω) (weights ω) sanity (bits ω) = some (bits', w, false)} ≤
      code.syndrome.length * (2 ^ 65 * r) ^ (2 ^ k) := by
  obtain ⟨𝒯, c1, c2, c3⟩ := C85_sets h X hk
  have hsub : {ω | ∃ bits' w, correctAll X code "UF" o (a ω) (weights ω) sanity (bits ω) = some (bits', w, false)} ⊆
      ⋃ T ∈ 𝒯, {ω | ∀ x ∈ T, bits ω x = true ∨ 2 ≤ squeezedNeighbors code (a ω) x} := by
    rintro ω ⟨b, w, hb⟩
    obtain ⟨T, hT, hx⟩ := c3 o _ _ _ _ _ _ ho hb
    simp only [Set.mem_iUnion]
    exact ⟨T, hT, hx⟩
  refine (measureReal_mono hsub (measure_ne_top _ _)).trans ((measureReal_biUnion_finset_le _ _).trans ?_)
  exact (Finset.sum_le_sum fun T hT => hr T (c2 T hT).2).trans (sets_sum h0 c1 fun T hT => (c2 T hT).1)

/-- C85.  Independent flips with probability `p`, if there are no p-squeezed states. -/
theorem C85_bound {code : Code} (h : IsCode code) (X : Libs) {o : Opts} (ho : o.method = "uniform") {a : Weights.Attrs}
    (ha : ∀ x, a.state x ≠ some "p") {p : ℝ} (h0 : 0 ≤ p) (h1 : p ≤ 1) {k : ℕ}
    (hk : ∀ i ∈ planesToCheck code.ec code.boundaries, 2 ^ ((k ^ 2 + 15 * k) / 2 + 1) + 8 ≤ code.dims i) :
    failureRate X code "UF" o a p ≤ code.syndrome.length * (2 ^ 65 * p) ^ (2 ^ k) := by
  obtain ⟨𝒯, c1, c2, c3⟩ := C85_sets h X hk
  rw [failureRate_eq]
  refine (hitProb_union h0 h1 _ (𝒮 := 𝒯) (fun S hS x hx => List.mem_toFinset.2 ((c2 S hS).2 x hx)) fun B hB => ?_).trans
    (sets_sum h0 c1 fun T hT => (c2 T hT).1)
  obtain ⟨b, w, hb⟩ := hB
  obtain ⟨T, hT, hx⟩ := c3 o _ _ _ _ _ _ ho hb
  refine ⟨T, hT, fun x hxT => ?_⟩
  rcases hx x hxT with h2 | h2
  · simpa using h2
  · have : squeezedNeighbors code a x = 0 := by
      unfold squeezedNeighbors
      rw [List.countP_eq_zero]
      intro v _
      simpa using ha v
    omega

/-- The bound goes to zero. -/
theorem uf_limit {r : ℝ} (hr0 : 0 ≤ r) (hs : 2 ^ 65 * r < 1) (m : ℕ) {ε : ℝ} (hε : 0 < ε) : ∃ d₀ : ℕ, ∀ d, d₀ ≤ d → ∀ code : Code, IsCode code →
    (∀ i, d ≤ code.dims i ∧ code.dims i ≤ m * d) → ∃ k, 2 ^ ((k ^ 2 + 15 * k) / 2 + 1) + 8 ≤ d ∧
      code.syndrome.length * (2 ^ 65 * r) ^ (2 ^ k) < ε := by
  set c := 2 ^ 65 * r with hc
  have hc0 : 0 ≤ c := by positivity
  set f : ℕ → ℝ := fun k => (reach (k + 1) : ℝ) ^ 3 * c ^ (2 ^ k) with hf
  have hf0 : ∀ k, 0 ≤ f k := fun k => by positivity
  have hb : Tendsto (fun k : ℕ => 2 ^ 27 * ((2 ^ k : ℕ) : ℝ) ^ 3 * c ^ (2 ^ k)) atTop (nhds 0) := by
    have h1 := ((tendsto_pow_const_mul_const_pow_of_lt_one 3 hc0 hs).comp (_root_.tendsto_pow_atTop_atTop_of_one_lt (one_lt_two (α := ℕ)))).const_mul (2 ^ 27)
    rw [mul_zero] at h1
    refine h1.congr fun k => ?_
    simp only [Function.comp]
    ring
  have hratio : ∀ k, f (k + 1) = 2 ^ 27 * ((2 ^ k : ℕ) : ℝ) ^ 3 * c ^ (2 ^ k) * f k := by
    intro k
    simp only [hf]
    rw [reach_succ (k + 1), pow_succ 2 k]
    push_cast
    ring
  have hlim : Tendsto f atTop (nhds 0) := by
    refine (summable_of_ratio_norm_eventually_le (r := 1 / 2) (by norm_num) ?_).tendsto_atTop_zero
    filter_upwards [hb.eventually (gt_mem_nhds (show (0 : ℝ) < 1 / 2 by norm_num))] with k hk
    rw [Real.norm_of_nonneg (hf0 _), Real.norm_of_nonneg (hf0 _), hratio]
    exact mul_le_mul_of_nonneg_right hk.le (hf0 k)
  have hlim2 := hlim.const_mul ((2 * (m : ℝ) + 1) ^ 3 * 10 ^ 3)
  rw [mul_zero] at hlim2
  obtain ⟨K, hK⟩ := eventually_atTop.1 (hlim2.eventually (gt_mem_nhds hε))
  have hreach1 : ∀ k, 1 ≤ reach k := fun k => (scale_pos k).trans (scale_le_reach k)
  have hself : ∀ k, k ≤ reach k := fun k => by
    unfold reach
    exact (Nat.lt_two_pow_self (n := k)).le.trans (Nat.le_mul_of_pos_right _ (scale_pos k))
  refine ⟨2 * reach K + 8, fun d hd code h hdims => ?_⟩
  set P : ℕ → Prop := fun k => 2 * reach k + 8 ≤ d with hP
  have hPK : P K := hd
  have hKd : K ≤ d := by
    have := hself K
    omega
  set k := Nat.findGreatest P d with hkdef
  have hPk : P k := Nat.findGreatest_spec hKd hPK
  have hKk : K ≤ k := Nat.le_findGreatest hKd hPK
  have hnot : d < 10 * reach (k + 1) := by
    by_contra hcon
    push Not at hcon
    have h1 := hreach1 (k + 1)
    have h2 := hself (k + 1)
    exact Nat.findGreatest_is_greatest (P := P) (n := d) (k := k + 1) (by omega) (by omega) (show 2 * reach (k + 1) + 8 ≤ d by omega)
  refine ⟨k, by rw [← reach_eq]; exact hPk, lt_of_le_of_lt ?_ (hK k hKk)⟩
  have hn : (code.syndrome.length : ℝ) ≤ ((2 * m + 1) * (10 * reach (k + 1))) ^ 3 := by
    have h3 := syndrome_length h fun i => (hdims i).2
    have h4 : (2 * (m * d) + 1) ^ 3 ≤ ((2 * m + 1) * (10 * reach (k + 1))) ^ 3 := Nat.pow_le_pow_left (by nlinarith) 3
    exact_mod_cast h3.trans h4
  refine (mul_le_mul_of_nonneg_right hn (by positivity)).trans (le_of_eq ?_)
  simp only [hf]
  ring

/-- C85.  Threshold: if every qubit is flipped with a probability below `2 ^ (-65)`, independently, the failure probability of Union-Find on codes whose
sizes are between `d` and `m * d` goes to zero as `d` grows. -/
theorem C85_threshold {p : ℝ} (h0 : 0 ≤ p) (h1 : p < 1 / 2 ^ 65) (m : ℕ) {ε : ℝ} (hε : 0 < ε) : ∃ d₀ : ℕ, ∀ d, d₀ ≤ d → ∀ code : Code, IsCode code →
    (∀ i, d ≤ code.dims i ∧ code.dims i ≤ m * d) → ∀ (X : Libs) (o : Opts) (a : Weights.Attrs), o.method = "uniform" →
      (∀ x, a.state x ≠ some "p") → failureRate X code "UF" o a p < ε := by
  obtain ⟨d₀, hd₀⟩ := uf_limit h0 (by rw [lt_div_iff₀ (by positivity)] at h1; linarith) m hε
  refine ⟨d₀, fun d hd code h hdims X o a ho ha => ?_⟩
  obtain ⟨k, hk, hlt⟩ := hd₀ d hd code h hdims
  exact (C85_bound h X ho ha h0 (h1.le.trans (by norm_num)) fun i _ => hk.trans (hdims i).1).trans_lt hlt

/-- C85.  The error rate of a simulation of Union-Find: for codes of size at least `d₀`, any number of trials and ranks, the expected number of errors
divided by the number of trials is below `ε`. -/
theorem C85_simulation {p : ℝ} (h0 : 0 ≤ p) (h1 : p < 1 / 2 ^ 65) {ε : ℝ} (hε : 0 < ε) : ∃ d₀ : ℕ, ∀ d, d₀ ≤ d → ∀ code : Code, IsCode code →
    (∀ i, code.dims i = d) → ∀ (X : Libs) (o : Opts), o.method = "uniform" →
      ∀ {Ω : Type} [MeasurableSpace Ω] (μ : Measure Ω) [IsProbabilityMeasure μ] (U : ℕ × ℕ → Ω → ℝ), UniformIid U μ →
      ∀ (A : Noise.Attrs V), (∀ x, A.state x ≠ some "p") → ∀ (w : V → Option ℝ) (trials size : ℕ), 0 < size → ∀ errors : Ω → ℤ,
      (∀ ω, ∃ err, monteCarlo (ecTrial X code "UF" o (iidModel code p)) trials size (fun r => ((A, fun i => U (r, i) ω), w)) = some err ∧
        errors ω = err 0) → ∫ ω, (errors ω : ℝ) ∂μ ≤ trials * ε := by
  obtain ⟨d₀, hd₀⟩ := C85_threshold h0 h1 1 hε
  refine ⟨d₀, fun d hd code h hdims X o ho Ω _ μ _ U hU A hA w trials size hs errors he => ?_⟩
  rw [C61_mean h X (Or.inr rfl) ho h0 (h1.le.trans (by norm_num)) hU A w trials hs errors he]
  refine mul_le_mul_of_nonneg_left (hd₀ d hd code h (fun i => ?_) X o _ ho hA).le (by positivity)
  rw [hdims i, one_mul]
  exact ⟨le_rfl, le_rfl⟩

/-! ### The hypotheses can be met -/

-- a code of size 520: the decoder fails only if two qubits of one of at most `n * 2 ^ 130` pairs are both flipped or erased
example (X : Libs) : ∃ code, IsCode code ∧ ∃ 𝒯 : Finset (Finset V), 𝒯.card ≤ code.syndrome.length * 2 ^ 130 ∧ (∀ T ∈ 𝒯, T.card = 2) ∧
    ∀ (a : Weights.Attrs) (bits bits' : V → Bool) (w : V → Option ℝ), correctAll X code "UF" {} a (fun _ => none) false bits = some (bits', w, false) →
      ∃ T ∈ 𝒯, ∀ x ∈ T, bits x = true ∨ 2 ≤ squeezedNeighbors code a x := by
  obtain ⟨code, hc, hd, -⟩ := C54_constructor_total idOrder .primal .open (dims := fun _ => 520) (by simp) none
  have h : IsCode code := ⟨idOrder, .primal, .open, _, none, by simp, hc⟩
  obtain ⟨𝒯, h1, h2, h3⟩ := C85_sets h X (k := 1) (by rw [hd]; norm_num)
  exact ⟨code, h, 𝒯, h1, fun T hT => (h2 T hT).1, fun a bits bits' w => h3 {} a _ _ bits bits' w rfl⟩

-- independent flips meet the assumption of `C85_noise`
example {code : Code} (p : ℝ) (h0 : 0 ≤ p) (h1 : p ≤ 1) : ∃ (Ω : Type) (_ : MeasurableSpace Ω) (μ : Measure Ω) (_ : IsProbabilityMeasure μ)
    (bits : Ω → V → Bool), ∀ T : Finset V, (∀ x ∈ T, x ∈ code.syndrome) →
      μ.real {ω | ∀ x ∈ T, bits ω x = true ∨ 2 ≤ squeezedNeighbors code ⟨fun _ => none, fun _ => none, fun _ => none⟩ x} ≤ p ^ T.card := by
  obtain ⟨Ω, i1, μ, i2, U, hU⟩ := uniformIid_exists
  obtain ⟨e⟩ : Nonempty (V ≃ ℕ × ℕ) := nonempty_equiv_of_countable
  refine ⟨Ω, i1, μ, i2, fun ω x => decide (U (e x) ω < p), fun T hT => ?_⟩
  have := hU.pattern h0 h1 T T (Finset.Subset.refl T) e (e.injective.injOn)
  rw [Nat.sub_self, pow_zero, mul_one] at this
  rw [← this]
  refine measureReal_mono (fun ω hω => ?_) (measure_ne_top _ _)
  intro x hx
  have h2 := hω x hx
  simpa [squeezedNeighbors, hx] using h2

-- codes of every size, and simulations of them
example (d : ℕ) (hd : 2 ≤ d) (p : ℝ) (trials : ℕ) : ∃ (Ω : Type) (_ : MeasurableSpace Ω) (μ : Measure Ω) (_ : IsProbabilityMeasure μ)
    (U : ℕ × ℕ → Ω → ℝ) (code : Code) (X : Libs) (errors : Ω → ℤ), UniformIid U μ ∧ IsCode code ∧ (∀ i, code.dims i = d) ∧
    (∀ ω, ∃ err, monteCarlo (ecTrial X code "UF" {} (iidModel code p)) trials 4
      (fun r => ((⟨fun _ => none, fun _ => none, fun _ => none, fun _ => none⟩, fun i => U (r, i) ω), fun _ => none)) =
        some err ∧ errors ω = err 0) := by
  obtain ⟨Ω, i1, μ, i2, U, hU⟩ := uniformIid_exists
  obtain ⟨X, -⟩ := libs_exist .networkx
  obtain ⟨code, hc⟩ := C54_constructor_total idOrder .primal .open (dims := fun _ => d) (by simp [hd]) none
  obtain ⟨hc, hd', -, hb⟩ := hc
  have h : IsCode code := ⟨idOrder, .primal, .open, _, none, by simp [hd], hc⟩
  have hex : ∀ ω, ∃ e : ℤ, ∃ err, monteCarlo (ecTrial X code "UF" {} (iidModel code p)) trials 4
      (fun r => ((⟨fun _ => none, fun _ => none, fun _ => none, fun _ => none⟩, fun i => U (r, i) ω), fun _ => none)) =
        some err ∧ e = err 0 := by
    intro ω
    obtain ⟨err, e, -⟩ := C59_iid h X (Or.inr rfl) (o := {}) rfl p trials (size := 4) (by norm_num)
      (fun r => ((⟨fun _ => none, fun _ => none, fun _ => none, fun _ => none⟩, fun i => U (r, i) ω), fun _ => none))
    exact ⟨_, err, e, rfl⟩
  choose errors herr using hex
  exact ⟨Ω, i1, μ, i2, U, code, X, errors, hU, h, fun i => by rw [hd'], herr⟩

end Flamingpy.Trial
