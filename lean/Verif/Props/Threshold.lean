import Verif.Proofs.TrailSum
import Verif.Props.ErrorRate
import Mathlib.Analysis.SpecificLimits.Normed

/-!
# C76: below a threshold, larger codes fail less often

For the minimum weight decoder with unit weights.  A correction fails only if at least half the qubits of some long chain
of qubits are flipped (`C76_trail`); counting the chains bounds the failure probability (`C76_bound`), and if every qubit is
flipped with a probability below 1/100, the failure probability goes to zero as the code grows (`C76_threshold`).
-/

namespace Flamingpy.Trial

open Flamingpy Flamingpy.SurfaceCode Flamingpy.UnionFind Flamingpy.Weights Flamingpy.Sim MeasureTheory ProbabilityTheory Filter

theorem run_chain {code : Code} : ∀ (L : List V) (x : V) (N : Finset ℕ), N ⊆ stabsOf code x → Trails.Run (stabsOf code) N L →
    (x :: L).IsChain fun y z => ∃ st ∈ code.stabs, y ∈ st ∧ z ∈ st
  | [], x, N, _, _ => List.isChain_singleton x
  | y :: L, x, N, hN, ⟨s, hs, hsy, hr⟩ => by
    refine List.IsChain.cons_cons ?_ (run_chain L y _ (Finset.erase_subset _ _) hr)
    have h1 := mem_stabsOf.1 (hN hs)
    have h2 := mem_stabsOf.1 hsy
    have hk : s < code.stabs.length := by
      by_contra hc
      rw [List.getD_eq_default _ _ (by omega)] at h1
      simp at h1
    rw [List.getD_eq_getElem _ _ hk] at h1 h2
    exact ⟨_, List.getElem_mem hk, h1, h2⟩

/-- C76.  If the minimum weight decoder with unit weights makes a logical error, there is a chain of distinct syndrome qubits, consecutive
ones in a common stabilizer, which is at least as long as the code in a checked direction and of which at least half the qubits were
flipped. -/
theorem C76_trail {code : Code} (h : IsCode code) (X : Libs) {o : Opts} (ho : o.method = "uniform") (a : Weights.Attrs)
    (weights : V → Option ℝ) (flipped : V → Bool) {bits' : V → Bool} {w : V → Option ℝ}
    (hf : correctAll X code "MWPM" o a weights false flipped = some (bits', w, false)) :
    ∃ L : List V, L.Nodup ∧ (∀ x ∈ L, x ∈ code.syndrome) ∧ (L.IsChain fun x y => ∃ st ∈ code.stabs, x ∈ st ∧ y ∈ st) ∧
      (∃ i ∈ planesToCheck code.ec code.boundaries, code.dims i ≤ L.length) ∧ L.length ≤ 2 * L.countP flipped := by
  have hF := (verdict_iff' h X (Or.inl rfl) ho (a' := a) (fun _ _ => rfl) (S := code.syndrome.toFinset.filter fun x => flipped x = true)
    (fun x hx => by
      rw [Bool.eq_iff_iff, decide_eq_true_eq, Finset.mem_filter, List.mem_toFinset]
      exact ⟨fun e => ⟨hx, e⟩, fun e => e.2⟩) hf).1 rfl
  obtain ⟨x, s, L, hs, hn, hm, hr, hi, h2⟩ := heavy_trail h X ho hF
  refine ⟨x :: L, hn, hm, run_chain L x {s} (by simpa using hs) hr, hi, h2.trans (Nat.mul_le_mul_left _ ?_)⟩
  rw [List.countP_eq_length_filter, ← List.toFinset_card_of_nodup (hn.filter _)]
  refine Finset.card_le_card fun y hy => ?_
  rw [Finset.mem_inter, Finset.mem_filter, List.mem_toFinset] at hy
  rw [List.mem_toFinset, List.mem_filter]
  exact ⟨hy.1, hy.2.2⟩

/-- The number of syndrome qubits of a code. -/
theorem syndrome_length {code : Code} (h : IsCode code) {D : ℕ} (hD : ∀ i, code.dims i ≤ D) : code.syndrome.length ≤ (2 * D + 1) ^ 3 := by
  rw [← List.toFinset_card_of_nodup h.ok.1.syndromeNd]
  have hsub : code.syndrome.toFinset ⊆ Fintype.piFinset fun _ => Finset.Icc (0 : ℤ) (2 * D) := by
    intro x hx
    rw [List.mem_toFinset, h.ok.1.syndrome, mem_qubits] at hx
    rw [Fintype.mem_piFinset]
    intro i
    have h1 := mem_ax.2 (hx.1 i)
    unfold ax at h1
    rw [Finset.mem_filter, Finset.mem_Icc] at h1
    rw [Finset.mem_Icc]
    have := hD i
    omega
  refine (Finset.card_le_card hsub).trans (le_of_eq ?_)
  rw [Fintype.card_piFinset]
  simp
  norm_cast

/-- C76.  The failure probability decreases exponentially with the size of the code if every qubit is flipped with a probability below 1/100. -/
theorem C76_bound {code : Code} (h : IsCode code) (X : Libs) {o : Opts} (ho : o.method = "uniform") (a : Weights.Attrs) {p : ℝ} (h0 : 0 ≤ p)
    (h1 : p < 1 / 100) {d : ℕ} (hd : ∀ i ∈ planesToCheck code.ec code.boundaries, d ≤ code.dims i) :
    failureRate X code "MWPM" o a p ≤ 2 * code.syndrome.length / 5 * ((10 * √p) ^ d / (1 - 10 * √p)) := by
  have hs : 10 * √p < 1 := by
    have : √p < 1 / 10 := by
      rw [Real.sqrt_lt' (by norm_num)]
      norm_num at h1 ⊢
      exact h1
    linarith
  rw [failureRate_eq]
  refine (hitProb_union h0 (by linarith) _ (fun S hS => halves_subset hS) fun B hB => half_flipped h X ho hd hB).trans ?_
  exact halves_sum h (Real.sqrt_nonneg p) hs (Real.sq_sqrt h0).symm d

/-- The bound goes to zero. -/
theorem rate_limit {r : ℝ} (hr0 : 0 ≤ r) (hs : 10 * r < 1) (m : ℕ) {ε : ℝ} (hε : 0 < ε) : ∃ d₀ : ℕ, ∀ d, d₀ ≤ d → ∀ code : Code, IsCode code →
    (∀ i, d ≤ code.dims i ∧ code.dims i ≤ m * d) → 2 * code.syndrome.length / 5 * ((10 * r) ^ d / (1 - 10 * r)) < ε := by
  have hs0 : 0 ≤ 10 * r := by positivity
  have hlim := (tendsto_pow_const_mul_const_pow_of_lt_one 3 hs0 hs).const_mul (2 * (2 * (m : ℝ) + 1) ^ 3 / 5 / (1 - 10 * r))
  rw [mul_zero] at hlim
  obtain ⟨d₀, hd₀⟩ := eventually_atTop.1 (hlim.eventually (gt_mem_nhds hε))
  refine ⟨max d₀ 1, fun d hd code h hdims => ?_⟩
  refine lt_of_le_of_lt ?_ (hd₀ d (le_of_max_le_left hd))
  have hd1 : 1 ≤ d := le_of_max_le_right hd
  have hn : (code.syndrome.length : ℝ) ≤ ((2 * m + 1) * d) ^ 3 := by
    have h3 := syndrome_length h fun i => (hdims i).2
    have h4 : (2 * (m * d) + 1) ^ 3 ≤ ((2 * m + 1) * d) ^ 3 := Nat.pow_le_pow_left (by rw [Nat.add_mul]; nlinarith) 3
    exact_mod_cast h3.trans h4
  have hpos : 0 < 1 - 10 * r := by linarith
  calc 2 * (code.syndrome.length : ℝ) / 5 * ((10 * r) ^ d / (1 - 10 * r))
      ≤ 2 * (((2 * m + 1) * d) ^ 3) / 5 * ((10 * r) ^ d / (1 - 10 * r)) := by
        refine mul_le_mul_of_nonneg_right ?_ (by positivity)
        linarith
    _ = _ := by rw [mul_pow]; ring

theorem sqrt_small {p : ℝ} (h1 : p < 1 / 100) : 10 * √p < 1 := by
  have : √p < 1 / 10 := by
    rw [Real.sqrt_lt' (by norm_num)]
    norm_num at h1 ⊢
    exact h1
  linarith

/-- C76.  Threshold: if every qubit is flipped with a probability below 1/100, independently, the failure probability of codes whose sizes are
between `d` and `m * d` goes to zero as `d` grows. -/
theorem C76_threshold {p : ℝ} (h0 : 0 ≤ p) (h1 : p < 1 / 100) (m : ℕ) {ε : ℝ} (hε : 0 < ε) : ∃ d₀ : ℕ, ∀ d, d₀ ≤ d → ∀ code : Code, IsCode code →
    (∀ i, d ≤ code.dims i ∧ code.dims i ≤ m * d) → ∀ (X : Libs) (o : Opts) (a : Weights.Attrs), o.method = "uniform" →
      failureRate X code "MWPM" o a p < ε := by
  obtain ⟨d₀, hd₀⟩ := rate_limit (Real.sqrt_nonneg p) (sqrt_small h1) m hε
  exact ⟨d₀, fun d hd code h hdims X o a ho => (C76_bound h X ho a h0 h1 fun i _ => (hdims i).1).trans_lt (hd₀ d hd code h hdims)⟩

/-- C76.  The error rate of a simulation: for codes of size at least `d₀`, any number of trials and ranks, the expected number of errors
divided by the number of trials is below `ε`. -/
theorem C76_simulation {p : ℝ} (h0 : 0 ≤ p) (h1 : p < 1 / 100) {ε : ℝ} (hε : 0 < ε) : ∃ d₀ : ℕ, ∀ d, d₀ ≤ d → ∀ code : Code, IsCode code →
    (∀ i, code.dims i = d) → ∀ (X : Libs) (o : Opts), o.method = "uniform" →
      ∀ {Ω : Type} [MeasurableSpace Ω] (μ : Measure Ω) [IsProbabilityMeasure μ] (U : ℕ × ℕ → Ω → ℝ), UniformIid U μ →
      ∀ (A : Noise.Attrs V) (w : V → Option ℝ) (trials size : ℕ), 0 < size → ∀ errors : Ω → ℤ,
      (∀ ω, ∃ err, monteCarlo (ecTrial X code "MWPM" o (iidModel code p)) trials size (fun r => ((A, fun i => U (r, i) ω), w)) = some err ∧
        errors ω = err 0) → ∫ ω, (errors ω : ℝ) ∂μ ≤ trials * ε := by
  obtain ⟨d₀, hd₀⟩ := C76_threshold h0 h1 1 hε
  refine ⟨d₀, fun d hd code h hdims X o ho Ω _ μ _ U hU A w trials size hs errors he => ?_⟩
  rw [C61_mean h X (Or.inl rfl) ho h0 (by linarith) hU A w trials hs errors he]
  refine mul_le_mul_of_nonneg_left (hd₀ d hd code h (fun i => ?_) X o _ ho).le (by positivity)
  rw [hdims i, one_mul]
  exact ⟨le_rfl, le_rfl⟩

/-- C76.  If every qubit is flipped with probability 1/2, both decoders fail in at least half of the cases, whatever the size of the code and
the weight options: a threshold cannot be larger than 1/2. -/
theorem C76_half {code : Code} (h : IsCode code) (X : Libs) {name : String} {o : Opts} {a : Weights.Attrs} (hv : Valid code name o a) :
    1 / 2 ≤ failureRate X code name o a (1 / 2) := by
  classical
  obtain ⟨i, hi⟩ : ∃ i, i ∈ planesToCheck code.ec code.boundaries := by
    cases hb : code.boundaries <;> cases he : code.ec <;> simp [planesToCheck]
  obtain ⟨L, hL1, hL2, hL3⟩ := C33_exists h hi
  set syn := code.syndrome.toFinset with hsyn
  set LS := syn.filter fun x => L x = true with hLS
  have hLsub : LS ⊆ syn := Finset.filter_subset _ _
  have hst : ∀ s ∈ code.stabs, ∀ x ∈ s, x ∈ code.syndrome := fun s hs x hx => ((C25_only_syndrome h).2.1 s hs).2 x hx
  have hor : ∀ B : Finset V, Fails X code name o a B ∨ Fails X code name o a (symmDiff B LS) := by
    intro B
    have hxor : ∀ x ∈ code.syndrome, xor (decide (x ∈ B)) (decide (x ∈ symmDiff B LS)) = L x := by
      intro x hx
      have hxL : x ∈ LS ↔ L x = true := by simp [hLS, hsyn, hx]
      have hm : x ∈ symmDiff B LS ↔ (x ∈ B ∧ ¬ L x = true) ∨ (L x = true ∧ x ∉ B) := by rw [Finset.mem_symmDiff, hxL]
      by_cases h1 : x ∈ B <;> cases h2 : L x <;> simp [h1, h2, hm]
    obtain ⟨b1, b2, w, ok1, ok2, e1, e2, e3⟩ := C58_logical h X hv (fun _ => none) false (fun x => decide (x ∈ B))
      (fun x => decide (x ∈ symmDiff B LS)) (fun s hs => by
        rw [← hL1 s hs]
        unfold parity
        congr 1
        exact List.map_congr_left fun x hx => hxor x (hst s hs x hx)) (fun ⟨vals, hvals⟩ => by
        have := ((C57_verdict h L false).2 ⟨vals, fun x hx => by rw [← hxor x hx]; exact hvals x hx⟩).2
        rw [hL2 false] at this
        simp at this)
    cases ok1 with
    | false => exact Or.inl ⟨b1, w, e1⟩
    | true =>
      have hok2 : ok2 = false := by cases ok2 <;> simp_all
      subst hok2
      exact Or.inr ⟨b2, w, e2⟩
  have hpat : ∀ B ∈ syn.powerset, patternProb (1 / 2 : ℝ) syn B = (1 / 2) ^ syn.card := by
    intro B hB
    have := Finset.card_le_card (Finset.mem_powerset.1 hB)
    unfold patternProb
    rw [show (1 - 1 / 2 : ℝ) = 1 / 2 by norm_num, ← pow_add]
    congr 1
    omega
  have hswap : failureRate X code name o a (1 / 2) =
      ∑ B ∈ syn.powerset, if Fails X code name o a (symmDiff B LS) then patternProb (1 / 2 : ℝ) syn B else 0 := by
    have hmap : ∀ B ∈ syn.powerset, symmDiff B LS ∈ syn.powerset := by
      intro B hB
      rw [Finset.mem_powerset] at hB ⊢
      intro x hx
      rcases Finset.mem_symmDiff.1 hx with ⟨h1, -⟩ | ⟨h1, -⟩
      · exact hB h1
      · exact hLsub h1
    rw [failureRate_eq]
    unfold hitProb
    refine Finset.sum_nbij' (fun B => symmDiff B LS) (fun B => symmDiff B LS) hmap hmap (fun B _ => symmDiff_symmDiff_cancel_right LS B)
      (fun B _ => symmDiff_symmDiff_cancel_right LS B) fun B hB => ?_
    rw [symmDiff_symmDiff_cancel_right, hpat _ hB, hpat _ (hmap B hB)]
  have h2 : (1 : ℝ) ≤ failureRate X code name o a (1 / 2) + failureRate X code name o a (1 / 2) := by
    nth_rewrite 2 [hswap]
    rw [failureRate_eq, ← hsyn, hitProb, ← Finset.sum_add_distrib]
    refine (sum_patternProb (1 / 2 : ℝ) syn).symm.le.trans ?_
    refine Finset.sum_le_sum fun B hB => ?_
    have hn := patternProb_nonneg (p := (1 / 2 : ℝ)) (by norm_num) (by norm_num) syn B
    rcases hor B with hB | hB
    · rw [if_pos hB]
      split_ifs <;> linarith
    · rw [if_pos hB]
      split_ifs <;> linarith
  linarith

/-! ### The hypotheses can be met -/

-- there are codes of every size, and simulations of them
example (d : ℕ) (hd : 2 ≤ d) (p : ℝ) (trials : ℕ) : ∃ (Ω : Type) (_ : MeasurableSpace Ω) (μ : Measure Ω) (_ : IsProbabilityMeasure μ)
    (U : ℕ × ℕ → Ω → ℝ) (code : Code) (X : Libs) (errors : Ω → ℤ), UniformIid U μ ∧ IsCode code ∧ (∀ i, code.dims i = d) ∧
    (∀ ω, ∃ err, monteCarlo (ecTrial X code "MWPM" {} (iidModel code p)) trials 4
      (fun r => ((⟨fun _ => none, fun _ => none, fun _ => none, fun _ => none⟩, fun i => U (r, i) ω), fun _ => none)) =
        some err ∧ errors ω = err 0) := by
  obtain ⟨Ω, i1, μ, i2, U, hU⟩ := uniformIid_exists
  obtain ⟨X, -⟩ := libs_exist .networkx
  obtain ⟨code, hc⟩ := C54_constructor_total idOrder .primal .open (dims := fun _ => d) (by simp [hd]) none
  obtain ⟨hc, hd', -, hb⟩ := hc
  have h : IsCode code := ⟨idOrder, .primal, .open, _, none, by simp [hd], hc⟩
  have hex : ∀ ω, ∃ e : ℤ, ∃ err, monteCarlo (ecTrial X code "MWPM" {} (iidModel code p)) trials 4
      (fun r => ((⟨fun _ => none, fun _ => none, fun _ => none, fun _ => none⟩, fun i => U (r, i) ω), fun _ => none)) =
        some err ∧ e = err 0 := by
    intro ω
    obtain ⟨err, e, -⟩ := C59_iid h X (Or.inl rfl) (o := {}) rfl p trials (size := 4) (by norm_num)
      (fun r => ((⟨fun _ => none, fun _ => none, fun _ => none, fun _ => none⟩, fun i => U (r, i) ω), fun _ => none))
    exact ⟨_, err, e, rfl⟩
  choose errors herr using hex
  exact ⟨Ω, i1, μ, i2, U, code, X, errors, hU, h, fun i => by rw [hd'], herr⟩

-- with p = 1 / 900 the bound is 3/5 n / 3 ^ d
example {code : Code} (h : IsCode code) (X : Libs) (a : Weights.Attrs) (d : ℕ) (hd : ∀ i, code.dims i = d) :
    failureRate X code "MWPM" {} a (1 / 900) ≤ 3 / 5 * code.syndrome.length / 3 ^ d := by
  have := C76_bound h X (o := {}) rfl a (p := 1 / 900) (by norm_num) (by norm_num) (d := d) fun i _ => (hd i).ge
  have e : √(1 / 900 : ℝ) = 1 / 30 := by
    rw [show (1 / 900 : ℝ) = (1 / 30) ^ 2 by norm_num, Real.sqrt_sq (by norm_num)]
  rw [e] at this
  refine this.trans (le_of_eq ?_)
  rw [show (10 * (1 / 30) : ℝ) = 1 / 3 by norm_num, one_div_pow]
  ring


end Flamingpy.Trial
