import Verif.Props.SwapErasure

/-!
# C100: thresholds for swap-outs at fixed noise
-/

namespace Flamingpy.Trial

open Flamingpy Flamingpy.SurfaceCode Flamingpy.UnionFind Flamingpy.Weights Flamingpy.Sim MeasureTheory ProbabilityTheory

/-- Specification: bound on the rate of flips by noise beyond `η`. -/
noncomputable def restRate (delta η : ℝ) : ℝ := 4 * √2 * Real.exp (-η ^ 2 / (34 * delta))

/-- Much noise on some qubits together and squeezed modes near the edges of bins. -/
theorem mix_le_sum {code : Code} (h : IsCode code) (hw : ∀ x y w, PyDict.get? code.graph.edges s(x, y) = some w → w.1 = 1 ∨ w.1 = -1)
    {pts : List V} (hp : pts.Perm (PyDict.keys code.graph.nodes)) {delta κ η s : ℝ} (hd : 0 < delta) (A G : Finset ℕ) {S : Finset V}
    {U : Finset ℕ} (hUA : U ⊆ A) (hU : U ⊆ Finset.range pts.length) (hS : ∀ x ∈ S, x ∈ code.syndrome) :
    (Measure.infinitePi fun _ : ℕ => gaussianReal 0 1).real
      {z | S.card * κ ≤ ∑ x ∈ S, restNoise code pts delta A G z x ^ 2 ∧ ∀ i ∈ U, z i ∈ Gkp.nearEdge s η} ≤
      (4 * √2 * Real.exp (-κ / (34 * delta))) ^ S.card * (gaussianReal 0 1).real (Gkp.nearEdge s η) ^ U.card := by
  classical
  set μ := Measure.infinitePi fun _ : ℕ => gaussianReal 0 1 with hμ
  have hZ : Noise.NormalIid (fun (i : ℕ) (z : ℕ → ℝ) => z i) μ :=
    ⟨fun j => measurable_pi_apply j, iIndepFun_infinitePi (X := fun _ x => x) fun _ => measurable_id, fun j => Measure.infinitePi_map_eval _ j⟩
  set N : V → Finset V := fun x => (neighbors code x).toFinset.filter fun y => pts.idxOf y ∉ A with hN
  have hmem : ∀ x ∈ S, x ∈ pts := fun x hx => hp.mem_iff.2 (h.syndrome_node (hS x hx))
  have hNp : ∀ y ∈ S.biUnion N, y ∈ pts := by
    intro y hy
    obtain ⟨x, -, hy⟩ := Finset.mem_biUnion.1 hy
    have := List.mem_toFinset.1 (Finset.mem_filter.1 hy).1
    unfold neighbors at this
    exact hp.mem_iff.2 (List.mem_filter.1 this).1
  set I₁ := S.image fun x => pts.length + pts.idxOf x with hI₁
  set I₂ := (S.biUnion N).image fun y => pts.idxOf y with hI₂
  have hinj₁ : Set.InjOn (fun x => pts.length + pts.idxOf x) (S : Set V) := fun x hx y hy e =>
    (List.idxOf_inj (hmem x hx)).1 (Nat.add_left_cancel e)
  have hinj₂ : Set.InjOn (fun y => pts.idxOf y) (S.biUnion N : Set V) := fun x hx y hy e => (List.idxOf_inj (hNp x (by simpa using hx))).1 e
  have hdisj : Disjoint I₁ I₂ := by
    rw [Finset.disjoint_left]
    intro i h1 h2
    obtain ⟨x, -, rfl⟩ := Finset.mem_image.1 h1
    obtain ⟨y, hy, e⟩ := Finset.mem_image.1 h2
    have := List.idxOf_lt_length_of_mem (hNp y hy)
    omega
  have hdisjU : Disjoint (I₁ ∪ I₂) U := by
    rw [Finset.disjoint_left]
    intro i h1 h2
    rcases Finset.mem_union.1 h1 with h1 | h1
    · obtain ⟨x, -, rfl⟩ := Finset.mem_image.1 h1
      have := Finset.mem_range.1 (hU h2)
      omega
    · obtain ⟨y, hy, rfl⟩ := Finset.mem_image.1 h1
      obtain ⟨x, -, hy⟩ := Finset.mem_biUnion.1 hy
      exact (Finset.mem_filter.1 hy).2 (hUA h2)
  have hcardx : ∀ x, (N x).card ≤ 4 := fun x => (Finset.card_filter_le _ _).trans (neighbors_card h x)
  have hcardN : (S.biUnion N).card ≤ S.card * 4 := Finset.card_biUnion_le_card_mul _ _ _ fun x _ => hcardx x
  have hcard : (I₁ ∪ I₂).card ≤ 5 * S.card := by
    refine (Finset.card_union_le _ _).trans ?_
    have h1 := Finset.card_image_le (s := S) (f := fun x => pts.length + pts.idxOf x)
    have h2 := Finset.card_image_le (s := S.biUnion N) (f := fun y => pts.idxOf y)
    rw [← hI₁] at h1
    rw [← hI₂] at h2
    omega
  have hdeg : ∀ y, (S.filter fun x => y ∈ N x).card ≤ 4 := by
    intro y
    refine (Finset.card_le_card fun x hx => ?_).trans (neighbors_card h y)
    rw [Finset.mem_filter] at hx
    exact List.mem_toFinset.2 ((mem_neighbors_comm h).1 (List.mem_toFinset.1 (Finset.mem_filter.1 hx.2).1))
  have hP : ∀ i, swapP delta A G i ^ 2 ≤ delta / 2 := fun i => by
    unfold swapP
    split_ifs
    · rw [Real.sq_sqrt (by positivity)]
    · rw [zero_pow two_ne_zero]; positivity
  have hQ : ∀ i, i ∉ A → swapQ delta A G i ^ 2 ≤ delta / 2 := fun i hi => by
    unfold swapQ
    rw [if_neg hi]
    split_ifs
    · rw [Real.sq_sqrt (by positivity)]
    · rw [zero_pow two_ne_zero]; positivity
  set T : ℝ := S.card * (2 * κ / (17 * delta)) with hT
  have hsub : {z : ℕ → ℝ | S.card * κ ≤ ∑ x ∈ S, restNoise code pts delta A G z x ^ 2 ∧ ∀ i ∈ U, z i ∈ Gkp.nearEdge s η} ⊆
      {z | T ≤ ∑ i ∈ I₁ ∪ I₂, z i ^ 2} ∩ ⋂ i ∈ U, {z | z i ∈ Gkp.nearEdge s η} := by
    rintro z ⟨hz, hzU⟩
    refine ⟨?_, by simpa using hzU⟩
    simp only [Set.mem_ofPred_eq] at hz ⊢
    have hq := quad_bound S N (fun x y => (Noise.edgeWeight code x y : ℝ)) (fun x => swapP delta A G (pts.idxOf x) * z (pts.length + pts.idxOf x))
      (fun y => swapQ delta A G (pts.idxOf y) * z (pts.idxOf y)) (fun x _ => hcardx x) (fun x y => by
        rw [Noise.edgeWeight_sq hw]
        split_ifs <;> norm_num) hdeg
    have hl : S.card * κ ≤ ∑ x ∈ S, (swapP delta A G (pts.idxOf x) * z (pts.length + pts.idxOf x) +
        ∑ y ∈ N x, (Noise.edgeWeight code x y : ℝ) * (swapQ delta A G (pts.idxOf y) * z (pts.idxOf y))) ^ 2 := by
      refine hz.trans (Finset.sum_le_sum fun x hx => le_of_eq ?_)
      unfold restNoise
      congr 2
      symm
      refine Finset.sum_subset (fun y hy => Finset.mem_filter.2 ⟨List.mem_toFinset.2 (hNp y (Finset.mem_biUnion.2 ⟨x, hx, hy⟩)), (Finset.mem_filter.1 hy).2⟩)
        fun y hyA hy => ?_
      have : s(x, y) ∉ PyDict.keys code.graph.edges := fun hc => hy (Finset.mem_filter.2 ⟨List.mem_toFinset.2 (by
        unfold neighbors
        rw [List.mem_filter, decide_eq_true_eq]
        exact ⟨(h.ok.1.graphNodes y).2 ((h.ok.1.graphEdges x y).1 hc).2.1, hc⟩), (Finset.mem_filter.1 hyA).2⟩)
      have h0 := Noise.edgeWeight_sq hw x y
      rw [if_neg this] at h0
      rw [pow_eq_zero_iff two_ne_zero |>.1 h0, zero_mul]
    have hu : ∑ i ∈ I₁ ∪ I₂, z i ^ 2 = ∑ x ∈ S, z (pts.length + pts.idxOf x) ^ 2 + ∑ y ∈ S.biUnion N, z (pts.idxOf y) ^ 2 := by
      rw [Finset.sum_union hdisj, hI₁, hI₂, Finset.sum_image hinj₁, Finset.sum_image hinj₂]
    have hs1 : ∑ x ∈ S, (swapP delta A G (pts.idxOf x) * z (pts.length + pts.idxOf x)) ^ 2 ≤ delta / 2 * ∑ x ∈ S, z (pts.length + pts.idxOf x) ^ 2 := by
      rw [Finset.mul_sum]
      refine Finset.sum_le_sum fun x _ => ?_
      rw [mul_pow]
      exact mul_le_mul_of_nonneg_right (hP _) (sq_nonneg _)
    have hs2 : ∑ y ∈ S.biUnion N, (swapQ delta A G (pts.idxOf y) * z (pts.idxOf y)) ^ 2 ≤ delta / 2 * ∑ y ∈ S.biUnion N, z (pts.idxOf y) ^ 2 := by
      rw [Finset.mul_sum]
      refine Finset.sum_le_sum fun y hy => ?_
      obtain ⟨x, hx, hyx⟩ := Finset.mem_biUnion.1 hy
      rw [mul_pow]
      exact mul_le_mul_of_nonneg_right (hQ _ (Finset.mem_filter.1 hyx).2) (sq_nonneg _)
    have h3 := hl.trans hq
    have h17 : (0 : ℝ) < 17 * delta := by positivity
    rw [hT, mul_div_assoc', div_le_iff₀ h17, hu]
    linarith
  refine (measureReal_mono hsub).trans ?_
  -- independence
  have hm1 : MeasurableSet {z : ℕ → ℝ | T ≤ ∑ i ∈ I₁ ∪ I₂, z i ^ 2} := measurableSet_le measurable_const (by fun_prop)
  have hind := hZ.indep.indepFun_finset (I₁ ∪ I₂) U hdisjU hZ.meas
  have hprod : μ ({z : ℕ → ℝ | T ≤ ∑ i ∈ I₁ ∪ I₂, z i ^ 2} ∩ ⋂ i ∈ U, {z | z i ∈ Gkp.nearEdge s η}) =
      μ {z : ℕ → ℝ | T ≤ ∑ i ∈ I₁ ∪ I₂, z i ^ 2} * μ (⋂ i ∈ U, {z : ℕ → ℝ | z i ∈ Gkp.nearEdge s η}) := by
    have := hind.measure_inter_preimage_eq_mul {f | T ≤ ∑ i : (I₁ ∪ I₂ : Finset ℕ), f i ^ 2} {f | ∀ i : U, f i ∈ Gkp.nearEdge s η}
      (measurableSet_le measurable_const (by fun_prop)) (by
        rw [show {f : U → ℝ | ∀ i : U, f i ∈ Gkp.nearEdge s η} = ⋂ i : U, {f | f i ∈ Gkp.nearEdge s η} by ext; simp]
        exact MeasurableSet.iInter fun i => (measurable_pi_apply i) (Gkp.measurable_nearEdge s η))
    convert this using 2
    · congr 1
      · ext z
        simp only [Set.mem_ofPred_eq, Set.mem_preimage]
        rw [Finset.sum_coe_sort (I₁ ∪ I₂) fun i => z i ^ 2]
      · ext z
        simp
    · congr 1
      ext z
      simp only [Set.mem_ofPred_eq, Set.mem_preimage]
      rw [Finset.sum_coe_sort (I₁ ∪ I₂) fun i => z i ^ 2]
    · congr 1
      ext z
      simp
  have hnear : μ (⋂ i ∈ U, {z : ℕ → ℝ | z i ∈ Gkp.nearEdge s η}) = (gaussianReal 0 1 (Gkp.nearEdge s η)) ^ U.card := by
    have := hZ.indep.measure_inter_preimage_eq_mul U (sets := fun _ => Gkp.nearEdge s η) fun i _ => Gkp.measurable_nearEdge s η
    refine this.trans ?_
    rw [← Finset.prod_const]
    refine Finset.prod_congr rfl fun i _ => ?_
    rw [← hZ.normal i, Measure.map_apply (hZ.meas i) (Gkp.measurable_nearEdge s η)]
  unfold Measure.real
  rw [hprod, ENNReal.toReal_mul, hnear, ENNReal.toReal_pow]
  refine mul_le_mul_of_nonneg_right ?_ (by positivity)
  refine (hZ.sq_tail (I₁ ∪ I₂) T).trans ?_
  have h2 : (1 : ℝ) ≤ √2 := Real.one_le_sqrt.2 (by norm_num)
  have e5 : √2 ^ 5 = 4 * √2 := by
    have : √2 ^ 2 = 2 := Real.sq_sqrt (by norm_num)
    calc √2 ^ 5 = (√2 ^ 2) ^ 2 * √2 := by ring
      _ = 4 * √2 := by rw [this]; norm_num
  have h4 : √2 ^ (I₁ ∪ I₂).card ≤ (4 * √2) ^ S.card := by
    rw [← e5, ← pow_mul]
    exact pow_le_pow_right₀ h2 hcard
  refine (mul_le_mul_of_nonneg_left h4 (Real.exp_pos _).le).trans (le_of_eq ?_)
  rw [mul_pow _ (Real.exp _), ← Real.exp_nat_mul, mul_comm, hT]
  congr 2
  field_simp
  ring

/-- Much noise on some qubits and squeezed modes near the edges of bins. -/
theorem mix_le {code : Code} (h : IsCode code) (hw : ∀ x y w, PyDict.get? code.graph.edges s(x, y) = some w → w.1 = 1 ∨ w.1 = -1)
    {pts : List V} (hp : pts.Perm (PyDict.keys code.graph.nodes)) {delta η s : ℝ} (hd : 0 < delta) (hη : 0 ≤ η) (A G : Finset ℕ) {S : Finset V}
    {U : Finset ℕ} (hUA : U ⊆ A) (hU : U ⊆ Finset.range pts.length) (hS : ∀ x ∈ S, x ∈ code.syndrome) :
    (Measure.infinitePi fun _ : ℕ => gaussianReal 0 1).real
      {z | (∀ x ∈ S, η ≤ |restNoise code pts delta A G z x|) ∧ ∀ i ∈ U, z i ∈ Gkp.nearEdge s η} ≤
      restRate delta η ^ S.card * (gaussianReal 0 1).real (Gkp.nearEdge s η) ^ U.card := by
  refine le_trans (measureReal_mono ?_) (mix_le_sum h hw hp (κ := η ^ 2) (s := s) (η := η) hd A G hUA hU hS)
  rintro z ⟨hz, hzU⟩
  refine ⟨?_, hzU⟩
  rw [← nsmul_eq_mul]
  refine Finset.card_nsmul_le_sum _ _ _ fun x hx => ?_
  have hb := pow_le_pow_left₀ hη (hz x hx) 2
  rwa [sq_abs] at hb

/-- A failure of a decoder is a failure on the qubits whose bits differ from those of the positions of the squeezed modes: erased qubits,
qubits with much noise and qubits next to a squeezed mode near the edge of a bin. -/
theorem fails_excess {code : Code} (h : IsCode code)
    (hw : ∀ x y w, PyDict.get? code.graph.edges s(x, y) = some w → w.1 = 1 ∨ w.1 = -1) (X : Libs) {name : String}
    (hn : name = "MWPM" ∨ name = "UF") {o : Opts} (ho : o.method = "uniform") {pts : List V}
    (hpts : pts.Perm (PyDict.keys code.graph.nodes)) {delta η : ℝ} (hη : η ≤ √Real.pi / 2) {A G : Finset ℕ} {z : ℕ → ℝ}
    (hF : Fails X code name o (swapAttrs pts A) (swapFlips code pts delta A G z)) :
    ∃ D, Fails X code name o (swapAttrs pts A) D ∧ ∀ x ∈ D, x ∈ code.syndrome ∧ (x ∈ swapErased code pts A ∨
      η ≤ |restNoise code pts delta A G z x| ∨
      ∃ y ∈ neighbors code x, pts.idxOf y ∈ A ∧ z (pts.idxOf y) ∈ Gkp.nearEdge (1 / √(2 * delta)) η) := by
  classical
  have hm : ∀ i, ∃ m : ℤ, i ∈ A → z i ∉ Gkp.nearEdge (1 / √(2 * delta)) η →
      |swapQ delta A G i * z i - m * √Real.pi| ≤ √Real.pi / 2 - η := by
    intro i
    by_cases hi : i ∈ A ∧ z i ∉ Gkp.nearEdge (1 / √(2 * delta)) η
    · have := hi.2
      unfold Gkp.nearEdge at this
      simp only [Set.mem_ofPred_eq, not_forall, not_lt] at this
      obtain ⟨m, hm⟩ := this
      exact ⟨m, fun _ _ => by rw [swapQ, if_pos hi.1]; exact hm⟩
    · exact ⟨0, fun h1 h2 => absurd ⟨h1, h2⟩ hi⟩
  choose m hm using hm
  set vals : V → Bool := fun y => decide (pts.idxOf y ∈ A ∧ m (pts.idxOf y) % 2 = 1) with hvals
  set B := swapFlips code pts delta A G z with hB
  set D := code.syndrome.toFinset.filter fun x => xor (decide (x ∈ B)) (parity vals (neighbors code x)) = true with hD
  have hv : Valid code name o (swapAttrs pts A) := by
    rcases hn with rfl | rfl
    · exact Or.inl ⟨rfl, Or.inl ho⟩
    · exact Or.inr ⟨rfl, ho⟩
  obtain ⟨b, w, hb⟩ := hF
  obtain ⟨b', b₂', w', ok, h1, h2, -⟩ := C58_class h X hv (fun _ => none) false (fun x => decide (x ∈ B)) vals
    (bits₂ := fun x => decide (x ∈ D)) fun x hx => by
      have : x ∈ D ↔ xor (decide (x ∈ B)) (parity vals (neighbors code x)) = true := by
        rw [hD, Finset.mem_filter]
        simp only [List.mem_toFinset, hx, true_and]
      rw [Bool.eq_iff_iff, decide_eq_true_iff]
      exact this
  rw [hb] at h1
  simp only [Option.some.injEq, Prod.mk.injEq] at h1
  refine ⟨D, ⟨b₂', w', by rw [h2, h1.2.2]⟩, fun x hx => ?_⟩
  obtain ⟨hxs, hxD⟩ := Finset.mem_filter.1 hx
  have hxs := List.mem_toFinset.1 hxs
  refine ⟨hxs, ?_⟩
  by_contra hc
  push Not at hc
  obtain ⟨c1, c2, c3⟩ := hc
  have hsq : squeezedNeighbors code (swapAttrs pts A) x < 2 := by
    by_contra h2
    exact c1 (Finset.mem_filter.2 ⟨List.mem_toFinset.2 hxs, not_lt.1 h2⟩)
  have := swap_bit h hw hpts hη (m := m) (G := G) hxs hsq c2 fun y hy hyA => hm _ hyA (c3 y hy hyA)
  rw [hB, this, ← hvals, Bool.xor_self] at hxD
  cases hxD

/-- Specification: bound on the rate of qubits that are erased, have much noise, or are next to a squeezed mode near the edge of a bin. -/
noncomputable def mixRate (delta η p : ℝ) : ℝ :=
  restRate delta η + 4 * √(√(p * (gaussianReal 0 1).real (Gkp.nearEdge (1 / √(2 * delta)) η))) + 6 * √p

/-- Choices of up to two neighbours. -/
theorem choices_sum {n : Finset ℕ} (hn : n.card ≤ 4) {wt : ℕ → ℝ} (h0 : ∀ k, 0 ≤ wt k) :
    ∑ B ∈ (Finset.range 3).biUnion fun k => n.powersetCard k, wt B.card ≤ wt 0 + 4 * wt 1 + 6 * wt 2 := by
  refine (sum_biUnion_le _ _ _ fun B => h0 _).trans ?_
  have hk : ∀ k, ∑ B ∈ n.powersetCard k, wt B.card = n.card.choose k * wt k := fun k => by
    rw [Finset.sum_congr rfl fun B hB => by rw [(Finset.mem_powersetCard.1 hB).2], Finset.sum_const, Finset.card_powersetCard, nsmul_eq_mul]
  simp only [hk, Finset.sum_range_succ, Finset.sum_range_zero, zero_add]
  have c1 : (n.card.choose 1 : ℝ) ≤ 4 := by rw [Nat.choose_one_right]; exact_mod_cast hn
  have c2 : (n.card.choose 2 : ℝ) ≤ 6 := by exact_mod_cast (Nat.choose_le_choose 2 hn).trans (by decide)
  rw [Nat.choose_zero_right, Nat.cast_one, one_mul]
  have := mul_le_mul_of_nonneg_right c1 (h0 1)
  have := mul_le_mul_of_nonneg_right c2 (h0 2)
  linarith

/-- Failures that need all qubits of a set to be flipped or erased. -/
theorem swapFailure_mix {code : Code} (h : IsCode code) (hw : ∀ x y w, PyDict.get? code.graph.edges s(x, y) = some w → w.1 = 1 ∨ w.1 = -1)
    (X : Libs) {name : String} (hn : name = "MWPM" ∨ name = "UF") {o : Opts} (ho : o.method = "uniform") {pts : List V}
    (hpts : pts.Perm (PyDict.keys code.graph.nodes)) {delta η p g : ℝ} (hd : 0 < delta) (hη0 : 0 ≤ η) (hη : η ≤ √Real.pi / 2)
    (hp : 0 ≤ p) (hg : 0 ≤ g) (hpg : p + g ≤ 1) {𝒮 : Finset (Finset V)} (h𝒮 : ∀ S ∈ 𝒮, ∀ x ∈ S, x ∈ code.syndrome)
    (hfail : ∀ A B, Fails X code name o (swapAttrs pts A) B → ∃ S ∈ 𝒮, ∀ x ∈ S, x ∈ B ∨ x ∈ swapErased code pts A) :
    swapFailure X code pts delta p g name o ≤ ∑ S ∈ 𝒮, mixRate delta η p ^ S.card := by
  classical
  set ν := Measure.infinitePi fun _ : ℕ => gaussianReal 0 1 with hν
  set N := pts.length with hN
  set s := 1 / √(2 * delta) with hs
  set ρ := (gaussianReal 0 1).real (Gkp.nearEdge s η) with hρ
  have hρ0 : 0 ≤ ρ := measureReal_nonneg
  have hρ1 : ρ ≤ 1 := measureReal_le_one
  have hp1 : p ≤ 1 := by linarith
  set r := restRate delta η with hr
  have hr0 : 0 ≤ r := by rw [hr]; unfold restRate; positivity
  set nb : V → Finset ℕ := fun x => (neighbors code x).toFinset.image fun y => pts.idxOf y with hnb
  have hmemp : ∀ x, ∀ y ∈ neighbors code x, y ∈ pts := fun x y hy => by
    unfold neighbors at hy
    exact hpts.mem_iff.2 (List.mem_filter.1 hy).1
  have hnbr : ∀ x, nb x ⊆ Finset.range N := fun x i hi => by
    obtain ⟨y, hy, rfl⟩ := Finset.mem_image.1 hi
    exact Finset.mem_range.2 (List.idxOf_lt_length_of_mem (hmemp x y (List.mem_toFinset.1 hy)))
  have hnb4 : ∀ x, (nb x).card ≤ 4 := fun x => Finset.card_image_le.trans (neighbors_card h x)
  have hdeg : ∀ (S : Finset V) (i : ℕ), (S.filter fun x => i ∈ nb x).card ≤ 4 := fun S i => by
    rcases (S.filter fun x => i ∈ nb x).eq_empty_or_nonempty with he | ⟨x₀, hx₀⟩
    · rw [he]; simp
    · obtain ⟨y₀, hy₀, e₀⟩ := Finset.mem_image.1 (Finset.mem_filter.1 hx₀).2
      refine (Finset.card_le_card fun x hx => ?_).trans (neighbors_card h y₀)
      obtain ⟨y, hy, e⟩ := Finset.mem_image.1 (Finset.mem_filter.1 hx).2
      have hy := List.mem_toFinset.1 hy
      have : y = y₀ := (List.idxOf_inj (hmemp x y hy)).1 (e.trans e₀.symm)
      subst this
      exact List.mem_toFinset.2 ((mem_neighbors_comm h).1 hy)
  have hpair : ∀ {A : Finset ℕ} {x : V}, x ∈ swapErased code pts A → ∃ P ∈ (nb x).powersetCard 2, P ⊆ A := fun {A x} hx => by
    have hx2 := (Finset.mem_filter.1 hx).2
    have hcard : squeezedNeighbors code (swapAttrs pts A) x ≤ (nb x ∩ A).card := by
      unfold squeezedNeighbors
      have hnd : (neighbors code x).Nodup := h.ok.1.nodesNd.filter _
      rw [List.countP_eq_length_filter, ← List.toFinset_card_of_nodup (hnd.filter _)]
      rw [← Finset.card_image_of_injOn (f := fun y => pts.idxOf y)]
      · refine Finset.card_le_card fun i hi => ?_
        obtain ⟨y, hy, rfl⟩ := Finset.mem_image.1 hi
        rw [List.mem_toFinset, List.mem_filter] at hy
        refine Finset.mem_inter.2 ⟨Finset.mem_image_of_mem _ (List.mem_toFinset.2 hy.1), ?_⟩
        simpa [swapAttrs] using hy.2
      · intro y hy y' hy' he
        exact (List.idxOf_inj (hmemp x y (List.mem_filter.1 (List.mem_toFinset.1 hy)).1)).1 he
    obtain ⟨P, hP, hPc⟩ := Finset.exists_subset_card_eq (hx2.trans hcard)
    exact ⟨P, Finset.mem_powersetCard.2 ⟨hP.trans Finset.inter_subset_left, hPc⟩, hP.trans Finset.inter_subset_right⟩
  -- choices of up to two neighbours for every qubit
  set opts : V → Finset (Finset ℕ) := fun x => (Finset.range 3).biUnion fun k => (nb x).powersetCard k with hopts
  have hopt : ∀ {x c}, c ∈ opts x ↔ c ⊆ nb x ∧ c.card < 3 := fun {x c} => by
    simp [hopts, Finset.mem_powersetCard, and_comm]
  set W : (S : Finset V) → ((x : V) → x ∈ S → Finset ℕ) → Finset ℕ := fun S c => S.attach.biUnion fun x => c x.1 x.2 with hW
  set U : (S : Finset V) → ((x : V) → x ∈ S → Finset ℕ) → Finset ℕ :=
    fun S c => (S.attach.filter fun x => (c x.1 x.2).card = 1).biUnion fun x => c x.1 x.2 with hU
  set Z : (S : Finset V) → ((x : V) → x ∈ S → Finset ℕ) → Finset V :=
    fun S c => (S.attach.filter fun x => (c x.1 x.2).card = 0).map ⟨Subtype.val, Subtype.val_injective⟩ with hZ
  have hUW : ∀ S c, U S c ⊆ W S c := fun S c => Finset.biUnion_subset_biUnion_of_subset_left _ (Finset.filter_subset _ _)
  have hWr : ∀ S, ∀ c ∈ S.pi opts, W S c ⊆ Finset.range N := fun S c hc =>
    Finset.biUnion_subset.2 fun x _ => (hopt.1 (Finset.mem_pi.1 hc x.1 x.2)).1.trans (hnbr _)
  have hone : ∀ A G : Finset ℕ, ν.real {z | Fails X code name o (swapAttrs pts A) (swapFlips code pts delta A G z)} ≤
      ∑ S ∈ 𝒮, ∑ c ∈ S.pi opts, if W S c ⊆ A then r ^ (Z S c).card * ρ ^ (U S c).card else 0 := by
    intro A G
    set ev : (S : Finset V) → ((x : V) → x ∈ S → Finset ℕ) → Set (ℕ → ℝ) := fun S c =>
      {z | W S c ⊆ A ∧ (∀ x ∈ Z S c, η ≤ |restNoise code pts delta A G z x|) ∧ ∀ i ∈ U S c, z i ∈ Gkp.nearEdge s η} with hev
    have hsub : {z | Fails X code name o (swapAttrs pts A) (swapFlips code pts delta A G z)} ⊆ ⋃ S ∈ 𝒮, ⋃ c ∈ S.pi opts, ev S c := by
      intro z hz
      obtain ⟨D, hFD, hD⟩ := fails_excess h hw X hn ho hpts hη hz
      obtain ⟨S, hS, hSD⟩ := hfail A D hFD
      have hex : ∀ x ∈ S, ∃ c ∈ opts x, c ⊆ A ∧ (c.card = 0 → η ≤ |restNoise code pts delta A G z x|) ∧
          (c.card = 1 → ∀ i ∈ c, z i ∈ Gkp.nearEdge s η) := by
        intro x hx
        have hcase : x ∈ swapErased code pts A ∨ η ≤ |restNoise code pts delta A G z x| ∨
            ∃ y ∈ neighbors code x, pts.idxOf y ∈ A ∧ z (pts.idxOf y) ∈ Gkp.nearEdge s η := by
          rcases hSD x hx with hxD | hxE
          · exact (hD x hxD).2
          · exact Or.inl hxE
        rcases hcase with hE | hR | ⟨y, hy, hyA, hyz⟩
        · obtain ⟨P, hP, hPA⟩ := hpair hE
          obtain ⟨hP1, hP2⟩ := Finset.mem_powersetCard.1 hP
          exact ⟨P, hopt.2 ⟨hP1, by omega⟩, hPA, fun h0 => by omega, fun h0 => by omega⟩
        · exact ⟨∅, hopt.2 ⟨Finset.empty_subset _, by simp⟩, Finset.empty_subset _, fun _ => hR, fun h0 => by simp at h0⟩
        · refine ⟨{pts.idxOf y}, hopt.2 ⟨?_, by simp⟩, by simpa using hyA, fun h0 => by simp at h0, fun _ i hi => ?_⟩
          · exact Finset.singleton_subset_iff.2 (Finset.mem_image_of_mem _ (List.mem_toFinset.2 hy))
          · rw [Finset.mem_singleton.1 hi]; exact hyz
      choose c hc hcA hc0 hc1 using hex
      simp only [Set.mem_iUnion]
      refine ⟨S, hS, c, Finset.mem_pi.2 fun x hx => hc x hx, Finset.biUnion_subset.2 fun x _ => hcA x.1 x.2, fun x hx => ?_, fun i hi => ?_⟩
      · obtain ⟨x', hx', rfl⟩ := Finset.mem_map.1 hx
        exact hc0 x'.1 x'.2 (Finset.mem_filter.1 hx').2
      · obtain ⟨x, hx, hi⟩ := Finset.mem_biUnion.1 hi
        exact hc1 x.1 x.2 (Finset.mem_filter.1 hx).2 i hi
    refine (measureReal_mono hsub (measure_ne_top _ _)).trans ((measureReal_biUnion_finset_le _ _).trans ?_)
    refine Finset.sum_le_sum fun S hS => (measureReal_biUnion_finset_le _ _).trans (Finset.sum_le_sum fun c hc => ?_)
    split_ifs with hWA
    · refine (measureReal_mono (fun z hz => hz.2) (measure_ne_top _ _)).trans ?_
      exact mix_le h hw hpts hd hη0 A G ((hUW S c).trans hWA) ((hUW S c).trans (hWr S c hc)) fun x hx => by
        obtain ⟨x', -, rfl⟩ := Finset.mem_map.1 hx
        exact h𝒮 S hS x'.1 x'.2
    · have : ev S c = ∅ := by
        ext z
        simp [hev, hWA]
      rw [this, measureReal_empty]
  -- the mean over the squeezed modes
  have hWt : ∀ A G : Finset ℕ, 0 ≤ p ^ A.card * g ^ G.card * (1 - p - g) ^ (N - A.card - G.card) := fun A G => by
    have : 0 ≤ 1 - p - g := by linarith
    positivity
  have hmean : swapFailure X code pts delta p g name o ≤
      ∑ S ∈ 𝒮, ∑ c ∈ S.pi opts, p ^ (W S c).card * (r ^ (Z S c).card * ρ ^ (U S c).card) := by
    unfold swapFailure
    refine (Finset.sum_le_sum fun A _ => Finset.sum_le_sum fun G _ => mul_le_mul_of_nonneg_left (hone A G) (hWt A G)).trans (le_of_eq ?_)
    have e1 : ∀ A ∈ (Finset.range N).powerset, (∑ G ∈ (Finset.range N \ A).powerset, p ^ A.card * g ^ G.card * (1 - p - g) ^ (N - A.card - G.card) *
        ∑ S ∈ 𝒮, ∑ c ∈ S.pi opts, if W S c ⊆ A then r ^ (Z S c).card * ρ ^ (U S c).card else 0) =
        ∑ S ∈ 𝒮, ∑ c ∈ S.pi opts, (if W S c ⊆ A then patternProb p (Finset.range N) A else 0) * (r ^ (Z S c).card * ρ ^ (U S c).card) := by
      intro A hA
      rw [← Finset.sum_mul, gkp_weights p g hA, Finset.mul_sum]
      refine Finset.sum_congr rfl fun S _ => ?_
      rw [Finset.mul_sum]
      refine Finset.sum_congr rfl fun c _ => ?_
      unfold patternProb
      rw [Finset.card_range]
      split_ifs <;> ring
    rw [Finset.sum_congr rfl e1, Finset.sum_comm]
    refine Finset.sum_congr rfl fun S _ => ?_
    rw [Finset.sum_comm]
    refine Finset.sum_congr rfl fun c hc => ?_
    rw [← Finset.sum_mul]
    congr 1
    refine Eq.trans ?_ (hitProb_subset p (hWr S c hc))
    unfold hitProb
    exact Finset.sum_congr rfl fun _ _ => by congr
  refine hmean.trans (Finset.sum_le_sum fun S _ => ?_)
  -- the weights of the choices
  set a := √(√p) with ha
  set b := √(√ρ) with hb
  have ha0 : 0 ≤ a := Real.sqrt_nonneg _
  have hb0 : 0 ≤ b := Real.sqrt_nonneg _
  have ha1 : a ≤ 1 := Real.sqrt_le_one.2 (Real.sqrt_le_one.2 hp1)
  have hb1 : b ≤ 1 := Real.sqrt_le_one.2 (Real.sqrt_le_one.2 hρ1)
  have ha2 : a ^ 2 = √p := Real.sq_sqrt (Real.sqrt_nonneg _)
  have ha4 : a ^ 4 = p := by rw [show a ^ 4 = (a ^ 2) ^ 2 by ring, ha2, Real.sq_sqrt hp]
  have hb4 : b ^ 4 = ρ := by rw [show b ^ 4 = (b ^ 2) ^ 2 by ring, hb, Real.sq_sqrt (Real.sqrt_nonneg _), Real.sq_sqrt hρ0]
  set wt : ℕ → ℝ := fun k => r ^ (if k = 0 then 1 else 0) * (a ^ k * b ^ (if k = 1 then 1 else 0)) with hwt
  have hwt0 : ∀ k, 0 ≤ wt k := fun k => by positivity
  have hdouble : ∀ (c : (x : V) → x ∈ S → Finset ℕ), c ∈ S.pi opts → ∀ T ⊆ S.attach,
      ∑ x ∈ T, (c x.1 x.2).card ≤ 4 * (T.biUnion fun x => c x.1 x.2).card := by
    intro c hc T hT
    have e : ∀ x ∈ T, (c x.1 x.2).card = ∑ i ∈ T.biUnion fun x => c x.1 x.2, if i ∈ c x.1 x.2 then 1 else 0 := by
      intro x hx
      rw [Finset.sum_boole, Nat.cast_id]
      congr 1
      ext i
      rw [Finset.mem_filter]
      exact ⟨fun hi => ⟨Finset.mem_biUnion.2 ⟨x, hx, hi⟩, hi⟩, fun hi => hi.2⟩
    rw [Finset.sum_congr rfl e, Finset.sum_comm, mul_comm, ← smul_eq_mul, ← Finset.sum_const]
    refine Finset.sum_le_sum fun i _ => ?_
    rw [Finset.sum_boole, Nat.cast_id, ← Finset.card_map ⟨Subtype.val, Subtype.val_injective⟩]
    refine (Finset.card_le_card fun x hx => ?_).trans (hdeg S i)
    obtain ⟨y, hy, rfl⟩ := Finset.mem_map.1 hx
    exact Finset.mem_filter.2 ⟨y.2, (hopt.1 (Finset.mem_pi.1 hc y.1 y.2)).1 (Finset.mem_filter.1 hy).2⟩
  have hterm : ∀ c ∈ S.pi opts, p ^ (W S c).card * (r ^ (Z S c).card * ρ ^ (U S c).card) ≤ ∏ x ∈ S.attach, wt (c x.1 x.2).card := by
    intro c hc
    simp only [hwt, Finset.prod_mul_distrib, Finset.prod_pow_eq_pow_sum]
    have z1 : (Z S c).card = ∑ x ∈ S.attach, if (c x.1 x.2).card = 0 then 1 else 0 := by
      rw [hZ, Finset.card_map, Finset.card_filter]
    have w1 : p ^ (W S c).card ≤ a ^ ∑ x ∈ S.attach, (c x.1 x.2).card := by
      rw [← ha4, ← pow_mul]
      exact pow_le_pow_of_le_one ha0 ha1 (hdouble c hc _ (Finset.Subset.refl _))
    have u1 : ρ ^ (U S c).card ≤ b ^ ∑ x ∈ S.attach, if (c x.1 x.2).card = 1 then 1 else 0 := by
      rw [← hb4, ← pow_mul]
      refine pow_le_pow_of_le_one hb0 hb1 (le_trans (le_of_eq ?_) (hdouble c hc _ (Finset.filter_subset _ _)))
      rw [Finset.sum_congr rfl fun x hx => (Finset.mem_filter.1 hx).2, Finset.sum_const, smul_eq_mul, mul_one, Finset.card_filter]
    rw [← z1]
    calc p ^ (W S c).card * (r ^ (Z S c).card * ρ ^ (U S c).card)
        = r ^ (Z S c).card * (p ^ (W S c).card * ρ ^ (U S c).card) := by ring
      _ ≤ _ := mul_le_mul_of_nonneg_left (mul_le_mul w1 u1 (by positivity) (by positivity)) (by positivity)
  refine (Finset.sum_le_sum hterm).trans ?_
  have hmix : mixRate delta η p = wt 0 + 4 * wt 1 + 6 * wt 2 := by
    have : √(√(p * ρ)) = a * b := by rw [Real.sqrt_mul hp, Real.sqrt_mul (Real.sqrt_nonneg _)]
    unfold mixRate
    rw [← hs, ← hρ, this, ← hr, ← ha2]
    simp [hwt]
  have hps := Finset.prod_sum S opts (fun _ B => wt B.card)
  rw [← hps, ← Finset.prod_const]
  exact Finset.prod_le_prod (fun x _ => Finset.sum_nonneg fun B _ => hwt0 _) fun x _ => by
    rw [hmix]
    exact choices_sum (hnb4 x) hwt0

/-! ### The rate -/

/-- Specification: the rate of qubits that are flipped or erased, for small `delta`. -/
noncomputable def swapRate (delta p : ℝ) : ℝ :=
  4 * √2 * Real.exp (-25 / (68 * √delta)) + 4 * √(√(14 * p * √(√delta))) + 6 * √p

theorem mixRate_le {delta p : ℝ} (hd : 0 < delta) (hsmall : delta < 1 / 10 ^ 4) (hp : 0 ≤ p) :
    ∃ η, 0 ≤ η ∧ η ≤ √Real.pi / 2 ∧ mixRate delta η p ≤ swapRate delta p := by
  set r := √(√delta) with hr
  have hr0 : 0 < r := Real.sqrt_pos.2 (Real.sqrt_pos.2 hd)
  have hr2 : √delta = r ^ 2 := (Real.sq_sqrt (Real.sqrt_nonneg _)).symm
  have hr4 : delta = r ^ 4 := by rw [show r ^ 4 = (r ^ 2) ^ 2 by ring, ← hr2, Real.sq_sqrt hd.le]
  have hr1 : r < 1 / 10 := by
    by_contra hc
    have := pow_le_pow_left₀ (by norm_num) (not_lt.1 hc) 4
    rw [← hr4] at this
    norm_num at this hsmall
    linarith
  obtain ⟨K, hKpos, hη, hη2, hK, hb⟩ := swap_numbers hd hr0 hr1 hr2
  refine ⟨_, hη.le, hη2, ?_⟩
  set η := 5 * (√(delta / 2) * (1 / r)) with hηd
  set s := 1 / √(2 * delta) with hs
  have hs0 : 0 < s := by positivity
  have hR : 0 < 1 / r := by positivity
  have hK0 : (0 : ℝ) < K := by exact_mod_cast hKpos
  have hρ : (gaussianReal 0 1).real (Gkp.nearEdge s η) ≤ 14 * r := by
    have hsub : Gkp.nearEdge s η ⊆ {z | 1 / r ≤ |z|} ∪ (Gkp.nearEdge s η ∩ {z | |z| < 1 / r}) := fun z hz => by
      rcases le_or_gt (1 / r) |z| with h1 | h1
      · exact Or.inl h1
      · exact Or.inr ⟨hz, h1⟩
    refine (measureReal_mono hsub (measure_ne_top _ _)).trans ((measureReal_union_le _ _).trans ?_)
    have t := Gkp.gauss_tail hR
    have t2 := Gkp.nearEdge_prob hη hs0 hR.le hK
    rw [mul_comm, ← le_div_iff₀ hK0] at t2
    have e : (2 : ℝ) / (1 / r) ^ 2 = 1 / (1 / r) ^ 2 + 1 / (1 / r) ^ 2 := by ring
    have e2 : 0 < 1 / (1 / r) ^ 2 := by positivity
    linarith
  have hrest : restRate delta η = 4 * √2 * Real.exp (-25 / (68 * √delta)) := by
    unfold restRate
    congr 2
    rw [hηd, mul_pow, mul_pow, Real.sq_sqrt (by positivity), hr2, hr4]
    field_simp
    norm_num
  unfold mixRate swapRate
  rw [hrest, ← hs]
  have h2 : p * (gaussianReal 0 1).real (Gkp.nearEdge s η) ≤ 14 * p * r := by
    have := mul_le_mul_of_nonneg_left hρ hp
    linarith
  have h3 := Real.sqrt_le_sqrt (Real.sqrt_le_sqrt h2)
  linarith

/-- The rate is close to `6√p` for small `delta`. -/
theorem swapRate_limit {p c : ℝ} (hc : 6 * √p < c) : ∃ δ₀, 0 < δ₀ ∧ ∀ delta, 0 < delta → delta < δ₀ → swapRate delta p < c := by
  have hcont : ContinuousAt (fun delta : ℝ => 16 * √delta + 4 * √(√(14 * p * √(√delta))) + 6 * √p) 0 := by fun_prop
  have h0 : 16 * √(0 : ℝ) + 4 * √(√(14 * p * √(√0))) + 6 * √p < c := by simpa using hc
  obtain ⟨δ₀, hδ, hlt⟩ := Metric.eventually_nhds_iff.1 (hcont.eventually (gt_mem_nhds h0))
  refine ⟨δ₀, hδ, fun delta hd hdδ => lt_of_le_of_lt ?_ (hlt (y := delta) (by rw [Real.dist_eq, sub_zero, abs_of_pos hd]; exact hdδ))⟩
  unfold swapRate
  have hs : 0 < √delta := Real.sqrt_pos.2 hd
  have h2 : √2 < 1.47 := by
    rw [Real.sqrt_lt' (by norm_num)]
    norm_num
  have hexp : Real.exp (-25 / (68 * √delta)) ≤ 68 * √delta / 25 := by
    have := Real.add_one_le_exp (25 / (68 * √delta))
    rw [neg_div, Real.exp_neg, inv_le_comm₀ (Real.exp_pos _) (by positivity), inv_div]
    linarith
  have := mul_le_mul h2.le hexp (Real.exp_pos _).le (by norm_num)
  norm_num at this
  linarith

/-! ### MWPM -/

/-- C100.  The failure probability of MWPM with swap-outs decreases exponentially with the size of the code. -/
theorem C100_bound {code : Code} (h : IsCode code) (hw : ∀ x y w, PyDict.get? code.graph.edges s(x, y) = some w → w.1 = 1 ∨ w.1 = -1)
    (X : Libs) {o : Opts} (ho : o.method = "uniform") {pts : List V} (hpts : pts.Perm (PyDict.keys code.graph.nodes)) {delta p g : ℝ} (hd : 0 < delta)
    (hsmall : delta < 1 / 10 ^ 4) (hp : 0 ≤ p) (hg : 0 ≤ g) (hpg : p + g ≤ 1) (hr : swapRate delta p < 1 / 100) {d : ℕ}
    (hdim : ∀ i ∈ planesToCheck code.ec code.boundaries, d ≤ code.dims i) :
    swapFailure X code pts delta p g "MWPM" o ≤
      2 * code.syndrome.length / 5 * ((10 * √(swapRate delta p)) ^ d / (1 - 10 * √(swapRate delta p))) := by
  obtain ⟨η, h0, h1, hmix⟩ := mixRate_le hd hsmall hp
  have hm0 : 0 ≤ mixRate delta η p := by unfold mixRate restRate; positivity
  refine le_trans ?_ (halves_sum h (Real.sqrt_nonneg _) (sqrt_small hr) (Real.sq_sqrt (hm0.trans hmix)).symm d)
  refine (swapFailure_mix h hw X (Or.inl rfl) ho hpts hd h0 h1 hp hg hpg (𝒮 := halves code d)
    (fun S hS x hx => List.mem_toFinset.1 (halves_subset hS hx)) fun A B hF => ?_).trans
    (Finset.sum_le_sum fun S _ => pow_le_pow_left₀ hm0 hmix _)
  obtain ⟨S, hS, hSB⟩ := half_flipped h X ho hdim hF
  exact ⟨S, hS, fun x hx => Or.inl (hSB hx)⟩

/-- C100.  Threshold of MWPM with swap-outs: for every swap-out probability below 1/360000 there is a noise level, which does not depend on
the code, below which large codes fail with a probability as small as desired. -/
theorem C100_threshold {p : ℝ} (h0 : 0 ≤ p) (h1 : p < 1 / 360000) : ∃ δ₀, 0 < δ₀ ∧ ∀ delta, 0 < delta → delta < δ₀ →
    ∀ (m : ℕ) {ε : ℝ}, 0 < ε → ∃ d₀ : ℕ, ∀ d, d₀ ≤ d →
    ∀ code : Code, IsCode code → (∀ x y w, PyDict.get? code.graph.edges s(x, y) = some w → w.1 = 1 ∨ w.1 = -1) →
    (∀ i, d ≤ code.dims i ∧ code.dims i ≤ m * d) → ∀ (X : Libs) (o : Opts) (pts : List V), o.method = "uniform" →
      pts.Perm (PyDict.keys code.graph.nodes) → ∀ g, 0 ≤ g → p + g ≤ 1 → swapFailure X code pts delta p g "MWPM" o < ε := by
  have hq : √p < 1 / 600 := by
    rw [Real.sqrt_lt' (by norm_num)]
    norm_num
    linarith
  obtain ⟨δ₀, hδ, hlt⟩ := swapRate_limit (p := p) (c := 1 / 100) (by linarith)
  refine ⟨min δ₀ (1 / 10 ^ 4), lt_min hδ (by norm_num), fun delta hd hdd m ε hε => ?_⟩
  have hr := hlt delta hd (hdd.trans_le (min_le_left _ _))
  obtain ⟨d₀, hd₀⟩ := rate_limit (Real.sqrt_nonneg _) (sqrt_small hr) m hε
  exact ⟨d₀, fun d hdd' code h hw hdims X o pts ho hpts g hg hpg =>
    (C100_bound h hw X ho hpts hd (hdd.trans_le (min_le_right _ _)) h0 hg hpg hr fun i _ => (hdims i).1).trans_lt (hd₀ d hdd' code h hdims)⟩

/-- C100.  The mean number of errors of simulations of MWPM with a `CVLayer` in the initial sampling order. -/
theorem C100_simulation {p : ℝ} (h0 : 0 ≤ p) (h1 : p < 1 / 360000) : ∃ δ₀, 0 < δ₀ ∧ ∀ delta, 0 < delta → delta < δ₀ → ∀ {ε : ℝ}, 0 < ε →
    ∃ d₀ : ℕ, ∀ d, d₀ ≤ d → ∀ code : Code, IsCode code →
    (∀ x y w, PyDict.get? code.graph.edges s(x, y) = some w → w.1 = 1 ∨ w.1 = -1) → (∀ i, code.dims i = d) →
    ∀ (X : Libs) (o : Opts), o.method = "uniform" → ∀ (pts : List V) (L₀ : Noise.Layer V), Noise.OnCode code pts delta (some p) .initial none L₀ →
    ∀ {Ω : Type} [MeasurableSpace Ω] (μ : Measure Ω) (Z : ℕ × ℕ × ℕ → Ω → ℝ), Noise.NormalIid Z μ →
    ∀ (num : ℕ × ℕ → Ω → ℕ) (choice : ℕ × ℕ → Ω → ℕ → List ℕ), Noise.SwapRng pts.length p num choice μ →
    IndepFun (fun ω j => (num j ω, choice j ω)) (fun ω j => Z j ω) μ →
    ∀ (u : ℕ → ℕ → ℕ → ℝ) (b : ℕ → ℕ → ℕ → ℤ) (trials size : ℕ), 0 < size → ∀ errors : Ω → ℤ,
    (∀ ω, ∃ err, monteCarlo (ecTrial X code "MWPM" o (cvModel code pts)) trials size
      (fun r => ((L₀, fun k => (Noise.squeezedDraw (num (r, k) ω) (choice (r, k) ω), ⟨fun i => Z (r, k, i) ω, u r k, b r k⟩)),
        fun _ => none)) = some err ∧ errors ω = err 0) →
    ∫ ω, (errors ω : ℝ) ∂μ ≤ trials * ε := by
  have hp1 : p ≤ 1 := h1.le.trans (by norm_num)
  obtain ⟨δ₀, hδ, hlt⟩ := C100_threshold h0 h1
  refine ⟨δ₀, hδ, fun delta hd hdδ ε hε => ?_⟩
  obtain ⟨d₀, hd₀⟩ := hlt delta hd hdδ 1 hε
  refine ⟨d₀, fun d hdd code h hw hdims X o ho pts L₀ hL Ω _ μ Z hZ num choice hC hind u b trials size hs errors he => ?_⟩
  have : IsProbabilityMeasure μ := hZ.indep.isProbabilityMeasure
  rw [C68_mean h X hp1 hL hd (Or.inl rfl) ho trials hs hZ hC hind u b errors he]
  refine (Finset.sum_le_card_nsmul _ _ ε fun t _ => ?_).trans (by rw [Finset.card_range, nsmul_eq_mul])
  rw [← Noise.swapGkpProb_closed hp1]
  have hb := swapGkpProb_bounds h0 hp1 (t / size + 1)
  exact (hd₀ d hdd code h hw (fun i => by rw [hdims i, one_mul]; exact ⟨le_rfl, le_rfl⟩) X o pts ho hL.perm _ hb.1 hb.2).le

/-! ### Union-Find -/

/-- C100 for Union-Find. -/
theorem C100_uf_bound {code : Code} (h : IsCode code) (hw : ∀ x y w, PyDict.get? code.graph.edges s(x, y) = some w → w.1 = 1 ∨ w.1 = -1)
    (X : Libs) {o : Opts} (ho : o.method = "uniform") {pts : List V} (hpts : pts.Perm (PyDict.keys code.graph.nodes)) {delta p g : ℝ} (hd : 0 < delta)
    (hsmall : delta < 1 / 10 ^ 4) (hp : 0 ≤ p) (hg : 0 ≤ g) (hpg : p + g ≤ 1)
    {k : ℕ} (hk : ∀ i ∈ planesToCheck code.ec code.boundaries, 2 ^ ((k ^ 2 + 15 * k) / 2 + 1) + 8 ≤ code.dims i) :
    swapFailure X code pts delta p g "UF" o ≤ code.syndrome.length * (2 ^ 65 * swapRate delta p) ^ (2 ^ k) := by
  obtain ⟨η, h0, h1, hmix⟩ := mixRate_le hd hsmall hp
  have hm0 : 0 ≤ mixRate delta η p := by unfold mixRate restRate; positivity
  obtain ⟨𝒯, c1, c2, c3⟩ := C85_sets h X hk
  refine (swapFailure_mix h hw X (Or.inr rfl) ho hpts hd h0 h1 hp hg hpg (fun T hT => (c2 T hT).2) fun A B hF => ?_).trans
    ((Finset.sum_le_sum fun S _ => pow_le_pow_left₀ hm0 hmix _).trans (sets_sum (hm0.trans hmix) c1 fun T hT => (c2 T hT).1))
  obtain ⟨b, w, hb⟩ := hF
  obtain ⟨T, hT, hx⟩ := c3 o _ _ _ _ _ _ ho hb
  refine ⟨T, hT, fun x hxT => (hx x hxT).imp (fun h1 => by simpa using h1) fun h1 => ?_⟩
  exact Finset.mem_filter.2 ⟨List.mem_toFinset.2 ((c2 T hT).2 x hxT), h1⟩

/-- C100.  Threshold of Union-Find with swap-outs. -/
theorem C100_uf_threshold {p : ℝ} (h0 : 0 ≤ p) (h1 : p < (1 / (6 * 2 ^ 65)) ^ 2) : ∃ δ₀, 0 < δ₀ ∧ ∀ delta, 0 < delta → delta < δ₀ →
    ∀ (m : ℕ) {ε : ℝ}, 0 < ε → ∃ d₀ : ℕ, ∀ d, d₀ ≤ d →
    ∀ code : Code, IsCode code → (∀ x y w, PyDict.get? code.graph.edges s(x, y) = some w → w.1 = 1 ∨ w.1 = -1) →
    (∀ i, d ≤ code.dims i ∧ code.dims i ≤ m * d) → ∀ (X : Libs) (o : Opts) (pts : List V), o.method = "uniform" →
      pts.Perm (PyDict.keys code.graph.nodes) → ∀ g, 0 ≤ g → p + g ≤ 1 → swapFailure X code pts delta p g "UF" o < ε := by
  have hq : √p < 1 / (6 * 2 ^ 65) := by
    rw [Real.sqrt_lt' (by norm_num)]
    exact h1
  obtain ⟨δ₀, hδ, hlt⟩ := swapRate_limit (p := p) (c := 1 / 2 ^ 65) (by norm_num at hq ⊢; linarith)
  refine ⟨min δ₀ (1 / 10 ^ 4), lt_min hδ (by norm_num), fun delta hd hdd m ε hε => ?_⟩
  have hr := hlt delta hd (hdd.trans_le (min_le_left _ _))
  obtain ⟨d₀, hd₀⟩ := uf_limit (r := swapRate delta p) (by unfold swapRate; positivity) (by norm_num at hr ⊢; linarith) m hε
  refine ⟨d₀, fun d hdd' code h hw hdims X o pts ho hpts g hg hpg => ?_⟩
  obtain ⟨k, hk, hlt⟩ := hd₀ d hdd' code h hdims
  exact (C100_uf_bound h hw X ho hpts hd (hdd.trans_le (min_le_right _ _)) h0 hg hpg fun i _ => hk.trans (hdims i).1).trans_lt hlt

/-- C100.  The mean number of errors of simulations of Union-Find with a `CVLayer` in the initial sampling order. -/
theorem C100_uf_simulation {p : ℝ} (h0 : 0 ≤ p) (h1 : p < (1 / (6 * 2 ^ 65)) ^ 2) : ∃ δ₀, 0 < δ₀ ∧ ∀ delta, 0 < delta → delta < δ₀ → ∀ {ε : ℝ}, 0 < ε →
    ∃ d₀ : ℕ, ∀ d, d₀ ≤ d → ∀ code : Code, IsCode code →
    (∀ x y w, PyDict.get? code.graph.edges s(x, y) = some w → w.1 = 1 ∨ w.1 = -1) → (∀ i, code.dims i = d) →
    ∀ (X : Libs) (o : Opts), o.method = "uniform" → ∀ (pts : List V) (L₀ : Noise.Layer V), Noise.OnCode code pts delta (some p) .initial none L₀ →
    ∀ {Ω : Type} [MeasurableSpace Ω] (μ : Measure Ω) (Z : ℕ × ℕ × ℕ → Ω → ℝ), Noise.NormalIid Z μ →
    ∀ (num : ℕ × ℕ → Ω → ℕ) (choice : ℕ × ℕ → Ω → ℕ → List ℕ), Noise.SwapRng pts.length p num choice μ →
    IndepFun (fun ω j => (num j ω, choice j ω)) (fun ω j => Z j ω) μ →
    ∀ (u : ℕ → ℕ → ℕ → ℝ) (b : ℕ → ℕ → ℕ → ℤ) (trials size : ℕ), 0 < size → ∀ errors : Ω → ℤ,
    (∀ ω, ∃ err, monteCarlo (ecTrial X code "UF" o (cvModel code pts)) trials size
      (fun r => ((L₀, fun k => (Noise.squeezedDraw (num (r, k) ω) (choice (r, k) ω), ⟨fun i => Z (r, k, i) ω, u r k, b r k⟩)),
        fun _ => none)) = some err ∧ errors ω = err 0) →
    ∫ ω, (errors ω : ℝ) ∂μ ≤ trials * ε := by
  have hp1 : p ≤ 1 := h1.le.trans (pow_le_one₀ (by positivity) (by norm_num))
  obtain ⟨δ₀, hδ, hlt⟩ := C100_uf_threshold h0 h1
  refine ⟨δ₀, hδ, fun delta hd hdδ ε hε => ?_⟩
  obtain ⟨d₀, hd₀⟩ := hlt delta hd hdδ 1 hε
  refine ⟨d₀, fun d hdd code h hw hdims X o ho pts L₀ hL Ω _ μ Z hZ num choice hC hind u b trials size hs errors he => ?_⟩
  have : IsProbabilityMeasure μ := hZ.indep.isProbabilityMeasure
  rw [C68_mean h X hp1 hL hd (Or.inr rfl) ho trials hs hZ hC hind u b errors he]
  refine (Finset.sum_le_card_nsmul _ _ ε fun t _ => ?_).trans (by rw [Finset.card_range, nsmul_eq_mul])
  rw [← Noise.swapGkpProb_closed hp1]
  have hb := swapGkpProb_bounds h0 hp1 (t / size + 1)
  exact (hd₀ d hdd code h hw (fun i => by rw [hdims i, one_mul]; exact ⟨le_rfl, le_rfl⟩) X o pts ho hL.perm _ hb.1 hb.2).le

/-! ### The hypotheses can be met -/

-- codes of every large size with alternating polarity, one mode in a million is squeezed; the noise does not depend on the size
example (X : Libs) : ∃ delta : ℝ, 0 < delta ∧ ∃ d₀ : ℕ, ∀ d, d₀ ≤ d → ∃ (code : Code) (pts : List V), IsCode code ∧ code.dims = (fun _ => d) ∧
    swapFailure X code pts delta (1 / 10 ^ 6) (1 - 1 / 10 ^ 6) "MWPM" {} < 1 / 100 := by
  obtain ⟨δ₀, hδ, hlt⟩ := C100_threshold (p := 1 / 10 ^ 6) (by norm_num) (by norm_num)
  obtain ⟨d₀, hd₀⟩ := hlt (δ₀ / 2) (by linarith) (by linarith) 1 (ε := 1 / 100) (by norm_num)
  refine ⟨δ₀ / 2, by linarith, max d₀ 2, fun d hd => ?_⟩
  have h2 : ∀ _ : Fin 3, 2 ≤ d := fun _ => le_of_max_le_right hd
  obtain ⟨code, hc, hdim, hec, hb⟩ := C54_constructor_total idOrder .primal .open (dims := fun _ => d) h2 (some alternatingPolarity)
  have h : IsCode code := ⟨idOrder, _, _, _, _, h2, hc⟩
  have hpm := Noise.pm_weights h2 hc fun u v => by
    simp only [weightOf, alternatingPolarity]
    split_ifs
    · exact neg_one_pow_eq_or ℤ _
    · exact neg_one_pow_eq_or ℤ _
    · exact neg_one_pow_eq_or ℤ _
    · exact Or.inl rfl
  exact ⟨code, PyDict.keys code.graph.nodes, h, hdim, hd₀ d (le_of_max_le_left hd) code h hpm (by simp [hdim]) X {} _ rfl (List.Perm.refl _) _
    (by norm_num) (by norm_num)⟩

-- the same for Union-Find, with rarer swap-outs
example (X : Libs) : ∃ delta : ℝ, 0 < delta ∧ ∃ d₀ : ℕ, ∀ d, d₀ ≤ d → ∃ (code : Code) (pts : List V), IsCode code ∧ code.dims = (fun _ => d) ∧
    swapFailure X code pts delta (1 / 2 ^ 140) (1 - 1 / 2 ^ 140) "UF" {} < 1 / 100 := by
  obtain ⟨δ₀, hδ, hlt⟩ := C100_uf_threshold (p := 1 / 2 ^ 140) (by norm_num) (by norm_num)
  obtain ⟨d₀, hd₀⟩ := hlt (δ₀ / 2) (by linarith) (by linarith) 1 (ε := 1 / 100) (by norm_num)
  refine ⟨δ₀ / 2, by linarith, max d₀ 2, fun d hd => ?_⟩
  have h2 : ∀ _ : Fin 3, 2 ≤ d := fun _ => le_of_max_le_right hd
  obtain ⟨code, hc, hdim, hec, hb⟩ := C54_constructor_total idOrder .primal .toric (dims := fun _ => d) h2 (some alternatingPolarity)
  have h : IsCode code := ⟨idOrder, _, _, _, _, h2, hc⟩
  have hpm := Noise.pm_weights h2 hc fun u v => by
    simp only [weightOf, alternatingPolarity]
    split_ifs
    · exact neg_one_pow_eq_or ℤ _
    · exact neg_one_pow_eq_or ℤ _
    · exact neg_one_pow_eq_or ℤ _
    · exact Or.inl rfl
  exact ⟨code, PyDict.keys code.graph.nodes, h, hdim, hd₀ d (le_of_max_le_left hd) code h hpm (by simp [hdim]) X {} _ rfl (List.Perm.refl _) _
    (by norm_num) (by norm_num)⟩

end Flamingpy.Trial
