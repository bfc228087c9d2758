import Verif.Proofs.Bernoulli
import Verif.Model.Noise

/-! # Random sets of squeezed modes -/

namespace Flamingpy.Noise

open MeasureTheory ProbabilityTheory Trial

variable {Ω : Type*} [MeasurableSpace Ω] {μ : Measure Ω} [IsProbabilityMeasure μ] {J : Type*}

omit [IsProbabilityMeasure μ] in
theorem indep_real {α β : Type*} [MeasurableSpace α] [MeasurableSpace β] {f : Ω → α} {g : Ω → β} (h : IndepFun f g μ) {s : Set α}
    {t : Set β} (hs : MeasurableSet s) (ht : MeasurableSet t) : μ.real (f ⁻¹' s ∩ g ⁻¹' t) = μ.real (f ⁻¹' s) * μ.real (g ⁻¹' t) := by
  rw [measureReal_def, h.measure_inter_preimage_eq_mul _ _ hs ht, ENNReal.toReal_mul]
  rfl

/-- Lists of indices are discrete values. -/
instance listMeasurableSpace : MeasurableSpace (List ℕ) := ⊤
instance : DiscreteMeasurableSpace (List ℕ) := ⟨fun _ => trivial⟩
/-- Sets of indices are discrete values. -/
instance finsetMeasurableSpace : MeasurableSpace (Finset ℕ) := ⊤
instance : DiscreteMeasurableSpace (Finset ℕ) := ⟨fun _ => trivial⟩

/-- Independent calls (numbered by `J`) of `rng.binomial(N, p)`, with value `num`, and of `rng.choice(range(N), size=k, replace=False)`, with
value `choice k`: the first is a binomial number, the second any arrangement of `k` of the `N` indices with the same probability. -/
structure SwapRng (N : ℕ) (p : ℝ) (num : J → Ω → ℕ) (choice : J → Ω → ℕ → List ℕ) (μ : Measure Ω) : Prop where
  measNum : ∀ j, Measurable (num j)
  measChoice : ∀ j, Measurable (choice j)
  range : ∀ j ω, num j ω ≤ N
  arrangement : ∀ j ω k, k ≤ N → (choice j ω k).Nodup ∧ (choice j ω k).length = k ∧ ∀ i ∈ choice j ω k, i < N
  binomial : ∀ j k, k ≤ N → μ.real {ω | num j ω = k} = N.choose k * p ^ k * (1 - p) ^ (N - k)
  uniform : ∀ j k, k ≤ N → ∀ l : List ℕ, l.Nodup → l.length = k → (∀ i ∈ l, i < N) →
    μ.real {ω | choice j ω k = l} = 1 / N.descFactorial k
  indepPair : ∀ j k, IndepFun (num j) (fun ω => choice j ω k) μ
  indep : iIndepFun (fun j ω => (num j ω, choice j ω)) μ

variable {N : ℕ} {p : ℝ} {num : J → Ω → ℕ} {choice : J → Ω → ℕ → List ℕ}

/-- The set of indices drawn in call `j`. -/
noncomputable def drawSet (num : J → Ω → ℕ) (choice : J → Ω → ℕ → List ℕ) (j : J) (ω : Ω) : Finset ℕ :=
  (squeezedDraw (num j ω) (choice j ω)).toFinset

omit [IsProbabilityMeasure μ] in
theorem SwapRng.subset (h : SwapRng N p num choice μ) (j : J) (ω : Ω) : drawSet num choice j ω ⊆ Finset.range N := by
  intro i hi
  rw [drawSet, List.mem_toFinset] at hi
  exact Finset.mem_range.2 ((h.arrangement j ω _ (h.range j ω)).2.2 i hi)

theorem measurable_squeezedDraw : Measurable fun r : ℕ × (ℕ → List ℕ) => squeezedDraw r.1 r.2 := by
  refine measurable_from_prod_countable_right fun k => ?_
  exact measurable_pi_apply k

omit [IsProbabilityMeasure μ] in
theorem SwapRng.measurable (h : SwapRng N p num choice μ) (j : J) : Measurable (drawSet num choice j) :=
  (measurable_of_countable (List.toFinset (α := ℕ))).comp (measurable_squeezedDraw.comp ((h.measNum j).prodMk (h.measChoice j)))

omit [IsProbabilityMeasure μ] in
theorem SwapRng.indepSets (h : SwapRng N p num choice μ) : iIndepFun (drawSet num choice) μ :=
  h.indep.comp (fun _ r => (squeezedDraw r.1 r.2).toFinset)
    fun _ => (measurable_of_countable (List.toFinset (α := ℕ))).comp measurable_squeezedDraw

/-- Every index is drawn independently with probability `p`. -/
theorem SwapRng.law (h : SwapRng N p num choice μ) (j : J) {A : Finset ℕ} (hA : A ⊆ Finset.range N) :
    μ.real {ω | drawSet num choice j ω = A} = p ^ A.card * (1 - p) ^ (N - A.card) := by
  set k := A.card with hk
  have hkN : k ≤ N := by simpa using Finset.card_le_card hA
  have hset : {ω | drawSet num choice j ω = A} = num j ⁻¹' {k} ∩ (fun ω => choice j ω k) ⁻¹' {l | l.toFinset = A} := by
    ext ω
    simp only [Set.mem_ofPred_eq, Set.mem_inter_iff, Set.mem_preimage, Set.mem_singleton_iff, drawSet, squeezedDraw]
    constructor
    · intro e
      obtain ⟨a1, a2, -⟩ := h.arrangement j ω _ (h.range j ω)
      have : num j ω = k := by rw [hk, ← e, List.toFinset_card_of_nodup a1, a2]
      exact ⟨this, by rw [← this]; exact e⟩
    · rintro ⟨e1, e2⟩
      rw [e1]
      exact e2
  have h2 : μ.real ((fun ω => choice j ω k) ⁻¹' {l | l.toFinset = A}) = k.factorial * (1 / N.descFactorial k) := by
    have hu : (fun ω => choice j ω k) ⁻¹' {l | l.toFinset = A} =
        ⋃ l ∈ A.toList.permutations.toFinset, {ω | choice j ω k = l} := by
      ext ω
      obtain ⟨a1, a2, -⟩ := h.arrangement j ω k hkN
      simp only [Set.mem_preimage, Set.mem_ofPred_eq, Set.mem_iUnion, List.mem_toFinset, List.mem_permutations, exists_prop, exists_eq_right']
      constructor
      · intro e
        refine (List.perm_ext_iff_of_nodup a1 A.nodup_toList).2 fun i => ?_
        rw [Finset.mem_toList, ← e, List.mem_toFinset]
      · intro e
        ext i
        rw [List.mem_toFinset, e.mem_iff, Finset.mem_toList]
    rw [hu, measureReal_biUnion_finset]
    · rw [Finset.sum_congr rfl (g := fun _ => 1 / (N.descFactorial k : ℝ))]
      · rw [Finset.sum_const, List.toFinset_card_of_nodup (List.nodup_permutations _ A.nodup_toList), List.length_permutations,
          Finset.length_toList, nsmul_eq_mul]
      · intro l hl
        rw [List.mem_toFinset, List.mem_permutations] at hl
        refine h.uniform j k hkN l (hl.nodup_iff.2 A.nodup_toList) (by rw [hl.length_eq, Finset.length_toList]) fun i hi => ?_
        exact Finset.mem_range.1 (hA (Finset.mem_toList.1 (hl.mem_iff.1 hi)))
    · intro l _ l' _ hne
      rw [Function.onFun, Set.disjoint_left]
      intro ω e e'
      exact hne (e.symm.trans e')
    · intro l _
      exact ((measurable_pi_apply k).comp (h.measChoice j)) (MeasurableSet.singleton l)
  have h3 := indep_real (h.indepPair j k) (s := {k}) (t := {l | l.toFinset = A})
    (MeasurableSet.singleton k) trivial
  rw [hset, h3, h2]
  have h4 : μ.real (num j ⁻¹' {k}) = _ := h.binomial j k hkN
  rw [h4, Nat.descFactorial_eq_factorial_mul_choose]
  have : (N.choose k : ℝ) ≠ 0 := by exact_mod_cast (Nat.choose_pos hkN).ne'
  have : (k.factorial : ℝ) ≠ 0 := by exact_mod_cast k.factorial_ne_zero
  push_cast
  field_simp

/-- The modes with a GKP state after `n` calls of `populate_states`, if `D k` are the squeezed modes of call `k`: a mode that
had one before is skipped. -/
def swapGkp (N : ℕ) (D : ℕ → Finset ℕ) : ℕ → Finset ℕ
  | 0 => ∅
  | n + 1 => Finset.range N \ (D n ∪ swapGkp N D n)

/-- The probability that a mode has a GKP state after `n` calls. -/
def swapGkpProb (p : ℝ) : ℕ → ℝ
  | 0 => 0
  | n + 1 => (1 - p) * (1 - swapGkpProb p n)

theorem swapGkpProb_closed {p : ℝ} (hp : p ≤ 1) (n : ℕ) : swapGkpProb p n = (1 - p) * (1 - (p - 1) ^ n) / (2 - p) := by
  have : 2 - p ≠ 0 := by linarith
  induction n with
  | zero => simp [swapGkpProb]
  | succ n ih =>
    rw [swapGkpProb, ih, pow_succ]
    field_simp
    ring

/-- The part of a random set inside `S`. -/
theorem sum_part {g : ℝ} {U S C : Finset ℕ} (hS : S ⊆ U) (hC : C ⊆ S) :
    ∑ B ∈ U.powerset with B ∩ S = C, g ^ B.card * (1 - g) ^ (U.card - B.card) = g ^ C.card * (1 - g) ^ (S.card - C.card) := by
  have key : ∑ B ∈ U.powerset with B ∩ S = C, g ^ B.card * (1 - g) ^ (U.card - B.card) =
      ∑ B ∈ (U \ S).powerset, g ^ C.card * (1 - g) ^ (S.card - C.card) * patternProb g (U \ S) B := by
    refine Finset.sum_bij' (fun B _ => B \ S) (fun B _ => C ∪ B) ?_ ?_ ?_ ?_ ?_
    · intro B hB
      rw [Finset.mem_filter, Finset.mem_powerset] at hB
      exact Finset.mem_powerset.2 (Finset.sdiff_subset_sdiff hB.1 subset_rfl)
    · intro B hB
      rw [Finset.mem_powerset] at hB
      rw [Finset.mem_filter, Finset.mem_powerset]
      refine ⟨Finset.union_subset (hC.trans hS) (hB.trans Finset.sdiff_subset), ?_⟩
      ext i
      have := @hB i
      have := @hC i
      simp only [Finset.mem_inter, Finset.mem_union, Finset.mem_sdiff] at *
      tauto
    · intro B hB
      rw [Finset.mem_filter] at hB
      obtain ⟨-, rfl⟩ := hB
      ext i
      simp only [Finset.mem_inter, Finset.mem_union, Finset.mem_sdiff]
      tauto
    · intro B hB
      rw [Finset.mem_powerset] at hB
      ext i
      have := @hB i
      have := @hC i
      simp only [Finset.mem_union, Finset.mem_sdiff] at *
      tauto
    · intro B hB
      rw [Finset.mem_filter, Finset.mem_powerset] at hB
      obtain ⟨h1, rfl⟩ := hB
      have e1 : B.card = (B ∩ S).card + (B \ S).card := (Finset.card_inter_add_card_sdiff B S).symm
      have e2 : (U \ S).card = U.card - S.card := Finset.card_sdiff_of_subset hS
      have e3 := Finset.card_le_card hS
      have e4 := Finset.card_le_card hC
      have e5 : (B \ S).card ≤ (U \ S).card := Finset.card_le_card (Finset.sdiff_subset_sdiff h1 subset_rfl)
      unfold patternProb
      rw [e1, pow_add, show U.card - ((B ∩ S).card + (B \ S).card) = (S.card - (B ∩ S).card) + ((U \ S).card - (B \ S).card) by omega, pow_add]
      ring
  rw [key, ← Finset.mul_sum, sum_patternProb, mul_one]

theorem swapGkp_subset (D : ℕ → Finset ℕ) (n : ℕ) : swapGkp N D n ⊆ Finset.range N := by
  cases n with
  | zero => simp [swapGkp]
  | succ n => exact Finset.sdiff_subset

theorem swapGkp_congr {D D' : ℕ → Finset ℕ} {n : ℕ} (h : ∀ k < n, D k = D' k) : swapGkp N D n = swapGkp N D' n := by
  induction n with
  | zero => rfl
  | succ n ih => rw [swapGkp, swapGkp, h n (by omega), ih fun k hk => h k (by omega)]

variable {D : ℕ → Ω → Finset ℕ}

/-- Independent random sets of indices below `N`, every index with probability `p`. -/
structure Draws (N : ℕ) (p : ℝ) (D : ℕ → Ω → Finset ℕ) (μ : Measure Ω) : Prop where
  meas : ∀ n, Measurable (D n)
  indep : iIndepFun D μ
  subset : ∀ n ω, D n ω ⊆ Finset.range N
  law : ∀ n A, A ⊆ Finset.range N → μ.real {ω | D n ω = A} = p ^ A.card * (1 - p) ^ (N - A.card)

omit [MeasurableSpace Ω] [IsProbabilityMeasure μ] in
/-- The sets of GKP modes are measurable functions of the earlier draws. -/
theorem swapGkp_det (n : ℕ) : ∃ φ : ((i : Finset.range n) → Finset ℕ) → Finset ℕ, Measurable φ ∧
      ∀ d : ℕ → Finset ℕ, swapGkp N d n = φ fun i => d i := by
  refine ⟨fun d => swapGkp N (fun k => if hk : k ∈ Finset.range n then d ⟨k, hk⟩ else ∅) n, measurable_of_countable _, fun d => ?_⟩
  refine swapGkp_congr fun k hk => ?_
  rw [dif_pos (Finset.mem_range.2 hk)]

theorem Draws.indepGkp (h : Draws N p D μ) (n : ℕ) : IndepFun (D n) (fun ω => swapGkp N (fun k => D k ω) n) μ := by
  obtain ⟨φ, h1, h2⟩ := swapGkp_det (N := N) n
  have := h.indep.indepFun_finset {n} (Finset.range n) (by simp) h.meas
  have := this.comp (φ := fun d : (i : ({n} : Finset ℕ)) → Finset ℕ => d ⟨n, by simp⟩) (ψ := φ)
    (measurable_of_countable _) h1
  simp_rw [h2]
  exact this

omit [IsProbabilityMeasure μ] in
theorem Draws.measGkp (h : Draws N p D μ) (n : ℕ) : Measurable fun ω => swapGkp N (fun k => D k ω) n := by
  obtain ⟨φ, h1, h2⟩ := swapGkp_det (N := N) n
  simp_rw [h2]
  exact h1.comp (measurable_pi_lambda _ fun i => h.meas i)

omit [IsProbabilityMeasure μ] in
/-- The part inside `S` of a random set. -/
theorem part_law [IsFiniteMeasure μ] {X : Ω → Finset ℕ} {g : ℝ} (hm : Measurable X) (hs : ∀ ω, X ω ⊆ Finset.range N)
    (hl : ∀ A, A ⊆ Finset.range N → μ.real {ω | X ω = A} = g ^ A.card * (1 - g) ^ (N - A.card)) {S C : Finset ℕ}
    (hS : S ⊆ Finset.range N) (hC : C ⊆ S) :
    μ.real (X ⁻¹' {B | B ∩ S = C}) = g ^ C.card * (1 - g) ^ (S.card - C.card) := by
  rw [← sum_part (U := Finset.range N) hS hC]
  have hu : X ⁻¹' {B | B ∩ S = C} = ⋃ B ∈ (Finset.range N).powerset.filter fun B => B ∩ S = C, {ω | X ω = B} := by
    ext ω
    simp only [Set.mem_preimage, Set.mem_ofPred_eq, Set.mem_iUnion, Finset.mem_filter, Finset.mem_powerset, exists_prop, exists_eq_right']
    exact ⟨fun e => ⟨hs ω, e⟩, fun e => e.2⟩
  rw [hu, measureReal_biUnion_finset]
  · refine Finset.sum_congr rfl fun B hB => ?_
    rw [hl B (Finset.mem_powerset.1 (Finset.mem_filter.1 hB).1), Finset.card_range]
  · intro l _ l' _ hne
    rw [Function.onFun, Set.disjoint_left]
    intro ω e e'
    exact hne (e.symm.trans e')
  · intro B _
    exact hm (MeasurableSet.singleton B)

theorem Draws.step (h : Draws N p D μ) (n : ℕ) (ih : ∀ B, B ⊆ Finset.range N → μ.real {ω | swapGkp N (fun k => D k ω) n = B} =
      swapGkpProb p n ^ B.card * (1 - swapGkpProb p n) ^ (N - B.card)) {A G : Finset ℕ} (hA : A ⊆ Finset.range N) (hG : G ⊆ Finset.range N)
    (hd : Disjoint A G) : μ.real {ω | D n ω = A ∧ swapGkp N (fun k => D k ω) (n + 1) = G} =
        p ^ A.card * swapGkpProb p (n + 1) ^ G.card * (1 - p - swapGkpProb p (n + 1)) ^ (N - A.card - G.card) := by
  set S := Finset.range N \ A with hS
  have hGS : G ⊆ S := fun i hi => Finset.mem_sdiff.2 ⟨hG hi, fun ha => Finset.disjoint_left.1 hd ha hi⟩
  have hcS : S.card = N - A.card := by rw [hS, Finset.card_sdiff_of_subset hA, Finset.card_range]
  have e1 : {ω | D n ω = A ∧ swapGkp N (fun k => D k ω) (n + 1) = G} =
      D n ⁻¹' {A} ∩ (fun ω => swapGkp N (fun k => D k ω) n) ⁻¹' {B | B ∩ S = S \ G} := by
    ext ω
    simp only [Set.mem_ofPred_eq, Set.mem_inter_iff, Set.mem_preimage, Set.mem_singleton_iff]
    refine and_congr_right fun e => ?_
    rw [swapGkp, e]
    constructor
    · rintro rfl
      ext i
      simp only [hS, Finset.mem_inter, Finset.mem_union, Finset.mem_sdiff]
      tauto
    · intro h
      ext i
      have h1 := Finset.ext_iff.1 h i
      have h2 := @hGS i
      simp only [hS, Finset.mem_inter, Finset.mem_union, Finset.mem_sdiff] at h1 h2 ⊢
      tauto
  have e2 := part_law (h.measGkp n) (fun ω => swapGkp_subset (fun k => D k ω) n) ih (S := S) (C := S \ G) Finset.sdiff_subset
    Finset.sdiff_subset
  have e3 : μ.real (D n ⁻¹' {A}) = _ := h.law n A hA
  rw [e1, indep_real (h.indepGkp n) (MeasurableSet.singleton A) trivial, e2, e3, swapGkpProb,
    Finset.card_sdiff_of_subset hGS, hcS]
  have hc : G.card ≤ N - A.card := hcS ▸ Finset.card_le_card hGS
  have h1 : N - A.card - (N - A.card - G.card) = G.card := by omega
  have h2 : (1 - p) ^ (N - A.card) = (1 - p) ^ G.card * (1 - p) ^ (N - A.card - G.card) := by
    rw [← pow_add]; congr 1; omega
  rw [h1, h2, show 1 - p - (1 - p) * (1 - swapGkpProb p n) = (1 - p) * swapGkpProb p n by ring, mul_pow, mul_pow]
  ring

/-- The law of the GKP modes alone. -/
theorem Draws.gkpLaw (h : Draws N p D μ) (n : ℕ) : ∀ B, B ⊆ Finset.range N → μ.real {ω | swapGkp N (fun k => D k ω) n = B} =
      swapGkpProb p n ^ B.card * (1 - swapGkpProb p n) ^ (N - B.card) := by
  induction n with
  | zero =>
    intro B _
    simp only [swapGkp, swapGkpProb, sub_zero, one_pow, mul_one]
    rcases B.eq_empty_or_nonempty with rfl | hB
    · simp
    · have : {ω : Ω | ∅ = B} = ∅ := by
        ext ω; simp only [Set.mem_ofPred_eq, Set.mem_empty_iff_false, iff_false]; exact hB.ne_empty.symm
      rw [this, measureReal_empty, zero_pow (Finset.card_pos.2 hB).ne']
  | succ n ih =>
    intro B hB
    set S := Finset.range N \ B with hS
    have hcS : S.card = N - B.card := by rw [hS, Finset.card_sdiff_of_subset hB, Finset.card_range]
    have hu : {ω | swapGkp N (fun k => D k ω) (n + 1) = B} =
        ⋃ A ∈ S.powerset, {ω | D n ω = A ∧ swapGkp N (fun k => D k ω) (n + 1) = B} := by
      ext ω
      simp only [Set.mem_ofPred_eq, Set.mem_iUnion, Finset.mem_powerset, exists_prop]
      constructor
      · intro e
        refine ⟨D n ω, fun i hi => Finset.mem_sdiff.2 ⟨h.subset n ω hi, fun hb => ?_⟩, rfl, e⟩
        rw [← e, swapGkp, Finset.mem_sdiff] at hb
        exact hb.2 (Finset.mem_union_left _ hi)
      · rintro ⟨A, -, -, e⟩
        exact e
    rw [hu, measureReal_biUnion_finset]
    · rw [Finset.sum_congr rfl (g := fun A => swapGkpProb p (n + 1) ^ B.card *
        (p ^ A.card * (1 - p - swapGkpProb p (n + 1)) ^ (S.card - A.card)))]
      · rw [← Finset.mul_sum, Finset.sum_pow_mul_eq_add_pow, hcS]
        congr 2
        ring
      · intro A hA
        rw [Finset.mem_powerset] at hA
        rw [h.step n ih (hA.trans Finset.sdiff_subset) hB (Finset.disjoint_left.2 fun i ha hb => (Finset.mem_sdiff.1 (hA ha)).2 hb),
          hcS, show N - A.card - B.card = N - B.card - A.card by omega]
        ring
    · intro A _ A' _ hne
      rw [Function.onFun, Set.disjoint_left]
      intro ω e e'
      exact hne (e.1.symm.trans e'.1)
    · intro A _
      exact (h.meas n (MeasurableSet.singleton A)).inter (h.measGkp (n + 1) (MeasurableSet.singleton B))

/-- The pattern of squeezed and GKP modes after `n + 1` calls: the modes are independent. -/
theorem Draws.pattern (h : Draws N p D μ) (n : ℕ) {A G : Finset ℕ} (hA : A ⊆ Finset.range N) (hG : G ⊆ Finset.range N)
    (hd : Disjoint A G) : μ.real {ω | D n ω = A ∧ swapGkp N (fun k => D k ω) (n + 1) = G} =
        p ^ A.card * swapGkpProb p (n + 1) ^ G.card * (1 - p - swapGkpProb p (n + 1)) ^ (N - A.card - G.card) :=
  h.step n (h.gkpLaw n) hA hG hd

/-- The squeezed modes of a call with swap-out probability `p`, if `S` would be drawn. -/
noncomputable def modeSet (p : ℝ) (N : ℕ) (S : Finset ℕ) : Finset ℕ := if p = 0 then ∅ else if p = 1 then Finset.range N else S

theorem SwapRng.draws {num : ℕ → Ω → ℕ} {choice : ℕ → Ω → ℕ → List ℕ} (h : SwapRng N p num choice μ) :
    Draws N p (fun k ω => modeSet p N (drawSet num choice k ω)) μ := by
  refine ⟨fun n => (measurable_of_countable (modeSet p N)).comp (h.measurable n),
    h.indepSets.comp (fun _ => modeSet p N) fun _ => measurable_of_countable _, fun n ω => ?_, fun n A hA => ?_⟩
  · unfold modeSet
    split_ifs
    · simp
    · rfl
    · exact h.subset n ω
  · have hc : A.card ≤ N := by simpa using Finset.card_le_card hA
    unfold modeSet
    split_ifs with h0 h1
    · subst h0
      rcases A.eq_empty_or_nonempty with rfl | hne
      · simp
      · have : {ω : Ω | ∅ = A} = ∅ := by
          ext ω; simp only [Set.mem_ofPred_eq, Set.mem_empty_iff_false, iff_false]; exact hne.ne_empty.symm
        rw [this, measureReal_empty, zero_pow (Finset.card_pos.2 hne).ne', zero_mul]
    · subst h1
      by_cases he : A = Finset.range N
      · subst he
        simp
      · have : {ω : Ω | Finset.range N = A} = ∅ := by
          ext ω; simp only [Set.mem_ofPred_eq, Set.mem_empty_iff_false, iff_false]; exact fun e => he e.symm
        have hlt : A.card < N := by
          refine lt_of_le_of_ne hc fun e => he (Finset.eq_of_subset_of_card_le hA (by rw [e]; simp))
        rw [this, measureReal_empty, sub_self, zero_pow (by omega), mul_zero]
    · exact h.law n hA

end Flamingpy.Noise
