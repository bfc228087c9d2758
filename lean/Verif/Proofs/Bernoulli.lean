import Mathlib.Probability.Independence.InfinitePi
import Mathlib.Algebra.BigOperators.Ring.Finset
import Mathlib.MeasureTheory.Measure.Lebesgue.Basic

/-! # Independent uniform numbers and counts of independent events -/

namespace Flamingpy.Trial

open MeasureTheory ProbabilityTheory

variable {Ω : Type*} [MeasurableSpace Ω] {μ : Measure Ω} [IsProbabilityMeasure μ] {J : Type*} {U : J → Ω → ℝ}

/-- The numbers `U j` are independent and uniform on [0, 1). -/
structure UniformIid (U : J → Ω → ℝ) (μ : Measure Ω) : Prop where
  meas : ∀ j, Measurable (U j)
  indep : iIndepFun U μ
  unif : ∀ j, μ.map (U j) = volume.restrict (Set.Ico 0 1)

omit [IsProbabilityMeasure μ] in
theorem UniformIid.prob_lt (hU : UniformIid U μ) {p : ℝ} (h0 : 0 ≤ p) (h1 : p ≤ 1) (j : J) :
    μ (U j ⁻¹' Set.Iio p) = ENNReal.ofReal p ∧ μ (U j ⁻¹' Set.Ici p) = ENNReal.ofReal (1 - p) := by
  constructor
  · rw [← Measure.map_apply (hU.meas j) measurableSet_Iio, hU.unif, Measure.restrict_apply measurableSet_Iio]
    have : Set.Iio p ∩ Set.Ico 0 1 = Set.Ico 0 p := by
      ext x; simp only [Set.mem_inter_iff, Set.mem_Iio, Set.mem_Ico]; constructor <;> intro h <;> refine ⟨?_, ?_⟩ <;> grind
    rw [this, Real.volume_Ico, sub_zero]
  · rw [← Measure.map_apply (hU.meas j) measurableSet_Ici, hU.unif, Measure.restrict_apply measurableSet_Ici]
    have : Set.Ici p ∩ Set.Ico 0 1 = Set.Ico p 1 := by
      ext x; simp only [Set.mem_inter_iff, Set.mem_Ici, Set.mem_Ico]; constructor <;> intro h <;> refine ⟨?_, ?_⟩ <;> grind
    rw [this, Real.volume_Ico]

variable {ι : Type*} [DecidableEq ι]

omit [IsProbabilityMeasure μ] [DecidableEq ι] in
theorem UniformIid.measurable_pattern (hU : UniformIid U μ) (p : ℝ) (S A : Finset ι) (j : ι → J) :
    MeasurableSet {ω | ∀ i ∈ S, U (j i) ω < p ↔ i ∈ A} := by
  have : {ω | ∀ i ∈ S, U (j i) ω < p ↔ i ∈ A} = ⋂ i ∈ S, {ω | U (j i) ω < p ↔ i ∈ A} := by
    ext ω; simp
  rw [this]
  refine Finset.measurableSet_biInter S fun i _ => ?_
  by_cases hi : i ∈ A
  · simp only [hi, iff_true]; exact hU.meas (j i) measurableSet_Iio
  · simp only [hi, iff_false, not_lt]; exact hU.meas (j i) measurableSet_Ici

omit [IsProbabilityMeasure μ] in
/-- The probability that exactly the numbers in `A` are small. -/
theorem UniformIid.pattern (hU : UniformIid U μ) {p : ℝ} (h0 : 0 ≤ p) (h1 : p ≤ 1) (S A : Finset ι) (hA : A ⊆ S)
    (j : ι → J) (hj : Set.InjOn j S) :
    μ.real {ω | ∀ i ∈ S, U (j i) ω < p ↔ i ∈ A} = p ^ A.card * (1 - p) ^ (S.card - A.card) := by
  have hind : iIndepFun (fun i : S => U (j i)) μ := hU.indep.precomp (g := fun i : S => j i) (fun a b hab =>
    Subtype.ext (hj a.2 b.2 hab))
  have hset : {ω | ∀ i ∈ S, U (j i) ω < p ↔ i ∈ A} =
      ⋂ i ∈ (Finset.univ : Finset S), (fun i : S => U (j i)) i ⁻¹' (if i.1 ∈ A then Set.Iio p else Set.Ici p) := by
    ext ω
    simp only [Set.mem_ofPred_eq, Finset.mem_univ, Set.iInter_true, Set.mem_iInter, Set.mem_preimage, Subtype.forall]
    refine forall₂_congr fun i hi => ?_
    by_cases h : i ∈ A <;> simp [h]
  rw [Measure.real, hset, hind.measure_inter_preimage_eq_mul _ (fun i _ => by split_ifs <;> measurability)]
  rw [ENNReal.toReal_prod]
  have : ∀ i : S, (μ ((fun i : S => U (j i)) i ⁻¹' (if i.1 ∈ A then Set.Iio p else Set.Ici p))).toReal =
      (fun i => if i ∈ A then p else 1 - p) i.1 := by
    intro i
    by_cases h : i.1 ∈ A
    · simp only [h, if_true]; rw [(hU.prob_lt h0 h1 _).1, ENNReal.toReal_ofReal h0]
    · simp only [h, if_false]; rw [(hU.prob_lt h0 h1 _).2, ENNReal.toReal_ofReal (by linarith)]
  rw [Finset.prod_congr rfl fun i _ => this i, Finset.prod_coe_sort S fun i => if i ∈ A then p else 1 - p,
    Finset.prod_ite, Finset.prod_const, Finset.prod_const, Finset.filter_mem_eq_inter, Finset.inter_eq_right.2 hA,
    Finset.filter_notMem_eq_sdiff, Finset.card_sdiff_of_subset hA]

variable {V : Type*} [DecidableEq V]

/-- The probability that exactly the elements of `B` are hit, each of `syn` with probability `p`. -/
def patternProb (p : ℝ) (syn B : Finset V) : ℝ := p ^ B.card * (1 - p) ^ (syn.card - B.card)

open Classical in
/-- The probability that the set of hit elements has property `F`. -/
noncomputable def hitProb (p : ℝ) (syn : Finset V) (F : Finset V → Prop) : ℝ :=
  ∑ B ∈ syn.powerset, if F B then patternProb p syn B else 0

theorem sum_patternProb (p : ℝ) (syn : Finset V) : ∑ B ∈ syn.powerset, patternProb p syn B = 1 := by
  have := Finset.sum_pow_mul_eq_add_pow p (1 - p) syn
  simpa [patternProb] using this

theorem hitProb_compl (p : ℝ) (syn : Finset V) (F : Finset V → Prop) :
    hitProb p syn (fun B => ¬ F B) = 1 - hitProb p syn F := by
  rw [eq_sub_iff_add_eq, ← sum_patternProb p syn]
  unfold hitProb
  rw [← Finset.sum_add_distrib]
  refine Finset.sum_congr rfl fun B _ => ?_
  by_cases h : F B <;> simp [h]

variable {n : ℕ}

open Classical in
omit [IsProbabilityMeasure μ] in
/-- The joint law of the sets hit in `n` trials. -/
theorem UniformIid.trials (hU : UniformIid U μ) {p : ℝ} (h0 : 0 ≤ p) (h1 : p ≤ 1) (syn : Finset V)
    (j : Fin n × V → J) (hj : Set.InjOn j {x | x.2 ∈ syn}) (B : Fin n → Finset V) (hB : ∀ t, B t ⊆ syn) :
    MeasurableSet {ω | ∀ t, (syn.filter fun x => U (j (t, x)) ω < p) = B t} ∧
    μ.real {ω | ∀ t, (syn.filter fun x => U (j (t, x)) ω < p) = B t} = ∏ t, patternProb p syn (B t) := by
  set A : Finset (Fin n × V) := Finset.univ.biUnion fun t => (B t).image fun x => (t, x) with hAdef
  have hmem : ∀ t x, (t, x) ∈ A ↔ x ∈ B t := by
    intro t x
    simp [hAdef]
  have hset : {ω | ∀ t, (syn.filter fun x => U (j (t, x)) ω < p) = B t} =
      {ω | ∀ i ∈ (Finset.univ : Finset (Fin n)) ×ˢ syn, U (j i) ω < p ↔ i ∈ A} := by
    ext ω
    simp only [Set.mem_ofPred_eq, Finset.mem_product, Finset.mem_univ, true_and, Prod.forall, hmem]
    constructor
    · intro h t x hx
      rw [← h t, Finset.mem_filter]
      simp [hx]
    · intro h t
      ext x
      rw [Finset.mem_filter]
      constructor
      · rintro ⟨hx, hp⟩; exact (h t x hx).1 hp
      · intro hx; exact ⟨hB t hx, (h t x (hB t hx)).2 hx⟩
  rw [hset]
  refine ⟨hU.measurable_pattern p _ _ _, ?_⟩
  have hAsub : A ⊆ (Finset.univ : Finset (Fin n)) ×ˢ syn := by
    rintro ⟨t, x⟩ h
    rw [hmem] at h
    simp [hB t h]
  rw [hU.pattern h0 h1 _ A hAsub j (fun a ha b hb => hj (by simpa using ha) (by simpa using hb))]
  have hcard : A.card = ∑ t, (B t).card := by
    rw [hAdef, Finset.card_biUnion]
    · refine Finset.sum_congr rfl fun t _ => Finset.card_image_of_injective _ fun a b h => by simpa using h
    · intro t _ t' _ hne
      rw [Function.onFun, Finset.disjoint_left]
      rintro ⟨s, x⟩ h h'
      simp only [Finset.mem_image, Prod.mk.injEq] at h h'
      obtain ⟨_, _, rfl, _⟩ := h
      obtain ⟨_, _, rfl, _⟩ := h'
      exact hne rfl
  have hcard' : ((Finset.univ : Finset (Fin n)) ×ˢ syn).card - A.card = ∑ t, (syn.card - (B t).card) := by
    have : ∑ t, (syn.card - (B t).card) + ∑ t, (B t).card = ∑ _t : Fin n, syn.card := by
      rw [← Finset.sum_add_distrib]
      exact Finset.sum_congr rfl fun t _ => Nat.sub_add_cancel (Finset.card_le_card (hB t))
    rw [Finset.card_product, hcard, Finset.card_univ]
    rw [Finset.sum_const, Finset.card_univ, smul_eq_mul] at this
    omega
  unfold patternProb
  rw [Finset.prod_mul_distrib, Finset.prod_pow_eq_pow_sum, Finset.prod_pow_eq_pow_sum, hcard', hcard]

open Classical in
/-- The number of trials in which the set of hit elements has property `F` has a binomial distribution. -/
theorem UniformIid.binomial (hU : UniformIid U μ) {p : ℝ} (h0 : 0 ≤ p) (h1 : p ≤ 1) (syn : Finset V)
    (j : Fin n × V → J) (hj : Set.InjOn j {x | x.2 ∈ syn}) (F : Finset V → Prop) (k : ℕ) :
    MeasurableSet {ω | (Finset.univ.filter fun t : Fin n => F (syn.filter fun x => U (j (t, x)) ω < p)).card = k} ∧
    μ.real {ω | (Finset.univ.filter fun t : Fin n => F (syn.filter fun x => U (j (t, x)) ω < p)).card = k} =
      n.choose k * hitProb p syn F ^ k * (1 - hitProb p syn F) ^ (n - k) := by
  set I := (Fintype.piFinset fun _ : Fin n => syn.powerset).filter fun B => (Finset.univ.filter fun t => F (B t)).card = k
    with hI
  have hset : {ω | (Finset.univ.filter fun t : Fin n => F (syn.filter fun x => U (j (t, x)) ω < p)).card = k} =
      ⋃ B ∈ I, {ω | ∀ t, (syn.filter fun x => U (j (t, x)) ω < p) = B t} := by
    ext ω
    simp only [Set.mem_ofPred_eq, Set.mem_iUnion, exists_prop]
    constructor
    · intro h
      refine ⟨fun t => syn.filter fun x => U (j (t, x)) ω < p, ?_, fun _ => rfl⟩
      rw [hI, Finset.mem_filter, Fintype.mem_piFinset]
      exact ⟨fun t => Finset.mem_powerset.2 (Finset.filter_subset _ _), h⟩
    · rintro ⟨B, hB, h⟩
      rw [hI, Finset.mem_filter] at hB
      rw [← hB.2]
      congr 1
      refine Finset.filter_congr fun t _ => ?_
      rw [h t]
  have hsub : ∀ B ∈ I, ∀ t, B t ⊆ syn := by
    intro B hB t
    rw [hI, Finset.mem_filter, Fintype.mem_piFinset] at hB
    exact Finset.mem_powerset.1 (hB.1 t)
  have hmeas : ∀ B ∈ I, MeasurableSet {ω | ∀ t, (syn.filter fun x => U (j (t, x)) ω < p) = B t} := fun B hB =>
    (hU.trials h0 h1 syn j hj B (hsub B hB)).1
  rw [hset]
  refine ⟨Finset.measurableSet_biUnion I hmeas, ?_⟩
  rw [measureReal_biUnion_finset (fun B _ C _ hne => ?_) hmeas]
  · rw [Finset.sum_congr rfl fun B hB => (hU.trials h0 h1 syn j hj B (hsub B hB)).2]
    -- sum over the sets of failing trials
    have hsplit : ∀ T : Finset (Fin n), ∑ B ∈ (Fintype.piFinset fun _ : Fin n => syn.powerset).filter
        (fun B => (Finset.univ.filter fun t => F (B t)) = T), ∏ t, patternProb p syn (B t) =
        hitProb p syn F ^ T.card * (1 - hitProb p syn F) ^ (n - T.card) := by
      intro T
      rw [Finset.sum_filter]
      have : ∀ B : Fin n → Finset V, (if (Finset.univ.filter fun t => F (B t)) = T then ∏ t, patternProb p syn (B t) else 0) =
          ∏ t, if (F (B t) ↔ t ∈ T) then patternProb p syn (B t) else 0 := by
        intro B
        by_cases h : (Finset.univ.filter fun t => F (B t)) = T
        · rw [if_pos h]
          refine Finset.prod_congr rfl fun t _ => ?_
          rw [if_pos]
          rw [← h]
          simp
        · rw [if_neg h, eq_comm, Finset.prod_eq_zero_iff]
          by_contra hc
          push Not at hc
          apply h
          ext t
          have := hc t (Finset.mem_univ t)
          by_contra hn
          apply this
          rw [if_neg]
          simpa using hn
      rw [Finset.sum_congr rfl fun B _ => this B, ← Finset.prod_univ_sum (fun _ : Fin n => syn.powerset)
        fun t B => if (F B ↔ t ∈ T) then patternProb p syn B else 0]
      have h2 : ∀ t : Fin n, ∑ B ∈ syn.powerset, (if (F B ↔ t ∈ T) then patternProb p syn B else 0) =
          if t ∈ T then hitProb p syn F else 1 - hitProb p syn F := by
        intro t
        by_cases ht : t ∈ T
        · simp only [ht, iff_true, if_true]; rfl
        · simp only [ht, iff_false, if_false]; rw [← hitProb_compl p syn F]; unfold hitProb; congr!
      rw [Finset.prod_congr rfl fun t _ => h2 t, Finset.prod_ite, Finset.prod_const, Finset.prod_const]
      have e1 : (Finset.univ.filter fun t => t ∈ T) = T := by ext; simp
      have e2 : (Finset.univ.filter fun t => t ∉ T).card = n - T.card := by
        have : (Finset.univ.filter fun t => t ∉ T) = Tᶜ := by ext; simp
        rw [this, Finset.card_compl, Fintype.card_fin]
      rw [e1, e2]
    have hI2 : I = (Finset.powersetCard k (Finset.univ : Finset (Fin n))).biUnion fun T =>
        (Fintype.piFinset fun _ : Fin n => syn.powerset).filter fun B => (Finset.univ.filter fun t => F (B t)) = T := by
      ext B
      simp only [hI, Finset.mem_filter, Finset.mem_biUnion, Finset.mem_powersetCard]
      constructor
      · rintro ⟨h1, h2⟩; exact ⟨_, ⟨Finset.subset_univ _, h2⟩, h1, rfl⟩
      · rintro ⟨T, ⟨-, h2⟩, h1, rfl⟩; exact ⟨h1, h2⟩
    rw [hI2, Finset.sum_biUnion]
    · rw [Finset.sum_congr rfl fun T hT => by rw [hsplit T, (Finset.mem_powersetCard.1 hT).2]]
      rw [Finset.sum_const, Finset.card_powersetCard, Finset.card_univ, Fintype.card_fin, nsmul_eq_mul, mul_assoc]
    · intro T _ T' _ hne
      rw [Function.onFun, Finset.disjoint_left]
      intro B h1 h2
      rw [Finset.mem_filter] at h1 h2
      exact hne (h1.2.symm.trans h2.2)
  · rw [Function.onFun, Set.disjoint_left]
    intro ω h1 h2
    exact hne (funext fun t => (h1 t).symm.trans (h2 t))

omit [DecidableEq V] in
theorem patternProb_nonneg {p : ℝ} (h0 : 0 ≤ p) (h1 : p ≤ 1) (syn B : Finset V) : 0 ≤ patternProb p syn B :=
  mul_nonneg (pow_nonneg h0 _) (pow_nonneg (by linarith) _)

theorem hitProb_mono {p : ℝ} (h0 : 0 ≤ p) (h1 : p ≤ 1) (syn : Finset V) {F G : Finset V → Prop}
    (h : ∀ B ⊆ syn, F B → G B) : hitProb p syn F ≤ hitProb p syn G := by
  unfold hitProb
  refine Finset.sum_le_sum fun B hB => ?_
  have := h B (Finset.mem_powerset.1 hB)
  have hn := patternProb_nonneg h0 h1 syn B
  by_cases hF : F B
  · rw [if_pos hF, if_pos (this hF)]
  · rw [if_neg hF]; split_ifs <;> simp [hn]

theorem hitProb_nonneg {p : ℝ} (h0 : 0 ≤ p) (h1 : p ≤ 1) (syn : Finset V) (F : Finset V → Prop) :
    0 ≤ hitProb p syn F := by
  refine Finset.sum_nonneg fun B _ => ?_
  have hn := patternProb_nonneg h0 h1 syn B
  split_ifs <;> simp [hn]

open Classical in
/-- The probability of at least `m` hits is a sum of binomial terms. -/
theorem hitProb_card (p : ℝ) (syn : Finset V) (m : ℕ) :
    hitProb p syn (fun B => m ≤ B.card) =
      ∑ k ∈ Finset.Icc m syn.card, syn.card.choose k * p ^ k * (1 - p) ^ (syn.card - k) := by
  unfold hitProb patternProb
  have := Finset.sum_powerset_apply_card (x := syn) (fun k => if m ≤ k then p ^ k * (1 - p) ^ (syn.card - k) else 0)
  refine (Finset.sum_congr rfl fun B _ => ?_).trans (this.trans ?_)
  · by_cases h : m ≤ B.card <;> simp [h]
  simp only [nsmul_eq_mul, mul_ite, mul_zero]
  rw [← Finset.sum_filter]
  refine Finset.sum_congr ?_ fun k _ => by ring
  ext k
  simp only [Finset.mem_filter, Finset.mem_range, Finset.mem_Icc]
  omega

open Classical in
omit [IsProbabilityMeasure μ] in
/-- The probability that the set hit in one trial has property `F`. -/
theorem UniformIid.single [IsProbabilityMeasure μ] (hU : UniformIid U μ) {p : ℝ} (h0 : 0 ≤ p) (h1 : p ≤ 1) (syn : Finset V)
    (j : V → J) (hj : Set.InjOn j syn) (F : Finset V → Prop) :
    MeasurableSet {ω | F (syn.filter fun x => U (j x) ω < p)} ∧
    μ.real {ω | F (syn.filter fun x => U (j x) ω < p)} = hitProb p syn F := by
  have h := hU.binomial (n := 1) h0 h1 syn (fun x => j x.2) (by
    rintro ⟨t, x⟩ hx ⟨t', x'⟩ hx' e
    rw [Prod.mk.injEq]
    exact ⟨Subsingleton.elim _ _, hj hx hx' e⟩) F 1
  have hset : {ω | (Finset.univ.filter fun _ : Fin 1 => F (syn.filter fun x => U (j x) ω < p)).card = 1} =
      {ω | F (syn.filter fun x => U (j x) ω < p)} := by
    ext ω
    simp only [Set.mem_ofPred_eq]
    by_cases hF : F (syn.filter fun x => U (j x) ω < p) <;> simp [hF]
  simp only at h
  rw [hset] at h
  refine ⟨h.1, ?_⟩
  rw [h.2]
  simp

open Classical in
/-- The probability of at least `m` hits is at most the expected number of hit subsets of size `m`. -/
theorem hitProb_tail_le {p : ℝ} (h0 : 0 ≤ p) (h1 : p ≤ 1) (syn : Finset V) (m : ℕ) :
    hitProb p syn (fun B => m ≤ B.card) ≤ syn.card.choose m * p ^ m := by
  have hT : ∀ T ∈ Finset.powersetCard m syn, ∑ B ∈ syn.powerset, (if T ⊆ B then patternProb p syn B else 0) = p ^ m := by
    intro T hT
    obtain ⟨hTs, hTc⟩ := Finset.mem_powersetCard.1 hT
    rw [← Finset.sum_filter]
    have : ∑ B ∈ syn.powerset.filter (fun B => T ⊆ B), patternProb p syn B =
        ∑ C ∈ (syn \ T).powerset, p ^ m * patternProb p (syn \ T) C := by
      refine Finset.sum_nbij' (fun B => B \ T) (fun C => T ∪ C) ?_ ?_ ?_ ?_ ?_
      · intro B hB
        simp only [Finset.mem_filter, Finset.mem_powerset] at hB ⊢
        exact Finset.sdiff_subset_sdiff hB.1 le_rfl
      · intro C hC
        simp only [Finset.mem_filter, Finset.mem_powerset] at hC ⊢
        exact ⟨Finset.union_subset hTs (hC.trans Finset.sdiff_subset), Finset.subset_union_left⟩
      · intro B hB
        simp only [Finset.mem_filter, Finset.mem_powerset] at hB
        exact Finset.union_sdiff_of_subset hB.2
      · intro C hC
        simp only [Finset.mem_powerset] at hC
        have : Disjoint T C := Finset.disjoint_left.2 fun x hx hc => (Finset.mem_sdiff.1 (hC hc)).2 hx
        exact Finset.union_sdiff_cancel_left this
      · intro B hB
        simp only [Finset.mem_filter, Finset.mem_powerset] at hB
        unfold patternProb
        have c1 := Finset.card_le_card hB.2
        have c2 := Finset.card_le_card hB.1
        have c3 := Finset.card_le_card hTs
        rw [Finset.card_sdiff_of_subset hB.2, Finset.card_sdiff_of_subset hTs, hTc, ← mul_assoc, ← pow_add]
        rw [hTc] at c1 c3
        congr 2 <;> omega
    rw [this, ← Finset.mul_sum, sum_patternProb, mul_one]
  calc hitProb p syn (fun B => m ≤ B.card)
      ≤ ∑ B ∈ syn.powerset, ∑ T ∈ Finset.powersetCard m syn, (if T ⊆ B then patternProb p syn B else 0) := by
        refine Finset.sum_le_sum fun B hB => ?_
        have hn := patternProb_nonneg h0 h1 syn B
        have hnn : ∀ T ∈ Finset.powersetCard m syn, 0 ≤ if T ⊆ B then patternProb p syn B else 0 := fun T _ => by
          split_ifs <;> simp [hn]
        split_ifs with hm
        · obtain ⟨T, hTB, hTc⟩ := Finset.exists_subset_card_eq hm
          have := Finset.single_le_sum hnn (Finset.mem_powersetCard.2 ⟨hTB.trans (Finset.mem_powerset.1 hB), hTc⟩)
          rwa [if_pos hTB] at this
        · exact Finset.sum_nonneg hnn
    _ = ∑ T ∈ Finset.powersetCard m syn, ∑ B ∈ syn.powerset, (if T ⊆ B then patternProb p syn B else 0) := Finset.sum_comm
    _ = _ := by
        rw [Finset.sum_congr rfl hT, Finset.sum_const, Finset.card_powersetCard, nsmul_eq_mul]

end Flamingpy.Trial
