import Verif.Proofs.MacroBits
import Verif.Proofs.BitLaw

/-! # The noise of one macronode reduction as a vector of independent normal numbers -/

namespace Flamingpy.Noise

open Flamingpy MeasureTheory ProbabilityTheory
open scoped NNReal ENNReal

variable {Ω : Type*} [MeasurableSpace Ω] {μ : Measure Ω} {J : Type*} {Z : J → Ω → ℝ}

/-- Normalised combinations of disjoint sets of independent standard normal numbers. -/
theorem NormalIid.blocks (hZ : NormalIid Z μ) {ι : Type*} [Fintype ι] (a : ι → J → ℝ) (s : ι → Finset J)
    (hs : ∀ i j, i ≠ j → Disjoint (s i) (s j)) (hone : ∀ i, ∑ j ∈ s i, a i j ^ 2 = 1) :
    NormalIid (fun i ω => ∑ j ∈ s i, a i j * Z j ω) μ :=
  ⟨fun i => Finset.measurable_fun_sum _ fun j _ => (hZ.meas j).const_mul _, hZ.block a s hs, fun i => by
    rw [hZ.sum, hone]; simp⟩

/-- Coefficients of the planets' outcomes in the processed outcome. -/
def zCoef (b : ℕ) (t : Fin 3) : ℝ :=
  match b with
  | 0 => 0
  | 1 => ![1, 0, -1] t
  | 2 => ![0, 1, -1] t
  | _ => ![1, 1, 0] t

theorem zOf_coef (e : ℕ → ℝ) (b : ℕ) : zOf e b = ∑ t : Fin 3, zCoef b t * e (t + 1) := by
  unfold zOf zCoef
  split <;> simp [Fin.sum_univ_three] <;> ring

theorem zCoef_sq {b : ℕ} (hb : b ≠ 0) : ∑ t : Fin 3, zCoef b t ^ 2 = 2 := by
  unfold zCoef
  split
  · exact absurd rfl hb
  · simp [Fin.sum_univ_three]; norm_num
  · simp [Fin.sum_univ_three]; norm_num
  · simp [Fin.sum_univ_three]; norm_num

/-- Which random number displaces which outcome. -/
def devIdx (perm : List ℕ) (n : ℕ) : Fin n ⊕ (Fin n × Fin 3) → Bool × ℕ
  | .inl k => (true, (every4 perm).idxOf (perm.getD (4 * k) 0))
  | .inr (k, t) => (false, (notEvery4 perm).idxOf (perm.getD (4 * k + (t + 1)) 0))

theorem devIdx_inj {perm : List ℕ} {n : ℕ} (h : perm.Perm (List.range (4 * n))) : Function.Injective (devIdx perm n) := by
  have hnd : perm.Nodup := h.nodup_iff.2 List.nodup_range
  have hlen : perm.length = 4 * n := by rw [h.length_eq, List.length_range]
  have hget : ∀ j, j < 4 * n → perm[j]? = some (perm.getD j 0) := by
    intro j hj
    rw [List.getD, List.getElem?_eq_getElem (by omega)]
    rfl
  have hinj : ∀ i j, i < 4 * n → j < 4 * n → perm.getD i 0 = perm.getD j 0 → i = j := by
    intro i j hi hj he
    have h1 := hget i hi
    have h2 := hget j hj
    rw [← he, ← h1] at h2
    rw [List.getElem?_eq_getElem (by omega : i < perm.length), List.getElem?_eq_getElem (by omega : j < perm.length)] at h2
    exact (hnd.getElem_inj_iff.1 (Option.some.inj h2)).symm
  rintro (k | ⟨k, t⟩) (k' | ⟨k', t'⟩) he
  · simp only [devIdx, Prod.mk.injEq, true_and] at he
    rw [List.idxOf_inj (mem_every4.2 ⟨4 * k, by omega, hget _ (by omega)⟩)] at he
    have := hinj _ _ (by omega) (by omega) he
    congr 1
    ext
    omega
  · simp [devIdx] at he
  · simp [devIdx] at he
  · simp only [devIdx, Prod.mk.injEq, true_and] at he
    rw [List.idxOf_inj (mem_notEvery4.2 ⟨4 * k + (t + 1), by omega, hget _ (by omega)⟩)] at he
    have := hinj _ _ (by omega) (by omega) he
    have h1 : k = k' := by ext; omega
    have h2 : t = t' := by ext; omega
    rw [h1, h2]

variable {P : Type} [DecidableEq P]

omit [DecidableEq P] in
theorem starNoise_dev {L : Layer P} (hperf : L.perfect = []) (perm : List ℕ) {n : ℕ} (Z : Bool × ℕ → ℝ) (k : Fin n) :
    starNoise L perm (fun i => Z (true, i)) k = √(L.delta / 2) * Z (devIdx perm n (.inl k)) := by
  simp [starNoise, devOf, hperf, devIdx]

omit [DecidableEq P] in
theorem zNoise_dev {L : Layer P} (hperf : L.perfect = []) (perm : List ℕ) {n : ℕ} (Z : Bool × ℕ → ℝ) {i : ℕ} (hi : i / 4 < n) :
    zNoise L perm (fun i => Z (false, i)) i =
      √(L.delta / 2) * ∑ t : Fin 3, zCoef (perm.idxOf i % 4) t * Z (devIdx perm n (.inr (⟨i / 4, hi⟩, t))) := by
  unfold zNoise
  rw [zOf_coef, Finset.mul_sum]
  refine Finset.sum_congr rfl fun t _ => ?_
  simp only [devOf, hperf, List.not_mem_nil, if_false, devIdx]
  ring

/-- The random numbers seen by one macronode: that of its star, and one for every neighbouring planet. -/
theorem noise_iid {Z : Bool × ℕ → Ω → ℝ} (hZ : NormalIid Z μ) {perm : List ℕ} {n : ℕ} (hp : perm.Perm (List.range (4 * n))) (k : Fin n)
    {l : List ℕ} (hlt : ∀ i ∈ l, i / 4 < n) (hdist : ∀ i ∈ l, ∀ j ∈ l, i / 4 = j / 4 → i = j)
    (hb : ∀ i ∈ l, perm.idxOf i % 4 ≠ 0) :
    NormalIid (fun (o : Option {i // i ∈ l}) ω => match o with
      | none => Z (devIdx perm n (.inl k)) ω
      | some i => ∑ t : Fin 3, zCoef (perm.idxOf i.1 % 4) t / √2 * Z (devIdx perm n (.inr (⟨i.1 / 4, hlt i.1 i.2⟩, t))) ω) μ := by
  classical
  have hW := hZ.comp (devIdx_inj hp)
  set s : Option {i // i ∈ l} → Finset (Fin n ⊕ (Fin n × Fin 3)) := fun o => match o with
    | none => {.inl k}
    | some i => Finset.univ.image fun t : Fin 3 => .inr (⟨i.1 / 4, hlt i.1 i.2⟩, t) with hs
  set a : Option {i // i ∈ l} → Fin n ⊕ (Fin n × Fin 3) → ℝ := fun o j => match o, j with
    | some i, .inr x => zCoef (perm.idxOf i.1 % 4) x.2 / √2
    | _, _ => 1 with ha
  have hsum : ∀ (i : {i // i ∈ l}) (f : Fin n ⊕ (Fin n × Fin 3) → ℝ),
      ∑ j ∈ s (some i), f j = ∑ t : Fin 3, f (.inr (⟨i.1 / 4, hlt i.1 i.2⟩, t)) := by
    intro i f
    rw [hs]
    simp only
    rw [Finset.sum_image]
    intro t _ t' _ h
    simpa using h
  have h2 : √(2:ℝ) ^ 2 = 2 := Real.sq_sqrt (by norm_num)
  have hmain := hW.blocks a s ?_ ?_
  · convert hmain using 2 with o
    funext ω
    cases o with
    | none => simp [hs, ha]
    | some i => rw [hsum]
  · rintro (_ | i) (_ | j) hij
    · exact absurd rfl hij
    · simp [hs]
    · simp [hs]
    · rw [Finset.disjoint_left]
      intro x h1 h2
      simp only [hs, Finset.mem_image, Finset.mem_univ, true_and] at h1 h2
      obtain ⟨t, rfl⟩ := h1
      obtain ⟨t', h2⟩ := h2
      simp only [Sum.inr.injEq, Prod.mk.injEq, Fin.mk.injEq] at h2
      exact hij (by rw [Subtype.ext (hdist j.1 j.2 i.1 i.2 h2.1)])
  · rintro (_ | i)
    · simp [hs, ha]
    · rw [hsum]
      simp only [ha, div_pow, h2]
      rw [← Finset.sum_div, zCoef_sq (hb i.1 i.2)]
      norm_num

/-- The displacement of the outcome of a node: that of the star and those of the neighbours in momentum states. -/
noncomputable def outNoise (L : Layer P) (perm : List ℕ) (G : ℕ → Bool) (l : List ℕ) (zp zq : ℕ → ℝ) (k : ℕ) : ℝ :=
  2 * starNoise L perm zp k - ((l.filter fun i => !G i).map (zNoise L perm zq)).sum

omit [DecidableEq P] in
/-- The displacements at a node are independent and normal. -/
theorem node_noise {Z : Bool × ℕ → Ω → ℝ} (hZ : NormalIid Z μ) {L : Layer P} (hperf : L.perfect = []) (hd : 0 < L.delta)
    {perm : List ℕ} {n : ℕ} (hp : perm.Perm (List.range (4 * n))) {k : ℕ} (hk : k < n) (G : ℕ → Bool)
    {l : List ℕ} (hnd : l.Nodup) (hlt : ∀ i ∈ l, i / 4 < n) (hdist : ∀ i ∈ l, ∀ j ∈ l, i / 4 = j / 4 → i = j)
    (hG : ∀ i ∈ l, G i = false → perm.idxOf i % 4 ≠ 0)
    {X : Option {i // i ∈ l.filter fun i => G i && decide (perm.idxOf i % 4 ≠ 0)} → Ω → ℝ}
    (hX0 : ∀ ω, X none ω = outNoise L perm G l (fun i => Z (true, i) ω) (fun i => Z (false, i) ω) k)
    (hX1 : ∀ i ω, X (some i) ω = zNoise L perm (fun i => Z (false, i) ω) i.1) :
    iIndepFun X μ ∧ (∀ o, Measurable (X o)) ∧
      μ.map (X none) = gaussianReal 0 ((2 + (l.filter fun i => !G i).length) * L.delta).toNNReal ∧
      ∀ i, μ.map (X (some i)) = gaussianReal 0 L.delta.toNNReal := by
  classical
  set l' := l.filter fun i => decide (perm.idxOf i % 4 ≠ 0) with hl'
  have hm : ∀ i, i ∈ l' ↔ i ∈ l ∧ perm.idxOf i % 4 ≠ 0 := by
    intro i; rw [hl', List.mem_filter, decide_eq_true_eq]
  have hV := noise_iid hZ hp ⟨k, hk⟩ (l := l') (fun i hi => hlt i ((hm i).1 hi).1)
    (fun i hi j hj => hdist i ((hm i).1 hi).1 j ((hm j).1 hj).1) fun i hi => ((hm i).1 hi).2
  set V : Option {i // i ∈ l'} → Ω → ℝ := fun o ω => match o with
      | none => Z (devIdx perm n (.inl ⟨k, hk⟩)) ω
      | some i => ∑ t : Fin 3, zCoef (perm.idxOf i.1 % 4) t / √2 *
          Z (devIdx perm n (.inr (⟨i.1 / 4, hlt i.1 ((hm i.1).1 i.2).1⟩, t))) ω with hVdef
  replace hV : NormalIid V μ := hV
  have hsq : √(L.delta / 2) * √2 = √L.delta := by
    rw [← Real.sqrt_mul (by positivity)]
    congr 1; ring
  have h2 : √(2:ℝ) ≠ 0 := by positivity
  have hz : ∀ (i : {i // i ∈ l'}) ω, zNoise L perm (fun i => Z (false, i) ω) i.1 = √L.delta * V (some i) ω := by
    intro i ω
    rw [zNoise_dev hperf perm (fun j => Z j ω) (hlt i.1 ((hm i.1).1 i.2).1), ← hsq, mul_assoc]
    congr 1
    rw [hVdef]
    simp only
    rw [Finset.mul_sum]
    refine Finset.sum_congr rfl fun t _ => ?_
    field_simp
  have hst : ∀ ω, 2 * starNoise L perm (fun i => Z (true, i) ω) k = 2 * √(L.delta / 2) * V none ω := by
    intro ω
    rw [starNoise_dev hperf perm (fun j => Z j ω) (⟨k, hk⟩ : Fin n)]
    rw [mul_assoc]
  set sN : Finset (Option {i // i ∈ l'}) :=
    insert none ((Finset.univ.filter fun i : {i // i ∈ l'} => G i.1 = false).map Function.Embedding.some) with hsN
  set aN : Option {i // i ∈ l'} → ℝ := fun o => match o with
    | none => 2 * √(L.delta / 2)
    | some _ => -√L.delta with haN
  have hnone : none ∉ ((Finset.univ.filter fun i : {i // i ∈ l'} => G i.1 = false).map Function.Embedding.some) := by simp
  have hpl : ∀ f : ℕ → ℝ, ((l.filter fun i => !G i).map f).sum =
      ∑ i ∈ Finset.univ.filter (fun i : {i // i ∈ l'} => G i.1 = false), f i.1 := by
    intro f
    rw [← List.sum_toFinset _ (hnd.filter _)]
    refine Finset.sum_bij' (fun i hi => ⟨i, ?_⟩) (fun i _ => i.1) ?_ ?_ ?_ ?_ ?_
    · simp only [List.mem_toFinset, List.mem_filter, Bool.not_eq_true'] at hi
      exact (hm i).2 ⟨hi.1, hG i hi.1 hi.2⟩
    · intro i hi
      simp only [List.mem_toFinset, List.mem_filter, Bool.not_eq_true'] at hi
      simpa using hi.2
    · intro i hi
      simp only [Finset.mem_filter, Finset.mem_univ, true_and] at hi
      simp only [List.mem_toFinset, List.mem_filter, Bool.not_eq_true']
      exact ⟨((hm i.1).1 i.2).1, hi⟩
    · intro i _; rfl
    · intro i _; rfl
    · intro i _; rfl
  have hX0' : ∀ ω, X none ω = ∑ o ∈ sN, aN o * V o ω := by
    intro ω
    rw [hX0, outNoise, hst, hpl, hsN, Finset.sum_insert hnone, Finset.sum_map]
    simp only [haN, Function.Embedding.some_apply, neg_mul, Finset.sum_neg_distrib]
    rw [sub_eq_add_neg]
    congr 2
    exact Finset.sum_congr rfl fun i _ => hz i ω
  have hmem : ∀ i : {i // i ∈ l.filter fun i => G i && decide (perm.idxOf i % 4 ≠ 0)}, i.1 ∈ l' ∧ G i.1 = true := by
    rintro ⟨i, hi⟩
    simp only [List.mem_filter, Bool.and_eq_true, decide_eq_true_eq] at hi
    exact ⟨(hm i).2 ⟨hi.1, hi.2.2⟩, hi.2.1⟩
  have hX1' : ∀ i ω, X (some i) ω = √L.delta * V (some ⟨i.1, (hmem i).1⟩) ω := fun i ω => by rw [hX1, ← hz ⟨i.1, (hmem i).1⟩ ω]
  set s : Option {i // i ∈ l.filter fun i => G i && decide (perm.idxOf i % 4 ≠ 0)} → Finset (Option {i // i ∈ l'}) := fun o => match o with
    | none => sN
    | some i => {some ⟨i.1, (hmem i).1⟩} with hs
  set a : Option {i // i ∈ l.filter fun i => G i && decide (perm.idxOf i % 4 ≠ 0)} → Option {i // i ∈ l'} → ℝ := fun o => match o with
    | none => aN
    | some _ => fun _ => √L.delta with ha
  have hXe : X = fun o ω => ∑ j ∈ s o, a o j * V j ω := by
    funext o ω
    cases o with
    | none => rw [hX0']
    | some i => rw [hX1']; simp [hs, ha]
  refine ⟨?_, ?_, ?_, ?_⟩
  · rw [hXe]
    refine hV.block a s ?_
    have hdj : ∀ j, Disjoint sN (s (some j)) := by
      intro j
      simp only [hs, Finset.disjoint_singleton_right, hsN, Finset.mem_insert, Finset.mem_map, reduceCtorEq, false_or,
        Finset.mem_filter, Finset.mem_univ, true_and, Function.Embedding.some_apply, Option.some.injEq]
      rintro ⟨i, hi, rfl⟩
      simp only at hi
      rw [(hmem j).2] at hi
      cases hi
    rintro (_ | i) (_ | j) hij
    · exact absurd rfl hij
    · exact hdj j
    · exact (hdj i).symm
    · simp only [hs, Finset.disjoint_singleton, ne_eq, Option.some.injEq, Subtype.mk.injEq]
      exact fun h => hij (by rw [Subtype.ext h])
  · intro o
    rw [hXe]
    exact Finset.measurable_fun_sum _ fun j _ => (hV.meas j).const_mul _
  · rw [hXe]
    simp only
    rw [hV.sum]
    congr 2
    simp only [hs, ha, hsN]
    rw [Finset.sum_insert hnone, Finset.sum_map]
    simp only [haN, Function.Embedding.some_apply, neg_sq, mul_pow, Real.sq_sqrt hd.le, Real.sq_sqrt (by positivity : 0 ≤ L.delta / 2),
      Finset.sum_const, nsmul_eq_mul]
    have := hpl fun _ => 1
    simp only [List.map_const', List.sum_replicate, nsmul_eq_mul, mul_one, Finset.sum_const] at this
    rw [← this]
    ring
  · intro i
    rw [hXe]
    simp only
    rw [hV.sum]
    simp only [hs, ha, Finset.sum_singleton, Real.sq_sqrt hd.le]

end Flamingpy.Noise
