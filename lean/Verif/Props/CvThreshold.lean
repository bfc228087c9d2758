import Verif.Proofs.GaussTail
import Verif.Props.Threshold
import Verif.Props.CvLaw
import Verif.Props.CvTrials
import Verif.Props.MacroTrials
import Mathlib.Algebra.Order.Chebyshev

/-!
# C77: a threshold for the noise of a `CVLayer`

If all modes are noisy GKP states (no swap-outs), the bits of neighbouring qubits are not independent.  A set of `m` qubits is nevertheless
flipped with a probability of at most `cvRate delta ^ m` (`C77_flips`), which goes to zero with `delta`.  Together with C76 this
bounds the failure probability of the minimum weight decoder.
-/

namespace Flamingpy.Trial

open Flamingpy Flamingpy.SurfaceCode Flamingpy.UnionFind Flamingpy.Weights Flamingpy.Sim MeasureTheory ProbabilityTheory Filter

/-- Sums of few noise terms, each of which occurs in few sums. -/
theorem quad_bound {V : Type} [DecidableEq V] (S : Finset V) (N : V → Finset V) (w : V → V → ℝ) (own pos : V → ℝ) (hN : ∀ x ∈ S, (N x).card ≤ 4)
    (hw : ∀ x y, w x y ^ 2 ≤ 1) (hc : ∀ y, (S.filter fun x => y ∈ N x).card ≤ 4) :
    ∑ x ∈ S, (own x + ∑ y ∈ N x, w x y * pos y) ^ 2 ≤ 17 * (∑ x ∈ S, own x ^ 2 + ∑ y ∈ S.biUnion N, pos y ^ 2) := by
  have h1 : ∀ x ∈ S, (own x + ∑ y ∈ N x, w x y * pos y) ^ 2 ≤ 17 * own x ^ 2 + 17 / 4 * ∑ y ∈ N x, pos y ^ 2 := by
    intro x hx
    set B := ∑ y ∈ N x, w x y * pos y with hB
    have h2 : B ^ 2 ≤ 4 * ∑ y ∈ N x, pos y ^ 2 := by
      have h3 := sq_sum_le_card_mul_sum_sq (s := N x) (f := fun y => w x y * pos y)
      have h4 : ∑ y ∈ N x, (w x y * pos y) ^ 2 ≤ ∑ y ∈ N x, pos y ^ 2 := Finset.sum_le_sum fun y _ => by
        rw [mul_pow]
        exact mul_le_of_le_one_left (sq_nonneg _) (hw x y)
      have h5 : (0 : ℝ) ≤ ∑ y ∈ N x, pos y ^ 2 := Finset.sum_nonneg fun y _ => sq_nonneg _
      have h6 : ((N x).card : ℝ) ≤ 4 := by exact_mod_cast hN x hx
      refine h3.trans ((mul_le_mul_of_nonneg_left h4 (by positivity)).trans (mul_le_mul_of_nonneg_right h6 h5))
    nlinarith [sq_nonneg (4 * own x - B / 4)]
  refine (Finset.sum_le_sum h1).trans ?_
  rw [Finset.sum_add_distrib, ← Finset.mul_sum, ← Finset.mul_sum]
  have h7 : ∑ x ∈ S, ∑ y ∈ N x, pos y ^ 2 ≤ 4 * ∑ y ∈ S.biUnion N, pos y ^ 2 := by
    have : ∀ x ∈ S, ∑ y ∈ N x, pos y ^ 2 = ∑ y ∈ S.biUnion N, if y ∈ N x then pos y ^ 2 else 0 := by
      intro x hx
      rw [← Finset.sum_filter]
      refine Finset.sum_congr ?_ fun _ _ => rfl
      ext y
      rw [Finset.mem_filter, Finset.mem_biUnion]
      exact ⟨fun h => ⟨⟨x, hx, h⟩, h⟩, fun h => h.2⟩
    rw [Finset.sum_congr rfl this, Finset.sum_comm, Finset.mul_sum]
    refine Finset.sum_le_sum fun y _ => ?_
    rw [← Finset.sum_filter, Finset.sum_const, nsmul_eq_mul]
    exact mul_le_mul_of_nonneg_right (by exact_mod_cast hc y) (sq_nonneg _)
  linarith

/-- Specification: bound on the rate of flips for the noise `delta`. -/
noncomputable def cvRate (delta : ℝ) : ℝ := 4 * √2 * Real.exp (-Real.pi / (136 * delta))

theorem binner_abs {x : ℝ} (h : Gkp.gkpBinner x ≠ 0) : Real.pi / 4 ≤ x ^ 2 := by
  have h1 : √Real.pi / 2 ≤ |x| := by
    by_contra hc
    rw [not_le, abs_lt] at hc
    apply h
    have := (Gkp.binner_bin 0 (f := x) ⟨by unfold Gkp.binWidth; linarith [hc.1], by unfold Gkp.binWidth; linarith [hc.2]⟩)
    rw [Int.cast_zero, zero_mul, zero_add] at this
    change (Gkp.gkpBinnerFrac x).1 = 0
    rw [this]
    rfl
  have h2 : (√Real.pi / 2) ^ 2 ≤ |x| ^ 2 := pow_le_pow_left₀ (by positivity) h1 2
  rw [sq_abs, div_pow, Real.sq_sqrt Real.pi_pos.le] at h2
  norm_num at h2
  exact h2

theorem neighbors_card {code : Code} (h : IsCode code) (q : V) : (neighbors code q).toFinset.card ≤ 4 := by
  by_cases hq : q ∈ PyDict.keys code.graph.nodes
  · exact (List.toFinset_card_le _).trans (adj_length h hq)
  · have : neighbors code q = [] := by
      unfold neighbors
      rw [List.filter_eq_nil_iff]
      intro x _ hx
      rw [decide_eq_true_eq] at hx
      exact hq ((h.ok.1.graphNodes q).2 ((h.ok.1.graphEdges q x).1 hx).1)
    rw [this]
    simp

theorem mem_neighbors_comm {code : Code} (h : IsCode code) {x y : V} : y ∈ neighbors code x ↔ x ∈ neighbors code y := by
  have : ∀ x y, y ∈ neighbors code x → x ∈ neighbors code y := by
    intro x y hy
    unfold neighbors at hy ⊢
    rw [List.mem_filter, decide_eq_true_eq] at hy ⊢
    have := (h.ok.1.graphEdges x y).1 hy.2
    rw [Sym2.eq_swap]
    exact ⟨(h.ok.1.graphNodes x).2 this.1, hy.2⟩
  exact ⟨this x y, this y x⟩

/-- The law of the flips. -/
theorem flips_le {code : Code} (h : IsCode code) (hw : ∀ x y w, PyDict.get? code.graph.edges s(x, y) = some w → w.1 = 1 ∨ w.1 = -1)
    {pts : List V} (hp : pts.Perm (PyDict.keys code.graph.nodes)) {delta : ℝ} (hd : 0 < delta) {S : Finset V} :
    (Measure.infinitePi fun _ : ℕ => gaussianReal 0 1).real {z | S ⊆ cvFlips code pts delta z} ≤ cvRate delta ^ S.card := by
  by_cases hS : ∀ x ∈ S, x ∈ code.syndrome
  swap
  · have hr0 : 0 ≤ cvRate delta := by unfold cvRate; positivity
    have : {z : ℕ → ℝ | S ⊆ cvFlips code pts delta z} = ∅ := by
      ext z
      simp only [Set.mem_ofPred_eq, Set.mem_empty_iff_false, iff_false]
      intro hc
      apply hS
      intro x hx
      have := hc hx
      unfold cvFlips at this
      exact List.mem_toFinset.1 (Finset.mem_filter.1 this).1
    rw [this]
    simp only [measureReal_empty]
    positivity
  set μ := Measure.infinitePi fun _ : ℕ => gaussianReal 0 1 with hμ
  have hZ : Noise.NormalIid (fun (i : ℕ) (z : ℕ → ℝ) => z i) μ :=
    ⟨fun j => measurable_pi_apply j, iIndepFun_infinitePi (X := fun _ x => x) fun _ => measurable_id, fun j => Measure.infinitePi_map_eval _ j⟩
  set N : V → Finset V := fun x => (neighbors code x).toFinset with hN
  have hmem : ∀ x ∈ S, x ∈ pts := fun x hx => hp.mem_iff.2 (h.syndrome_node (hS x hx))
  have hNp : ∀ y ∈ S.biUnion N, y ∈ pts := by
    intro y hy
    obtain ⟨x, -, hy⟩ := Finset.mem_biUnion.1 hy
    have := List.mem_toFinset.1 hy
    unfold neighbors at this
    exact hp.mem_iff.2 (List.mem_filter.1 this).1
  set I₁ := S.image fun x => pts.length + pts.idxOf x with hI₁
  set I₂ := (S.biUnion N).image fun y => pts.idxOf y with hI₂
  have hinj₁ : Set.InjOn (fun x => pts.length + pts.idxOf x) (S : Set V) := fun x hx y hy e =>
    (List.idxOf_inj (hmem x hx)).1 (Nat.add_left_cancel e)
  have hinj₂ : Set.InjOn (fun y => pts.idxOf y) (S.biUnion N : Set V) := fun x hx y hy e => (List.idxOf_inj (hNp x (by simpa using hx))).1 e
  have hdisj : Disjoint I₁ I₂ := by
    rw [Finset.disjoint_left]
    intro i h1 h2
    obtain ⟨x, -, rfl⟩ := Finset.mem_image.1 h1
    obtain ⟨y, hy, e⟩ := Finset.mem_image.1 h2
    have := List.idxOf_lt_length_of_mem (hNp y hy)
    omega
  have hcardN : (S.biUnion N).card ≤ S.card * 4 := Finset.card_biUnion_le_card_mul _ _ _ fun x _ => neighbors_card h x
  have hcard : (I₁ ∪ I₂).card ≤ 5 * S.card := by
    refine (Finset.card_union_le _ _).trans ?_
    have h1 := Finset.card_image_le (s := S) (f := fun x => pts.length + pts.idxOf x)
    have h2 := Finset.card_image_le (s := S.biUnion N) (f := fun y => pts.idxOf y)
    rw [← hI₁] at h1
    rw [← hI₂] at h2
    omega
  have hdeg : ∀ y, (S.filter fun x => y ∈ N x).card ≤ 4 := by
    intro y
    refine (Finset.card_le_card fun x hx => ?_).trans (neighbors_card h y)
    rw [Finset.mem_filter] at hx
    exact List.mem_toFinset.2 ((mem_neighbors_comm h).1 (List.mem_toFinset.1 hx.2))
  have hsub : {z : ℕ → ℝ | S ⊆ cvFlips code pts delta z} ⊆ {z | S.card * (Real.pi / (34 * delta)) ≤ ∑ i ∈ I₁ ∪ I₂, z i ^ 2} := by
    intro z hz
    simp only [Set.mem_ofPred_eq] at hz ⊢
    have hq := quad_bound S N (fun x y => (Noise.edgeWeight code x y : ℝ)) (fun x => √(delta / 2) * z (pts.length + pts.idxOf x))
      (fun y => √(delta / 2) * z (pts.idxOf y)) (fun x _ => neighbors_card h x) (fun x y => by
        rw [Noise.edgeWeight_sq hw]
        split_ifs <;> norm_num) hdeg
    have hl : S.card * (Real.pi / 4) ≤ ∑ x ∈ S, (√(delta / 2) * z (pts.length + pts.idxOf x) +
        ∑ y ∈ N x, (Noise.edgeWeight code x y : ℝ) * (√(delta / 2) * z (pts.idxOf y))) ^ 2 := by
      rw [← nsmul_eq_mul]
      refine Finset.card_nsmul_le_sum _ _ _ fun x hx => ?_
      have hb := hz hx
      unfold cvFlips at hb
      have hb := (Finset.mem_filter.1 hb).2
      have hb' := binner_abs (by rw [hb]; norm_num)
      refine hb'.trans (le_of_eq ?_)
      congr 2
      symm
      refine Finset.sum_subset (fun y hy => List.mem_toFinset.2 (hNp y (Finset.mem_biUnion.2 ⟨x, hx, hy⟩))) fun y _ hy => ?_
      have : s(x, y) ∉ PyDict.keys code.graph.edges := fun hc => hy (List.mem_toFinset.2 (by
        unfold neighbors
        rw [List.mem_filter, decide_eq_true_eq]
        exact ⟨(h.ok.1.graphNodes y).2 ((h.ok.1.graphEdges x y).1 hc).2.1, hc⟩))
      have h0 := Noise.edgeWeight_sq hw x y
      rw [if_neg this] at h0
      rw [pow_eq_zero_iff two_ne_zero |>.1 h0, zero_mul]
    have hu : ∑ i ∈ I₁ ∪ I₂, z i ^ 2 = ∑ x ∈ S, z (pts.length + pts.idxOf x) ^ 2 + ∑ y ∈ S.biUnion N, z (pts.idxOf y) ^ 2 := by
      rw [Finset.sum_union hdisj, hI₁, hI₂, Finset.sum_image hinj₁, Finset.sum_image hinj₂]
    have hsq : ∀ t : ℝ, (√(delta / 2) * t) ^ 2 = delta / 2 * t ^ 2 := fun t => by rw [mul_pow, Real.sq_sqrt (by positivity)]
    simp only [hsq] at hq
    rw [← Finset.mul_sum, ← Finset.mul_sum, ← mul_add, ← hu] at hq
    have h3 := hl.trans hq
    have h34 : (0 : ℝ) < 34 * delta := by positivity
    rw [mul_div_assoc', div_le_iff₀ h34]
    linarith
  refine (measureReal_mono hsub).trans ((hZ.sq_tail (I₁ ∪ I₂) _).trans ?_)
  have h2 : (1 : ℝ) ≤ √2 := Real.one_le_sqrt.2 (by norm_num)
  have e5 : √2 ^ 5 = 4 * √2 := by
    have : √2 ^ 2 = 2 := Real.sq_sqrt (by norm_num)
    calc √2 ^ 5 = (√2 ^ 2) ^ 2 * √2 := by ring
      _ = 4 * √2 := by rw [this]; norm_num
  have h4 : √2 ^ (I₁ ∪ I₂).card ≤ (4 * √2) ^ S.card := by
    rw [← e5, ← pow_mul]
    exact pow_le_pow_right₀ h2 hcard
  refine (mul_le_mul_of_nonneg_left h4 (Real.exp_pos _).le).trans (le_of_eq ?_)
  unfold cvRate
  rw [mul_pow _ (Real.exp _), ← Real.exp_nat_mul, mul_comm]
  congr 2
  field_simp
  ring

/-- The bits recorded by `apply_noise` at an even number of earlier calls. -/
theorem cv_bits {code : Code} (h : IsCode code) {pts : List V} {delta : ℝ} {L₀ L : Noise.Layer V}
    (hL : Noise.OnCode code pts delta none .initial none L₀) (hd : 0 < delta) {n : ℕ} (hh : Noise.Hist L₀ n L) (hn : Even n)
    (draw : List ℕ) (hdr : ∀ i ∈ draw, i < pts.length) (r : Noise.Rnd) :
    ∃ L', Noise.applyNoise L (Noise.syndromeInds code pts) code.syndrome draw r = some L' ∧
      ∀ x ∈ code.syndrome, L'.attrs.bit x = some 1 ↔ x ∈ cvFlips code pts delta r.z := by
  have hf := hL.fresh h
  obtain ⟨f1, -, f3, -, -, f6, -⟩ := hL.fields
  obtain ⟨ps₀, gs₀, hi0⟩ := hh.inv hf
  have hpts : L.pts = pts := hi0.pts.trans f1
  have hnd : pts.Nodup := hL.perm.nodup_iff.2 h.ok.1.nodesNd
  obtain ⟨L', ps, gs, a1, a2, a3, a4⟩ := Noise.C53_apply_noise_initial h hL hf hd hh draw hdr r
  have hh' := hh.apply _ _ _ _ (by rw [hpts]; exact hdr) a1
  obtain ⟨ps', gs', b1, b2, b3, b4, b5⟩ := Noise.C45_alternates hf hh' (by omega) (by rw [f3]; simp)
  have hp0 : ps' = [] := by
    rw [(Noise.C53_constructor none none).2.1 rfl] at f6
    unfold Noise.Layer.pInds at b1
    rw [← Option.some.inj f6] at b1
    simpa [PyDict.get?] using b1.symm
  rw [a2] at b2
  rw [a3] at b3
  obtain rfl := Option.some.inj b2
  obtain rfl := Option.some.inj b3
  subst hp0
  obtain ⟨ps', gs', hi'⟩ := hh'.inv hf
  have hp' : L'.pts = pts := hi'.pts.trans f1
  refine ⟨L', a1, fun x hx => ?_⟩
  rw [(a4 x hx).2]
  have hgs : ∀ i, i ∈ gs ↔ i < pts.length := by
    intro i
    have := b4 hn.add_one i
    rw [hp'] at this
    simpa using this
  have hxp : x ∈ pts := hL.perm.mem_iff.2 (h.syndrome_node hx)
  have hix := List.idxOf_lt_length_of_mem hxp
  have heq : Noise.outcomeP code pts delta [] gs r.z x = √(delta / 2) * r.z (pts.length + pts.idxOf x) +
      ∑ y ∈ pts.toFinset, Noise.edgeWeight code x y * (√(delta / 2) * r.z (pts.idxOf y)) := by
    unfold Noise.outcomeP Noise.sdP
    rw [if_pos (Or.inl ((hgs _).2 hix)), ← Noise.sum_pts hnd]
    congr 1
    refine Finset.sum_congr rfl fun j _ => ?_
    rw [Noise.sdQ, if_pos ((hgs _).2 j.2), hnd.idxOf_getElem j.1 j.2]
  simp [cvFlips, hx, heq]

variable {Ω : Type*} [MeasurableSpace Ω] {μ : Measure Ω}

/-- C77.  The bits of a set of `m` syndrome qubits are all flipped by `apply_noise` of a fresh layer with a probability of at
most `cvRate delta ^ m`: correlations do not make large sets of flips likely. -/
theorem C77_flips {code : Code} (h : IsCode code) (hw : ∀ x y w, PyDict.get? code.graph.edges s(x, y) = some w → w.1 = 1 ∨ w.1 = -1)
    {pts : List V} {delta : ℝ} {L₀ : Noise.Layer V} (hL : Noise.OnCode code pts delta none .initial none L₀) (hd : 0 < delta)
    (draw : List ℕ) (hdr : ∀ i ∈ draw, i < pts.length) {Z : ℕ → Ω → ℝ} (hZ : Noise.NormalIid Z μ) (u : ℕ → ℝ) (b : ℕ → ℤ)
    (S : Finset V) (hS : ∀ x ∈ S, x ∈ code.syndrome) :
    μ.real {ω | ∃ L', Noise.applyNoise L₀ (Noise.syndromeInds code pts) code.syndrome draw ⟨fun i => Z i ω, u, b⟩ = some L' ∧
      ∀ x ∈ S, L'.attrs.bit x = some 1} ≤ (4 * √2 * Real.exp (-Real.pi / (136 * delta))) ^ S.card := by
  have hset : {ω | ∃ L', Noise.applyNoise L₀ (Noise.syndromeInds code pts) code.syndrome draw ⟨fun i => Z i ω, u, b⟩ = some L' ∧
      ∀ x ∈ S, L'.attrs.bit x = some 1} = (fun ω i => Z i ω) ⁻¹' {z | S ⊆ cvFlips code pts delta z} := by
    ext ω
    obtain ⟨L', e1, e2⟩ := cv_bits h hL hd .start (n := 0) (by decide) draw hdr ⟨fun i => Z i ω, u, b⟩
    simp only [Set.mem_preimage, Set.mem_ofPred_eq]
    constructor
    · rintro ⟨L'', e3, e4⟩ x hx
      rw [e1] at e3
      rw [← Option.some.inj e3] at e4
      exact (e2 x (hS x hx)).1 (e4 x hx)
    · intro hs
      exact ⟨L', e1, fun x hx => (e2 x (hS x hx)).2 (hs hx)⟩
  have hlaw := hZ.indep.map_fun_eq_infinitePi_map hZ.meas
  simp_rw [hZ.normal] at hlaw
  have hm : Measurable fun ω (i : ℕ) => Z i ω := measurable_pi_lambda _ hZ.meas
  have := flips_le h hw hL.perm hd (S := S)
  rw [hset, measureReal_def, ← Measure.map_apply hm (measurable_cvFlips code pts delta fun B => S ⊆ B), hlaw, ← measureReal_def]
  exact this

/-- C77.  The failure probability of the minimum weight decoder with unit weights, if all modes are noisy GKP states. -/
theorem C77_bound {code : Code} (h : IsCode code) (hw : ∀ x y w, PyDict.get? code.graph.edges s(x, y) = some w → w.1 = 1 ∨ w.1 = -1)
    (X : Libs) {o : Opts} (ho : o.method = "uniform") {pts : List V} (hp : pts.Perm (PyDict.keys code.graph.nodes)) {delta : ℝ} (hd : 0 < delta)
    (hr : cvRate delta < 1 / 100) {d : ℕ} (hdim : ∀ i ∈ planesToCheck code.ec code.boundaries, d ≤ code.dims i) :
    noisyFailure X code pts delta "MWPM" o ≤ 2 * code.syndrome.length / 5 * ((10 * √(cvRate delta)) ^ d / (1 - 10 * √(cvRate delta))) := by
  have hr0 : 0 ≤ cvRate delta := by unfold cvRate; positivity
  refine le_trans ?_ (halves_sum h (Real.sqrt_nonneg _) (sqrt_small hr) (Real.sq_sqrt hr0).symm d)
  unfold noisyFailure
  have hsub : {z : ℕ → ℝ | Fails X code "MWPM" o gkpAttrs (cvFlips code pts delta z)} ⊆
      ⋃ S ∈ halves code d, {z | S ⊆ cvFlips code pts delta z} := by
    intro z hz
    obtain ⟨S, hS, hSB⟩ := half_flipped h X ho hdim hz
    simp only [Set.mem_iUnion]
    exact ⟨S, hS, hSB⟩
  refine (measureReal_mono hsub (measure_ne_top _ _)).trans ((measureReal_biUnion_finset_le _ _).trans ?_)
  exact Finset.sum_le_sum fun S _ => flips_le h hw hp hd

/-- C77.  Threshold for the noise of the states: the failure probability goes to zero as the code grows. -/
theorem C77_threshold {delta : ℝ} (hd : 0 < delta) (hr : cvRate delta < 1 / 100) (m : ℕ) {ε : ℝ} (hε : 0 < ε) : ∃ d₀ : ℕ, ∀ d, d₀ ≤ d →
    ∀ code : Code, IsCode code → (∀ x y w, PyDict.get? code.graph.edges s(x, y) = some w → w.1 = 1 ∨ w.1 = -1) →
    (∀ i, d ≤ code.dims i ∧ code.dims i ≤ m * d) → ∀ (X : Libs) (o : Opts) (pts : List V), o.method = "uniform" →
      pts.Perm (PyDict.keys code.graph.nodes) → noisyFailure X code pts delta "MWPM" o < ε := by
  obtain ⟨d₀, hd₀⟩ := rate_limit (Real.sqrt_nonneg _) (sqrt_small hr) m hε
  exact ⟨d₀, fun d hdd code h hw hdims X o pts ho hp =>
    (C77_bound h hw X ho hp hd hr fun i _ => (hdims i).1).trans_lt (hd₀ d hdd code h hdims)⟩

/-- A noise below the threshold. -/
theorem cvRate_small {delta : ℝ} (hd : 0 < delta) (h1 : delta ≤ 1 / 310) : cvRate delta < 1 / 100 := by
  unfold cvRate
  have h2 : √2 < 1.5 := by
    rw [Real.sqrt_lt' (by norm_num)]
    norm_num
  have h3 : -Real.pi / (136 * delta) ≤ -7 := by
    rw [div_le_iff₀ (by positivity)]
    nlinarith [Real.pi_gt_d2]
  have h4 : Real.exp (-7) < 1 / 1000 := by
    rw [Real.exp_neg, inv_lt_comm₀ (Real.exp_pos _) (by norm_num), one_div, inv_inv]
    have h5 : (2.7182818283 : ℝ) < Real.exp 1 := Real.exp_one_gt_d9
    calc (1000 : ℝ) < 2.7182818283 ^ 7 := by norm_num
      _ < Real.exp 1 ^ 7 := pow_lt_pow_left₀ h5 (by norm_num) (by norm_num)
      _ = Real.exp 7 := by rw [← Real.exp_nat_mul]; norm_num
  have h6 := (Real.exp_le_exp.2 h3).trans_lt h4
  have h7 : 0 < √2 := by positivity
  have h8 := Real.exp_pos (-Real.pi / (136 * delta))
  nlinarith

/-- C77.  Simulations with a `CVLayer` without swap-outs in the initial sampling order, with `delta` at most 1/310: for large codes, whatever the
number of trials and ranks, the expected error rate is below `ε`. -/
theorem C77_simulation {delta : ℝ} (hd : 0 < delta) (h1 : delta ≤ 1 / 310) {ε : ℝ} (hε : 0 < ε) : ∃ d₀ : ℕ, ∀ d, d₀ ≤ d → ∀ code : Code,
    IsCode code → (∀ x y w, PyDict.get? code.graph.edges s(x, y) = some w → w.1 = 1 ∨ w.1 = -1) → (∀ i, code.dims i = d) →
    ∀ (X : Libs) (o : Opts), o.method = "uniform" → ∀ (pts : List V) (L₀ : Noise.Layer V), Noise.OnCode code pts delta none .initial none L₀ →
    ∀ {Ω : Type} [MeasurableSpace Ω] (μ : Measure Ω) (Z : ℕ × ℕ × ℕ → Ω → ℝ), Noise.NormalIid Z μ →
    ∀ (draw : ℕ → ℕ → List ℕ), (∀ r k, ∀ i ∈ draw r k, i < pts.length) → ∀ (u : ℕ → ℕ → ℕ → ℝ) (b : ℕ → ℕ → ℕ → ℤ) (trials size : ℕ), 0 < size →
    ∀ errors : Ω → ℤ, (∀ ω, ∃ err, monteCarlo (ecTrial X code "MWPM" o (cvModel code pts)) trials size
      (fun r => ((L₀, fun k => (draw r k, ⟨fun i => Z (r, k, i) ω, u r k, b r k⟩)), fun _ => none)) = some err ∧ errors ω = err 0) →
    ∫ ω, (errors ω : ℝ) ∂μ ≤ trials * ε := by
  obtain ⟨d₀, hd₀⟩ := C77_threshold hd (cvRate_small hd h1) 1 hε
  refine ⟨d₀, fun d hdd code h hw hdims X o ho pts L₀ hL Ω _ μ Z hZ draw hdr u b trials size hs errors he => ?_⟩
  have : IsProbabilityMeasure μ := hZ.indep.isProbabilityMeasure
  rw [C65_mean h X hL hd (Or.inl rfl) ho trials hs hZ draw hdr u b errors he]
  have h2 := (hd₀ d hdd code h hw (fun i => by rw [hdims i, one_mul]; exact ⟨le_rfl, le_rfl⟩) X o pts ho hL.perm).le
  have h3 : (0 : ℝ) ≤ noisyFailure X code pts delta "MWPM" o := measureReal_nonneg
  have h4 : ((List.range trials).countP fun i => decide (i / size % 2 = 0)) ≤ trials := by
    have := List.countP_le_length (p := fun i => decide (i / size % 2 = 0)) (l := List.range trials)
    rwa [List.length_range] at this
  refine mul_le_mul (by exact_mod_cast h4) h2 h3 (by positivity)

/-! ### The hypotheses can be met -/

-- codes of every size with alternating polarity, layers on them, and simulations
example (d : ℕ) (hd : 2 ≤ d) (trials : ℕ) : ∃ (Ω : Type) (_ : MeasurableSpace Ω) (μ : Measure Ω) (Z : ℕ × ℕ × ℕ → Ω → ℝ) (code : Code)
    (pts : List V) (L₀ : Noise.Layer V) (X : Libs) (errors : Ω → ℤ), Noise.NormalIid Z μ ∧ IsCode code ∧ (∀ i, code.dims i = d) ∧
    Noise.OnCode code pts (1 / 310) none .initial none L₀ ∧
    (∀ x y w, PyDict.get? code.graph.edges s(x, y) = some w → w.1 = 1 ∨ w.1 = -1) ∧
    ∀ ω, ∃ err, monteCarlo (ecTrial X code "MWPM" {} (cvModel code pts)) trials 2
      (fun r => ((L₀, fun k => ([], ⟨fun i => Z (r, k, i) ω, fun _ => 0, fun _ => 0⟩)), fun _ => none)) = some err ∧ errors ω = err 0 := by
  obtain ⟨code, h, hdim, -⟩ := C54_constructor_total idOrder .primal .periodic (dims := fun _ => d) (by simp [hd]) (some alternatingPolarity)
  have hcode : IsCode code := ⟨idOrder, _, _, _, _, by simp [hd], h⟩
  obtain ⟨L, hL⟩ : ∃ L, Noise.codeLayer code (PyDict.keys code.graph.nodes) (1 / 310) none .initial none = some L := by
    unfold Noise.codeLayer
    rw [(Noise.C53_constructor none none).2.1 rfl]
    exact ⟨_, rfl⟩
  have hon : Noise.OnCode code _ (1 / 310) none .initial none L := ⟨List.Perm.refl _, hL⟩
  obtain ⟨X, -⟩ := libs_exist .networkx
  obtain ⟨Ω, m, μ, hp, Z, hZ⟩ := Noise.normalIid_exists (ℕ × ℕ × ℕ)
  have hsim : ∀ ω, ∃ err, monteCarlo (ecTrial X code "MWPM" {} (cvModel code (PyDict.keys code.graph.nodes))) trials 2
      (fun r => ((L, fun k => ([], ⟨fun i => Z (r, k, i) ω, fun _ => 0, fun _ => 0⟩)), fun _ => none)) = some err := fun ω => by
    obtain ⟨err, e, -⟩ := C65_half hcode X hon (by norm_num) (name := "MWPM") (o := {}) (Or.inl ⟨rfl, Or.inl rfl⟩) trials two_pos
      (fun r k => ([], ⟨fun i => Z (r, k, i) ω, fun _ => 0, fun _ => 0⟩)) (by simp)
    exact ⟨err, e⟩
  choose err herr using hsim
  refine ⟨Ω, m, μ, Z, code, _, L, X, fun ω => err ω 0, hZ, hcode, fun i => by rw [hdim], hon, Noise.pm_weights (by simp [hd]) h ?_,
    fun ω => ⟨err ω, herr ω, rfl⟩⟩
  intro u v
  simp only [weightOf, alternatingPolarity]
  split_ifs
  · exact neg_one_pow_eq_or ℤ _
  · exact neg_one_pow_eq_or ℤ _
  · exact neg_one_pow_eq_or ℤ _
  · exact Or.inl rfl

end Flamingpy.Trial
