import Verif.Proofs.MacroTail
import Verif.Props.SwapTrials
import Verif.Props.CvThreshold

/-!
# C79: a threshold for the noise of a `CVLayer`, with swap-outs
-/

namespace Flamingpy.Noise

/-- Every mode squeezed with probability `q ^ 4`: expected products over sets of modes of which every mode is in at most four. -/
theorem swap_product_le {V : Type} [DecidableEq V] {p q r : ℝ} (hq0 : 0 ≤ q) (hq1 : q ≤ 1) (hq : q ^ 4 = p) (hr : 0 ≤ r) (N : ℕ) (S : Finset V)
    (nb : V → Finset ℕ) (hsub : ∀ x ∈ S, nb x ⊆ Finset.range N) (hdeg : ∀ i, (S.filter fun x => i ∈ nb x).card ≤ 4) :
    ∑ A ∈ (Finset.range N).powerset, p ^ A.card * (1 - p) ^ (N - A.card) * ∏ x ∈ S, (r + ∑ i ∈ nb x, if i ∈ A then (1 : ℝ) else 0) ≤
      ∏ x ∈ S, (r + (nb x).card * q) := by
  have h1 : ∀ a : ℕ → ℝ, ∏ x ∈ S, (r + ∑ i ∈ nb x, a i) = ∑ T ∈ S.powerset, (∏ x ∈ T, r) *
      ∑ g ∈ (S \ T).pi nb, ∏ x ∈ (S \ T).attach, a (g x.1 x.2) := by
    intro a
    rw [Finset.prod_add]
    refine Finset.sum_congr rfl fun T _ => ?_
    rw [Finset.prod_sum]
  have h2 : ∀ T ∈ S.powerset, ∀ g ∈ (S \ T).pi nb, ∑ A ∈ (Finset.range N).powerset, p ^ A.card * (1 - p) ^ (N - A.card) *
      ∏ x ∈ (S \ T).attach, (if g x.1 x.2 ∈ A then (1 : ℝ) else 0) ≤ ∏ x ∈ (S \ T).attach, q := by
    intro T hT g hg
    rw [Finset.mem_pi] at hg
    set B := (S \ T).attach.image fun x => g x.1 x.2 with hB
    have hBN : B ⊆ Finset.range N := by
      intro i hi
      obtain ⟨x, -, rfl⟩ := Finset.mem_image.1 hi
      exact hsub x.1 (Finset.mem_sdiff.1 x.2).1 (hg x.1 x.2)
    have hBc : (S \ T).card ≤ 4 * B.card := by
      rw [← Finset.card_attach (s := S \ T)]
      refine Finset.card_le_mul_card_image _ _ fun i _ => ?_
      rw [← Finset.card_map ⟨Subtype.val, Subtype.val_injective⟩]
      refine (Finset.card_le_card fun x hx => ?_).trans (hdeg i)
      obtain ⟨y, hy, rfl⟩ := Finset.mem_map.1 hx
      rw [Finset.mem_filter] at hy
      refine Finset.mem_filter.2 ⟨(Finset.mem_sdiff.1 y.2).1, ?_⟩
      rw [← hy.2]
      exact hg y.1 y.2
    have h3 := sum_part (g := p) hBN (Finset.Subset.refl B)
    rw [Nat.sub_self, pow_zero, mul_one, Finset.card_range] at h3
    rw [Finset.prod_const, Finset.card_attach]
    have h6 : p ^ B.card ≤ q ^ (S \ T).card := by
      rw [← hq, ← pow_mul]
      exact pow_le_pow_of_le_one hq0 hq1 hBc
    refine le_trans (le_of_eq ?_) h6
    rw [← h3, Finset.sum_filter]
    refine Finset.sum_congr rfl fun A _ => ?_
    have h4 : ∏ x ∈ (S \ T).attach, (if g x.1 x.2 ∈ A then (1 : ℝ) else 0) = if A ∩ B = B then 1 else 0 := by
      by_cases hAB : A ∩ B = B
      · rw [if_pos hAB]
        refine Finset.prod_eq_one fun x _ => if_pos ?_
        have : g x.1 x.2 ∈ B := Finset.mem_image_of_mem _ (Finset.mem_attach _ x)
        rw [← hAB] at this
        exact (Finset.mem_inter.1 this).1
      · rw [if_neg hAB]
        have : ∃ i ∈ B, i ∉ A := by
          by_contra hc
          push Not at hc
          exact hAB (Finset.inter_eq_right.2 hc)
        obtain ⟨i, hi, hiA⟩ := this
        obtain ⟨x, hx, rfl⟩ := Finset.mem_image.1 hi
        exact Finset.prod_eq_zero hx (if_neg hiA)
    rw [h4]
    split_ifs <;> simp
  have h5 : ∏ x ∈ S, (r + (nb x).card * q) = ∏ x ∈ S, (r + ∑ i ∈ nb x, (fun _ => q) i) := by
    refine Finset.prod_congr rfl fun x _ => ?_
    rw [Finset.sum_const, nsmul_eq_mul]
  rw [h5, h1]
  simp_rw [fun A : Finset ℕ => h1 fun i => if i ∈ A then (1 : ℝ) else 0]
  simp_rw [Finset.mul_sum]
  rw [Finset.sum_comm]
  refine Finset.sum_le_sum fun T hT => ?_
  rw [Finset.sum_comm]
  refine Finset.sum_le_sum fun g hg => ?_
  refine le_trans (le_of_eq ?_) (mul_le_mul_of_nonneg_left (h2 T hT g hg) (by positivity : 0 ≤ ∏ x ∈ T, r))
  rw [Finset.mul_sum]
  refine Finset.sum_congr rfl fun A _ => ?_
  ring

end Flamingpy.Noise

namespace Flamingpy.Trial

open Flamingpy Flamingpy.SurfaceCode Flamingpy.UnionFind Flamingpy.Weights Flamingpy.Sim MeasureTheory ProbabilityTheory Filter

/-- Flips of qubits that are not next to squeezed modes. -/
theorem swap_flips_le {code : Code} (h : IsCode code) (hw : ∀ x y w, PyDict.get? code.graph.edges s(x, y) = some w → w.1 = 1 ∨ w.1 = -1)
    {pts : List V} (hp : pts.Perm (PyDict.keys code.graph.nodes)) {delta : ℝ} (hd : 0 < delta) (A G : Finset ℕ) {S : Finset V}
    (hA : ∀ x ∈ S, ∀ y ∈ neighbors code x, pts.idxOf y ∉ A) (hS : ∀ x ∈ S, x ∈ code.syndrome) :
    (Measure.infinitePi fun _ : ℕ => gaussianReal 0 1).real {z | S ⊆ swapFlips code pts delta A G z} ≤ cvRate delta ^ S.card := by
  set μ := Measure.infinitePi fun _ : ℕ => gaussianReal 0 1 with hμ
  have hZ : Noise.NormalIid (fun (i : ℕ) (z : ℕ → ℝ) => z i) μ :=
    ⟨fun j => measurable_pi_apply j, iIndepFun_infinitePi (X := fun _ x => x) fun _ => measurable_id, fun j => Measure.infinitePi_map_eval _ j⟩
  set N : V → Finset V := fun x => (neighbors code x).toFinset with hN
  have hmem : ∀ x ∈ S, x ∈ pts := fun x hx => hp.mem_iff.2 (h.syndrome_node (hS x hx))
  have hNp : ∀ y ∈ S.biUnion N, y ∈ pts := by
    intro y hy
    obtain ⟨x, -, hy⟩ := Finset.mem_biUnion.1 hy
    have := List.mem_toFinset.1 hy
    unfold neighbors at this
    exact hp.mem_iff.2 (List.mem_filter.1 this).1
  set I₁ := S.image fun x => pts.length + pts.idxOf x with hI₁
  set I₂ := (S.biUnion N).image fun y => pts.idxOf y with hI₂
  have hinj₁ : Set.InjOn (fun x => pts.length + pts.idxOf x) (S : Set V) := fun x hx y hy e =>
    (List.idxOf_inj (hmem x hx)).1 (Nat.add_left_cancel e)
  have hinj₂ : Set.InjOn (fun y => pts.idxOf y) (S.biUnion N : Set V) := fun x hx y hy e => (List.idxOf_inj (hNp x (by simpa using hx))).1 e
  have hdisj : Disjoint I₁ I₂ := by
    rw [Finset.disjoint_left]
    intro i h1 h2
    obtain ⟨x, -, rfl⟩ := Finset.mem_image.1 h1
    obtain ⟨y, hy, e⟩ := Finset.mem_image.1 h2
    have := List.idxOf_lt_length_of_mem (hNp y hy)
    omega
  have hcardN : (S.biUnion N).card ≤ S.card * 4 := Finset.card_biUnion_le_card_mul _ _ _ fun x _ => neighbors_card h x
  have hcard : (I₁ ∪ I₂).card ≤ 5 * S.card := by
    refine (Finset.card_union_le _ _).trans ?_
    have h1 := Finset.card_image_le (s := S) (f := fun x => pts.length + pts.idxOf x)
    have h2 := Finset.card_image_le (s := S.biUnion N) (f := fun y => pts.idxOf y)
    rw [← hI₁] at h1
    rw [← hI₂] at h2
    omega
  have hdeg : ∀ y, (S.filter fun x => y ∈ N x).card ≤ 4 := by
    intro y
    refine (Finset.card_le_card fun x hx => ?_).trans (neighbors_card h y)
    rw [Finset.mem_filter] at hx
    exact List.mem_toFinset.2 ((mem_neighbors_comm h).1 (List.mem_toFinset.1 hx.2))
  have hP : ∀ i, swapP delta A G i ^ 2 ≤ delta / 2 := fun i => by
    unfold swapP
    split_ifs
    · rw [Real.sq_sqrt (by positivity)]
    · rw [zero_pow two_ne_zero]; positivity
  have hQ : ∀ i, i ∉ A → swapQ delta A G i ^ 2 ≤ delta / 2 := fun i hi => by
    unfold swapQ
    rw [if_neg hi]
    split_ifs
    · rw [Real.sq_sqrt (by positivity)]
    · rw [zero_pow two_ne_zero]; positivity
  have hsub : {z : ℕ → ℝ | S ⊆ swapFlips code pts delta A G z} ⊆ {z | S.card * (Real.pi / (34 * delta)) ≤ ∑ i ∈ I₁ ∪ I₂, z i ^ 2} := by
    intro z hz
    simp only [Set.mem_ofPred_eq] at hz ⊢
    have hq := quad_bound S N (fun x y => (Noise.edgeWeight code x y : ℝ)) (fun x => swapP delta A G (pts.idxOf x) * z (pts.length + pts.idxOf x))
      (fun y => swapQ delta A G (pts.idxOf y) * z (pts.idxOf y)) (fun x _ => neighbors_card h x) (fun x y => by
        rw [Noise.edgeWeight_sq hw]
        split_ifs <;> norm_num) hdeg
    have hl : S.card * (Real.pi / 4) ≤ ∑ x ∈ S, (swapP delta A G (pts.idxOf x) * z (pts.length + pts.idxOf x) +
        ∑ y ∈ N x, (Noise.edgeWeight code x y : ℝ) * (swapQ delta A G (pts.idxOf y) * z (pts.idxOf y))) ^ 2 := by
      rw [← nsmul_eq_mul]
      refine Finset.card_nsmul_le_sum _ _ _ fun x hx => ?_
      have hb := hz hx
      unfold swapFlips at hb
      have hb := (Finset.mem_filter.1 hb).2
      have hb' := binner_abs (by rw [hb]; norm_num)
      refine hb'.trans (le_of_eq ?_)
      congr 2
      symm
      refine Finset.sum_subset (fun y hy => List.mem_toFinset.2 (hNp y (Finset.mem_biUnion.2 ⟨x, hx, hy⟩))) fun y _ hy => ?_
      have : s(x, y) ∉ PyDict.keys code.graph.edges := fun hc => hy (List.mem_toFinset.2 (by
        unfold neighbors
        rw [List.mem_filter, decide_eq_true_eq]
        exact ⟨(h.ok.1.graphNodes y).2 ((h.ok.1.graphEdges x y).1 hc).2.1, hc⟩))
      have h0 := Noise.edgeWeight_sq hw x y
      rw [if_neg this] at h0
      rw [pow_eq_zero_iff two_ne_zero |>.1 h0, zero_mul]
    have hu : ∑ i ∈ I₁ ∪ I₂, z i ^ 2 = ∑ x ∈ S, z (pts.length + pts.idxOf x) ^ 2 + ∑ y ∈ S.biUnion N, z (pts.idxOf y) ^ 2 := by
      rw [Finset.sum_union hdisj, hI₁, hI₂, Finset.sum_image hinj₁, Finset.sum_image hinj₂]
    have hs1 : ∑ x ∈ S, (swapP delta A G (pts.idxOf x) * z (pts.length + pts.idxOf x)) ^ 2 ≤ delta / 2 * ∑ x ∈ S, z (pts.length + pts.idxOf x) ^ 2 := by
      rw [Finset.mul_sum]
      refine Finset.sum_le_sum fun x _ => ?_
      rw [mul_pow]
      exact mul_le_mul_of_nonneg_right (hP _) (sq_nonneg _)
    have hs2 : ∑ y ∈ S.biUnion N, (swapQ delta A G (pts.idxOf y) * z (pts.idxOf y)) ^ 2 ≤ delta / 2 * ∑ y ∈ S.biUnion N, z (pts.idxOf y) ^ 2 := by
      rw [Finset.mul_sum]
      refine Finset.sum_le_sum fun y hy => ?_
      obtain ⟨x, hx, hyx⟩ := Finset.mem_biUnion.1 hy
      rw [mul_pow]
      exact mul_le_mul_of_nonneg_right (hQ _ (hA x hx y (List.mem_toFinset.1 hyx))) (sq_nonneg _)
    have h3 := hl.trans hq
    have h34 : (0 : ℝ) < 34 * delta := by positivity
    rw [mul_div_assoc', div_le_iff₀ h34, hu]
    linarith
  refine (measureReal_mono hsub).trans ((hZ.sq_tail (I₁ ∪ I₂) _).trans ?_)
  have h2 : (1 : ℝ) ≤ √2 := Real.one_le_sqrt.2 (by norm_num)
  have e5 : √2 ^ 5 = 4 * √2 := by
    have : √2 ^ 2 = 2 := Real.sq_sqrt (by norm_num)
    calc √2 ^ 5 = (√2 ^ 2) ^ 2 * √2 := by ring
      _ = 4 * √2 := by rw [this]; norm_num
  have h4 : √2 ^ (I₁ ∪ I₂).card ≤ (4 * √2) ^ S.card := by
    rw [← e5, ← pow_mul]
    exact pow_le_pow_right₀ h2 hcard
  refine (mul_le_mul_of_nonneg_left h4 (Real.exp_pos _).le).trans (le_of_eq ?_)
  unfold cvRate
  rw [mul_pow _ (Real.exp _), ← Real.exp_nat_mul, mul_comm]
  congr 2
  field_simp
  ring

/-- The law of the GKP modes sums to that of the squeezed modes. -/
theorem gkp_weights {N : ℕ} (p g : ℝ) {A : Finset ℕ} (hA : A ∈ (Finset.range N).powerset) :
    ∑ G ∈ (Finset.range N \ A).powerset, p ^ A.card * g ^ G.card * (1 - p - g) ^ (N - A.card - G.card) = p ^ A.card * (1 - p) ^ (N - A.card) := by
  have hc : (Finset.range N \ A).card = N - A.card := by
    rw [Finset.card_sdiff_of_subset (Finset.mem_powerset.1 hA), Finset.card_range]
  have := Finset.sum_pow_mul_eq_add_pow g (1 - p - g) (Finset.range N \ A)
  rw [hc] at this
  rw [show 1 - p = g + (1 - p - g) by ring, ← this, Finset.mul_sum]
  refine Finset.sum_congr rfl fun G _ => ?_
  rw [show g + (1 - p - g) - g = 1 - p - g by ring]
  ring

/-- Failures that need all qubits of a set to be flipped or next to squeezed modes. -/
theorem swapFailure_le {code : Code} (h : IsCode code) (hw : ∀ x y w, PyDict.get? code.graph.edges s(x, y) = some w → w.1 = 1 ∨ w.1 = -1)
    (X : Libs) {name : String} {o : Opts} {pts : List V} (hpts : pts.Perm (PyDict.keys code.graph.nodes)) {delta p g : ℝ} (hd : 0 < delta)
    (hp : 0 ≤ p) (hg : 0 ≤ g) (hpg : p + g ≤ 1) {𝒮 : Finset (Finset V)} (hsyn : ∀ S ∈ 𝒮, ∀ x ∈ S, x ∈ code.syndrome)
    (hfail : ∀ A B, Fails X code name o (swapAttrs pts A) B → ∃ S ∈ 𝒮, ∀ x ∈ S, x ∈ B ∨ ∃ y ∈ neighbors code x, pts.idxOf y ∈ A) :
    swapFailure X code pts delta p g name o ≤ ∑ S ∈ 𝒮, (cvRate delta + 4 * √(√p)) ^ S.card := by
  classical
  have hr0 : 0 ≤ cvRate delta := by unfold cvRate; positivity
  set c := cvRate delta + 4 * √(√p) with hc
  set ν := Measure.infinitePi fun _ : ℕ => gaussianReal 0 1 with hν
  set N := pts.length with hN
  have hW : ∀ A G : Finset ℕ, 0 ≤ p ^ A.card * g ^ G.card * (1 - p - g) ^ (N - A.card - G.card) := fun A G => by
    have : 0 ≤ 1 - p - g := by linarith
    positivity
  -- for every pattern of states
  set good : Finset ℕ → Finset V → Finset V := fun A S => S.filter fun x => ∀ y ∈ neighbors code x, pts.idxOf y ∉ A with hgood
  have hAG : ∀ A G : Finset ℕ, ν.real {z | Fails X code name o (swapAttrs pts A) (swapFlips code pts delta A G z)} ≤
      ∑ S ∈ 𝒮, cvRate delta ^ (good A S).card := by
    intro A G
    have hsub : {z : ℕ → ℝ | Fails X code name o (swapAttrs pts A) (swapFlips code pts delta A G z)} ⊆
        ⋃ S ∈ 𝒮, {z | good A S ⊆ swapFlips code pts delta A G z} := by
      intro z hz
      obtain ⟨S, hS, hSB⟩ := hfail A _ hz
      simp only [Set.mem_iUnion]
      refine ⟨S, hS, fun x hx => ?_⟩
      obtain ⟨hxS, hxA⟩ := Finset.mem_filter.1 hx
      rcases hSB x hxS with h1 | ⟨y, hy, h1⟩
      · exact h1
      · exact absurd h1 (hxA y hy)
    refine (measureReal_mono hsub (measure_ne_top _ _)).trans ((measureReal_biUnion_finset_le _ _).trans ?_)
    refine Finset.sum_le_sum fun S hS => ?_
    exact swap_flips_le h hw hpts hd A G (S := good A S)
      (fun x hx => (Finset.mem_filter.1 hx).2) fun x hx => hsyn S hS x (Finset.mem_filter.1 hx).1
  have h1 : swapFailure X code pts delta p g name o ≤ ∑ A ∈ (Finset.range N).powerset, p ^ A.card * (1 - p) ^ (N - A.card) *
      ∑ S ∈ 𝒮, cvRate delta ^ (good A S).card := by
    unfold swapFailure
    refine Finset.sum_le_sum fun A hA => ?_
    rw [← gkp_weights p g hA, Finset.sum_mul]
    exact Finset.sum_le_sum fun G _ => mul_le_mul_of_nonneg_left (hAG A G) (hW A G)
  refine h1.trans ?_
  simp_rw [Finset.mul_sum]
  rw [Finset.sum_comm]
  refine Finset.sum_le_sum fun S hS => ?_
  have hp1 : p ≤ 1 := by linarith
  set nb : V → Finset ℕ := fun x => (neighbors code x).toFinset.image fun y => pts.idxOf y with hnb
  have hle : ∀ A ∈ (Finset.range N).powerset, p ^ A.card * (1 - p) ^ (N - A.card) * cvRate delta ^ (good A S).card ≤
      p ^ A.card * (1 - p) ^ (N - A.card) * ∏ x ∈ S, (cvRate delta + ∑ i ∈ nb x, if i ∈ A then (1 : ℝ) else 0) := by
    intro A hA
    refine mul_le_mul_of_nonneg_left ?_ (mul_nonneg (pow_nonneg hp _) (pow_nonneg (by linarith) _))
    rw [← Finset.prod_const, hgood]
    simp only
    rw [Finset.prod_filter]
    refine Finset.prod_le_prod (fun x _ => by split_ifs <;> positivity) fun x _ => ?_
    have hs : 0 ≤ ∑ i ∈ nb x, if i ∈ A then (1 : ℝ) else 0 := Finset.sum_nonneg fun i _ => by split_ifs <;> norm_num
    split_ifs with hg
    · linarith
    · push Not at hg
      obtain ⟨y, hy, hiA⟩ := hg
      have hi : pts.idxOf y ∈ nb x := Finset.mem_image_of_mem _ (List.mem_toFinset.2 hy)
      have := Finset.single_le_sum (f := fun i => if i ∈ A then (1 : ℝ) else 0) (fun i _ => by split_ifs <;> norm_num) hi
      rw [if_pos hiA] at this
      linarith
  refine (Finset.sum_le_sum hle).trans ?_
  have hq0 : 0 ≤ √(√p) := Real.sqrt_nonneg _
  have hmemp : ∀ x, ∀ y ∈ neighbors code x, y ∈ pts := fun x y hy => by
    unfold neighbors at hy
    exact hpts.mem_iff.2 (List.mem_filter.1 hy).1
  have hprod := Noise.swap_product_le (p := p) hq0 (Real.sqrt_le_one.2 (Real.sqrt_le_one.2 hp1)) (by
      calc √(√p) ^ 4 = (√(√p) ^ 2) ^ 2 := by ring
        _ = p := by rw [Real.sq_sqrt (Real.sqrt_nonneg _), Real.sq_sqrt hp]) hr0 N S nb
    (fun x _ i hi => by
      obtain ⟨y, hy, rfl⟩ := Finset.mem_image.1 hi
      exact Finset.mem_range.2 (List.idxOf_lt_length_of_mem (hmemp x y (List.mem_toFinset.1 hy))))
    (fun i => by
      rcases (S.filter fun x => i ∈ nb x).eq_empty_or_nonempty with he | ⟨x₀, hx₀⟩
      · rw [he]; simp
      · obtain ⟨y₀, hy₀, e₀⟩ := Finset.mem_image.1 (Finset.mem_filter.1 hx₀).2
        refine (Finset.card_le_card fun x hx => ?_).trans (neighbors_card h y₀)
        obtain ⟨y, hy, e⟩ := Finset.mem_image.1 (Finset.mem_filter.1 hx).2
        have hy := List.mem_toFinset.1 hy
        have : y = y₀ := (List.idxOf_inj (hmemp x y hy)).1 (e.trans e₀.symm)
        subst this
        exact List.mem_toFinset.2 ((mem_neighbors_comm h).1 hy))
  refine hprod.trans ?_
  rw [← Finset.prod_const]
  refine Finset.prod_le_prod (fun x _ => by positivity) fun x _ => ?_
  have h4 : ((nb x).card : ℝ) ≤ 4 := by
    exact_mod_cast Finset.card_image_le.trans (neighbors_card h x)
  rw [hc]
  nlinarith

/-- C79.  The failure probability of the minimum weight decoder with unit weights, if every mode is independently squeezed with probability
`p`, a noisy GKP state with probability `g` and noiseless otherwise. -/
theorem C79_bound {code : Code} (h : IsCode code) (hw : ∀ x y w, PyDict.get? code.graph.edges s(x, y) = some w → w.1 = 1 ∨ w.1 = -1)
    (X : Libs) {o : Opts} (ho : o.method = "uniform") {pts : List V} (hpts : pts.Perm (PyDict.keys code.graph.nodes)) {delta p g : ℝ} (hd : 0 < delta)
    (hp : 0 ≤ p) (hg : 0 ≤ g) (hpg : p + g ≤ 1) (hr : cvRate delta + 4 * √(√p) < 1 / 100) {d : ℕ}
    (hdim : ∀ i ∈ planesToCheck code.ec code.boundaries, d ≤ code.dims i) :
    swapFailure X code pts delta p g "MWPM" o ≤
      2 * code.syndrome.length / 5 * ((10 * √(cvRate delta + 4 * √(√p))) ^ d / (1 - 10 * √(cvRate delta + 4 * √(√p)))) := by
  have hr0 : 0 ≤ cvRate delta := by unfold cvRate; positivity
  have hc0 : 0 ≤ cvRate delta + 4 * √(√p) := by positivity
  refine le_trans ?_ (halves_sum h (Real.sqrt_nonneg _) (sqrt_small hr) (Real.sq_sqrt hc0).symm d)
  refine swapFailure_le h hw X hpts hd hp hg hpg (fun S hS x hx => List.mem_toFinset.1 (halves_subset hS hx)) fun A B hF => ?_
  obtain ⟨S, hS, hSB⟩ := half_flipped h X ho hdim hF
  exact ⟨S, hS, fun x hx => Or.inl (hSB hx)⟩

/-- C79.  Threshold for the noise of the states and the swap-out probability: the failure probability goes to zero as the code grows. -/
theorem C79_threshold {delta p : ℝ} (hd : 0 < delta) (hp : 0 ≤ p) (hr : cvRate delta + 4 * √(√p) < 1 / 100)
    (m : ℕ) {ε : ℝ} (hε : 0 < ε) : ∃ d₀ : ℕ, ∀ d, d₀ ≤ d →
    ∀ code : Code, IsCode code → (∀ x y w, PyDict.get? code.graph.edges s(x, y) = some w → w.1 = 1 ∨ w.1 = -1) →
    (∀ i, d ≤ code.dims i ∧ code.dims i ≤ m * d) → ∀ (X : Libs) (o : Opts) (pts : List V), o.method = "uniform" →
      pts.Perm (PyDict.keys code.graph.nodes) → ∀ g, 0 ≤ g → p + g ≤ 1 → swapFailure X code pts delta p g "MWPM" o < ε := by
  obtain ⟨d₀, hd₀⟩ := rate_limit (Real.sqrt_nonneg _) (sqrt_small hr) m hε
  exact ⟨d₀, fun d hdd code h hw hdims X o pts ho hpts g hg hpg =>
    (C79_bound h hw X ho hpts hd hp hg hpg hr fun i _ => (hdims i).1).trans_lt (hd₀ d hdd code h hdims)⟩

/-- Noise and swap-out probabilities below the threshold. -/
theorem swapRate_small {delta p : ℝ} (hd : 0 < delta) (h1 : delta ≤ 1 / 360) (hp : p ≤ 1 / 10 ^ 11) :
    cvRate delta + 4 * √(√p) < 1 / 100 := by
  unfold cvRate
  have h2 : √2 < 1.5 := by
    rw [Real.sqrt_lt' (by norm_num)]
    norm_num
  have h3 : -Real.pi / (136 * delta) ≤ -8 := by
    rw [div_le_iff₀ (by positivity)]
    nlinarith [Real.pi_gt_d2]
  have h4 : Real.exp (-8) < 1 / 2900 := by
    rw [Real.exp_neg, inv_lt_comm₀ (Real.exp_pos _) (by norm_num), one_div, inv_inv]
    have h5 : (2.7182818283 : ℝ) < Real.exp 1 := Real.exp_one_gt_d9
    calc (2900 : ℝ) < 2.7182818283 ^ 8 := by norm_num
      _ < Real.exp 1 ^ 8 := pow_lt_pow_left₀ h5 (by norm_num) (by norm_num)
      _ = Real.exp 8 := by rw [← Real.exp_nat_mul]; norm_num
  have h6 := (Real.exp_le_exp.2 h3).trans_lt h4
  have h7 : 0 < √2 := by positivity
  have h8 := Real.exp_pos (-Real.pi / (136 * delta))
  have h9 : √(√p) ≤ 0.0018 := by
    rw [Real.sqrt_le_left (by norm_num), Real.sqrt_le_left (by norm_num)]
    exact hp.trans (by norm_num)
  nlinarith

theorem swapGkpProb_bounds {p : ℝ} (h0 : 0 ≤ p) (h1 : p ≤ 1) (n : ℕ) : 0 ≤ Noise.swapGkpProb p n ∧ p + Noise.swapGkpProb p n ≤ 1 := by
  induction n with
  | zero => simp [Noise.swapGkpProb, h1]
  | succ n ih =>
    rw [Noise.swapGkpProb]
    constructor
    · exact mul_nonneg (by linarith) (by linarith)
    · nlinarith [mul_nonneg (sub_nonneg.2 h1) ih.1]

/-- C79.  Simulations with a `CVLayer` in the initial sampling order with `delta` at most 1/360 and swap-out probability at most `10⁻¹¹`: for large
codes, whatever the number of trials and ranks, the expected error rate is below `ε`. -/
theorem C79_simulation {delta p : ℝ} (hd : 0 < delta) (h1 : delta ≤ 1 / 360) (h0 : 0 ≤ p) (hp : p ≤ 1 / 10 ^ 11) {ε : ℝ} (hε : 0 < ε) :
    ∃ d₀ : ℕ, ∀ d, d₀ ≤ d → ∀ code : Code, IsCode code →
    (∀ x y w, PyDict.get? code.graph.edges s(x, y) = some w → w.1 = 1 ∨ w.1 = -1) → (∀ i, code.dims i = d) →
    ∀ (X : Libs) (o : Opts), o.method = "uniform" → ∀ (pts : List V) (L₀ : Noise.Layer V), Noise.OnCode code pts delta (some p) .initial none L₀ →
    ∀ {Ω : Type} [MeasurableSpace Ω] (μ : Measure Ω) (Z : ℕ × ℕ × ℕ → Ω → ℝ), Noise.NormalIid Z μ →
    ∀ (num : ℕ × ℕ → Ω → ℕ) (choice : ℕ × ℕ → Ω → ℕ → List ℕ), Noise.SwapRng pts.length p num choice μ →
    IndepFun (fun ω j => (num j ω, choice j ω)) (fun ω j => Z j ω) μ →
    ∀ (u : ℕ → ℕ → ℕ → ℝ) (b : ℕ → ℕ → ℕ → ℤ) (trials size : ℕ), 0 < size → ∀ errors : Ω → ℤ,
    (∀ ω, ∃ err, monteCarlo (ecTrial X code "MWPM" o (cvModel code pts)) trials size
      (fun r => ((L₀, fun k => (Noise.squeezedDraw (num (r, k) ω) (choice (r, k) ω), ⟨fun i => Z (r, k, i) ω, u r k, b r k⟩)),
        fun _ => none)) = some err ∧ errors ω = err 0) →
    ∫ ω, (errors ω : ℝ) ∂μ ≤ trials * ε := by
  have hp1 : p ≤ 1 := hp.trans (by norm_num)
  obtain ⟨d₀, hd₀⟩ := C79_threshold hd h0 (swapRate_small hd h1 hp) 1 hε
  refine ⟨d₀, fun d hdd code h hw hdims X o ho pts L₀ hL Ω _ μ Z hZ num choice hC hind u b trials size hs errors he => ?_⟩
  have : IsProbabilityMeasure μ := hZ.indep.isProbabilityMeasure
  rw [C68_mean h X hp1 hL hd (Or.inl rfl) ho trials hs hZ hC hind u b errors he]
  refine (Finset.sum_le_card_nsmul _ _ ε fun t _ => ?_).trans (by rw [Finset.card_range, nsmul_eq_mul])
  rw [← Noise.swapGkpProb_closed hp1]
  have hb := swapGkpProb_bounds h0 hp1 (t / size + 1)
  exact (hd₀ d hdd code h hw (fun i => by rw [hdims i, one_mul]; exact ⟨le_rfl, le_rfl⟩) X o pts ho hL.perm _ hb.1 hb.2).le

/-! ### The hypotheses can be met -/

-- codes of every size with alternating polarity, layers with swap-outs on them, and simulations
example (d : ℕ) (hd : 2 ≤ d) (trials : ℕ) : ∃ (Ω : Type) (_ : MeasurableSpace Ω) (μ : Measure Ω) (Z : ℕ × ℕ × ℕ → Ω → ℝ) (code : Code)
    (pts : List V) (L₀ : Noise.Layer V) (X : Libs) (num : ℕ × ℕ → Ω → ℕ) (choice : ℕ × ℕ → Ω → ℕ → List ℕ) (errors : Ω → ℤ),
    Noise.NormalIid Z μ ∧ IsCode code ∧ (∀ i, code.dims i = d) ∧ Noise.OnCode code pts (1 / 360) (some (1 / 10 ^ 11)) .initial none L₀ ∧
    (∀ x y w, PyDict.get? code.graph.edges s(x, y) = some w → w.1 = 1 ∨ w.1 = -1) ∧ Noise.SwapRng pts.length (1 / 10 ^ 11) num choice μ ∧
    IndepFun (fun ω j => (num j ω, choice j ω)) (fun ω j => Z j ω) μ ∧
    ∀ ω, ∃ err, monteCarlo (ecTrial X code "MWPM" {} (cvModel code pts)) trials 2
      (fun r => ((L₀, fun k => (Noise.squeezedDraw (num (r, k) ω) (choice (r, k) ω), ⟨fun i => Z (r, k, i) ω, fun _ => 0, fun _ => 0⟩)),
        fun _ => none)) = some err ∧ errors ω = err 0 := by
  obtain ⟨code, h, hdim, -⟩ := C54_constructor_total idOrder .primal .periodic (dims := fun _ => d) (by simp [hd]) (some alternatingPolarity)
  have hcode : IsCode code := ⟨idOrder, _, _, _, _, by simp [hd], h⟩
  set pts := PyDict.keys code.graph.nodes with hpts
  obtain ⟨L, hL⟩ : ∃ L, Noise.codeLayer code pts (1 / 360) (some (1 / 10 ^ 11)) .initial none = some L := by
    unfold Noise.codeLayer
    rw [(Noise.C53_constructor (some (1 / 10 ^ 11)) none).2.1 rfl]
    exact ⟨_, rfl⟩
  have hon : Noise.OnCode code pts (1 / 360) (some (1 / 10 ^ 11)) .initial none L := ⟨List.Perm.refl _, hL⟩
  obtain ⟨X, -⟩ := libs_exist .networkx
  obtain ⟨Ω₁, m₁, μ₁, hp₁, Z, hZ⟩ := Noise.normalIid_exists (ℕ × ℕ × ℕ)
  obtain ⟨Ω₂, m₂, μ₂, hp₂, num, choice, hC⟩ := Noise.swapRng_exists (ℕ × ℕ) pts.length (p := 1 / 10 ^ 11) (by norm_num) (by norm_num)
  have hsnd : MeasurePreserving (Prod.snd : Ω₂ × Ω₁ → Ω₁) (μ₂.prod μ₁) μ₁ := measurePreserving_snd
  have hfst : MeasurePreserving (Prod.fst : Ω₂ × Ω₁ → Ω₂) (μ₂.prod μ₁) μ₂ := measurePreserving_fst
  have hind : IndepFun (fun (ω : Ω₂ × Ω₁) j => (num j ω.1, choice j ω.1)) (fun ω j => Z j ω.2) (μ₂.prod μ₁) :=
    indepFun_prod (X := fun ω j => (num j ω, choice j ω)) (Y := fun ω j => Z j ω)
      (measurable_pi_lambda _ fun j => (hC.measNum j).prodMk (hC.measChoice j)) (measurable_pi_lambda _ hZ.meas)
  have hsim : ∀ ω : Ω₂ × Ω₁, ∃ err, monteCarlo (ecTrial X code "MWPM" {} (cvModel code pts)) trials 2
      (fun r => ((L, fun k => (Noise.squeezedDraw (num (r, k) ω.1) (choice (r, k) ω.1), ⟨fun i => Z (r, k, i) ω.2, fun _ => 0, fun _ => 0⟩)),
        fun _ => none)) = some err := fun ω => by
    obtain ⟨err, e, -⟩ := C59_cv hcode X hon (by norm_num) (name := "MWPM") (o := {}) (Or.inl ⟨rfl, Or.inl rfl⟩) trials two_pos
      (fun r k => (Noise.squeezedDraw (num (r, k) ω.1) (choice (r, k) ω.1), ⟨fun i => Z (r, k, i) ω.2, fun _ => 0, fun _ => 0⟩))
      fun r _ k i hi => (hC.arrangement _ ω.1 _ (hC.range _ ω.1)).2.2 i hi
    exact ⟨err, e⟩
  choose err herr using hsim
  refine ⟨Ω₂ × Ω₁, inferInstance, μ₂.prod μ₁, fun j ω => Z j ω.2, code, pts, L, X, fun j ω => num j ω.1, fun j ω => choice j ω.1,
    fun ω => err ω 0, hZ.of_map hsnd, hcode, fun i => by rw [hdim], hon, Noise.pm_weights (by simp [hd]) h ?_, hC.of_map hfst, hind,
    fun ω => ⟨err ω, herr ω, rfl⟩⟩
  intro u v
  simp only [weightOf, alternatingPolarity]
  split_ifs
  · exact neg_one_pow_eq_or ℤ _
  · exact neg_one_pow_eq_or ℤ _
  · exact neg_one_pow_eq_or ℤ _
  · exact Or.inl rfl

end Flamingpy.Trial
