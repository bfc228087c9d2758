import Verif.Proofs.GaussTail
import Verif.Proofs.MacroFlip
import Verif.Proofs.SwapLaw
import Verif.Props.CvThreshold

/-! # Sets of flipped macronode bits are unlikely -/

namespace Flamingpy.Noise

open Flamingpy Flamingpy.SurfaceCode Flamingpy.UnionFind EGraph MeasureTheory ProbabilityTheory

theorem macroNbrs_comm {m : Macronize.MG} {x y : Pt} (h : y ∈ macroNbrs m x) : x ∈ macroNbrs m y := by
  unfold macroNbrs at h ⊢
  rw [List.mem_filterMap] at h ⊢
  obtain ⟨e, he, h⟩ := h
  refine ⟨e, he, ?_⟩
  split_ifs at h with h1 h2
  · by_cases c : e.1 = y
    · rw [if_pos c, ← h1, c]; exact h
    · rw [if_neg c, if_pos (Option.some.inj h), h1]
  · rw [if_pos (Option.some.inj h), h2]

theorem OnPolarCode.nbrs_comm {code : Code} {delta : ℝ} {pSwap : Option ℝ} {M₀ : Macro Pt} (h : OnPolarCode code delta pSwap M₀) {x y : Pt}
    (hy : y ∈ M₀.nbrs x) : x ∈ M₀.nbrs y := by
  obtain ⟨oriented, _, hm⟩ := h.made
  unfold macroLayer at hm
  simp only [Option.bind_eq_bind, Option.bind_eq_some_iff] at hm
  obtain ⟨m, _, a, _, pts, _, st, _, he⟩ := hm
  rw [← Option.some.inj he] at hy ⊢
  exact macroNbrs_comm hy

variable {P : Type} [DecidableEq P]

/-- A micronode is joined to at most one other. -/
theorem MacroOk.nbList_disj {M : Macro P} {cs : List P} (h : MacroOk M cs) (hc : ∀ x y, y ∈ M.nbrs x → x ∈ M.nbrs y) {k k' : ℕ}
    (hk : k < cs.length) (hk' : k' < cs.length) {i : ℕ} (hi : i ∈ nbList M k) (hi' : i ∈ nbList M k') : k = k' := by
  have key : ∀ k, k < cs.length → i ∈ nbList M k → ∃ p q, M.layer.pts[i]? = some q ∧ p ∈ M.nbrs q ∧ cs[k]? = some (M.centre p) := by
    intro k hk hi
    unfold nbList at hi
    rw [List.mem_filterMap] at hi
    obtain ⟨j, hj, hji⟩ := hi
    have hjl : j < M.layer.pts.length := by
      rw [mem_row] at hj; rw [h.len]; omega
    have hg := List.getElem?_eq_getElem hjl
    rcases h.nbI_cases hg with ⟨b1, b2⟩ | ⟨j', w, b1, b2, b3⟩
    · rw [b1] at hji; cases hji
    · rw [b1] at hji
      obtain rfl := Option.some.inj hji
      refine ⟨_, w, b2, hc _ _ (by rw [b3]; simp), ?_⟩
      rw [← mem_row.1 hj]
      exact h.centre j _ hg
  obtain ⟨p, q, a1, a2, a3⟩ := key k hk hi
  obtain ⟨p', q', b1, b2, b3⟩ := key k' hk' hi'
  rw [a1] at b1
  obtain rfl := Option.some.inj b1
  have : p = p' := by
    rcases h.nbrs q (List.mem_of_getElem? a1) with h0 | ⟨z, _, h0⟩
    · rw [h0] at a2; cases a2
    · rw [h0, List.mem_singleton] at a2 b2
      rw [a2, b2]
  subst this
  rw [List.getElem?_eq_getElem hk] at a3
  rw [List.getElem?_eq_getElem hk'] at b3
  exact h.csNodup.getElem_inj_iff.1 ((Option.some.inj a3).trans (Option.some.inj b3).symm)

theorem nbList_length (M : Macro P) (k : ℕ) : (nbList M k).length ≤ 4 :=
  (List.length_filterMap_le _ _).trans (by simp [row])

theorem nbList_code {code : Code} {M₀ : Macro Pt} {cs : List Pt} (hok : MacroOk M₀ cs)
    (h7 : ∀ x ∈ PyDict.keys code.graph.nodes, (M₀.around (toPt x)).Perm ((neighbors code x).map toPt))
    {x : V} (hx : x ∈ PyDict.keys code.graph.nodes) (hk : cs.idxOf (toPt x) < cs.length) {i : ℕ} (hi : i ∈ nbList M₀ (cs.idxOf (toPt x))) :
    ∃ y ∈ neighbors code x, i / 4 = cs.idxOf (toPt y) := by
  obtain ⟨hil, y', hy', hl⟩ := hok.nbList_get hk hi
  rw [List.getElem_idxOf] at hl
  have hm : M₀.centre y' ∈ M₀.around (toPt x) := List.mem_map_of_mem hl
  rw [(h7 x hx).mem_iff, List.mem_map] at hm
  obtain ⟨y, hy, he⟩ := hm
  refine ⟨y, hy, ?_⟩
  have := hok.centre i y' hy'
  rw [← he] at this
  obtain ⟨h1, h2⟩ := List.getElem?_eq_some_iff.1 this
  rw [← h2, hok.csNodup.idxOf_getElem]

theorem zCoef_le (b : ℕ) (Z : Fin 3 → ℝ) : (∑ t : Fin 3, zCoef b t * Z t) ^ 2 ≤ 2 * ∑ t : Fin 3, Z t ^ 2 := by
  have h : ∑ t : Fin 3, zCoef b t ^ 2 ≤ 2 := by
    by_cases hb : b = 0
    · subst hb; simp [zCoef]
    · exact (zCoef_sq hb).le
  exact (Finset.sum_mul_sq_le_sq_mul_sq _ _ _).trans (mul_le_mul_of_nonneg_right h (Finset.sum_nonneg fun _ _ => sq_nonneg _))

omit [DecidableEq P] in
/-- A flipped bit next to GKP states only needs large noise. -/
theorem flip_large {L : Layer P} (hperf : L.perfect = []) (hd : 0 ≤ L.delta) (w : ℕ → ℝ) (G : ℕ → Bool) {n k : ℕ} (hk : k < n) {l : List ℕ}
    (hlt : ∀ i ∈ l, i / 4 < n) (hG : ∀ i ∈ l, G i = true) {u : ℕ → ℝ} {Z : Bool × ℕ → ℝ}
    (hf : flipInt L w G n l u (fun i => Z (true, i)) (fun i => Z (false, i)) k % 2 = 1) :
    Real.pi / 4 ≤ 2 * L.delta * Z (devIdx (permOf G n) n (.inl ⟨k, hk⟩)) ^ 2 ∨
      ∃ i, ∃ hi : i ∈ l, Real.pi / 4 ≤ L.delta * ∑ t : Fin 3, Z (devIdx (permOf G n) n (.inr (⟨i / 4, hlt i hi⟩, t))) ^ 2 := by
  by_contra hc
  push Not at hc
  obtain ⟨h1, h2⟩ := hc
  have hdd : √(L.delta / 2) ^ 2 = L.delta / 2 := Real.sq_sqrt (by positivity)
  have hb0 : ∀ x : ℝ, x ^ 2 < Real.pi / 4 → Gkp.gkpBinner x = 0 := by
    intro x hx
    by_contra hne
    exact absurd (Trial.binner_abs hne) (not_le.2 hx)
  have hfil : (l.filter fun i => !G i) = [] := by
    rw [List.filter_eq_nil_iff]; intro i hi; simp [hG i hi]
  have hfil2 : (l.filter fun i => !G i && !G (starOf G (i / 4))) = [] := by
    rw [List.filter_eq_nil_iff]; intro i hi; simp [hG i hi]
  have hout : Gkp.gkpBinner (flipOut L w G n l u (fun i => Z (true, i)) (fun i => Z (false, i)) k) = 0 := by
    apply hb0
    unfold flipOut outNoise
    rw [hfil, hfil2, starNoise_dev hperf _ Z ⟨k, hk⟩]
    simp only [List.map_nil, List.sum_nil, sub_zero, add_zero]
    refine lt_of_eq_of_lt ?_ h1
    rw [mul_pow, mul_pow, hdd]
    ring
  have hsum : ((l.filter G).map fun i => Gkp.gkpBinner (zNoise L (permOf G n) (fun i => Z (false, i)) i)).sum = 0 := by
    apply List.sum_eq_zero
    intro a ha
    obtain ⟨i, hi, rfl⟩ := List.mem_map.1 ha
    have hil := (List.mem_filter.1 hi).1
    apply hb0
    rw [zNoise_dev hperf _ Z (hlt i hil), mul_pow, hdd]
    refine lt_of_le_of_lt ?_ (h2 i hil)
    have := zCoef_le ((permOf G n).idxOf i % 4) fun t => Z (devIdx (permOf G n) n (.inr (⟨i / 4, hlt i hil⟩, t)))
    nlinarith
  unfold flipInt at hf
  rw [hout, hsum] at hf
  simp at hf

/-- Specification: bound on the rate of flips next to GKP states. -/
noncomputable def _root_.Flamingpy.Trial.macroRate (delta : ℝ) : ℝ := 64 * √2 * Real.exp (-Real.pi / (64 * delta))

/-- For a given pattern of states: the set of deviates for which all bits in `S` can be flipped. -/
theorem tail_set {code : Code} {M₀ : Macro Pt} {cs : List Pt} (hc : IsCode code) (hok : MacroOk M₀ cs) (hperf : M₀.layer.perfect = [])
    (hd : 0 < M₀.layer.delta) (h6 : ∀ c, c ∈ cs ↔ ∃ x ∈ PyDict.keys code.graph.nodes, c = toPt x)
    (h7 : ∀ x ∈ PyDict.keys code.graph.nodes, (M₀.around (toPt x)).Perm ((neighbors code x).map toPt)) (G : ℕ → Bool) (S : Finset V)
    (hS : ∀ x ∈ S, x ∈ PyDict.keys code.graph.nodes) (hG : ∀ x ∈ S, ∀ i ∈ nbList M₀ (cs.idxOf (toPt x)), G i = true) :
    ∃ I : Finset (Bool × ℕ), I.card ≤ 13 * S.card ∧ ∀ (u : ℕ → ℝ) (Z : Bool × ℕ → ℝ),
      (∀ x ∈ S, flipInt M₀.layer (wI M₀) G cs.length (nbList M₀ (cs.idxOf (toPt x))) u (fun i => Z (true, i)) (fun i => Z (false, i))
        (cs.idxOf (toPt x)) % 2 = 1) → S.card * (Real.pi / (16 * M₀.layer.delta)) ≤ ∑ j ∈ I, Z j ^ 2 := by
  classical
  set n := cs.length with hn
  set perm := permOf G n with hperm
  have hidx : ∀ x ∈ PyDict.keys code.graph.nodes, cs.idxOf (toPt x) < n := fun x hx =>
    List.idxOf_lt_length_of_mem ((h6 (toPt x)).2 ⟨x, hx, rfl⟩)
  have hinjk : ∀ x ∈ PyDict.keys code.graph.nodes, ∀ y, cs.idxOf (toPt x) = cs.idxOf (toPt y) → x = y := fun x hx y e =>
    toPt_inj ((List.idxOf_inj ((h6 (toPt x)).2 ⟨x, hx, rfl⟩)).1 e)
  set N : V → Finset V := fun x => (neighbors code x).toFinset with hN
  have hNn : ∀ y ∈ S.biUnion N, y ∈ PyDict.keys code.graph.nodes := by
    intro y hy
    obtain ⟨x, -, hy⟩ := Finset.mem_biUnion.1 hy
    have := List.mem_toFinset.1 hy
    unfold neighbors at this
    exact (List.mem_filter.1 this).1
  have hn0 : 0 < n := by rw [hn]; exact List.length_pos_iff.2 hok.nonempty
  set kf : V → Fin n := fun x => if h : cs.idxOf (toPt x) < n then ⟨cs.idxOf (toPt x), h⟩ else ⟨0, hn0⟩ with hkf
  have hkv : ∀ x, ∀ hx : x ∈ PyDict.keys code.graph.nodes, kf x = ⟨cs.idxOf (toPt x), hidx x hx⟩ := fun x hx => by
    rw [hkf]; simp only; rw [dif_pos (hidx x hx)]
  set I₁ := S.image fun x => devIdx perm n (.inl (kf x)) with hI₁
  set I₂ := (S.biUnion N ×ˢ (Finset.univ : Finset (Fin 3))).image fun e => devIdx perm n (.inr (kf e.1, e.2)) with hI₂
  have hdi := devIdx_inj (permOf_perm G n)
  have hinj₁ : Set.InjOn (fun x => devIdx perm n (.inl (kf x))) (S : Set V) := by
    intro x hx y hy e
    have := hdi e
    simp only [Sum.inl.injEq] at this
    rw [hkv x (hS x hx), hkv y (hS y hy)] at this
    exact hinjk x (hS x hx) y (by simpa using this)
  have hinj₂ : Set.InjOn (fun e : V × Fin 3 => devIdx perm n (.inr (kf e.1, e.2)))
      ((S.biUnion N ×ˢ (Finset.univ : Finset (Fin 3)) : Finset (V × Fin 3)) : Set (V × Fin 3)) := by
    intro x hx y hy e
    have := hdi e
    simp only [Sum.inr.injEq, Prod.mk.injEq] at this
    have hx' := hNn x.1 (Finset.mem_product.1 (Finset.mem_coe.1 hx)).1
    have hy' := hNn y.1 (Finset.mem_product.1 (Finset.mem_coe.1 hy)).1
    rw [hkv x.1 hx', hkv y.1 hy'] at this
    exact Prod.ext (hinjk x.1 hx' y.1 (by simpa using this.1)) this.2
  have hdisj : Disjoint I₁ I₂ := by
    rw [Finset.disjoint_left]
    intro i h1 h2
    obtain ⟨x, -, rfl⟩ := Finset.mem_image.1 h1
    obtain ⟨y, -, e⟩ := Finset.mem_image.1 h2
    cases hdi e
  have hcardN : (S.biUnion N).card ≤ S.card * 4 := Finset.card_biUnion_le_card_mul _ _ _ fun x _ => Trial.neighbors_card hc x
  refine ⟨I₁ ∪ I₂, ?_, fun u Z hf => ?_⟩
  · refine (Finset.card_union_le _ _).trans ?_
    have h1 : I₁.card ≤ S.card := Finset.card_image_le
    have h2 : I₂.card ≤ (S.biUnion N ×ˢ (Finset.univ : Finset (Fin 3))).card := Finset.card_image_le
    rw [Finset.card_product, Finset.card_univ, Fintype.card_fin] at h2
    omega
  set δ := M₀.layer.delta with hδ
  have hdeg : ∀ y, (S.filter fun x => y ∈ N x).card ≤ 4 := by
    intro y
    refine (Finset.card_le_card fun x hx => ?_).trans (Trial.neighbors_card hc y)
    rw [Finset.mem_filter] at hx
    exact List.mem_toFinset.2 ((Trial.mem_neighbors_comm hc).1 (List.mem_toFinset.1 hx.2))
  set Q : V → ℝ := fun y => ∑ t : Fin 3, Z (devIdx perm n (.inr (kf y, t))) ^ 2 with hQ
  have hQ0 : ∀ y, 0 ≤ Q y := fun y => Finset.sum_nonneg fun _ _ => sq_nonneg _
  have h1 : ∀ x ∈ S, Real.pi / 4 ≤ 2 * δ * Z (devIdx perm n (.inl (kf x))) ^ 2 + δ * ∑ y ∈ N x, Q y := by
    intro x hx
    have hxn := hS x hx
    have hlt : ∀ i ∈ nbList M₀ (cs.idxOf (toPt x)), i / 4 < n := fun i hi => by
      have := (hok.nbList_get (hidx x hxn) hi).1
      omega
    have hs0 : 0 ≤ ∑ y ∈ N x, Q y := Finset.sum_nonneg fun y _ => hQ0 y
    rcases flip_large hperf hd.le (wI M₀) G (hidx x hxn) hlt (hG x hx) (hf x hx) with h | ⟨i, hi, h⟩
    · rw [hkv x hxn]
      have : 0 ≤ δ * ∑ y ∈ N x, Q y := by positivity
      linarith
    · obtain ⟨y, hy, e⟩ := nbList_code hok h7 hxn (hidx x hxn) hi
      have hyn : y ∈ PyDict.keys code.graph.nodes := hNn y (Finset.mem_biUnion.2 ⟨x, hx, List.mem_toFinset.2 hy⟩)
      have hyQ : Q y ≤ ∑ y ∈ N x, Q y := Finset.single_le_sum (f := Q) (fun y _ => hQ0 y) (List.mem_toFinset.2 hy)
      have he : (⟨i / 4, hlt i hi⟩ : Fin n) = kf y := by rw [hkv y hyn]; exact Fin.ext e
      rw [he] at h
      have h2 : δ * Q y ≤ δ * ∑ y ∈ N x, Q y := mul_le_mul_of_nonneg_left hyQ hd.le
      have : 0 ≤ 2 * δ * Z (devIdx perm n (.inl (kf x))) ^ 2 := by positivity
      linarith
  have h2 := Finset.sum_le_sum h1
  rw [Finset.sum_const, nsmul_eq_mul, Finset.sum_add_distrib, ← Finset.mul_sum, ← Finset.mul_sum] at h2
  have h3 : ∑ x ∈ S, ∑ y ∈ N x, Q y ≤ 4 * ∑ y ∈ S.biUnion N, Q y := by
    have : ∀ x ∈ S, ∑ y ∈ N x, Q y = ∑ y ∈ S.biUnion N, if y ∈ N x then Q y else 0 := by
      intro x hx
      rw [← Finset.sum_filter]
      refine Finset.sum_congr ?_ fun _ _ => rfl
      ext y
      rw [Finset.mem_filter, Finset.mem_biUnion]
      exact ⟨fun h => ⟨⟨x, hx, h⟩, h⟩, fun h => h.2⟩
    rw [Finset.sum_congr rfl this, Finset.sum_comm, Finset.mul_sum]
    refine Finset.sum_le_sum fun y _ => ?_
    rw [← Finset.sum_filter, Finset.sum_const, nsmul_eq_mul]
    exact mul_le_mul_of_nonneg_right (by exact_mod_cast hdeg y) (hQ0 y)
  have h4 : ∑ j ∈ I₁ ∪ I₂, Z j ^ 2 = ∑ x ∈ S, Z (devIdx perm n (.inl (kf x))) ^ 2 + ∑ y ∈ S.biUnion N, Q y := by
    rw [Finset.sum_union hdisj, hI₁, hI₂, Finset.sum_image hinj₁, Finset.sum_image hinj₂, Finset.sum_product]
  rw [h4]
  have h5 : 0 ≤ ∑ x ∈ S, Z (devIdx perm n (.inl (kf x))) ^ 2 := Finset.sum_nonneg fun _ _ => sq_nonneg _
  have h16 : (0 : ℝ) < 16 * δ := by positivity
  rw [mul_div_assoc', div_le_iff₀ h16]
  nlinarith [mul_le_mul_of_nonneg_left h3 hd.le, mul_nonneg hd.le h5]

/-- Every mode squeezed with probability `p`: expected products over disjoint sets of modes. -/
theorem swap_product {V : Type} [DecidableEq V] {p r : ℝ} (N : ℕ) (S : Finset V) (nb : V → Finset ℕ) (hsub : ∀ x ∈ S, nb x ⊆ Finset.range N)
    (hdj : ∀ x ∈ S, ∀ y ∈ S, ∀ i, i ∈ nb x → i ∈ nb y → x = y) :
    ∑ A ∈ (Finset.range N).powerset, p ^ A.card * (1 - p) ^ (N - A.card) * ∏ x ∈ S, (r + ∑ i ∈ nb x, if i ∈ A then (1 : ℝ) else 0) =
      ∏ x ∈ S, (r + (nb x).card * p) := by
  have h1 : ∀ a : ℕ → ℝ, ∏ x ∈ S, (r + ∑ i ∈ nb x, a i) = ∑ T ∈ S.powerset, (∏ x ∈ T, r) *
      ∑ g ∈ (S \ T).pi nb, ∏ x ∈ (S \ T).attach, a (g x.1 x.2) := by
    intro a
    rw [Finset.prod_add]
    refine Finset.sum_congr rfl fun T _ => ?_
    rw [Finset.prod_sum]
  have h2 : ∀ T ∈ S.powerset, ∀ g ∈ (S \ T).pi nb, ∑ A ∈ (Finset.range N).powerset, p ^ A.card * (1 - p) ^ (N - A.card) *
      ∏ x ∈ (S \ T).attach, (if g x.1 x.2 ∈ A then (1 : ℝ) else 0) = ∏ x ∈ (S \ T).attach, p := by
    intro T hT g hg
    rw [Finset.mem_pi] at hg
    set B := (S \ T).attach.image fun x => g x.1 x.2 with hB
    have hBN : B ⊆ Finset.range N := by
      intro i hi
      obtain ⟨x, -, rfl⟩ := Finset.mem_image.1 hi
      exact hsub x.1 (Finset.mem_sdiff.1 x.2).1 (hg x.1 x.2)
    have hBc : B.card = (S \ T).card := by
      rw [hB, Finset.card_image_of_injective, Finset.card_attach]
      intro x y e
      exact Subtype.ext (hdj _ (Finset.mem_sdiff.1 x.2).1 _ (Finset.mem_sdiff.1 y.2).1 _ (hg x.1 x.2) (by
        have := hg y.1 y.2
        rwa [← (show g x.1 x.2 = g y.1 y.2 from e)] at this))
    have h3 := sum_part (g := p) hBN (Finset.Subset.refl B)
    rw [Nat.sub_self, pow_zero, mul_one, hBc, Finset.card_range] at h3
    rw [Finset.prod_const, Finset.card_attach, ← h3, Finset.sum_filter]
    refine Finset.sum_congr rfl fun A _ => ?_
    have h4 : ∏ x ∈ (S \ T).attach, (if g x.1 x.2 ∈ A then (1 : ℝ) else 0) = if A ∩ B = B then 1 else 0 := by
      by_cases hAB : A ∩ B = B
      · rw [if_pos hAB]
        refine Finset.prod_eq_one fun x _ => if_pos ?_
        have : g x.1 x.2 ∈ B := Finset.mem_image_of_mem _ (Finset.mem_attach _ x)
        rw [← hAB] at this
        exact (Finset.mem_inter.1 this).1
      · rw [if_neg hAB]
        have : ∃ i ∈ B, i ∉ A := by
          by_contra hc
          push Not at hc
          exact hAB (Finset.inter_eq_right.2 hc)
        obtain ⟨i, hi, hiA⟩ := this
        obtain ⟨x, hx, rfl⟩ := Finset.mem_image.1 hi
        exact Finset.prod_eq_zero hx (if_neg hiA)
    rw [h4]
    split_ifs <;> simp
  have h5 : ∏ x ∈ S, (r + (nb x).card * p) = ∏ x ∈ S, (r + ∑ i ∈ nb x, (fun _ => p) i) := by
    refine Finset.prod_congr rfl fun x _ => ?_
    rw [Finset.sum_const, nsmul_eq_mul]
  rw [h5, h1]
  simp_rw [fun A : Finset ℕ => h1 fun i => if i ∈ A then (1 : ℝ) else 0]
  simp_rw [Finset.mul_sum]
  rw [Finset.sum_comm]
  refine Finset.sum_congr rfl fun T hT => ?_
  rw [Finset.sum_comm]
  refine Finset.sum_congr rfl fun g hg => ?_
  rw [← h2 T hT g hg, Finset.mul_sum]
  refine Finset.sum_congr rfl fun A _ => ?_
  ring

end Flamingpy.Noise
