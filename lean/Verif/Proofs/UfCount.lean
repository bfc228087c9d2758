import Verif.Proofs.UfLocal

/-!
# Counting the explanations of a failure of Union-Find

For C85: explicit lengths for the scales, and the number of sets of bad qubits that can make the decoder fail.
-/

namespace Flamingpy.UnionFind

open Flamingpy SurfaceCode Flamingpy.Sparse

/-- The binary logarithm of the length of a scale. -/
def sigma : ℕ → ℕ
  | 0 => 0
  | j + 1 => sigma j + 7 + j

/-- The length of a scale. -/
def scale (j : ℕ) : ℕ := 2 ^ sigma j

theorem scale_succ (j : ℕ) : scale (j + 1) = 128 * (2 ^ j * scale j) := by
  unfold scale
  rw [sigma, pow_add, pow_add]
  ring

theorem scale_pos (j : ℕ) : 1 ≤ scale j := Nat.one_le_two_pow

/-- The rounds for a scale. -/
def rounds : ℕ → ℕ
  | 0 => 0
  | j + 1 => rounds j + 2 * (2 * scale j + 2)

theorem rounds_le : ∀ j, rounds j ≤ scale j
  | 0 => Nat.zero_le _
  | j + 1 => by
    have h1 := rounds_le j
    have h2 := scale_pos j
    have h3 : scale j ≤ 2 ^ j * scale j := Nat.le_mul_of_pos_left _ (by positivity)
    rw [rounds, scale_succ]
    omega

/-- The distance of connected qubits after `j` scales. -/
def reach (j : ℕ) : ℕ := 2 ^ j * scale j

theorem scale_le_reach (j : ℕ) : scale j ≤ reach j := Nat.le_mul_of_pos_left _ (by positivity)

theorem reach_succ (j : ℕ) : reach (j + 1) = 2 * 2 ^ j * (128 * reach j) := by
  unfold reach
  rw [scale_succ]
  ring

theorem scales_ok : Scales (fun j => 2 * scale j) (fun j => 48 * reach j) rounds (fun j => 10 * reach j) (fun j => 24 * reach j) reach := by
  refine ⟨rfl, fun j => rfl, fun j => ?_, fun j => ?_, fun j => ?_, fun j => ?_⟩
  · have h1 : rounds (j + 1) ≤ 9 * scale j := by
      have := rounds_le j
      have := scale_pos j
      rw [rounds]
      omega
    have h2 : 2 ^ j * rounds (j + 1) ≤ 2 ^ j * (9 * scale j) := Nat.mul_le_mul_left _ h1
    have h3 : 2 ^ j * (9 * scale j) = 9 * reach j := by unfold reach; ring
    omega
  · have := scale_le_reach j
    have := scale_pos j
    show 2 * (10 * reach j) + 2 * scale j + 2 ≤ 24 * reach j
    omega
  · rw [reach_succ]
    have : 1 * (128 * reach j) ≤ 2 * 2 ^ j * (128 * reach j) := Nat.mul_le_mul_right _ (by
      have : 1 ≤ 2 ^ j := Nat.one_le_two_pow
      omega)
    show 2 * reach j + 24 * reach j ≤ _
    omega
  · have := scale_le_reach j
    have := scale_pos j
    show 2 * (10 * reach j) + 2 * reach j + 24 * reach j + 2 ≤ 48 * reach j
    omega

/-- The radius of an explanation. -/
def radius : ℕ → ℕ
  | 0 => 0
  | j + 1 => radius j + scale j + 48 * reach j

theorem radius_le : ∀ j, 2 * radius j ≤ scale j
  | 0 => Nat.zero_le _
  | j + 1 => by
    have h1 := radius_le j
    have h3 := scale_le_reach j
    have h4 : scale (j + 1) = 128 * reach j := scale_succ j
    rw [radius, h4]
    omega

/-- The number of qubits near a qubit. -/
theorem ball_count {code : Code} (h : IsCode code) (sp : SetPop) (hd : ∀ i, boundsOf code.ec code.boundaries i = .periodic → 3 ≤ code.dims i) (r : ℕ)
    {f : Sym2 SNode} (hf : f ∈ codeEs sp code) [DecidablePred fun g => eNear (codeEs sp code) r f g] :
    ((codeEs sp code).filter fun g => eNear (codeEs sp code) r f g).card ≤ (4 * r + 13) ^ 3 := by
  classical
  obtain ⟨x, hx, rfl⟩ := Finset.mem_image.1 hf
  rw [List.mem_toFinset] at hx
  set box : Finset (Fin 3 → ℤ) := Fintype.piFinset fun _ => Finset.Icc (-(2 * r + 6) : ℤ) (2 * r + 6) with hbox
  have hcard : box.card = (4 * r + 13) ^ 3 := by
    rw [hbox, Fintype.card_piFinset]
    simp only [Int.card_Icc, Finset.prod_const, Finset.card_univ, Fintype.card_fin]
    congr 1
    omega
  rw [← hcard]
  have hex : ∀ y : V, ∃ δ : Fin 3 → ℤ, y ∈ code.syndrome → eNear (codeEs sp code) r (qEdge sp code x) (qEdge sp code y) →
      ∀ i, |δ i| ≤ 2 * r + 6 ∧ period (boundsOf code.ec code.boundaries i) (code.dims i) ∣ y i - x i - δ i := by
    intro y
    by_cases hy : y ∈ code.syndrome ∧ eNear (codeEs sp code) r (qEdge sp code x) (qEdge sp code y)
    · choose δ hδ using fun i => qubits_near h sp hd i hx hy.1 hy.2
      exact ⟨δ, fun _ _ => hδ⟩
    · exact ⟨fun _ => 0, fun h1 h2 => absurd ⟨h1, h2⟩ hy⟩
  choose δ hδ using hex
  set near := code.syndrome.toFinset.filter fun y => eNear (codeEs sp code) r (qEdge sp code x) (qEdge sp code y) with hnear
  have h1 : ((codeEs sp code).filter fun g => eNear (codeEs sp code) r (qEdge sp code x) g) ⊆ near.image (qEdge sp code) := by
    intro g hg
    obtain ⟨hg1, hg2⟩ := Finset.mem_filter.1 hg
    obtain ⟨y, hy, rfl⟩ := Finset.mem_image.1 hg1
    exact Finset.mem_image_of_mem _ (Finset.mem_filter.2 ⟨hy, hg2⟩)
  refine (Finset.card_le_card h1).trans (Finset.card_image_le.trans ?_)
  refine Finset.card_le_card_of_injOn δ (fun y hy => ?_) fun y hy z hz hyz => ?_
  · obtain ⟨hy1, hy2⟩ := Finset.mem_filter.1 hy
    rw [List.mem_toFinset] at hy1
    rw [Finset.mem_coe, hbox, Fintype.mem_piFinset]
    intro i
    rw [Finset.mem_Icc]
    exact abs_le.1 (hδ y hy1 hy2 i).1
  · obtain ⟨hy1, hy2⟩ := Finset.mem_filter.1 hy
    obtain ⟨hz1, hz2⟩ := Finset.mem_filter.1 hz
    rw [List.mem_toFinset] at hy1 hz1
    funext i
    have e1 := (hδ y hy1 hy2 i).2
    have e2 := (hδ z hz1 hz2 i).2
    rw [hyz] at e1
    refine period_eq ((mem_qubits.1 ((h.ok.1.syndrome y).1 hy1)).1 i) ((mem_qubits.1 ((h.ok.1.syndrome z).1 hz1)).1 i) ?_
    have := Int.dvd_sub e1 e2
    convert this using 1
    ring

/-- The number of qubits near on a scale. -/
def vol (j : ℕ) : ℕ := (4 * scale (j + 1) + 13) ^ 3

theorem vol_le (j : ℕ) : vol j ≤ 2 ^ (36 + 23 * j + 2 * j ^ 2) := by
  have h1 : 4 * scale (j + 1) + 13 ≤ 2 ^ (5 + sigma (j + 1)) := by
    have := scale_pos (j + 1)
    rw [pow_add]
    show 4 * scale (j + 1) + 13 ≤ 2 ^ 5 * scale (j + 1)
    omega
  have h2 : 2 * sigma (j + 1) = 14 + 15 * j + j ^ 2 := by
    induction j with
    | zero => rfl
    | succ j ih =>
      rw [sigma, Nat.mul_add, Nat.mul_add, ih (by
        have := scale_pos (j + 1)
        rw [pow_add]
        show 4 * scale (j + 1) + 13 ≤ 2 ^ 5 * scale (j + 1)
        omega)]
      ring
  refine (Nat.pow_le_pow_left h1 3).trans ?_
  rw [← pow_mul]
  refine Nat.pow_le_pow_right (by norm_num) ?_
  nlinarith [Nat.zero_le j]

/-- The number of explanations. -/
theorem treeCount_le (k : ℕ) : treeCount vol k ≤ 2 ^ (65 * 2 ^ k) := by
  have : ∀ k, treeCount vol k * 2 ^ (65 + 27 * k + 2 * k ^ 2) ≤ 2 ^ (65 * 2 ^ k) := by
    intro k
    induction k with
    | zero => simp [treeCount]
    | succ k ih =>
      rw [treeCount]
      calc vol k * treeCount vol k ^ 2 * 2 ^ (65 + 27 * (k + 1) + 2 * (k + 1) ^ 2)
          ≤ 2 ^ (36 + 23 * k + 2 * k ^ 2) * treeCount vol k ^ 2 * 2 ^ (65 + 27 * (k + 1) + 2 * (k + 1) ^ 2) :=
            Nat.mul_le_mul_right _ (Nat.mul_le_mul_right _ (vol_le k))
        _ = (treeCount vol k * 2 ^ (65 + 27 * k + 2 * k ^ 2)) ^ 2 := by
            rw [mul_pow, ← pow_mul, mul_comm (2 ^ _) (treeCount vol k ^ 2), mul_assoc, ← pow_add]
            congr 2
            ring
        _ ≤ (2 ^ (65 * 2 ^ k)) ^ 2 := Nat.pow_le_pow_left ih 2
        _ = _ := by rw [← pow_mul]; congr 1; ring
  refine le_trans ?_ (this k)
  exact Nat.le_mul_of_pos_right _ (by positivity)

open Classical in
/-- The sets of qubits that can make the decoder fail. -/
noncomputable def family (sp : SetPop) (code : Code) (k : ℕ) : Finset (Finset V) :=
  ((codeEs sp code).biUnion fun f => expl (eNear (codeEs sp code)) (codeEs sp code) scale (fun j => 48 * reach j) k f).image fun A =>
    code.syndrome.toFinset.filter fun x => qEdge sp code x ∈ A

theorem expl_sub {near : ℕ → Sym2 SNode → Sym2 SNode → Prop} {U : Finset (Sym2 SNode)} {h b : ℕ → ℕ} : ∀ k, ∀ x ∈ U, ∀ A ∈ expl near U h b k x, A ⊆ U
  | 0, x, hx, A, hA => by
    rw [expl, Finset.mem_singleton] at hA
    rw [hA, Finset.singleton_subset_iff]
    exact hx
  | k + 1, x, hx, A, hA => by
    obtain ⟨z, hz, _, _, A₁, h1, A₂, h2, rfl⟩ := mem_expl_succ.1 hA
    exact Finset.union_subset (expl_sub k x hx A₁ h1) (expl_sub k z hz A₂ h2)

theorem family_spec {code : Code} (h : IsCode code) (sp : SetPop) (hd : ∀ i, boundsOf code.ec code.boundaries i = .periodic → 3 ≤ code.dims i) (k : ℕ) :
    (family sp code k).card ≤ code.syndrome.length * 2 ^ (65 * 2 ^ k) ∧ ∀ T ∈ family sp code k, T.card = 2 ^ k ∧ ∀ x ∈ T, x ∈ code.syndrome := by
  classical
  obtain ⟨f1, f2, f3, _⟩ := qEdge_map h .networkx sp (fun _ => 0) (fun _ => false) hd
  have hinj : Set.InjOn (qEdge sp code) code.syndrome.toFinset := fun x hx y hy hxy => by
    simp only [List.coe_toFinset, Set.mem_ofPred_eq] at hx hy
    exact f3 x hx y hy hxy
  constructor
  · refine Finset.card_image_le.trans (Finset.card_biUnion_le.trans ?_)
    have h1 : ∀ f ∈ codeEs sp code, (expl (eNear (codeEs sp code)) (codeEs sp code) scale (fun j => 48 * reach j) k f).card ≤ 2 ^ (65 * 2 ^ k) :=
      fun f hf => (expl_count (vol := vol) (fun j f hf => (ball_count h sp hd _ hf).trans (Nat.pow_le_pow_left (by
        have h3 := scale_le_reach j
        have h4 : scale (j + 1) = 128 * reach j := scale_succ j
        omega) 3)) k f hf).trans (treeCount_le k)
    refine (Finset.sum_le_card_nsmul _ _ _ h1).trans ?_
    rw [smul_eq_mul]
    refine Nat.mul_le_mul_right _ (Finset.card_image_le.trans ?_)
    exact List.toFinset_card_le _
  · intro T hT
    obtain ⟨A, hA, rfl⟩ := Finset.mem_image.1 hT
    obtain ⟨f, hf, hA⟩ := Finset.mem_biUnion.1 hA
    have hsub := expl_sub k f hf A hA
    refine ⟨?_, fun x hx => by simpa using (Finset.mem_filter.1 hx).1⟩
    rw [← expl_card eNear_metric (r := radius) (fun j => le_rfl) radius_le k f A hA]
    rw [← Finset.card_image_of_injOn (s := code.syndrome.toFinset.filter fun x => qEdge sp code x ∈ A) (f := qEdge sp code)
      (hinj.mono (Finset.coe_subset.2 (Finset.filter_subset _ _)))]
    congr 1
    ext g
    rw [Finset.mem_image]
    constructor
    · rintro ⟨x, hx, rfl⟩
      exact (Finset.mem_filter.1 hx).2
    · intro hg
      obtain ⟨x, hx, rfl⟩ := Finset.mem_image.1 (hsub hg)
      exact ⟨x, Finset.mem_filter.2 ⟨hx, hg⟩, rfl⟩

/-- If something is left after `k` scales, then one of the sets is bad. -/
theorem family_left {code : Code} (h : IsCode code) (sp : SetPop) (hd : ∀ i, boundsOf code.ec code.boundaries i = .periodic → 3 ≤ code.dims i) (k : ℕ)
    {w : V → ℚ} {bits : V → Bool} (hk : El (codeEs sp code) (badEdges sp code w bits) (fun j => 2 * scale j) (fun j => 48 * reach j) k ≠ ∅) :
    ∃ T ∈ family sp code k, ∀ x ∈ T, bits x = true ∨ w x = -1 := by
  classical
  obtain ⟨f1, f2, f3, _⟩ := qEdge_map h .networkx sp (fun _ => 0) (fun _ => false) hd
  obtain ⟨f, hf⟩ := Finset.nonempty_iff_ne_empty.2 hk
  have hU : badEdges sp code w bits ⊆ codeEs sp code := Finset.image_subset_image (Finset.filter_subset _ _)
  obtain ⟨A, hA, hAs⟩ := explained eNear_metric (h := scale) (fun _ => le_rfl) hU k f hf
  refine ⟨_, Finset.mem_image.2 ⟨A, Finset.mem_biUnion.2 ⟨f, hU (sub_sub _ _ _ k hf), hA⟩, rfl⟩, fun x hx => ?_⟩
  obtain ⟨h1, h2⟩ := Finset.mem_filter.1 hx
  obtain ⟨y, hy, hyx⟩ := Finset.mem_image.1 (hAs h2)
  obtain ⟨h3, h4⟩ := Finset.mem_filter.1 hy
  rw [List.mem_toFinset] at h1 h3
  rw [← f3 y h3 x h1 hyx]
  exact h4

end Flamingpy.UnionFind
