import Verif.Proofs.MacroLabel

/-! # Entangling and measuring the macronodes -/

namespace Flamingpy.Noise

open Flamingpy

variable {P : Type} [DecidableEq P]

/-- The random position of mode `i`. -/
noncomputable def meanQ (r : Rnd) (ps gs : List ℕ) (i : ℕ) : ℝ :=
  if i ∈ gs then r.b i * √Real.pi else if i ∈ ps then r.u i * (2 * √Real.pi) else 0

theorem assign_step (N : ℕ) (a : ℕ → ℝ) (l : List ℕ) (f : Option (ℕ → ℝ)) (g : ℕ → ℝ) (hf : f = some g)
    (hl : ∀ i ∈ l, i < N) :
    (if 0 < l.length then f.bind fun f => assign (2 * N) a l f else some a) =
      some fun i => if i ∈ l then g i else a i := by
  split_ifs with h0
  · rw [hf, Option.bind_some, assign_ok _ _ _ _ (fun i hi => by have := hl i hi; omega)]
  · have : l = [] := List.length_eq_zero_iff.1 (by omega)
    subst this
    simp

theorem means_two_step (L : Layer P) (ho : L.order = .twoStep) (ps gs : List ℕ)
    (hs : L.states = [("p", ps), ("GKP", gs)]) (hp : ∀ i ∈ ps, i < L.pts.length) (hg : ∀ i ∈ gs, i < L.pts.length)
    (r : Rnd) : ∃ m, meansSampler L true r = some m ∧ m.length = 2 * L.pts.length ∧
      (∀ i, i < L.pts.length → m[i]? = some (meanQ r ps gs i)) ∧
      ∀ i (hi : i < L.pts.length), m[L.pts.length + i]? =
        some (∑ j : Fin L.pts.length, L.adj ⟨i, hi⟩ j * meanQ r ps gs j) := by
  obtain ⟨m, s1, s2, s3, s4⟩ := sczList_ok L.adj (meanQ r ps gs)
  refine ⟨m, ?_, s2, fun i hi => ?_, fun i hi => ?_⟩
  · unfold meansSampler
    rw [ho, hs]
    simp only [List.foldlM_cons, List.foldlM_nil]
    rw [assign_step _ _ ps _ (fun i => r.u i * (2 * √Real.pi)) (by unfold meanOf; simp [PyDict.get?]) hp]
    simp only [Option.bind_eq_bind, Option.bind_some]
    rw [assign_step _ _ gs _ (fun i => r.b i * √Real.pi) (by unfold meanOf; simp [PyDict.get?]) hg]
    simp only [Option.bind_some, if_true]
    exact s1
  · have := s3 i hi
    rwa [half, List.getElem?_take_of_lt hi] at this
  · have := s4 i hi
    rw [half, List.getElem?_drop] at this
    rw [this]
    congr 1
    have h0 : meanQ r ps gs (L.pts.length + i) = 0 := by
      unfold meanQ
      rw [if_neg fun h => by have := hg _ h; omega, if_neg fun h => by have := hp _ h; omega]
    rw [h0, zero_add]

theorem quadPerm_perm {N : ℕ} {perm : List ℕ} (h : perm.Perm (List.range N)) :
    (quadPerm N perm).Perm (List.range (2 * N)) := by
  unfold quadPerm
  rw [two_mul, List.range_add]
  exact h.append (h.map _)

theorem quadPerm_length {N : ℕ} {perm : List ℕ} (h : perm.length = N) : (quadPerm N perm).length = 2 * N := by
  unfold quadPerm
  rw [List.length_append, List.length_map, h, two_mul]

/-- Noise of a mode: none if it is perfect. -/
noncomputable def devOf (L : Layer P) (i : ℕ) : ℝ := if i ∈ L.perfect then 0 else √(L.delta / 2)

theorem entangle_measure (M : Macro P) {n : ℕ} (hN : M.layer.pts.length = 4 * n) (hnd : M.layer.pts.Nodup)
    (ho : M.layer.order = .twoStep) (hd : 0 ≤ M.layer.delta) (ps gs : List ℕ)
    (hs : M.layer.states = [("p", ps), ("GKP", gs)]) (hp : ∀ i ∈ ps, i < M.layer.pts.length)
    (hg : ∀ i ∈ gs, i < M.layer.pts.length) (σ : ℕ → ℕ) (hperm : M.perm.Perm (List.range (4 * n)))
    (hσ : ∀ j < 4 * n, M.perm[j]? = some (σ j)) (empty : List ℕ) (he : empty.length = 2 * (4 * n)) (r rp rq : Rnd) :
    ∃ permuted L', entangleStates M r = some permuted ∧
      macroMeasure M permuted empty rp rq = some { M with layer := L' } ∧
      (measureHom M.layer .p (some (every4 M.perm)) true
        (CvOps.index permuted (CvOps.invertPermutation empty (quadPerm (4 * n) M.perm))) none true rp).bind (fun L =>
        measureHom L .q (some (notEvery4 M.perm)) true
        (CvOps.index permuted (CvOps.invertPermutation empty (quadPerm (4 * n) M.perm))) none true rq) = some L' ∧
      Same M.layer L' ∧
      (∀ k < n, ∀ t : Fin 4, t ≠ 0 → ∀ p, M.layer.pts[σ (4 * k + t)]? = some p → L'.attrs.homQ p =
        some (∑ l : Fin 4, CvOps.fourSplitter t l * meanQ r ps gs (σ (4 * k + l)) +
          devOf M.layer (σ (4 * k + t)) * rq.z ((notEvery4 M.perm).idxOf (σ (4 * k + t))))) ∧
      (∀ k < n, ∀ p, M.layer.pts[σ (4 * k)]? = some p → L'.attrs.homP p =
        some (∑ l : Fin 4, CvOps.fourSplitter 0 l *
          (∑ j : Fin M.layer.pts.length, if h : σ (4 * k + l) < M.layer.pts.length then
            M.layer.adj ⟨σ (4 * k + l), h⟩ j * meanQ r ps gs j else 0) +
            devOf M.layer (σ (4 * k)) * rp.z ((every4 M.perm).idxOf (σ (4 * k))))) := by
  have hlen : M.perm.length = 4 * n := by rw [hperm.length_eq, List.length_range]
  have hpnd : M.perm.Nodup := hperm.nodup_iff.2 List.nodup_range
  have hσlt : ∀ j < 4 * n, σ j < 4 * n := by
    intro j hj
    have := List.mem_of_getElem? (hσ j hj)
    exact List.mem_range.1 (hperm.mem_iff.1 this)
  have hall : ∀ i ∈ M.perm, i < 4 * n := fun i hi => List.mem_range.1 (hperm.mem_iff.1 hi)
  have hql : (quadPerm (4 * n) M.perm).length = 2 * (4 * n) := quadPerm_length hlen
  have hqp := quadPerm_perm hperm
  have hqget1 : ∀ j < 4 * n, (quadPerm (4 * n) M.perm)[j]? = some (σ j) := by
    intro j hj
    unfold quadPerm
    rw [List.getElem?_append_left (by omega), hσ j hj]
  have hqget2 : ∀ j < 4 * n, (quadPerm (4 * n) M.perm)[4 * n + j]? = some (4 * n + σ j) := by
    intro j hj
    unfold quadPerm
    rw [List.getElem?_append_right (by omega), hlen, Nat.add_sub_cancel_left, List.getElem?_map, hσ j hj]
    rfl
  obtain ⟨m, m1, m2, m3, m4⟩ := means_two_step M.layer ho ps gs hs hp hg r
  rw [hN] at m2
  have hmget : ∀ i, i < 2 * (4 * n) → m[i]? = some (m.getD i 0) := by
    intro i hi
    rw [List.getD, List.getElem?_eq_getElem (by omega)]; rfl
  have hidx : CvOps.index m (quadPerm (4 * n) M.perm) = some ((quadPerm (4 * n) M.perm).map fun i => m.getD i 0) :=
    index_ok _ _ _ fun i hi => hmget i (List.mem_range.1 (hqp.mem_iff.1 hi))
  set A := (quadPerm (4 * n) M.perm).map fun i => m.getD i 0 with hA
  have hA1 : ∀ j < 4 * n, A.getD j 0 = meanQ r ps gs (σ j) := by
    intro j hj
    rw [hA, List.getD, List.getElem?_map, hqget1 j hj]
    simp only [Option.map_some, Option.getD_some]
    have := m3 (σ j) (by rw [hN]; exact hσlt j hj)
    rw [List.getD, this]; rfl
  have hA2 : ∀ j < 4 * n, A.getD (4 * n + j) 0 = ∑ i : Fin M.layer.pts.length,
      if h : σ j < M.layer.pts.length then M.layer.adj ⟨σ j, h⟩ i * meanQ r ps gs i else 0 := by
    intro j hj
    rw [hA, List.getD, List.getElem?_map, hqget2 j hj]
    simp only [Option.map_some, Option.getD_some]
    have hlt : σ j < M.layer.pts.length := by rw [hN]; exact hσlt j hj
    have h4 := m4 (σ j) hlt
    have e : 4 * n + σ j = M.layer.pts.length + σ j := by rw [hN]
    rw [e, List.getD, h4]
    simp only [Option.getD_some, dif_pos hlt]
  obtain ⟨w1, w2, w3⟩ := splitAll_spec n A
  have hent : entangleStates M r = some (splitAll (4 * n) A) := by
    unfold entangleStates
    simp only [m1, hN, hidx, Option.bind_eq_bind, Option.bind_some]
    rfl
  obtain ⟨_, hinv⟩ := CvOps.C08_invert_permutation empty (quadPerm (4 * n) M.perm) (splitAll (4 * n) A)
    (by rw [hql]; exact hqp) (by omega) (by omega)
  set W := splitAll (4 * n) A with hW
  rw [Option.bind_eq_some_iff] at hinv
  obtain ⟨u, hu1, hu2⟩ := hinv
  have hul : u.length = 2 * (4 * n) := by
    have h1 := hu1
    unfold CvOps.index at h1
    rw [CvOps.mapM_some_iff] at h1
    have := congrArg List.length h1
    rw [List.length_map, List.length_map] at this
    rw [← this]
    unfold CvOps.invertPermutation
    rw [CvOps.foldl_set_length, he]
  have huget : ∀ (j a : ℕ), (quadPerm (4 * n) M.perm)[j]? = some a → u.getD a 0 = W.getD j 0 := by
    intro j a hj
    unfold CvOps.index at hu2
    rw [CvOps.mapM_some_iff] at hu2
    have h1 := congrArg (fun l => l[j]?) hu2
    simp only [List.getElem?_map, hj, Option.map_some] at h1
    rw [List.getD, List.getD]
    cases hWj : W[j]? with
    | none => rw [hWj] at h1; cases h1
    | some w => rw [hWj] at h1; simp only [Option.map_some, Option.some.injEq] at h1; rw [h1]
  have hst : ∀ i ∈ every4 M.perm, i < M.layer.pts.length := by
    intro i hi
    obtain ⟨j, _, hj⟩ := mem_every4.1 hi
    rw [hN]
    exact hall i (List.mem_of_getElem? hj)
  have hpl : ∀ i ∈ notEvery4 M.perm, i < M.layer.pts.length := by
    intro i hi
    obtain ⟨j, _, hj⟩ := mem_notEvery4.1 hi
    rw [hN]
    exact hall i (List.mem_of_getElem? hj)
  obtain ⟨L1, a1, a2, a3, a4⟩ := measure_supplied M.layer hnd ho .p (every4 M.perm) true hst (devOf M.layer)
    (fun i _ => by unfold devOf; split_ifs <;> positivity)
    (covs_two_step_perfect M.layer ho hd _ true (every4_nodup hpnd) (Or.inr rfl)) u
    (fun i => u.getD (4 * n + i) 0) (by
      intro i hi
      rw [half, List.getElem?_drop, hN, List.getD, List.getElem?_eq_getElem (by omega)]; rfl) true rp
  have hS1 := (measureHom_same a1).1
  obtain ⟨L2, b1, b2, b3, b4⟩ := measure_supplied L1 (by rw [hS1.pts]; exact hnd) (hS1.order.trans ho)
    .q (notEvery4 M.perm) true (by rw [hS1.pts]; exact hpl) (devOf L1)
    (fun i _ => by unfold devOf; split_ifs <;> positivity)
    (covs_two_step_perfect L1 (hS1.order.trans ho) (by rw [hS1.delta]; exact hd) _ true (notEvery4_nodup hpnd) (Or.inr rfl)) u
    (fun i => u.getD i 0) (by
      intro i hi
      rw [hS1.pts] at hi ⊢
      rw [half, List.getElem?_take_of_lt hi, List.getD, List.getElem?_eq_getElem (by omega)]; rfl) true rq
  have hS2 := (measureHom_same b1).1
  have hdev : devOf L1 = devOf M.layer := by
    funext i
    unfold devOf
    rw [hS1.perfect, hS1.delta]
  refine ⟨W, L2, hent, ?_, ?_, hS1.trans hS2, ?_, ?_⟩
  · unfold macroMeasure
    simp only [hN, hu1, a1, b1, Option.bind_eq_bind, Option.bind_some]
    rfl
  · rw [hu1, a1, Option.bind_some, b1]
  · intro k hk t ht p hpt
    have hj : 4 * k + t < 4 * n := by omega
    have hmem : σ (4 * k + t) ∈ notEvery4 M.perm :=
      mem_notEvery4.2 ⟨4 * k + t, by
        have : t.val ≠ 0 := fun h => ht (Fin.ext h)
        omega, hσ _ hj⟩
    have hlt : σ (4 * k + t) < L1.pts.length := by rw [hS1.pts, hN]; exact hσlt _ hj
    obtain ⟨z, hz0, hz⟩ := b2 _ hlt hmem
    have hzi : (notEvery4 M.perm).idxOf (σ (4 * k + t)) = z := by
      obtain ⟨hzl, hze⟩ := List.getElem?_eq_some_iff.1 hz0
      rw [← hze]; exact (notEvery4_nodup hpnd).idxOf_getElem _ _
    rw [hzi]
    have hpe : L1.pts[σ (4 * k + t)] = p := by
      have := hpt
      rw [← hS1.pts, List.getElem?_eq_getElem hlt] at this
      exact Option.some.inj this
    rw [hpe, huget (4 * k + t) _ (hqget1 _ hj), hdev, w1 k hk t] at hz
    refine hz.trans ?_
    congr 2
    refine Finset.sum_congr rfl fun l _ => ?_
    rw [hA1 _ (by omega)]
  · intro k hk p hpt
    have hj : 4 * k < 4 * n := by omega
    have hmem : σ (4 * k) ∈ every4 M.perm := mem_every4.2 ⟨4 * k, by omega, hσ _ hj⟩
    have hlt : σ (4 * k) < M.layer.pts.length := by rw [hN]; exact hσlt _ hj
    obtain ⟨z, hz0, hz⟩ := a2 _ hlt hmem
    have hzi : (every4 M.perm).idxOf (σ (4 * k)) = z := by
      obtain ⟨hzl, hze⟩ := List.getElem?_eq_some_iff.1 hz0
      rw [← hze]; exact (every4_nodup hpnd).idxOf_getElem _ _
    rw [hzi]
    have hpe : M.layer.pts[σ (4 * k)] = p := by
      rw [List.getElem?_eq_getElem hlt] at hpt
      exact Option.some.inj hpt
    rw [hpe, huget (4 * n + 4 * k) _ (hqget2 _ hj)] at hz
    have h2 := w2 k hk 0
    simp only [Fin.val_zero, add_zero] at h2
    rw [h2] at hz
    have hb : L2.attrs.homP = L1.attrs.homP := b4 .p (by decide)
    refine (congrFun hb p).trans (hz.trans ?_)
    congr 2
    refine Finset.sum_congr rfl fun l _ => ?_
    rw [add_assoc, hA2 _ (by omega)]

end Flamingpy.Noise
