import Verif.Proofs.HeavyTrail
import Verif.Proofs.Bernoulli
import Mathlib.Analysis.SpecificLimits.Basic

/-!
# The sets of qubits that cause a failure: counting trails
-/

namespace Flamingpy.Trial

open Flamingpy Flamingpy.SurfaceCode Flamingpy.UnionFind Flamingpy.Weights Flamingpy.Sim

theorem sum_biUnion_le {α β : Type*} [DecidableEq α] [DecidableEq β] (s : Finset α) (f : α → Finset β) (g : β → ℝ) (hg : ∀ b, 0 ≤ g b) :
    ∑ b ∈ s.biUnion f, g b ≤ ∑ a ∈ s, ∑ b ∈ f a, g b := by
  induction s using Finset.induction_on with
  | empty => simp
  | insert a s ha ih =>
    rw [Finset.biUnion_insert, Finset.sum_insert ha]
    have := Finset.sum_union_inter (s₁ := f a) (s₂ := s.biUnion f) (f := g)
    have h2 : 0 ≤ ∑ b ∈ f a ∩ s.biUnion f, g b := Finset.sum_nonneg fun b _ => hg b
    linarith

/-- The trails of `k + 1` syndrome qubits. -/
def trails (code : Code) (k : ℕ) : Finset (List V) :=
  code.syndrome.toFinset.biUnion fun x => (stabsOf code x).biUnion fun s =>
    (Trails.runs (stabsOf code) (fun k => (code.stabs.getD k []).toFinset) k x {s}).image fun L => x :: L

theorem mem_trails {code : Code} {x : V} {s : ℕ} {L : List V} (hs : s ∈ stabsOf code x) (hd : (x :: L).Nodup)
    (hm : ∀ y ∈ x :: L, y ∈ code.syndrome) (hr : Trails.Run (stabsOf code) {s} L) : x :: L ∈ trails code L.length := by
  unfold trails
  rw [Finset.mem_biUnion]
  refine ⟨x, by simpa using hm x List.mem_cons_self, Finset.mem_biUnion.2 ⟨s, hs, Finset.mem_image.2 ⟨L, ?_, rfl⟩⟩⟩
  refine Trails.mem_runs _ L x {s} (fun t y _ ht => ?_) hd hr
  simpa using mem_stabsOf.1 ht

theorem trails_card {code : Code} (h : IsCode code) (k : ℕ) : (trails code k).card ≤ 2 * code.syndrome.length * 5 ^ k := by
  have h1 : ∀ x ∈ code.syndrome.toFinset, ((stabsOf code x).biUnion fun s =>
      (Trails.runs (stabsOf code) (fun k => (code.stabs.getD k []).toFinset) k x {s}).image fun L => x :: L).card ≤ 2 * 5 ^ k := by
    intro x hx
    have hx' : x ∈ code.syndrome := by simpa using hx
    refine (Finset.card_biUnion_le_card_mul _ _ (5 ^ k) fun s hs => ?_).trans (Nat.mul_le_mul_right _ ?_)
    · have hrc := (Trails.runs_card (stabsOf code) (mem := fun k => (code.stabs.getD k []).toFinset) (q := 5) (fun s => stab_length h s) (fun s y hy => by
        have hy' : y ∈ code.stabs.getD s [] := by simpa using hy
        refine ⟨?_, mem_stabsOf.2 hy', fun t ht => by simpa using mem_stabsOf.1 ht⟩
        rcases stabsOf_card h (stab_mem_syndrome h hy') with e | e <;> omega) k x {s} (by simp) (by
          intro t ht
          rw [Finset.mem_singleton] at ht
          subst ht
          simpa using mem_stabsOf.1 hs))
      exact Finset.card_image_le.trans hrc
    · rcases stabsOf_card h hx' with e | e <;> omega
  refine (Finset.card_biUnion_le_card_mul _ _ _ h1).trans ?_
  calc _ ≤ code.syndrome.length * (2 * 5 ^ k) := Nat.mul_le_mul_right _ (List.toFinset_card_le code.syndrome)
    _ = _ := by ring

/-- Halves of trails of at least `d` qubits. -/
def halves (code : Code) (d : ℕ) : Finset (Finset V) :=
  (Finset.Ico (d - 1) code.syndrome.length).biUnion fun k => (trails code k).biUnion fun L =>
    (L.toFinset ∩ code.syndrome.toFinset).powersetCard ((k + 2) / 2)

theorem halves_subset {code : Code} {d : ℕ} {S : Finset V} (hS : S ∈ halves code d) : S ⊆ code.syndrome.toFinset := by
  unfold halves at hS
  simp only [Finset.mem_biUnion, Finset.mem_powersetCard] at hS
  obtain ⟨k, -, L, -, hS, -⟩ := hS
  exact hS.trans Finset.inter_subset_right

theorem half_flipped {code : Code} (h : IsCode code) (X : Libs) {o : Opts} (ho : o.method = "uniform") {a : Weights.Attrs} {d : ℕ}
    (hd : ∀ i ∈ planesToCheck code.ec code.boundaries, d ≤ code.dims i) {B : Finset V}
    (hf : Fails X code "MWPM" o a B) : ∃ S ∈ halves code d, S ⊆ B := by
  obtain ⟨x, s, L, hs, hn, hm, hr, ⟨i, hi, hl⟩, h2⟩ := heavy_trail h X ho hf
  have hsub : (x :: L).toFinset ⊆ code.syndrome.toFinset := fun y hy => by simpa using hm y (by simpa using hy)
  have hc : (x :: L).toFinset.card = L.length + 1 := by rw [List.toFinset_card_of_nodup hn, List.length_cons]
  have hlen : L.length + 1 ≤ code.syndrome.length := by
    rw [← hc]
    exact (Finset.card_le_card hsub).trans (List.toFinset_card_le _)
  obtain ⟨S, hS, hSc⟩ := Finset.exists_subset_card_eq (s := (x :: L).toFinset ∩ B) (n := (L.length + 2) / 2) (by
    rw [List.length_cons] at h2; omega)
  refine ⟨S, ?_, hS.trans Finset.inter_subset_right⟩
  unfold halves
  simp only [Finset.mem_biUnion, Finset.mem_powersetCard, Finset.mem_Ico]
  have := hd i hi
  rw [List.length_cons] at hl
  refine ⟨L.length, ⟨by omega, by omega⟩, x :: L, mem_trails hs hn hm hr, ?_, hSc⟩
  have h3 := hS.trans Finset.inter_subset_left
  exact Finset.subset_inter h3 (h3.trans hsub)

theorem trails_length {code : Code} {k : ℕ} {L : List V} (hL : L ∈ trails code k) : L.length = k + 1 := by
  have : ∀ (k : ℕ) (x : V) (N : Finset ℕ), ∀ L ∈ Trails.runs (stabsOf code) (fun k => (code.stabs.getD k []).toFinset) k x N, L.length = k := by
    intro k
    induction k with
    | zero =>
      intro x N L hL
      simp only [Trails.runs, Finset.mem_singleton] at hL
      rw [hL]; rfl
    | succ k ih =>
      intro x N L hL
      simp only [Trails.runs, Finset.mem_biUnion, Finset.mem_image] at hL
      obtain ⟨s, -, y, -, L', hL', rfl⟩ := hL
      rw [List.length_cons, ih _ _ _ hL']
  unfold trails at hL
  simp only [Finset.mem_biUnion, Finset.mem_image] at hL
  obtain ⟨x, -, s, -, L', hL', rfl⟩ := hL
  rw [List.length_cons, this _ _ _ _ hL']

/-- If every set of `m` qubits has weight at most `c ^ m`, the halves of long trails have little weight. -/
theorem halves_sum {code : Code} (h : IsCode code) {r c : ℝ} (hr0 : 0 ≤ r) (hr1 : 10 * r < 1) (hc : c = r ^ 2) (d : ℕ) :
    ∑ S ∈ halves code d, c ^ S.card ≤ 2 * code.syndrome.length / 5 * ((10 * r) ^ d / (1 - 10 * r)) := by
  have hc0 : 0 ≤ c := by rw [hc]; positivity
  have hr1' : r ≤ 1 := by linarith
  have hnn : ∀ S : Finset V, 0 ≤ c ^ S.card := fun S => pow_nonneg hc0 _
  have hterm : ∀ k, ∑ S ∈ (trails code k).biUnion (fun L => (L.toFinset ∩ code.syndrome.toFinset).powersetCard ((k + 2) / 2)), c ^ S.card ≤
      2 * code.syndrome.length / 5 * (10 * r) ^ (k + 1) := by
    intro k
    refine (sum_biUnion_le _ _ _ hnn).trans ?_
    have hL : ∀ L ∈ trails code k, ∑ S ∈ (L.toFinset ∩ code.syndrome.toFinset).powersetCard ((k + 2) / 2), c ^ S.card ≤ (2 * r) ^ (k + 1) := by
      intro L hL
      have : ∑ S ∈ (L.toFinset ∩ code.syndrome.toFinset).powersetCard ((k + 2) / 2), c ^ S.card =
          ((L.toFinset ∩ code.syndrome.toFinset).card.choose ((k + 2) / 2) : ℝ) * c ^ ((k + 2) / 2) := by
        rw [Finset.sum_congr rfl fun S hS => by rw [(Finset.mem_powersetCard.1 hS).2], Finset.sum_const, Finset.card_powersetCard, nsmul_eq_mul]
      rw [this, mul_pow]
      refine mul_le_mul ?_ ?_ (pow_nonneg hc0 _) (by positivity)
      · have h1 : (L.toFinset ∩ code.syndrome.toFinset).card ≤ k + 1 := by
          rw [← trails_length hL]
          exact (Finset.card_le_card Finset.inter_subset_left).trans (List.toFinset_card_le _)
        have h2 := Nat.choose_le_two_pow (L.toFinset ∩ code.syndrome.toFinset).card ((k + 2) / 2)
        have h3 := h2.trans (Nat.pow_le_pow_right (by norm_num) h1)
        exact_mod_cast h3
      · rw [hc, ← pow_mul]
        exact pow_le_pow_of_le_one hr0 hr1' (by omega)
    refine (Finset.sum_le_sum hL).trans ?_
    rw [Finset.sum_const, nsmul_eq_mul]
    have hcard : ((trails code k).card : ℝ) ≤ 2 * code.syndrome.length * 5 ^ k := by exact_mod_cast trails_card h k
    calc ((trails code k).card : ℝ) * (2 * r) ^ (k + 1) ≤ 2 * code.syndrome.length * 5 ^ k * (2 * r) ^ (k + 1) :=
          mul_le_mul_of_nonneg_right hcard (by positivity)
      _ = 2 * code.syndrome.length / 5 * (10 * r) ^ (k + 1) := by
          rw [show (10 : ℝ) * r = 5 * (2 * r) by ring, mul_pow 5, pow_succ 5]
          ring
  unfold halves
  refine (sum_biUnion_le _ _ _ hnn).trans ((Finset.sum_le_sum fun k _ => hterm k).trans ?_)
  rw [← Finset.mul_sum]
  refine mul_le_mul_of_nonneg_left ?_ (by positivity)
  have hr10 : 0 ≤ 10 * r := by positivity
  have h1 : ∑ k ∈ Finset.Ico (d - 1) code.syndrome.length, (10 * r) ^ (k + 1) ≤ (10 * r) ^ d * ∑ k ∈ Finset.range code.syndrome.length, (10 * r) ^ k := by
    rw [Finset.sum_Ico_eq_sum_range, Finset.mul_sum]
    refine (Finset.sum_le_sum_of_subset_of_nonneg (Finset.range_subset_range.2 (Nat.sub_le _ _)) fun _ _ _ => by positivity).trans
      (Finset.sum_le_sum fun k _ => ?_)
    rw [← pow_add]
    exact pow_le_pow_of_le_one hr10 hr1.le (by omega)
  refine h1.trans ?_
  rw [div_eq_mul_inv]
  refine mul_le_mul_of_nonneg_left ?_ (by positivity)
  have := (summable_geometric_of_lt_one hr10 hr1).sum_le_tsum (Finset.range code.syndrome.length) fun k _ => by positivity
  rwa [tsum_geometric_of_lt_one hr10 hr1] at this

open Classical in
/-- A given set is hit with probability `p` to the number of its elements. -/
theorem hitProb_subset {V : Type} [DecidableEq V] (p : ℝ) {syn T : Finset V} (hTs : T ⊆ syn) : hitProb p syn (fun B => T ⊆ B) = p ^ T.card := by
  unfold hitProb
  have e0 : (∑ B ∈ syn.powerset, if T ⊆ B then patternProb p syn B else 0) =
      ∑ B ∈ syn.powerset.filter (fun B => T ⊆ B), patternProb p syn B := (Finset.sum_filter _ _).symm
  have : ∑ B ∈ syn.powerset.filter (fun B => T ⊆ B), patternProb p syn B =
      ∑ C ∈ (syn \ T).powerset, p ^ T.card * patternProb p (syn \ T) C := by
    refine Finset.sum_nbij' (fun B => B \ T) (fun C => T ∪ C) ?_ ?_ ?_ ?_ ?_
    · intro B hB
      simp only [Finset.mem_filter, Finset.mem_powerset] at hB ⊢
      exact Finset.sdiff_subset_sdiff hB.1 le_rfl
    · intro C hC
      simp only [Finset.mem_filter, Finset.mem_powerset] at hC ⊢
      exact ⟨Finset.union_subset hTs (hC.trans Finset.sdiff_subset), Finset.subset_union_left⟩
    · intro B hB
      simp only [Finset.mem_filter, Finset.mem_powerset] at hB
      exact Finset.union_sdiff_of_subset hB.2
    · intro C hC
      simp only [Finset.mem_powerset] at hC
      have : Disjoint T C := Finset.disjoint_left.2 fun x hx hc => (Finset.mem_sdiff.1 (hC hc)).2 hx
      exact Finset.union_sdiff_cancel_left this
    · intro B hB
      simp only [Finset.mem_filter, Finset.mem_powerset] at hB
      unfold patternProb
      have c1 := Finset.card_le_card hB.2
      have c2 := Finset.card_le_card hB.1
      have c3 := Finset.card_le_card hTs
      rw [Finset.card_sdiff_of_subset hB.2, Finset.card_sdiff_of_subset hTs, ← mul_assoc, ← pow_add]
      congr 2 <;> omega
  rw [this, ← Finset.mul_sum, sum_patternProb, mul_one] at e0
  rw [← e0]
  refine Finset.sum_congr rfl fun B _ => ?_
  congr

open Classical in
theorem hitProb_union {V : Type} [DecidableEq V] {p : ℝ} (h0 : 0 ≤ p) (h1 : p ≤ 1) (syn : Finset V) {F : Finset V → Prop} {𝒮 : Finset (Finset V)}
    (hs : ∀ S ∈ 𝒮, S ⊆ syn) (hF : ∀ B, F B → ∃ S ∈ 𝒮, S ⊆ B) : hitProb p syn F ≤ ∑ S ∈ 𝒮, p ^ S.card := by
  rw [Finset.sum_congr rfl fun S hS => (hitProb_subset p (hs S hS)).symm]
  unfold hitProb
  beta_reduce
  rw [Finset.sum_comm]
  refine Finset.sum_le_sum fun B _ => ?_
  have hn := patternProb_nonneg h0 h1 syn B
  have hnn : ∀ T ∈ 𝒮, 0 ≤ if T ⊆ B then patternProb p syn B else 0 := fun T _ => by split_ifs <;> simp [hn]
  split_ifs with hm
  · obtain ⟨S, hS, hSB⟩ := hF B hm
    have := Finset.single_le_sum hnn hS
    rw [if_pos hSB] at this
    convert this
  · convert Finset.sum_nonneg hnn

end Flamingpy.Trial
