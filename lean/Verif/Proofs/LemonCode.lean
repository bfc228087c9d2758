import Verif.Proofs.Lemon

/-!
# The lemon backend on the matching graph of a code
-/

namespace Flamingpy.SurfaceCode

open Flamingpy TJoin

section
variable {E : List (Sym2 SNode × ℚ)}

theorem pyInt_le {x : ℚ} (hx : 0 ≤ x) : 0 ≤ (pyInt x : ℚ) ∧ (pyInt x : ℚ) ≤ x := by
  unfold pyInt
  rw [if_pos hx]
  exact ⟨by exact_mod_cast Int.floor_nonneg.2 hx, Int.floor_le x⟩

theorem pathLength_bounds (bk : Backend) (hE : ∀ e ∈ E, 0 ≤ e.2) (p : List SNode) :
    0 ≤ pathLength bk E p ∧ pathLength bk E p ≤ walkWeight E p := by
  cases bk with
  | networkx => exact ⟨walkWeight_nonneg hE p, le_refl _⟩
  | rustworkx =>
    unfold pathLength
    simp only
    induction p with
    | nil => exact ⟨le_refl 0, le_refl 0⟩
    | cons a p ih =>
      cases p with
      | nil => exact ⟨le_refl 0, le_refl 0⟩
      | cons b p =>
        rw [walkSum_cons, walkWeight_cons]
        have := pyInt_le (get?_nonneg hE s(a, b))
        exact ⟨add_nonneg this.1 ih.1, add_le_add this.2 ih.2⟩

theorem pathLength_nat (bk : Backend) (hE : ∀ e ∈ E, ∃ n : ℕ, e.2 = n) (p : List SNode) :
    ∃ n : ℕ, pathLength bk E p = n := by
  have hg : ∀ e, ∃ n : ℕ, (PyDict.get? E e).getD 0 = n := fun e => by
    cases hg : PyDict.get? E e with
    | none => exact ⟨0, by simp⟩
    | some q => exact hE _ (PyDict.get?_mem hg)
  have key : ∀ f : ℚ → ℚ, (∀ n : ℕ, f n = n) → ∃ n : ℕ, walkSum f E p = n := by
    intro f hf
    induction p with
    | nil => exact ⟨0, by simp [walkSum]⟩
    | cons a p ih =>
      cases p with
      | nil => exact ⟨0, by simp [walkSum]⟩
      | cons b p =>
        obtain ⟨n, hn⟩ := ih
        obtain ⟨k, hk⟩ := hg s(a, b)
        exact ⟨k + n, by rw [walkSum_cons, hn, hk, hf]; push_cast; rfl⟩
  cases bk with
  | networkx => exact key id fun _ => rfl
  | rustworkx => exact key _ fun n => by simp [pyInt]

variable {bk : Backend} {lib : PathLib} {op : Bool} {odd : List ℕ}

theorem boundLen_cases (k : ℕ) : ∃ p, boundLen bk lib E k = pathLength bk E p := by
  unfold boundLen
  split_ifs
  · exact ⟨_, rfl⟩
  · exact ⟨_, rfl⟩

theorem edge_cases (hlt : odd.Pairwise (· < ·)) {e : Sym2 MNode × ℚ}
    (he : e ∈ mWeights (graphEdges bk lib E op odd)) : e.2 = 0 ∨ ∃ p, e.2 = pathLength bk E p := by
  obtain ⟨⟨e, q⟩, hmem, rfl⟩ := List.mem_map.1 he
  rcases (mem_graphEdges hlt).1 hmem with ⟨a, b, ha, hb, hab, he, hq⟩ | ⟨k, hop, hk, he, hq⟩ |
    ⟨x, y, hop, hx, hy, hne, he, hq⟩
  · right; exact ⟨_, by rw [hq]⟩
  · right
    obtain ⟨p, hp⟩ := boundLen_cases (bk := bk) (lib := lib) (E := E) k
    exact ⟨p, by rw [hq, hp]⟩
  · left; rw [hq]

theorem boundLen_le_networkx (hE : ∀ e ∈ E, 0 ≤ e.2) (k : ℕ) : boundLen bk lib E k ≤ boundLen .networkx lib E k := by
  have h1 := (pathLength_bounds bk hE (lowPath lib E k)).2
  have h2 := (pathLength_bounds bk hE (highPath lib E k)).2
  have e1 : ∀ p, pathLength .networkx E p = walkWeight E p := fun _ => rfl
  unfold boundLen
  simp only [e1]
  split_ifs <;> linarith

theorem pairLen_le_networkx (hE : ∀ e ∈ E, 0 ≤ e.2) (a b : ℕ) : pairLen bk lib E a b ≤ pairLen .networkx lib E a b := by
  unfold pairLen
  split_ifs
  · exact le_refl _
  · exact (pathLength_bounds bk hE _).2

end

section
variable {code : Code} (h : IsCode code) (bk : Backend) (lib : PathLib) (sp : SetPop) {w : V → ℚ}
  (hw : ∀ x ∈ code.syndrome, 0 ≤ w x)

local notation "SG" => stabGraph bk sp code
local notation "EE" => weightedEdges (stabGraph bk sp code) w

include h hw in
/-- A cheap perfect matching, for either backend of the stabilizer graph. -/
theorem IsCode.exists_cheap {K : ℚ} (hK : ∀ x ∈ code.syndrome, w x ≤ K) (bits : V → Bool) :
    ∃ M, IsMatching (mWeights (graphEdges bk lib EE (decide (code.boundaries = .open)) (oddStabs SG bits))) M ∧
      (ends2 M).Perm (mNodes bk lib EE (decide (code.boundaries = .open)) (oddStabs SG bits)) ∧
      matchWeight (mWeights (graphEdges bk lib EE (decide (code.boundaries = .open)) (oddStabs SG bits))) M ≤
        (code.syndrome.filter bits).length * K := by
  have hlt := oddStabs_pairwise SG bits
  have hnn := h.edges_nonneg bk sp hw
  have hEE : weightedEdges (Flamingpy.SurfaceCode.stabGraph .networkx sp code) w = EE := by
    unfold weightedEdges
    rw [(h.stabGraph Backend.networkx sp).1, (h.stabGraph bk sp).1]
  have hodd : oddStabs (Flamingpy.SurfaceCode.stabGraph .networkx sp code) bits = oddStabs SG bits := by
    unfold oddStabs StabGraph.coords
    rw [(h.stabGraph bk sp).2.1, (h.stabGraph Backend.networkx sp).2.1]
  have hsyn : ∀ i x, x ∈ code.stabs.getD i [] → x ∈ code.syndrome := fun i x hx => h.ok.1.mem_syndrome_of_stab hx
  obtain ⟨P, h1, h2, h3, h4⟩ := h.exists_pairing .networkx lib sp hw (fun _ => rfl) (c := fun _ => K) hK
    (fun i j _ x y hx _ _ _ => hK x (hsyn i x hx)) bits bits fun _ _ => rfl
  rw [hEE] at h4
  obtain ⟨M, hM1, hM2, hM3⟩ := matching_of_pairing (bk := bk) (lib := lib) (E := EE)
    (op := decide (code.boundaries = .open)) hlt P h1 (fun x => by rw [h2, hodd]) (fun e he hn => by simpa using h3 e he hn)
  refine ⟨M, hM1, hM2, ?_⟩
  rw [hM3]
  refine (List.sum_le_sum (f := pw (pairLen bk lib EE) (boundLen bk lib EE))
    (g := pw (pairLen .networkx lib EE) (boundLen .networkx lib EE)) ?_).trans (h4.trans (le_of_eq ?_))
  · rintro ⟨a, b⟩ _
    cases b with
    | none => exact boundLen_le_networkx hnn a
    | some b => exact pairLen_le_networkx hnn a b
  · rw [Finset.sum_const, nsmul_eq_mul]
    congr 2
    unfold onesOf
    rw [List.toFinset_card_of_nodup ((C25_only_syndrome h).1.filter _)]

/-- The nodes of the matching graph. -/
theorem nodes_perm (no : NodeOrder) (bits : V → Bool) {M : List (MNode × MNode)}
    (hM : IsMatching (mWeights (graphEdges bk lib EE (decide (code.boundaries = .open)) (oddStabs SG bits))) M)
    (hP : (ends2 M).Perm (mNodes bk lib EE (decide (code.boundaries = .open)) (oddStabs SG bits))) :
    (mNodes bk lib EE (decide (code.boundaries = .open)) (oddStabs SG bits)).Perm
      (no.nodes (mWeights (graphEdges bk lib EE (decide (code.boundaries = .open)) (oddStabs SG bits)))) := by
  have hlt := oddStabs_pairwise SG bits
  have ho : (oddStabs SG bits).Nodup := hlt.imp (fun {a b} h => Nat.ne_of_lt h)
  refine hP.symm.trans (List.Subperm.perm_of_length_le (matching_subperm no hM) ?_)
  rw [hP.length_eq]
  refine ((no.nodup _).subperm fun x hx => ?_).length_le
  obtain ⟨e, he, hxe⟩ := (no.mem _ x).1 hx
  rw [keys_mWeights] at he
  obtain ⟨q, hq⟩ := Option.isSome_iff_exists.1 ((PyDict.get?_isSome_iff _ _).2 he)
  have hk := (get?_graphEdges hlt).1 hq
  induction e using Sym2.ind with
  | _ a b =>
    obtain ⟨h1, h2, _⟩ := edgeKind_mem ho hk
    rcases Sym2.mem_iff.1 hxe with rfl | rfl
    · exact h1
    · exact h2

end

end Flamingpy.SurfaceCode
