import Verif.Model.Linalg
import Mathlib.LinearAlgebra.Dimension.Constructions
import Mathlib.LinearAlgebra.Dimension.OrzechProperty
import Mathlib.LinearAlgebra.FiniteDimensional.Lemmas
import Mathlib.LinearAlgebra.Finsupp.LinearCombination
import Mathlib.Data.List.Sort
import Mathlib.Tactic.FinCases
import Mathlib.Tactic.Ring

/-! Helper lemmas for `Props/Linalg`. -/

namespace Flamingpy.Linalg

open Matrix

variable {m n : ℕ} {κ : Type*}

theorem f2_cases (x : F2) : x = 0 ∨ x = 1 := by revert x; decide

theorem f2_ne_zero {x : F2} (h : x ≠ 0) : x = 1 := (f2_cases x).resolve_left h

/-- Row space. -/
def rowSpace (M : Fin m → κ → F2) : Submodule F2 (κ → F2) := Submodule.span F2 (Set.range M)

theorem swapRows_range (R : Fin m → κ → F2) (p i : Fin m) :
    Set.range (swapRows R p i) = Set.range R := by
  ext v
  constructor
  · rintro ⟨r, rfl⟩; exact ⟨_, rfl⟩
  · rintro ⟨r, rfl⟩
    by_cases h1 : r = p
    · refine ⟨i, ?_⟩
      unfold swapRows
      by_cases h2 : i = p
      · simp [h1, h2]
      · simp [h1, h2]
    · by_cases h2 : r = i
      · exact ⟨p, by simp [swapRows, h2]⟩
      · exact ⟨r, by simp [swapRows, h1, h2]⟩

theorem eliminate_rowSpace (R : Fin m → κ → F2) (p : Fin m) (j : κ) (h : R p j ≠ 0) :
    rowSpace (eliminate R p j) = rowSpace R := by
  have h1 := f2_ne_zero h
  apply le_antisymm
  · apply Submodule.span_le.mpr
    rintro _ ⟨r, rfl⟩
    have hp : R p ∈ rowSpace R := Submodule.subset_span ⟨p, rfl⟩
    have hr : R r ∈ rowSpace R := Submodule.subset_span ⟨r, rfl⟩
    unfold eliminate
    by_cases hrp : r = p
    · simp only [hrp, if_true, h1, div_one]; exact hp
    · by_cases hz : R r j = 0
      · simp only [hrp, hz, if_false, ne_eq, not_true]; exact hr
      · simp only [hrp, hz, if_false, ne_eq, not_false_iff, if_true, h1, div_one]
        have : (fun c => R r c - R r j * R p c) = R r - R r j • R p := by funext c; simp
        rw [this]
        exact Submodule.sub_mem _ hr (Submodule.smul_mem _ _ hp)
  · apply Submodule.span_le.mpr
    rintro _ ⟨r, rfl⟩
    have hp' : eliminate R p j p = R p := by funext c; simp [eliminate, h1]
    have hp : R p ∈ rowSpace (eliminate R p j) := by
      rw [← hp']; exact Submodule.subset_span ⟨p, rfl⟩
    have hr : eliminate R p j r ∈ rowSpace (eliminate R p j) := Submodule.subset_span ⟨r, rfl⟩
    by_cases hrp : r = p
    · rw [hrp]; exact hp
    · have : R r = eliminate R p j r + R r j • R p := by
        funext c
        by_cases hz : R r j = 0 <;> simp [eliminate, hrp, hz, h1]
      rw [this]
      exact Submodule.add_mem _ hr (Submodule.smul_mem _ _ hp)

theorem firstPivot_some {R : Fin m → κ → F2} {p : ℕ} {j : κ} {i : Fin m}
    (h : firstPivot R p j = some i) : p ≤ i.val ∧ R i j ≠ 0 := by
  have := List.find?_some h
  simpa using this

theorem firstPivot_none {R : Fin m → κ → F2} {p : ℕ} {j : κ}
    (h : firstPivot R p j = none) (i : Fin m) (hp : p ≤ i.val) : R i j = 0 := by
  have := List.find?_eq_none.mp h i (List.mem_finRange i)
  simp only [decide_eq_true_eq, not_and, not_not] at this
  exact this hp

/-- Reduced row echelon form of `R` with respect to the columns `cols` (in this order):
`piv` are the pivot columns, one for each of the first `p` rows. -/
structure Echelon (cols : List κ) (R : Fin m → κ → F2) (p : ℕ) (piv : List κ) : Prop where
  /-- one pivot per leading row -/
  len : piv.length = p
  le : p ≤ m
  /-- pivots appear in column order -/
  sub : piv.Sublist cols
  /-- pivot columns are unit vectors -/
  unit : ∀ (i : Fin m) (t : ℕ) (ht : t < piv.length), R i piv[t] = if i.val = t then 1 else 0
  /-- the other rows vanish on the reduced columns -/
  low : ∀ i : Fin m, p ≤ i.val → ∀ c ∈ cols, R i c = 0
  /-- in each leading row everything to the left of its pivot vanishes -/
  lead : ∀ (i : Fin m) (hi : i.val < piv.length), ∃ a b, cols = a ++ piv[i.val] :: b ∧
    ∀ c ∈ a, R i c = 0

section step
variable {done : List κ} {R : Fin m → κ → F2} {p : ℕ} {piv : List κ}

theorem step_old (E : Echelon done R p piv) (hp : p < m) (i : Fin m) (hi : p ≤ i.val) (j : κ)
    (r : Fin m) (c : κ) (hc : c ∈ done) :
    eliminate (swapRows R ⟨p, hp⟩ i) ⟨p, hp⟩ j r c = if r.val < p then R r c else 0 := by
  have hS : ∀ r : Fin m, p ≤ r.val → swapRows R ⟨p, hp⟩ i r c = 0 := by
    intro r hr
    unfold swapRows
    by_cases h1 : r = ⟨p, hp⟩
    · simp only [h1, if_true]; exact E.low i hi c hc
    · by_cases h2 : r = i
      · simp only [h2, if_true]
        split_ifs
        · exact E.low _ hi c hc
        · exact E.low _ le_rfl c hc
      · simp only [h1, h2, if_false]; exact E.low r hr c hc
  have hSp := hS ⟨p, hp⟩ le_rfl
  have hS' : ∀ r : Fin m, r.val < p → swapRows R ⟨p, hp⟩ i r = R r := by
    intro r hr
    unfold swapRows
    have h1 : r ≠ ⟨p, hp⟩ := by intro h; rw [h] at hr; simp at hr
    have h2 : r ≠ i := by intro h; rw [h] at hr; omega
    simp [h1, h2]
  unfold eliminate
  by_cases hr : r.val < p
  · have h1 : r ≠ ⟨p, hp⟩ := by intro h; rw [h] at hr; simp at hr
    simp only [h1, if_false, hr, if_true, hS' r hr]
    split_ifs <;> simp [hSp]
  · simp only [hr, if_false]
    by_cases h1 : r = ⟨p, hp⟩
    · simp [h1, hSp]
    · simp only [h1, if_false]
      split_ifs <;> simp [hSp, hS r (by omega)]

theorem step_new (hp : p < m) (i : Fin m) (j : κ) (hj : R i j ≠ 0) (r : Fin m) :
    eliminate (swapRows R ⟨p, hp⟩ i) ⟨p, hp⟩ j r j = if r.val = p then 1 else 0 := by
  have hSp : swapRows R ⟨p, hp⟩ i ⟨p, hp⟩ j = 1 := by
    simp only [swapRows, if_true]; exact f2_ne_zero hj
  unfold eliminate
  by_cases h1 : r = ⟨p, hp⟩
  · simp [h1, hSp]
  · have h2 : r.val ≠ p := fun h => h1 (Fin.ext h)
    simp only [h1, h2, if_false, hSp, div_one]
    split_ifs with h
    · simp [hSp]
    · simpa using h

theorem step_echelon (E : Echelon done R p piv) (hp : p < m) (i : Fin m) (hi : p ≤ i.val) (j : κ)
    (hj : R i j ≠ 0) :
    Echelon (done ++ [j]) (eliminate (swapRows R ⟨p, hp⟩ i) ⟨p, hp⟩ j) (p + 1) (piv ++ [j]) where
  len := by simp [E.len]
  le := hp
  sub := E.sub.append (List.Sublist.refl _)
  unit := by
    intro r t ht
    rcases Nat.lt_or_ge t piv.length with h | h
    · rw [List.getElem_append_left h, step_old E hp i hi j r _ (E.sub.subset (List.getElem_mem h)),
        E.unit r t h]
      have := E.len
      split_ifs <;> first | rfl | omega
    · have : t = piv.length := by simp at ht; omega
      subst this
      rw [List.getElem_append_right (le_refl _)]
      simp only [Nat.sub_self, List.getElem_cons_zero]
      rw [step_new hp i j hj r, E.len]
  low := by
    intro r hr c hc
    rcases List.mem_append.mp hc with h | h
    · rw [step_old E hp i hi j r c h, if_neg (by omega)]
    · rw [List.mem_singleton.mp h, step_new hp i j hj r, if_neg (by omega)]
  lead := by
    intro r hr
    rcases Nat.lt_or_ge r.val piv.length with h | h
    · obtain ⟨a, b, hab, hz⟩ := E.lead r h
      refine ⟨a, b ++ [j], ?_, ?_⟩
      · rw [List.getElem_append_left h]; conv_lhs => rw [hab]
        simp
      · intro c hc
        rw [step_old E hp i hi j r c (by rw [hab]; exact List.mem_append_left _ hc)]
        split_ifs
        · exact hz c hc
        · rfl
    · have : r.val = piv.length := by simp at hr; omega
      refine ⟨done, [], ?_, ?_⟩
      · congr 1
        simp [this]
      · intro c hc
        rw [step_old E hp i hi j r c hc, if_neg (by rw [this, E.len]; omega)]

theorem Echelon.skip (E : Echelon done R p piv) (j : κ) (hj : ∀ i : Fin m, p ≤ i.val → R i j = 0) :
    Echelon (done ++ [j]) R p piv where
  len := E.len
  le := E.le
  sub := E.sub.trans (List.sublist_append_left _ _)
  unit := E.unit
  low := by
    intro i hi c hc
    rcases List.mem_append.mp hc with h | h
    · exact E.low i hi c h
    · rw [List.mem_singleton.mp h]; exact hj i hi
  lead := by
    intro i hi
    obtain ⟨a, b, hab, hz⟩ := E.lead i hi
    exact ⟨a, b ++ [j], by conv_lhs => rw [hab]
                           simp, hz⟩

theorem Echelon.full (E : Echelon done R m piv) (rest : List κ) :
    Echelon (done ++ rest) R m piv where
  len := E.len
  le := E.le
  sub := E.sub.trans (List.sublist_append_left _ _)
  unit := E.unit
  low := fun i hi => absurd i.2 (by omega)
  lead := by
    intro i hi
    obtain ⟨a, b, hab, hz⟩ := E.lead i hi
    exact ⟨a, b ++ rest, by conv_lhs => rw [hab]
                            simp, hz⟩

end step

theorem rrefLoop_spec (cols : List κ) (done : List κ) (R : Fin m → κ → F2) (p : ℕ)
    (piv : List κ) (E : Echelon done R p piv) :
    (∃ piv', Echelon (done ++ cols) (rrefLoop cols R p).1 (rrefLoop cols R p).2 piv') ∧
    rowSpace (rrefLoop cols R p).1 = rowSpace R := by
  induction cols generalizing done R p piv with
  | nil => simp only [rrefLoop, List.append_nil]; exact ⟨⟨piv, E⟩, trivial⟩
  | cons j js ih =>
    unfold rrefLoop
    cases hf : firstPivot R p j with
    | none =>
      have E' := E.skip j (firstPivot_none hf)
      have := ih _ _ _ _ E'
      simpa using this
    | some i =>
      obtain ⟨hi, hj⟩ := firstPivot_some hf
      have hp : p < m := lt_of_le_of_lt hi i.2
      have E' := step_echelon E hp i hi j hj
      have hrs : rowSpace (eliminate (swapRows R ⟨p, hp⟩ i) ⟨p, hp⟩ j) = rowSpace R := by
        rw [eliminate_rowSpace]
        · unfold rowSpace; rw [swapRows_range]
        · simpa [swapRows] using hj
      simp only [hp, dif_pos]
      by_cases hm : p + 1 = m
      · simp only [hm, if_true]
        rw [hm] at E'
        have := E'.full js
        rw [List.append_assoc] at this
        exact ⟨⟨_, this⟩, hrs⟩
      · simp only [hm, if_false]
        have := ih _ _ _ _ E'
        rw [List.append_assoc] at this
        exact ⟨this.1, this.2.trans hrs⟩

theorem reduce_spec (M : Fin m → κ → F2) (cols : List κ) :
    (∃ piv, Echelon cols (reduceRREform M cols).1 (reduceRREform M cols).2 piv) ∧
    rowSpace (reduceRREform M cols).1 = rowSpace M := by
  have E : Echelon (m := m) [] M 0 [] :=
    { len := rfl, le := Nat.zero_le _, sub := List.Sublist.refl _,
      unit := fun _ t ht => absurd ht (by simp), low := fun _ _ c hc => absurd hc (by simp),
      lead := fun _ hi => absurd hi (by simp) }
  exact rrefLoop_spec cols [] M 0 [] E

/-! ### nullspace -/

theorem mem_rowSpace_iff (M : Fin m → κ → F2) (v : κ → F2) :
    v ∈ rowSpace M ↔ ∃ x : Fin m → F2, ∑ i, x i • M i = v := by
  unfold rowSpace
  rw [Submodule.mem_span_range_iff_exists_fun]

theorem linInd_of_rowSpace_eq [Finite κ] {M M' : Fin m → κ → F2}
    (h : rowSpace M = rowSpace M') (hi : LinearIndependent F2 M') : LinearIndependent F2 M := by
  rw [linearIndependent_iff_card_eq_finrank_span] at hi ⊢
  rw [hi]
  unfold Set.finrank
  unfold rowSpace at h
  rw [h]

section null
variable {ι : Type*} (M : ι → Fin n → F2)

theorem augmented_comb (x : Fin n → F2) :
    ∑ r, x r • augmented M r = Sum.elim (fun i => ∑ c, M i c * x c) x := by
  funext c
  cases c with
  | inl i => simp [augmented, mul_comm]
  | inr c => simp [augmented]

theorem augmented_linInd : LinearIndependent F2 (augmented M) := by
  rw [Fintype.linearIndependent_iff]
  intro g hg i
  rw [augmented_comb] at hg
  exact congrFun hg (Sum.inr i)

variable [Finite ι] (rowOrder : List ι) (hall : ∀ i, i ∈ rowOrder)
include hall

theorem nullspace_spec :
    LinearIndependent F2 (nullspaceBasis rowOrder M).rows ∧
    ∀ v : Fin n → F2, v ∈ rowSpace (nullspaceBasis rowOrder M).rows ↔ ∀ i, ∑ c, M i c * v c = 0 := by
  obtain ⟨⟨piv, E⟩, hrs⟩ := reduce_spec (augmented M) (rowOrder.map Sum.inl)
  set Rp := reduceRREform (augmented M) (rowOrder.map Sum.inl) with hRp
  have hind : LinearIndependent F2 Rp.1 := linInd_of_rowSpace_eq hrs (augmented_linInd M)
  let N : Fin (n - Rp.2) → Fin n → F2 :=
    fun i c => Rp.1 ⟨Rp.2 + i.val, by omega⟩ (Sum.inr c)
  have hzero : ∀ (i : Fin (n - Rp.2)) (c : ι), Rp.1 ⟨Rp.2 + i.val, by omega⟩ (Sum.inl c) = 0 :=
    fun i c => E.low _ (Nat.le_add_right _ _) _ (List.mem_map_of_mem (hall c))
  have hN : nullspaceBasis rowOrder M = ⟨n - Rp.2, (reduceRREform N (List.finRange n)).1⟩ := rfl
  obtain ⟨_, hrsN⟩ := reduce_spec N (List.finRange n)
  -- combinations of rows of N are combinations of the lower rows of R
  have hemb : ∀ x : Fin (n - Rp.2) → F2,
      Sum.elim (fun _ : ι => (0 : F2)) (∑ i, x i • N i) =
        ∑ i, x i • Rp.1 ⟨Rp.2 + i.val, by omega⟩ := by
    intro x
    funext c
    cases c with
    | inl c => simp [hzero]
    | inr c => simp [N]
  have hNind : LinearIndependent F2 N := by
    have hsub := hind.comp (fun i : Fin (n - Rp.2) => (⟨Rp.2 + i.val, by omega⟩ : Fin n))
      (fun a b h => by simp at h; exact Fin.ext h)
    rw [Fintype.linearIndependent_iff] at hsub ⊢
    intro g hg
    apply hsub g
    have := hemb g
    rw [hg] at this
    simp only [Function.comp_def]
    rw [← this]
    funext c; cases c <;> rfl
  have hNspan : ∀ v : Fin n → F2, v ∈ rowSpace N ↔ ∀ i, ∑ c, M i c * v c = 0 := by
    intro v
    constructor
    · intro hv
      obtain ⟨x, rfl⟩ := (mem_rowSpace_iff N v).mp hv
      have hmem : Sum.elim (fun _ : ι => (0 : F2)) (∑ i, x i • N i) ∈ rowSpace Rp.1 := by
        rw [hemb]
        exact Submodule.sum_mem _ fun i _ =>
          Submodule.smul_mem _ _ (Submodule.subset_span ⟨_, rfl⟩)
      rw [hrs, mem_rowSpace_iff] at hmem
      obtain ⟨y, hy⟩ := hmem
      rw [augmented_comb] at hy
      have h1 : y = ∑ i, x i • N i := by funext c; exact congrFun hy (Sum.inr c)
      have h2 : ∀ i, ∑ c, M i c * y c = 0 := fun c => congrFun hy (Sum.inl c)
      rw [← h1]; exact h2
    · intro hv
      have hmem : Sum.elim (fun i => ∑ c, M i c * v c) v ∈ rowSpace Rp.1 := by
        rw [hrs, mem_rowSpace_iff]; exact ⟨v, augmented_comb M v⟩
      rw [mem_rowSpace_iff] at hmem
      obtain ⟨y, hy⟩ := hmem
      have hv' : (fun i => ∑ c, M i c * v c) = fun _ => (0 : F2) := funext hv
      rw [hv'] at hy
      have hy0 : ∀ i : Fin n, i.val < Rp.2 → y i = 0 := by
        intro i hi
        have hlt : i.val < piv.length := by rw [E.len]; exact hi
        have hpm := E.sub.subset (List.getElem_mem hlt)
        obtain ⟨c, _, hc⟩ := List.mem_map.mp hpm
        have := congrFun hy piv[i.val]
        rw [Finset.sum_apply] at this
        simp only [Pi.smul_apply, E.unit _ _ hlt, smul_eq_mul] at this
        rw [← hc] at this
        simp only [Sum.elim_inl] at this
        rw [Finset.sum_eq_single i] at this
        · simpa using this
        · intro b _ hb
          have : b.val ≠ i.val := fun h => hb (Fin.ext h)
          simp [this]
        · simp
      rw [mem_rowSpace_iff]
      refine ⟨fun i => y ⟨Rp.2 + i.val, by omega⟩, ?_⟩
      funext c
      have hc := congrFun hy (Sum.inr c)
      rw [Finset.sum_apply] at hc ⊢
      simp only [Pi.smul_apply, smul_eq_mul, Sum.elim_inr] at hc ⊢
      rw [← hc]
      have hle := E.le
      symm
      rw [← Finset.sum_subset (Finset.subset_univ (Finset.univ.image
        (fun i : Fin (n - Rp.2) => (⟨Rp.2 + i.val, by omega⟩ : Fin n))))]
      · rw [Finset.sum_image]
        intro a _ b _ h
        simp at h; exact Fin.ext h
      · intro i _ hi
        have : i.val < Rp.2 := by
          by_contra hcon
          apply hi
          rw [Finset.mem_image]
          exact ⟨⟨i.val - Rp.2, by omega⟩, Finset.mem_univ _, Fin.ext (by simp; omega)⟩
        rw [hy0 i this, zero_mul]
  constructor
  · rw [hN]; exact linInd_of_rowSpace_eq hrsN hNind
  · intro v; rw [hN]
    change v ∈ rowSpace (reduceRREform N (List.finRange n)).1 ↔ _
    rw [hrsN]; exact hNspan v

omit [Finite ι] hall in
theorem nullspace_echelon (hind : LinearIndependent F2 (nullspaceBasis rowOrder M).rows) :
    ∃ piv, Echelon (List.finRange n) (nullspaceBasis rowOrder M).rows
      (nullspaceBasis rowOrder M).d piv := by
  have key : ∀ (d : ℕ) (N : Fin d → Fin n → F2),
      LinearIndependent F2 (reduceRREform N (List.finRange n)).1 →
      ∃ piv, Echelon (List.finRange n) (reduceRREform N (List.finRange n)).1 d piv := by
    intro d N hi
    obtain ⟨⟨piv, E⟩, _⟩ := reduce_spec N (List.finRange n)
    have : (reduceRREform N (List.finRange n)).2 = d := by
      by_contra hne
      have hlt := lt_of_le_of_ne E.le hne
      have h0 := hi.ne_zero ⟨_, hlt⟩
      exact h0 (funext fun c => E.low ⟨_, hlt⟩ le_rfl c (List.mem_finRange c))
    rw [this] at E
    exact ⟨piv, E⟩
  exact key _ _ hind

end null

/-- If a unit vector lies in the row space of a full echelon matrix, then a row that is
non-zero there has its pivot there. -/
theorem Echelon.pivot_of_unit {d : ℕ} {R : Fin d → Fin n → F2} {piv : List (Fin n)}
    (E : Echelon (List.finRange n) R d piv) (c : Fin n)
    (hc : (fun x => if x = c then (1 : F2) else 0) ∈ rowSpace R) (r : Fin d) (hr : R r c ≠ 0) :
    piv[r.val]'(by rw [E.len]; exact r.2) = c := by
  obtain ⟨x, hx⟩ := (mem_rowSpace_iff R _).mp hc
  have hxt : ∀ t : Fin d, x t = if piv[t.val]'(by rw [E.len]; exact t.2) = c then 1 else 0 := by
    intro t
    have ht : t.val < piv.length := by rw [E.len]; exact t.2
    have := congrFun hx (piv[t.val])
    rw [Finset.sum_apply] at this
    simp only [Pi.smul_apply, smul_eq_mul, E.unit _ _ ht] at this
    rw [Finset.sum_eq_single t] at this
    · simpa using this
    · intro b _ hb
      have : b.val ≠ t.val := fun h => hb (Fin.ext h)
      simp [this]
    · simp
  have hex : ∃ t : Fin d, piv[t.val]'(by rw [E.len]; exact t.2) = c := by
    by_contra hno
    push Not at hno
    have h0 : ∀ t, x t = 0 := fun t => by rw [hxt t, if_neg (hno t)]
    have := congrFun hx c
    simp [h0] at this
  obtain ⟨t, ht⟩ := hex
  have hu := E.unit r t.val (by rw [E.len]; exact t.2)
  rw [ht] at hu
  rw [hu] at hr
  have : r.val = t.val := by by_contra h; simp [h] at hr
  simp only [this, ht]

/-! ### LC equivalence -/

theorem unblk_blk (k : Fin 4) (i : Fin n) : unblk (blk k i) = (k, i) := by
  have hn : 0 < n := lt_of_le_of_lt (Nat.zero_le _) i.2
  unfold unblk blk
  refine Prod.ext (Fin.ext ?_) (Fin.ext ?_)
  · simp only
    rw [Nat.add_mul_div_right _ _ hn, Nat.div_eq_of_lt i.2, Nat.zero_add]
  · simp only
    rw [Nat.add_mul_mod_self_right, Nat.mod_eq_of_lt i.2]

theorem blk_unblk (c : Fin (4 * n)) : blk (unblk c).1 (unblk c).2 = c := by
  apply Fin.ext
  simp only [unblk, blk]
  exact Nat.mod_add_div' c.val n

/-- Flat positions versus (block, position). -/
def blkEquiv (n : ℕ) : Fin 4 × Fin n ≃ Fin (4 * n) where
  toFun x := blk x.1 x.2
  invFun := unblk
  left_inv x := unblk_blk x.1 x.2
  right_inv := blk_unblk

theorem sum_blk (f : Fin (4 * n) → F2) :
    ∑ c, f c = ∑ i, f (blk 0 i) + ∑ i, f (blk 1 i) + ∑ i, f (blk 2 i) + ∑ i, f (blk 3 i) := by
  rw [← (blkEquiv n).sum_comp, Fintype.sum_prod_type, Fin.sum_univ_four]
  rfl

theorem system_row (G H : Matrix (Fin n) (Fin n) F2) (v : Fin (4 * n) → F2) (j k : Fin n) :
    ∑ c, lcConstraintSystem G H (j, k) c * v c =
      G j k * v (blk 0 k) + (if k = j then v (blk 1 j) else 0)
        + ∑ i, G i j * H i k * v (blk 2 i) + H j k * v (blk 3 j) := by
  rw [sum_blk]
  simp only [lcConstraintSystem, unblk_blk]
  congr 1
  · congr 1
    · congr 1
      · simp
      · by_cases h : k = j
        · simp [h]
        · simp [h]
  · simp

theorem mem_systemRowOrder (x : Fin n × Fin n) : x ∈ systemRowOrder n := by
  simp [systemRowOrder]

theorem mem_pairs {d : ℕ} (i j : Fin d) : (i, j) ∈ pairs d ↔ j < i := by
  simp [pairs]

theorem detOk_iff (sol : Fin (4 * n) → F2) : detOk sol = true ↔
    ∀ k, sol (blk 0 k) * sol (blk 3 k) + sol (blk 1 k) * sol (blk 2 k) = 1 := by
  simp [detOk]

theorem search_some {basis : RowsOf (4 * n)} {v : Fin (4 * n) → F2}
    (h : searchNullspace basis = some v) :
    (∃ i j, j < i ∧ v = basis.rows i + basis.rows j) ∧ detOk v = true := by
  unfold searchNullspace at h
  refine ⟨?_, by simpa using List.find?_some h⟩
  have := List.mem_of_find?_eq_some h
  rw [List.mem_map] at this
  obtain ⟨⟨i, j⟩, hij, rfl⟩ := this
  exact ⟨i, j, (mem_pairs i j).mp hij, rfl⟩

theorem search_none {basis : RowsOf (4 * n)} :
    searchNullspace basis = none ↔
      ∀ i j, j < i → detOk (basis.rows i + basis.rows j) = false := by
  unfold searchNullspace
  rw [List.find?_eq_none]
  constructor
  · intro h i j hij
    have := h _ (List.mem_map_of_mem ((mem_pairs i j).mpr hij))
    simpa using this
  · intro h x hx
    rw [List.mem_map] at hx
    obtain ⟨⟨i, j⟩, hij, rfl⟩ := hx
    simpa using h i j ((mem_pairs i j).mp hij)

end Flamingpy.Linalg
